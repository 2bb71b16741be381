import Verif.Etx.FormatsValue

/-!
# The formatted text of a tree is read as its tokens: declarations, functions, types, blocks
-/

namespace Verif.Etx

set_option linter.unusedSimpArgs false

/-! ## Tools -/

theorem W₀.append {f p g q : Char → Bool} {s t : Str} {ts us : List Token} (h : W f p s ts) (h' : W₀ g q t us)
    (hg : ∀ c, g c = true → p c = true) (hq : ∀ c, q c = true → p c = true) (ht : p '\t' = true := by decide) :
    W f q (s ++ t) (ts ++ us) := by
  rcases h' with ⟨rfl, rfl⟩ | h'
  · simpa using h.mono le_refl' hq
  · exact h.append h' hg ht

/-- Anything after anything. -/
theorem W₀.any {s t : Str} {ts us : List Token} (h : W₀ anyC anyC s ts) (h' : W₀ anyC anyC t us) :
    W₀ anyC anyC (s ++ t) (ts ++ us) := by
  rcases h with ⟨rfl, rfl⟩ | h
  · simpa using h'
  · exact .inr (W₀.append h h' any_le any_le)

theorem blankToks_append (a b : Str) : blankToks (a ++ b) = blankToks a ++ blankToks b := List.map_append

theorem W.list {f : Char → Bool} {l : List (Str × List Token)} (h : ∀ x ∈ l, W f anyC x.1 x.2) :
    W₀ f anyC (l.map (·.1)).flatten (l.map (·.2)).flatten := by
  induction l with
  | nil => exact .inl ⟨rfl, rfl⟩
  | cons x l ih =>
    exact .inr (W₀.append (h x (by simp)) (ih fun z hz => h z (List.mem_cons_of_mem _ hz)) any_le any_le)

/-- `"label"` -/
theorem W.label {w : Str} (h : charOk w = true) :
    W (is ' ') anyC (c!" \"" ++ w ++ c!"\"") [tk .string c!"\"", tk .char w, tk .stringEnd c!"\""] := by
  have := W.string (l := [(isSpecial, w, [tk .char w])]) (by simpa using Frag.char h) (by simp; decide) rfl
  exact this.gap.cast (by simp) (by simp)

theorem W.labels {l : List Str} (h : ∀ w ∈ l, charOk w = true) :
    W₀ (is ' ') anyC (l.map (fun l => c!" \"" ++ l ++ c!"\"")).flatten
      (l.flatMap fun w => [tk .string c!"\"", tk .char w, tk .stringEnd c!"\""]) := by
  have := W.list (f := is ' ') (l := l.map fun w => (c!" \"" ++ w ++ c!"\"", [tk .string c!"\"", tk .char w, tk .stringEnd c!"\""]))
    (by
      intro x hx
      obtain ⟨w, hw, rfl⟩ := List.mem_map.mp hx
      exact W.label (h w hw))
  simpa only [List.map_map, Function.comp_def, List.flatMap] using this

variable [FloatText]

theorem prefixed_ok {k : Kind} {f g q : Char → Bool} {pre : Str} {tok : Token} {x : Node (.ptr k)} (hx : Fmts (.ptr k) x)
    (hk : ∀ y : Node k, y.set = true → Fmts k y → Fine g q y) (hp : W f inked pre [tok]) (hg : ∀ c, g c = true → inked c = true)
    (he : endsLine false pre = false := by decide) :
    ∃ t, prefixed x.isRef pre x.fmt = some t ∧ W₀ f q t (if x.isRef then tok :: x.toks else []) := by
  rcases hx with rfl | ⟨y, rfl, hs, hy⟩
  · exact ⟨[], rfl, .inl ⟨rfl, by simp [isRef_nil]⟩⟩
  · obtain ⟨s, hf, w⟩ := hk y hs hy
    refine ⟨pre ++ (s ++ []), by simp only [prefixed, Node.isRef_ref, if_true, Node.fmt_ref, hf]; rfl, .inr ?_⟩
    exact (hp.append' w hg he).cast (by simp) (by simp [Node.isRef_ref, Node.toks])

/-! ## Declarations -/

theorem fmts_attr {m : Meta} {key : Str} {v : Node (.ptr .expr)} (ht : (Node.attr m key v).tidy = true) :
    Fmts .attr (.attr m key v) := by
  simp only [Node.tidy, Bool.and_eq_true, Bool.not_eq_true'] at ht
  refine ⟨_, by simp only [Node.fmt, ht.2, prefixed, Bool.false_eq_true, if_false]; rfl, ?_⟩
  exact ((W.ident ht.1).mono le_refl' stop_le).cast (by simp) (by simp [Node.toks, ht.2])

omit [FloatText] in
/-- `val x: t = e` -/
theorem W.declaration {d l : Str} (hd : identOk d = true) (hl : identOk l = true) {t u : Str} {ts us : List Token}
    (h1 : W₀ (is ':') stopI t ts) (h2 : W₀ (is ' ') stopN u us) :
    W isAlpha stopN (d ++ c!" " ++ l ++ (t ++ (u ++ []))) (tk .ident d :: tk .ident l :: (ts ++ us)) := by
  have c1 := W₀.append (W₀.append (W.ident hl) h1 (is_le (by decide)) le_refl') h2 (is_le (by decide)) stop_le
  exact ((W.ident hd).space.append' c1 alpha_inked (by rw [endsLine, List.getLast?_concat]; rfl)).cast (by simp) (by simp)

theorem fmts_decl [FloatValue] {m : Meta} {d l : Str} {t : Node (.ptr .parameterType)} {v : Node (.ptr .expr)}
    (hw : (Node.decl m d l t v).writable = true) (ht : (Node.decl m d l t v).tidy = true)
    (h1 : Fmts (.ptr .parameterType) t) (h2 : Fmts (.ptr .expr) v) : Fmts .decl (.decl m d l t v) := by
  simp only [Node.tidy] at ht
  simp only [Node.writable, List.contains_iff_mem] at hw
  have hd : identOk d = true := by
    have : ∀ d ∈ [c!"input", c!"output", c!"const", c!"val"], identOk d = true := by decide
    exact this d hw
  have hl : l ≠ [] := by rintro rfl; revert ht; decide
  obtain ⟨t1, f1, w1⟩ := prefixed_ok (g := typeC) (q := stopI) h1 (fun y h h' => h' h) W.colonSpace type_inked
  obtain ⟨t2, f2, w2⟩ := prefixed_ok (g := opening) (q := stopN) h2 (fun y h h' => h' h)
    (W.assign.space (by decide) (by decide)).gap opening_inked
  refine ⟨_, by simp only [Node.fmt, if_neg hl, f1]; erw [f2]; rfl, ?_⟩
  exact (W.declaration hd ht w1 w2).cast rfl (by simp only [Node.toks])

theorem fmts_funcDecl [FloatValue] {m : Meta} {d l : Str} {t : Node (.ptr .parameterType)} {v : Node (.ptr .expr)}
    (hw : (Node.funcDecl m d l t v).writable = true) (ht : (Node.funcDecl m d l t v).tidy = true)
    (h1 : Fmts (.ptr .parameterType) t) (h2 : Fmts (.ptr .expr) v) : Fmts .funcDecl (.funcDecl m d l t v) := by
  simp only [Node.tidy] at ht
  simp only [Node.writable, List.contains_iff_mem] at hw
  have hd : identOk d = true := by
    have : ∀ d ∈ [c!"const", c!"val"], identOk d = true := by decide
    exact this d hw
  have hl : l ≠ [] := by rintro rfl; revert ht; decide
  obtain ⟨t1, f1, w1⟩ := prefixed_ok (g := typeC) (q := stopI) h1 (fun y h h' => h' h) W.colonSpace type_inked
  obtain ⟨t2, f2, w2⟩ := prefixed_ok (g := opening) (q := stopN) h2 (fun y h h' => h' h)
    (W.assign.space (by decide) (by decide)).gap opening_inked
  refine ⟨_, by simp only [Node.fmt, if_neg hl, f1]; erw [f2]; rfl, ?_⟩
  exact (W.declaration hd ht w1 w2).cast rfl (by simp only [Node.toks])

theorem fmts_funcParameter {m : Meta} {l : Str} {t : Node (.ptr .parameterType)} (ht : (Node.funcParameter m l t).tidy = true)
    (h1 : Fmts (.ptr .parameterType) t) : Fmts .funcParameter (.funcParameter m l t) := by
  simp only [Node.tidy] at ht
  obtain ⟨t1, f1, w1⟩ := prefixed_ok (g := typeC) (q := stopI) h1 (fun y h h' => h' h) W.colonSpace type_inked
  refine ⟨_, by simp only [Node.fmt, f1]; rfl, ?_⟩
  exact (W₀.append (W.ident ht) w1 (is_le (by decide)) le_refl').cast (by simp) (by simp [Node.toks])

/-! ## Types -/

theorem fmts_typeEnumItem [FloatValue] {m : Meta} {e : Str} {c : Node (.ptr .comment)} {l : Str} {v : Node .expr}
    (hs : (Node.typeEnumItem m e c l v).shaped = true) (ht : (Node.typeEnumItem m e c l v).tidy = true) (h2 : Fmts .expr v) :
    Fmts .typeEnumItem (.typeEnumItem m e c l v) := by
  simp only [Node.tidy, Bool.and_eq_true, decide_eq_true_eq, Bool.not_eq_true'] at ht
  obtain ⟨⟨rfl, hc⟩, hl⟩ := ht
  simp only [Node.shaped, Bool.and_eq_true] at hs
  obtain ⟨s, hf, w⟩ := h2 (by simpa [Node.one, hc, List.count_cons] using hs.1)
  exact ⟨l, s, v.toks, by simp [Node.rows, hf], hl, w.mono opening_inked le_refl', by simp [Node.toks, hc]⟩

theorem fmts_typeObjectItem [FloatValue] {m : Meta} {e : Str} {c : Node (.ptr .comment)} {l : Str} {v : Node .parameterType}
    (hs : (Node.typeObjectItem m e c l v).shaped = true) (ht : (Node.typeObjectItem m e c l v).tidy = true)
    (h2 : Fmts .parameterType v) : Fmts .typeObjectItem (.typeObjectItem m e c l v) := by
  simp only [Node.tidy, Bool.and_eq_true, decide_eq_true_eq, Bool.not_eq_true'] at ht
  obtain ⟨⟨rfl, hc⟩, hl⟩ := ht
  simp only [Node.shaped, Bool.and_eq_true] at hs
  obtain ⟨s, hf, w⟩ := h2 (by simpa [Node.one, hc, List.count_cons] using hs.1)
  exact ⟨l, s, v.toks, by simp [Node.rows, hf], hl, w.mono type_inked stop_le, by simp [Node.toks, hc]⟩

omit [FloatText] in
theorem W.row {l s : Str} {us : List Token} (n : Nat) (hl : identOk l = true) (h : W inked stopN s us) :
    W (is '\n') stopN (alignedRow n (l, s)) (lfTok :: tk .ident l :: tk .opColon c!":" :: us) := by
  have c1 : W (is ' ') stopN (spaces (n - byteLen l) ++ c!" " ++ s) us := h.gaps (by
    intro c hc
    simp only [spaces, List.mem_append, List.mem_replicate, List.mem_cons, List.not_mem_nil, or_false] at hc
    exact hc.elim (·.2) id) (by simp)
  exact (W.newline.append ((W.ident hl).append (W.colon.append c1 any_le) (is_le (by decide))) any_le).cast
    (by simp [alignedRow]) (by simp)

theorem rows_ok {k : Kind} {l : List (Node k)} (h : ∀ y ∈ l, RowOk y) :
    ∃ rs, (Out.items l).rows = some rs ∧ ∀ n, ((rs.map (alignedRow n)).flatten = [] ∧ (Out.items l).tokss.flatten = []) ∨
      ∃ us, W (is '\n') stopN (rs.map (alignedRow n)).flatten (lfTok :: us) ∧ (Out.items l).tokss.flatten = us ++ [lfTok] := by
  induction l with
  | nil => exact ⟨[], by simp [Out.items, Node.rows], fun n => .inl ⟨rfl, by simp [Out.items, Node.tokss]⟩⟩
  | cons x l ih =>
    obtain ⟨rs, h1, h2⟩ := ih fun y hy => h y (by simp [hy])
    obtain ⟨w, s, us, h3, h4, h5, h6⟩ := h x (by simp)
    refine ⟨(w, s) :: rs, by simp [Out.items, Node.rows, h3, h1], fun n => .inr ?_⟩
    have hr := W.row n h4 h5
    rcases h2 n with ⟨e1, e2⟩ | ⟨vs, e1, e2⟩
    · refine ⟨_, hr.cast (by simp [e1]) rfl, ?_⟩
      simp [Out.items, Node.tokss, Node.toks, h6, e2]
    · refine ⟨_, (hr.append e1 (is_le (by decide))).cast (by simp) (List.cons_append ..), ?_⟩
      simp [Out.items, Node.tokss, Node.toks, h6, e2]

theorem rows_slice {k : Kind} {x : Node (.slice k)} (hx : Fmts (.slice k) x) (hk : ∀ y : Node k, Fmts k y → RowOk y) :
    ∃ s, x.rows.map aligned = some s ∧
      ((s = [] ∧ x.tokss.flatten = []) ∨ ∃ us, W (is '\n') stopN s (lfTok :: us) ∧ x.tokss.flatten = us ++ [lfTok]) := by
  rcases hx with rfl | ⟨a, l, rfl, -, hl⟩
  · exact ⟨[], by simp [Node.rows, aligned], .inl ⟨rfl, by simp [Node.tokss]⟩⟩
  · obtain ⟨rs, h1, h2⟩ := rows_ok fun y hy => hk y (hl y hy).2
    refine ⟨aligned rs, by simp [Node.rows, h1], ?_⟩
    simpa only [Node.tokss, aligned] using h2 (maxLabel rs)

theorem fmts_typeEnum {m : Meta} {x : Node (.slice .typeEnumItem)} (h : Fmts (.slice .typeEnumItem) x) : Fmts .typeEnum (.typeEnum m x) := by
  obtain ⟨s, h1, h2⟩ := rows_slice h fun _ h => h
  exact ⟨s, by simp only [Node.fmt, h1], by simpa only [Node.toks] using h2⟩

theorem fmts_typeObject {m : Meta} {x : Node (.slice .typeObjectItem)} (h : Fmts (.slice .typeObjectItem) x) :
    Fmts .typeObject (.typeObject m x) := by
  obtain ⟨s, h1, h2⟩ := rows_slice h fun _ h => h
  exact ⟨s, by simp only [Node.fmt, h1], by simpa only [Node.toks] using h2⟩

theorem fmts_rows {k : Kind} {x : Node k} (h : RowsOk x) : ∃ s, x.fmt = some s ∧
    W (is '{') anyC (c!"{" ++ indent s tab ++ c!"\n}") (braces (lfTok :: x.toks)) := by
  obtain ⟨s, h1, ⟨rfl, h2⟩ | ⟨us, h2, h3⟩⟩ := h
  · exact ⟨_, h1, (W.lbrace.append W.closeBlock any_le).cast rfl (by simp [h2, braces])⟩
  · refine ⟨_, h1, (W.lbrace.append (h2.indent'.append W.closeBlock (is_le (by decide))) any_le).cast (by simp) ?_⟩
    simp [h3, braces]

theorem fmts_type {m : Meta} {l : Str} {e : Node (.ptr .typeEnum)} {o : Node (.ptr .typeObject)}
    (hs : (Node.type m l e o).shaped = true) (ht : (Node.type m l e o).tidy = true)
    (h1 : Fmts (.ptr .typeEnum) e) (h2 : Fmts (.ptr .typeObject) o) : Fmts .type (.type m l e o) := by
  simp only [Node.tidy] at ht
  simp only [Node.shaped, Bool.and_eq_true] at hs
  have wt : W isAlpha inked c!"type " [tk .ident c!"type"] := (W.ident (by decide)).space
  rcases h1 with rfl | ⟨e, rfl, -, h1⟩
  · obtain ⟨o, rfl, -, h2⟩ := h2.ptr (by simpa [Node.one, isRef_nil, List.count_cons] using hs.2)
    obtain ⟨s, h1, h2⟩ := fmts_rows h2
    refine ⟨_, by simp only [Node.fmt, isRef_nil, Node.isRef_ref, Bool.false_eq_true, if_false, if_true, h1]; rfl, ?_⟩
    have wo : W isAlpha inked c!"object " [tk .ident c!"object"] := (W.ident (by decide)).space
    have c1 := wo.append' h2 (is_le (by decide))
    have c2 := (W.ident ht).space.append' c1 alpha_inked (by rw [endsLine, List.getLast?_concat]; rfl)
    refine ((wt.append' c2 alpha_inked).mono le_refl' any_stop).cast (by simp) (by simp [Node.toks, isRef_nil])
  · obtain ⟨s, h1, h2⟩ := fmts_rows h1
    refine ⟨_, by simp only [Node.fmt, Node.isRef_ref, if_true, h1]; rfl, ?_⟩
    have wo : W isAlpha inked c!"enum " [tk .ident c!"enum"] := (W.ident (by decide)).space
    have c1 := wo.append' h2 (is_le (by decide))
    have c2 := (W.ident ht).space.append' c1 alpha_inked (by rw [endsLine, List.getLast?_concat]; rfl)
    refine ((wt.append' c2 alpha_inked).mono le_refl' any_stop).cast (by simp) (by simp [Node.toks, Node.isRef_ref])

/-! ## Blocks -/

theorem fmts_blockItem [FloatValue] {m : Meta} {e : Str} {b : Node (.ptr .block)} {a : Node (.ptr .attr)} {c : Node (.ptr .comment)}
    (hs : (Node.blockItem m e b a c).shaped = true)
    (h1 : Fmts (.ptr .block) b) (h2 : Fmts (.ptr .attr) a) (h3 : Fmts (.ptr .comment) c) : Fmts .blockItem (.blockItem m e b a c) := by
  intro he
  simp only [Node.blankOf] at he
  subst he
  simp only [Node.shaped] at hs
  rcases h3 with rfl | ⟨c, rfl, -, s, hf, w⟩
  · rcases h1 with rfl | ⟨b, rfl, -, s, hf, w⟩
    · obtain ⟨a, rfl, -, s, hf, w⟩ := h2.ptr (by simpa [Node.one, isRef_nil, List.count_cons] using hs)
      refine ⟨s, by simp [Node.fmt, isRef_nil, Node.isRef_ref, hf, prefixed, cat], ?_⟩
      simp only [Node.blankOf, Node.isRemark, isRef_nil, ne_eq, not_true_eq_false, Bool.false_eq_true, or_self, if_false]
      exact ⟨a.toks, w.mono any_le le_refl', by simp [Node.toks, isRef_nil]⟩
    · refine ⟨s, by simp [Node.fmt, isRef_nil, Node.isRef_ref, hf, prefixed, cat], ?_⟩
      simp only [Node.blankOf, Node.isRemark, isRef_nil, ne_eq, not_true_eq_false, Bool.false_eq_true, or_self, if_false]
      exact ⟨b.toks, w.mono any_le le_refl', by simp [Node.toks, isRef_nil, Node.isRef_ref]⟩
  · have hb : b.isRef = false := by
      cases e : b.isRef <;> cases e' : a.isRef <;> simp [Node.one, Node.isRef_ref, List.count_cons, e, e'] at hs ⊢
    have ha : a.isRef = false := by
      cases e : b.isRef <;> cases e' : a.isRef <;> simp [Node.one, Node.isRef_ref, List.count_cons, e, e'] at hs ⊢
    refine ⟨s, by simp [Node.fmt, Node.isRef_ref, hf, prefixed, cat, hb, ha], ?_⟩
    simp only [Node.isRemark, Node.isRef_ref, or_true, if_true]
    exact w.cast rfl (by simp [Node.toks, Node.isRef_ref])

theorem body_ok {l : List (Node .blockItem)} (h : ∀ y ∈ l, y.blankOf = [] → LineOk y y) (hb : (Out.items l).blockBody = true) :
    ∃ ts us, (Out.items l).texts = some ts ∧ W anyC stopN (ts.map (indent · tab)).flatten us ∧
      (Out.items l).tokss.flatten = us ++ [lfTok] := by
  induction l with
  | nil => simp [Out.items, Node.blockBody] at hb
  | cons x l ih =>
    simp only [Out.items, Node.blockBody, Node.blankOf, Node.isRemark, Bool.and_eq_true, decide_eq_true_eq, Bool.or_eq_true,
      Bool.not_eq_true'] at hb
    obtain ⟨hb1, hb2⟩ := hb
    obtain ⟨s, h1, h2⟩ := h x (by simp) (of_decide_eq_true hb1)
    by_cases hr : x.isRemark = true
    · rw [if_pos (.inr hr)] at h2
      obtain ⟨ts, us, e1, e2, e3⟩ := ih (fun y hy => h y (by simp [hy])) (by simpa [hr] using hb2)
      refine ⟨s :: ts, x.toks ++ us, by simp [Out.items, Node.texts, Node.fmt_ref, h1, e1], ?_, ?_⟩
      · exact (h2.indent'.append e2 any_le).cast (by simp) rfl
      · simp [Out.items, Node.tokss, Node.toks, e3]
    · rw [if_neg (by simp [of_decide_eq_true hb1, hr])] at h2
      obtain ⟨us, w, e⟩ := h2
      have hl : l = [] := by
        have : (Out.items l).len = 0 := by simpa [hr] using hb2
        rw [Out.len_items] at this
        exact List.length_eq_zero_iff.mp this
      subst hl
      exact ⟨[s], us, by simp [Out.items, Node.texts, Node.fmt_ref, h1], by simpa using w.indent',
        by simp [Out.items, Node.tokss, Node.toks, e]⟩

theorem fmts_block {m : Meta} {n : Str} {ls : Strs} {b : Node (.slice .blockItem)} (ht : (Node.block m n ls b).tidy = true)
    (h : Fmts (.slice .blockItem) b) : Fmts .block (.block m n ls b) := by
  simp only [Node.tidy, Bool.and_eq_true, List.all_eq_true] at ht
  have hn : n ≠ [] := by rintro rfl; have := ht.1.1; revert this; decide
  have c1 : W isAlpha stopI (n ++ fmtLabels ls) (tk .ident n :: (ls.list.flatMap fun w => [tk .string c!"\"", tk .char w, tk .stringEnd c!"\""])) := by
    rcases W.labels ht.1.2 with ⟨e1, e2⟩ | h
    · exact (W.ident ht.1.1).cast (by rw [fmtLabels, e1, List.append_nil]) (by rw [e2])
    · exact ((W.ident ht.1.1).append h (is_le (by decide))).mono le_refl' any_le
  rcases h with rfl | ⟨a, l, rfl, hne, hl⟩
  · refine ⟨_, by simp only [Node.fmt, if_neg hn, Node.len, ne_eq, not_true_eq_false, if_false]; rfl, ?_⟩
    refine ((c1.append W.emptyBlock (is_le (by decide))).mono le_refl' any_stop).cast (by simp) ?_
    simp [Node.toks, Node.isNilSlice, braces]
  · have hlen : (Node.mkSlice a (Out.items l)).len ≠ 0 := by
      simpa [Node.len, Out.len_items] using hne
    obtain ⟨ts, us, e1, e2, e3⟩ := body_ok (fun y hy => (hl y hy).2) (by simpa only [Node.blockBody] using ht.2)
    have e1' : (Node.mkSlice a (Out.items l)).texts = some ts := by simpa only [Node.texts] using e1
    refine ⟨_, by simp only [Node.fmt, if_neg hn, if_pos hlen, e1']; rfl, ?_⟩
    have c2 := W.openBlock.append (e2.append W.closeBlock (is_le (by decide))) any_le
    refine ((c1.append c2 (is_le (by decide))).mono le_refl' any_stop).cast (by simp) ?_
    simp [Node.toks, Node.isNilSlice, Node.tokss, e3, braces]

/-! ## Functions -/

theorem fmts_funcStatement [FloatValue] {m : Meta} {e : Str} {c : Node (.ptr .comment)} {d : Node (.ptr .funcDecl)} {x : Node (.ptr .expr)}
    (hs : (Node.funcStatement m e c d x).shaped = true) (hw : (Node.funcStatement m e c d x).writable = true)
    (h1 : Fmts (.ptr .comment) c) (h2 : Fmts (.ptr .funcDecl) d) (h3 : Fmts (.ptr .expr) x) :
    Fmts .funcStatement (.funcStatement m e c d x) := by
  simp only [Node.shaped] at hs
  simp only [Node.writable, Bool.and_eq_true] at hw
  by_cases he : e = []
  · subst he
    rcases h1 with rfl | ⟨c, rfl, -, s, hf, w⟩
    · rcases h2 with rfl | ⟨d, rfl, -, s, hf, w⟩
      · obtain ⟨x, rfl, hx, h3⟩ := h3.ptr (by simpa [Node.one, isRef_nil, List.count_cons] using hs)
        obtain ⟨s, hf, w⟩ := h3 hx
        refine ⟨s, by simp [Node.fmt, isRef_nil, Node.isRef_ref, hf], ?_⟩
        simp only [Node.blankOf, Node.isRemark, isRef_nil, ne_eq, not_true_eq_false, Bool.false_eq_true, or_self, if_false]
        exact ⟨x.toks, w.mono any_le le_refl', by simp [Node.toks, isRef_nil]⟩
      · refine ⟨s, by simp [Node.fmt, isRef_nil, Node.isRef_ref, hf], ?_⟩
        simp only [Node.blankOf, Node.isRemark, isRef_nil, ne_eq, not_true_eq_false, Bool.false_eq_true, or_self, if_false]
        exact ⟨d.toks, w.mono any_le le_refl', by simp [Node.toks, isRef_nil, Node.isRef_ref]⟩
    · refine ⟨s, by simp [Node.fmt, Node.isRef_ref, hf], ?_⟩
      simp only [Node.isRemark, Node.isRef_ref, or_true, if_true]
      exact w.cast rfl (by simp [Node.toks, Node.isRef_ref])
  · have hr : c.isRef = false ∧ d.isRef = false ∧ x.isRef = false := by
      cases e1 : c.isRef <;> cases e2 : d.isRef <;> cases e3 : x.isRef <;>
        simp [Node.one, he, List.count_cons, e1, e2, e3] at hs ⊢
    refine ⟨e, by simp [Node.fmt, hr], ?_⟩
    rw [if_pos (.inl (by simpa only [Node.blankOf] using he))]
    rcases W.blank hw.1 with ⟨h, -⟩ | h
    · exact absurd h he
    · exact h.cast rfl (by simp [Node.toks, he])

/-- The text of an item. -/
def LineText {k : Kind} (re : Node k → Node k) (x : Node k) (s : Str) : Prop :=
  if x.blankOf ≠ [] ∨ x.isRemark = true then W anyC anyC s (re x).toks else ∃ us, W anyC stopN s us ∧ (re x).toks = us ++ [lfTok]

omit [FloatText] in
theorem LineText.indent {k : Kind} {re : Node k → Node k} {x : Node k} {s : Str} (h : LineText re x s) :
    LineText re x (Etx.indent s tab) := by
  unfold LineText at h ⊢
  split
  · rename_i h'
    rw [if_pos h'] at h
    exact h.indent'
  · rename_i h'
    rw [if_neg h'] at h
    obtain ⟨us, h1, h2⟩ := h
    exact ⟨us, h1.indent', h2⟩

/-- The items on lines. -/
def lined (more : Str) : List Str → Str
  | [] => []
  | s :: ss => s ++ '\n' :: ((if ss.isEmpty then [] else more) ++ lined more ss)

omit [FloatText] in
theorem W.respaced {k : Kind} {mk : Str → Node k} {re : Node k → Node k} {more : Str} (hmk : ∀ e, e ≠ [] → (mk e).toks = blankToks e)
    (hre : ∀ x : Node k, x.blankOf ≠ [] → (re x).toks = blankToks x.blankOf) (hm : Node.blank more = true)
    {l : List (Node k)} {ss : List Str} (h : List.Forall₂ (LineText re) l ss) (pend t : Str) (hp : W₀ anyC anyC t (blankToks pend)) :
    W₀ anyC anyC (t ++ lined more ss) ((respace mk re more pend l).map Node.toks).flatten := by
  have hflush : ∀ pend, ((flush mk pend).map Node.toks).flatten = blankToks pend := by
    intro pend
    unfold flush
    split
    · rename_i h; subst h; rfl
    · rename_i h; simp [hmk _ h]
  induction h generalizing pend t with
  | nil => simpa [lined, respace, hflush] using hp
  | @cons x s l ss hx hl ih =>
    have hsep : W₀ anyC anyC (if ss.isEmpty then [] else more) (blankToks (if l.isEmpty then [] else more)) := by
      have : ss.isEmpty = l.isEmpty := by cases hl <;> rfl
      rw [this]
      split
      · exact .inl ⟨rfl, rfl⟩
      · exact W.blank hm
    have hnl : W₀ anyC anyC ('\n' :: (if ss.isEmpty then [] else more)) (blankToks ('\n' :: (if l.isEmpty then [] else more))) :=
      .inr (W₀.append W.newline hsep any_le any_le |>.mono any_le le_refl')
    simp only [lined, respace]
    by_cases hb : x.blankOf = []
    · simp only [hb, ne_eq, not_true_eq_false, if_false]
      by_cases hr : x.isRemark = true
      · simp only [hr, if_true]
        rw [LineText, if_pos (.inr hr)] at hx
        have := (W₀.any hp (.inr hx)).any (ih _ _ hnl)
        simpa [hflush] using this
      · simp only [hr, if_false, Bool.false_eq_true]
        rw [LineText, if_neg (by simp [hb, hr])] at hx
        obtain ⟨us, w, e⟩ := hx
        have := (W₀.any hp (.inr (w.append W.newline (is_le (by decide))))).any (ih _ _ hsep)
        simpa [hflush, e] using this
    · simp only [hb, ne_eq, not_false_eq_true, if_true]
      rw [LineText, if_pos (.inl hb), hre x hb] at hx
      have := ih (pend ++ x.blankOf ++ '\n' :: (if l.isEmpty then [] else more)) (t ++ s ++ '\n' :: (if ss.isEmpty then [] else more)) (by
        rw [blankToks_append, blankToks_append]
        exact (W₀.any hp (.inr hx)).any hnl)
      simpa using this

theorem gatherLines {k : Kind} {re : Node k → Node k} {l : List (Node k)} (h : ∀ y ∈ l, LineOk y (re y)) :
    ∃ ss, (Out.items l).texts = some ss ∧ List.Forall₂ (LineText re) l ss := by
  induction l with
  | nil => exact ⟨[], by simp [Out.items, Node.texts], .nil⟩
  | cons x l ih =>
    obtain ⟨s, h1, h2⟩ := h x (by simp)
    obtain ⟨ss, h3, h4⟩ := ih fun y hy => h y (by simp [hy])
    exact ⟨s :: ss, by simp [Out.items, Node.texts, Node.fmt_ref, h1, h3], .cons h2 h4⟩

omit [FloatText] in
theorem structs_items {k : Kind} (l : List (Node k)) : (Out.items l).structs = l := by
  induction l with
  | nil => simp [Out.items, Node.structs]
  | cons x l ih => simp [Out.items, Node.structs, ih]

omit [FloatText] in
theorem bareRet_len {a : Nat} {l : List (Node .parameterType)} (h : (Node.mkSlice a (Out.items l)).bareRet = true) : l.length = 1 := by
  match l, h with
  | [_], _ => rfl
  | y :: z :: l, h =>
    exfalso
    cases y with
    | parameterType m x1 x2 => cases x1 <;> cases h

theorem fmts_func [FloatValue] {m : Meta} {l : Str} {ps : Node (.slice .funcParameter)} {ret : Node (.slice .parameterType)}
    {b : Node (.slice .funcStatement)} (ht : (Node.func m l ps ret b).tidy = true)
    (h1 : Fmts (.slice .funcParameter) ps) (h2 : Fmts (.slice .parameterType) ret) (h3 : Fmts (.slice .funcStatement) b) :
    Fmts .func (.func m l ps ret b) := by
  simp only [Node.tidy, Bool.and_eq_true, Bool.or_eq_true, decide_eq_true_eq] at ht
  obtain ⟨q, p1, p2, p3, p4, p5⟩ := gatherSlice h1 (P := W isAlpha stopI) (fun y _ h => h)
  obtain ⟨r, r1, r2, r3, r4, r5⟩ := gatherSlice h2 (P := W typeC stopI) (fun y hy h => h hy)
  have cp := W.parens (W.sep₀ p3 alpha_inked (by decide)) (by decide)
  obtain ⟨rt, f1, w1⟩ : ∃ t, (if ret.len = 1 then cat [some c!" ", ret.texts.map (join c!", ")]
      else if 1 < ret.len then cat [some c!" (", ret.texts.map (join c!", "), some c!")"] else some []) = some t ∧
      W₀ (is ' ') stopI t (if ret.isNilSlice then [] else if ret.bareRet then ret.tokss.flatten else parens (sepBy [comma] ret.tokss)) := by
    by_cases hr : r = []
    · refine ⟨[], by simp [r4, hr], .inl ⟨rfl, by simp [r5.mpr hr]⟩⟩
    · have hn : ret.isNilSlice = false := by rw [← Bool.not_eq_true]; exact fun h => hr (r5.mp h)
      have hw := W.sep r3 type_inked (by decide) (by decide) hr
      by_cases hl : ret.len = 1
      · have hb := ht.2.resolve_left (fun h => h hl)
        refine ⟨_, by rw [if_pos hl, r1]; rfl, .inr ?_⟩
        obtain ⟨z, rfl⟩ := List.length_eq_one_iff.mp (r4.symm.trans hl)
        refine hw.gap.cast (by simp) ?_
        simp [hn, hb, r2, sepBy]
      · have hlen : 1 < ret.len := by
          have := List.length_pos_iff.mpr hr
          omega
        have hb : ret.bareRet = false := by
          rcases h2 with rfl | ⟨a, l, rfl, -, -⟩
          · rfl
          · rw [Bool.eq_false_iff]
            intro h
            exact hl (by simpa [Node.len, Out.len_items] using bareRet_len h)
        refine ⟨_, by rw [if_neg hl, if_pos hlen, r1]; rfl, .inr ?_⟩
        refine ((W.parens (.inr hw) (by decide)).gap.mono le_refl' any_stop).cast (by simp) ?_
        simp [hn, hb, r2]
  obtain ⟨bt, f2, w2⟩ : ∃ t, (if b.len ≠ 0 then
        cat [some c!" {\n", b.texts.map (fun ts => (ts.map (fun t => indent t tab ++ c!"\n")).flatten), some c!"}"]
      else some c!" {}") = some t ∧
      W (is ' ') anyC t (braces (if (mapSlice (respace blankStatement id [] []) b).isNilSlice then [] else
        lfTok :: (mapSlice (respace blankStatement id [] []) b).tokss.flatten)) := by
    rcases h3 with rfl | ⟨a, bl, rfl, hne, hl⟩
    · exact ⟨c!" {}", by simp [Node.len], W.emptyBlock.cast rfl (by simp [mapSlice, Node.isNilSlice, braces])⟩
    · have hlen : (Node.mkSlice a (Out.items bl)).len ≠ 0 := by
        simpa [Node.len, Out.len_items] using hne
      obtain ⟨ss, e1, e2⟩ := gatherLines (re := id) (fun y hy => (hl y hy).2)
      have e2' : List.Forall₂ (LineText id) bl (ss.map (indent · tab)) := by
        exact List.forall₂_map_right_iff.mpr (e2.imp fun _ _ h => h.indent)
      have c1 := W.respaced (mk := blankStatement) (re := id) (more := []) (fun e he => by simp [blankStatement, Node.toks, he])
        (fun x hx => by
          cases x with
          | funcStatement m e c d x => simp only [Node.blankOf] at hx ⊢; simp [Node.toks, hx])
        rfl e2' [] [] (.inl ⟨rfl, rfl⟩)
      have e3 : ∀ ss : List Str, lined [] (ss.map (indent · tab)) = (ss.map (fun t => indent t tab ++ c!"\n")).flatten := by
        intro ss
        induction ss with
        | nil => rfl
        | cons s ss ih => simp [lined, ih]
      rw [List.nil_append, e3] at c1
      have e1' : (Node.mkSlice a (Out.items bl)).texts = some ss := by simpa only [Node.texts] using e1
      refine ⟨_, by rw [if_pos hlen, e1']; rfl, ?_⟩
      rcases c1 with ⟨g1, g2⟩ | c1
      · refine (W.openBlock.append W.close any_le).cast (by beta_reduce; rw [g1]; rfl) ?_
        simp only [mapSlice, Node.isNilSlice, Bool.false_eq_true, if_false, Node.tokss, structs_items, tokss_items, g2, braces]
        rfl
      · refine (W.openBlock.append (c1.append W.close any_le) any_le).cast (by simp) ?_
        simp only [mapSlice, Node.isNilSlice, Bool.false_eq_true, if_false, Node.tokss, structs_items, tokss_items, braces]
        simp
  refine ⟨_, by simp only [Node.fmt, p1]; erw [f1, f2]; rfl, ?_⟩
  have wd : W isAlpha inked c!"def " [tk .ident c!"def"] := (W.ident (by decide)).space
  have c1 := W₀.append cp w1 any_le any_le (by decide)
  have c2 := (W.ident ht.1).append (c1.append w2 (is_le (by decide))) (is_le (by decide))
  refine ((wd.append' c2 alpha_inked).mono le_refl' any_stop).cast (by simp) ?_
  simp [respaceFunc, Node.toks, p2]

/-! ## Items -/

theorem fmts_rootItem [FloatValue] {m : Meta} {e : Str} {d : Node (.ptr .decl)} {f : Node (.ptr .func)} {t : Node (.ptr .type)}
    {b : Node (.ptr .block)} {a : Node (.ptr .attr)} {c : Node (.ptr .comment)}
    (hs : (Node.rootItem m e d f t b a c).shaped = true) (hw : (Node.rootItem m e d f t b a c).writable = true)
    (h1 : Fmts (.ptr .decl) d) (h2 : Fmts (.ptr .func) f) (h3 : Fmts (.ptr .type) t) (h4 : Fmts (.ptr .block) b)
    (h5 : Fmts (.ptr .attr) a) (h6 : Fmts (.ptr .comment) c) : Fmts .rootItem (.rootItem m e d f t b a c) := by
  simp only [Node.shaped] at hs
  simp only [Node.writable] at hw
  have hre : (mapRef respaceFunc f).isRef = f.isRef := by rcases h2 with rfl | ⟨f, rfl, -⟩ <;> rfl
  have hno : ¬(e = [] → False) ∧ c.isRef = false → ¬ ((Node.rootItem m e d f t b a c).blankOf ≠ [] ∨ (Node.rootItem m e d f t b a c).isRemark = true) := by
    rintro ⟨h1, h2⟩
    simp only [Node.blankOf, Node.isRemark, h2]
    tauto
  by_cases he : e = []
  · subst he
    rcases h6 with rfl | ⟨c, rfl, -, s, hf, w⟩
    · unfold Fmts LineOk
      simp only [if_neg (hno ⟨by simp, rfl⟩)]
      rcases h1 with rfl | ⟨d, rfl, -, s, hf, w⟩
      · rcases h2 with rfl | ⟨f, rfl, -, s, hf, w⟩
        · rcases h3 with rfl | ⟨t, rfl, -, s, hf, w⟩
          · rcases h4 with rfl | ⟨b, rfl, -, s, hf, w⟩
            · obtain ⟨a, rfl, -, s, hf, w⟩ := h5.ptr (by simpa [Node.one, isRef_nil, List.count_cons] using hs)
              exact ⟨s, by simp [Node.fmt, isRef_nil, Node.isRef_ref, hf], a.toks, w.mono any_le le_refl',
                by simp [respaceItem, mapRef, Node.toks, isRef_nil]⟩
            · exact ⟨s, by simp [Node.fmt, isRef_nil, Node.isRef_ref, hf], b.toks, w.mono any_le le_refl',
                by simp [respaceItem, mapRef, Node.toks, isRef_nil, Node.isRef_ref]⟩
          · exact ⟨s, by simp [Node.fmt, isRef_nil, Node.isRef_ref, hf], t.toks, w.mono any_le le_refl',
              by simp [respaceItem, mapRef, Node.toks, isRef_nil, Node.isRef_ref]⟩
        · exact ⟨s, by simp [Node.fmt, isRef_nil, Node.isRef_ref, hf], (respaceFunc f).toks, w.mono any_le le_refl',
            by simp [respaceItem, mapRef, Node.toks, isRef_nil, Node.isRef_ref]⟩
      · exact ⟨s, by simp [Node.fmt, isRef_nil, Node.isRef_ref, hf], d.toks, w.mono any_le le_refl',
          by simp [respaceItem, Node.toks, isRef_nil, Node.isRef_ref]⟩
    · have hr : d.isRef = false ∧ f.isRef = false ∧ t.isRef = false ∧ b.isRef = false ∧ a.isRef = false := by
        cases e1 : d.isRef <;> cases e2 : f.isRef <;> cases e3 : t.isRef <;> cases e4 : b.isRef <;> cases e5 : a.isRef <;>
          simp [Node.one, Node.isRef_ref, List.count_cons, e1, e2, e3, e4, e5] at hs ⊢
      refine ⟨s, by simp [Node.fmt, Node.isRef_ref, hf, hr], ?_⟩
      rw [if_pos (.inr (by simp only [Node.isRemark, Node.isRef_ref]))]
      exact w.cast rfl (by simp [respaceItem, Node.toks, Node.isRef_ref])
  · have hr : d.isRef = false ∧ f.isRef = false ∧ t.isRef = false ∧ b.isRef = false ∧ a.isRef = false ∧ c.isRef = false := by
      cases e1 : d.isRef <;> cases e2 : f.isRef <;> cases e3 : t.isRef <;> cases e4 : b.isRef <;> cases e5 : a.isRef <;>
        cases e6 : c.isRef <;> simp [Node.one, he, List.count_cons, e1, e2, e3, e4, e5, e6] at hs ⊢
    refine ⟨e, by simp [Node.fmt, hr, he], ?_⟩
    rw [if_pos (.inl (by simpa only [Node.blankOf] using he))]
    rcases W.blank hw with ⟨h, -⟩ | h
    · exact absurd h he
    · exact h.cast rfl (by simp [respaceItem, Node.toks, he])

end Verif.Etx
