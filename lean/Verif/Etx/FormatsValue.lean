import Verif.Etx.FormatsExpr

/-!
# The formatted text of a tree is read as its tokens: identifiers, comments, values and types
-/

namespace Verif.Etx

set_option linter.unusedSimpArgs false

variable [FloatText]

theorem fmts_ident {m : Meta} {parts : Strs} (hs : (Node.ident m parts).shaped = true) (ht : (Node.ident m parts).tidy = true) :
    Fmts .ident (.ident m parts) := by
  simp only [Node.shaped, decide_eq_true_eq] at hs
  simp only [Node.tidy, List.all_eq_true] at ht
  refine ⟨join c!"." parts.list, by simp only [Node.fmt], ?_⟩
  simp only [Node.toks]
  generalize parts.list = l at hs ht
  induction l with
  | nil => exact absurd rfl hs
  | cons w l ih =>
    have hw := W.ident (ht w (by simp))
    cases l with
    | nil => simpa [join, sepBy] using hw
    | cons v l =>
      have h := ih (by simp) (fun z hz => ht z (List.mem_cons_of_mem _ hz))
      have hd := W.dot.append' h (fun c hc => by
        have h2 : isDigitSep c = false := by
          rw [Bool.eq_false_iff]
          intro h
          simp only [isDigitSep, isDigit, isAlpha, Bool.or_eq_true, Bool.and_eq_true, decide_eq_true_eq] at h hc
          rcases h with h | rfl
          · rcases hc with hc | hc
            · exact absurd (Char.le_trans hc.1 h.2) (by decide)
            · exact absurd (Char.le_trans hc.1 h.2) (by decide)
          · revert hc; decide
        simp [afterOp, operators, List.isPrefixOf, h2])
      refine (hw.append hd (is_le (by decide))).cast (by simp [join]) ?_
      simp [sepBy]

theorem fmts_comment {m : Meta} {s : Strs} {l : Str} (hs : (Node.comment m s l).shaped = true)
    (ht : (Node.comment m s l).tidy = true) : Fmts .comment (.comment m s l) := by
  simp only [Node.shaped] at hs
  simp only [Node.tidy, List.all_eq_true, Bool.and_eq_true, Bool.or_eq_true, decide_eq_true_eq] at ht
  refine ⟨fmtComment s l, by simp only [Node.fmt], ?_⟩
  simp only [Node.toks, fmtComment]
  by_cases hl : l = []
  · have : s.list ≠ [] := by simpa [Node.one, hl, List.count_cons] using hs
    simp only [hl, ne_eq, not_true_eq_false, if_false]
    rcases W.comments ht.1 with ⟨-, h⟩ | h
    · cases e : s.list with
      | nil => exact absurd e this
      | cons x xs => simp [e] at h
    · exact h
  · rw [if_pos hl, if_pos hl]
    exact W.multi (ht.2.resolve_left hl)

theorem fmts_funcSignature {m : Meta} {ps : Node (.slice .parameterType)} {ret : Node .parameterType}
    (hs : (Node.funcSignature m ps ret).shaped = true) (h1 : Fmts (.slice .parameterType) ps) (h2 : Fmts .parameterType ret) :
    Fmts .funcSignature (.funcSignature m ps ret) := by
  obtain ⟨s, hf, w⟩ := h2 (by simpa only [Node.shaped] using hs)
  obtain ⟨l, e1, e2, e3, e4, e5⟩ := gatherSlice h1 (P := W typeC stopI) (fun y hy h => h hy)
  have c1 := W.parens (W.sep₀ e3 type_inked (by decide)) (by decide)
  refine ⟨_, by simp only [Node.fmt, e1, hf]; rfl, ?_⟩
  have c2 := (W.arrow.space (by decide) (by decide)).append' w type_inked
  refine ((c1.append c2.gap any_le).mono (is_le (by decide)) le_refl').cast (by simp) ?_
  simp [Node.toks, e2]

theorem fmts_parameterType {m : Meta} {i : Node (.ptr .ident)} {f : Node (.ptr .funcSignature)}
    (h1 : Fmts (.ptr .ident) i) (h2 : Fmts (.ptr .funcSignature) f) : Fmts .parameterType (.parameterType m i f) := by
  intro hs
  simp only [Node.set, Bool.or_eq_true] at hs
  rcases h1 with rfl | ⟨i, rfl, -, s, hf, w⟩
  · obtain ⟨f, rfl, -, s, hf, w⟩ := h2.ptr (by simpa [isRef_nil] using hs)
    exact ⟨s, by simp [Node.fmt, isRef_nil, Node.isRef_ref, hf], w.cast rfl (by simp [Node.toks, isRef_nil])⟩
  · exact ⟨s, by simp [Node.fmt, Node.isRef_ref, hf], (w.mono alpha_type le_refl').cast rfl (by simp [Node.toks, Node.isRef_ref])⟩

theorem fmts_valueBool {m : Meta} {b : Bool} : Fmts .valueBool (.valueBool m b) := by
  refine ⟨_, by simp only [Node.fmt]; rfl, ?_⟩
  simp only [Node.toks]
  cases b
  · exact (W.ident (w := c!"false") (by decide)).mono alpha_operand le_refl'
  · exact (W.ident (w := c!"true") (by decide)).mono alpha_operand le_refl'

theorem fmts_valueNumber {m : Meta} {v : Option (Nat × BigFloat)} {s : Str} (ht : (Node.valueNumber m v s).tidy = true) :
    Fmts .valueNumber (.valueNumber m v s) := by
  simp only [Node.tidy] at ht
  have hn : s ≠ [] := by rintro rfl; revert ht; decide
  refine ⟨s, by simp only [Node.fmt, fmtNumber, if_neg hn], ?_⟩
  simp only [Node.toks]
  refine (W.number ht).mono (fun c hc => ?_) le_refl'
  simp only [Bool.or_eq_true, decide_eq_true_eq] at hc
  rcases hc with hc | rfl
  · simp [operand, hc]
  · decide

theorem fmts_stringFragment [FloatValue] {m : Meta} {esc u : Str} {e d : Node (.ptr .expr)} {t : Str}
    (hs : (Node.stringFragment m esc u e d t).shaped = true) (ht : (Node.stringFragment m esc u e d t).tidy = true)
    (h1 : Fmts (.ptr .expr) e) (h2 : Fmts (.ptr .expr) d) : Fmts .stringFragment (.stringFragment m esc u e d t) := by
  simp only [Node.shaped] at hs
  simp only [Node.tidy, Bool.and_eq_true, Bool.or_eq_true, decide_eq_true_eq, Node.noBrace, List.all_eq_true] at ht
  obtain ⟨⟨⟨⟨rfl, hu⟩, he⟩, hd⟩, hx⟩ := ht
  by_cases hu' : u = []
  · subst hu'
    rcases h1 with rfl | ⟨e, rfl, hse, h1⟩
    · rcases h2 with rfl | ⟨d, rfl, hsd, h2⟩
      · have hn : t ≠ [] := by simpa [Node.one, isRef_nil, List.count_cons] using hs
        obtain ⟨hq, hx⟩ := hx.resolve_left hn
        refine ⟨t, by simp [Node.fmt, isRef_nil], ?_⟩
        simp only [Node.toks, Node.fragP, isRef_nil, ne_eq, not_true_eq_false, if_false, Bool.false_eq_true, Bool.or_self]
        by_cases hc : textSym t = .char
        · rw [if_pos hc, hc]
          exact ⟨Frag.char (hx.resolve_left (fun h => h hc)), by decide⟩
        · rw [if_neg hc]
          refine ⟨?_, rfl⟩
          unfold textSym at hc ⊢
          split
          · rename_i h
            rw [h.resolve_left hq]
            exact Frag.quote
          · rename_i h
            rw [if_neg h] at hc
            split
            · rename_i h'
              exact Frag.nonExpr h'
            · rename_i h'
              rw [if_neg h'] at hc
              exact absurd rfl hc
      · obtain ⟨s, hf, w⟩ := h2 hsd
        refine ⟨_, by simp only [Node.fmt, isRef_nil, Node.isRef_ref, ne_eq, not_true_eq_false, if_false, Bool.false_eq_true, if_true, hf]; rfl, ?_⟩
        simp only [Node.toks, Node.fragP, isRef_nil, Node.isRef_ref, ne_eq, not_true_eq_false, if_false, Bool.false_eq_true, Bool.or_true, if_true]
        have := Frag.expr w (by decide) (by decide) (by simpa only [Node.toks] using hd) '%' (.inr rfl)
        exact ⟨by simpa using this, rfl⟩
    · obtain ⟨s, hf, w⟩ := h1 hse
      refine ⟨_, by simp only [Node.fmt, Node.isRef_ref, ne_eq, not_true_eq_false, if_false, if_true, hf]; rfl, ?_⟩
      simp only [Node.toks, Node.fragP, Node.isRef_ref, ne_eq, not_true_eq_false, if_false, Bool.true_or, if_true]
      have := Frag.expr w (by decide) (by decide) (by simpa only [Node.toks] using he) '$' (.inl rfl)
      exact ⟨by simpa using this, rfl⟩
  · refine ⟨c!"\\u" ++ u, by simp [Node.fmt, hu'], ?_⟩
    simp only [Node.toks, Node.fragP, ne_eq, not_true_eq_false, if_false, hu', not_false_eq_true, if_true]
    refine ⟨Frag.unicode (hu.resolve_left hu'), ?_⟩
    have : isHex '"' = false := by decide
    simp [this]

theorem gatherFrags {l : List (Node .stringFragment)} (h : ∀ y ∈ l, Fmts .stringFragment y) :
    ∃ m : List ((Char → Bool) × Str × List Token), (Out.items l).texts = some (m.map (·.2.1)) ∧
      (Out.items l).tokss = m.map (·.2.2) ∧ (Out.items l).frags = m.map (fun x => (x.1, x.2.2)) ∧
      (∀ x ∈ m, Frag (firstIs x.2.2) x.1 x.2.1 x.2.2) ∧ ∀ x ∈ m, x.1 '"' = true := by
  induction l with
  | nil => exact ⟨[], by simp [Out.items, Node.texts], by simp [Out.items, Node.tokss], by simp [Out.items, Node.frags], by simp, by simp⟩
  | cons x l ih =>
    obtain ⟨s, hs, hp, hq⟩ := h x (by simp)
    obtain ⟨m, h1, h2, h3, h4, h5⟩ := ih fun y hy => h y (by simp [hy])
    refine ⟨(x.fragP, s, x.toks) :: m, ?_, ?_, ?_, ?_, ?_⟩
    · simp [Out.items, Node.texts, Node.fmt_ref, hs, h1]
    · simp [Out.items, Node.tokss, Node.toks, h2]
    · simp [Out.items, Node.frags, Node.fragP, Node.toks, h3]
    · intro z hz
      rcases List.mem_cons.mp hz with rfl | hz
      · exact hp
      · exact h4 z hz
    · intro z hz
      rcases List.mem_cons.mp hz with rfl | hz
      · exact hq
      · exact h5 z hz

theorem fmts_valueString {m : Meta} {f : Node (.slice .stringFragment)} (ht : (Node.valueString m f).tidy = true)
    (h1 : Fmts (.slice .stringFragment) f) : Fmts .valueString (.valueString m f) := by
  simp only [Node.tidy] at ht
  obtain ⟨l, e1, e2, e3, e4, e5⟩ : ∃ m : List ((Char → Bool) × Str × List Token), f.texts = some (m.map (·.2.1)) ∧
      f.tokss = m.map (·.2.2) ∧ f.frags = m.map (fun x => (x.1, x.2.2)) ∧
      (∀ x ∈ m, Frag (firstIs x.2.2) x.1 x.2.1 x.2.2) ∧ ∀ x ∈ m, x.1 '"' = true := by
    rcases h1 with rfl | ⟨a, l, rfl, -, hl⟩
    · exact ⟨[], by simp [Node.texts], by simp [Node.tokss], by simp [Node.frags], by simp, by simp⟩
    · simpa only [Node.texts, Node.tokss, Node.frags] using gatherFrags fun y hy => (hl y hy).2
  rw [e3] at ht
  refine ⟨_, by simp only [Node.fmt, e1]; rfl, ?_⟩
  refine ((W.string e4 e5 ht).mono (is_le (by decide)) any_stop).cast (by simp) ?_
  simp [Node.toks, e2]

theorem fmts_listItem [FloatValue] {m : Meta} {e : Str} {v : Node (.ptr .expr)} {c : Node (.ptr .comment)}
    (hs : (Node.listItem m e v c).shaped = true) (hw : (Node.listItem m e v c).writable = true)
    (h1 : Fmts (.ptr .expr) v) (h2 : Fmts (.ptr .comment) c) : Fmts .listItem (.listItem m e v c) := by
  simp only [Node.writable] at hw
  simp only [Node.shaped] at hs
  by_cases he : e = []
  · subst he
    rcases h2 with rfl | ⟨c, rfl, -, s, hf, w⟩
    · obtain ⟨v, rfl, hv, h1⟩ := h1.ptr (by simpa [Node.one, isRef_nil, List.count_cons] using hs)
      obtain ⟨s, hf, w⟩ := h1 hv
      refine ⟨_, by simp only [Node.fmt, isRef_nil, Node.isRef_ref, ne_eq, not_true_eq_false, if_false, Bool.false_eq_true, if_true, hf]; rfl, ?_⟩
      refine ((w.append (W.comma'.append W.newline any_le) (is_le (by decide))).mono any_le le_refl').cast (by simp) ?_
      simp [Node.toks, isRef_nil]
    · exact ⟨s, by simp [Node.fmt, Node.isRef_ref, hf], w.cast rfl (by simp [Node.toks, Node.isRef_ref])⟩
  · refine ⟨e, by simp [Node.fmt, he], ?_⟩
    rcases W.blank hw with ⟨h, -⟩ | h
    · exact absurd h he
    · exact h.cast rfl (by simp [Node.toks, he])

omit [FloatText] in
theorem W.indents {l : List (Str × List Token)} (h : ∀ x ∈ l, W anyC anyC x.1 x.2) :
    W₀ anyC anyC ((l.map (·.1)).map (Etx.indent · tab)).flatten (l.map (·.2)).flatten := by
  have := W.all (l := l.map fun x => (Etx.indent x.1 tab, x.2)) (fun x hx => by
    obtain ⟨y, hy, rfl⟩ := List.mem_map.mp hx
    exact (h y hy).indent')
  simpa [Function.comp_def] using this

theorem fmts_valueList [FloatValue] {m : Meta} {x : Node (.slice .listItem)} (h1 : Fmts (.slice .listItem) x) :
    Fmts .valueList (.valueList m x) := by
  obtain ⟨l, e1, e2, e3, e4, e5⟩ := gatherSlice h1 (P := W anyC anyC) (fun y _ h => h)
  by_cases hl : l = []
  · refine ⟨_, by simp only [Node.fmt, e4, hl, List.length_nil, if_true]; rfl, ?_⟩
    exact ((W.lbracket.append W.rbracket any_le).mono (is_le (by decide)) any_stop).cast rfl (by simp [Node.toks, e5.mpr hl])
  · have hn : x.isNilSlice = false := by rw [← Bool.not_eq_true]; exact fun h => hl (e5.mp h)
    refine ⟨_, by simp only [Node.fmt, e4, List.length_eq_zero_iff, hl, if_false, e1]; rfl, ?_⟩
    rcases W.indents e3 with ⟨h, h'⟩ | h
    · refine ((W.lbracket.append (W.newline.append W.rbracket any_le) any_le).mono (is_le (by decide)) any_stop).cast ?_ ?_
      · simp only [h]; rfl
      · simp only [Node.toks, hn, e2, h']; rfl
    · refine ((W.lbracket.append (W.newline.append (h.append W.rbracket any_le) any_le) any_le).mono (is_le (by decide)) any_stop).cast ?_ ?_
      · simp
      · simp [Node.toks, hn, e2]

theorem fmts_valueMap {m : Meta} {x : Node (.slice .mapItem)} (ht : (Node.valueMap m x).tidy = true) : Fmts .valueMap (.valueMap m x) := by
  simp only [Node.tidy] at ht
  have hx : x = .nilSlice := by
    cases x with
    | nilSlice => rfl
    | mkSlice => simp [Node.isNilSlice] at ht
  subst hx
  refine ⟨c!"{}", by simp [Node.fmt, Node.len], ?_⟩
  exact ((W.lbrace.append W.close any_le).mono (is_le (by decide)) any_stop).cast rfl (by simp [Node.toks, Node.isNilSlice, braces])

theorem fmts_value [FloatValue] {m : Meta} {n : Bool} {b : Node (.ptr .valueBool)} {nu : Node (.ptr .valueNumber)}
    {s : Node (.ptr .valueString)} {h : Node (.ptr .heredoc)} {l : Node (.ptr .valueList)} {o : Node (.ptr .valueMap)}
    (hs : (Node.value m n b nu s h l o).shaped = true) (ht : (Node.value m n b nu s h l o).tidy = true)
    (h1 : Fmts (.ptr .valueBool) b) (h2 : Fmts (.ptr .valueNumber) nu) (h3 : Fmts (.ptr .valueString) s)
    (h5 : Fmts (.ptr .valueList) l) (h6 : Fmts (.ptr .valueMap) o) : Fmts .value (.value m n b nu s h l o) := by
  simp only [Node.shaped] at hs
  simp only [Node.tidy, Bool.not_eq_true'] at ht
  cases n with
  | true =>
    refine ⟨c!"null", by simp [Node.fmt], ?_⟩
    refine ((W.ident (w := c!"null") (by decide)).mono alpha_operand ?_).cast rfl (by simp [Node.toks])
    intro c hc
    unfold endC at hc
    split at hc
    · exact stop_le c hc
    · exact hc
  | false =>
    have le : ∀ b c, endC b c = true → stopI c = true := by
      intro b c hc
      unfold endC at hc
      split at hc
      · exact stop_le c hc
      · exact hc
    rcases h1 with rfl | ⟨b, rfl, -, t, hf, w⟩
    · rcases h2 with rfl | ⟨nu, rfl, -, t, hf, w⟩
      · rcases h3 with rfl | ⟨s, rfl, -, t, hf, w⟩
        · rcases h5 with rfl | ⟨l, rfl, -, t, hf, w⟩
          · obtain ⟨o, rfl, -, t, hf, w⟩ := h6.ptr (by simpa [Node.one, isRef_nil, ht, List.count_cons] using hs)
            exact ⟨t, by simp [Node.fmt, isRef_nil, Node.isRef_ref, ht, hf],
              (w.mono le_refl' (le _)).cast rfl (by simp [Node.toks, isRef_nil, ht])⟩
          · exact ⟨t, by simp [Node.fmt, isRef_nil, Node.isRef_ref, ht, hf],
              (w.mono le_refl' (le _)).cast rfl (by simp [Node.toks, isRef_nil, Node.isRef_ref, ht])⟩
        · exact ⟨t, by simp [Node.fmt, isRef_nil, Node.isRef_ref, ht, hf],
            (w.mono le_refl' (le _)).cast rfl (by simp [Node.toks, isRef_nil, Node.isRef_ref, ht])⟩
      · exact ⟨t, by simp [Node.fmt, isRef_nil, Node.isRef_ref, ht, hf],
          w.cast rfl (by simp [Node.toks, isRef_nil, Node.isRef_ref, ht])⟩
    · exact ⟨t, by simp [Node.fmt, isRef_nil, Node.isRef_ref, ht, hf],
        (w.mono le_refl' (le _)).cast rfl (by simp [Node.toks, isRef_nil, Node.isRef_ref, ht])⟩

end Verif.Etx
