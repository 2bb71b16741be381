import Verif.Etx.Formatted

/-!
# What the formatted text of a document is read as
-/

namespace Verif.Etx
open Gram

set_option linter.unusedSimpArgs false

/-! ## The items in general -/

section

variable {k : Kind} {mk : Str → Node k} {re : Node k → Node k} {more : Str}

theorem respace_ne (l : List (Node k)) (pend : Str) (h : l ≠ [] ∨ pend ≠ []) : respace mk re more pend l ≠ [] := by
  induction l generalizing pend with
  | nil =>
    have hp : pend ≠ [] := by simpa using h
    simp [respace, flush, hp]
  | cons x l ih =>
    simp only [respace]
    split
    · exact ih _ (.inr (by simp))
    · split <;> simp

/-- Which items there are. -/
theorem mem_respace {P : Node k → Prop} (hmk : ∀ e, e ≠ [] → Node.blank e = true → P (mk e)) (hm : Node.blank more = true) (l : List (Node k))
    (hl : ∀ x ∈ l, Node.blank x.blankOf = true ∧ (x.blankOf = [] → P (re x))) (pend : Str) (hp : Node.blank pend = true) :
    ∀ x ∈ respace mk re more pend l, P x := by
  have hflush : ∀ pend, Node.blank pend = true → ∀ x ∈ flush mk pend, P x := by
    intro pend hp x hx
    unfold flush at hx
    split at hx
    · cases hx
    · rename_i h
      simp only [List.mem_cons, List.not_mem_nil, or_false] at hx
      exact hx ▸ hmk _ h hp
  induction l generalizing pend with
  | nil => exact hflush pend hp
  | cons x l ih =>
    have ih := ih fun y hy => hl y (by simp [hy])
    obtain ⟨hx, hx'⟩ := hl x (by simp)
    have hs : Node.blank (if l.isEmpty then [] else more) = true := by split <;> [rfl; exact hm]
    have hb : ∀ s, Node.blank s = true → Node.blank ('\n' :: s) = true := by intro s h; simpa [Node.blank] using h
    have ha : ∀ s t, Node.blank s = true → Node.blank t = true → Node.blank (s ++ t) = true := by
      intro s t h1 h2; simp only [Node.blank, List.all_append, Bool.and_eq_true] at *; exact ⟨h1, h2⟩
    simp only [respace]
    split
    · exact ih _ (ha _ _ (ha _ _ hp hx) (hb _ hs))
    · rename_i h
      simp only [ne_eq, not_not] at h
      split <;> intro y hy <;> simp only [List.mem_append, List.mem_cons] at hy
      · rcases hy with hy | rfl | hy
        · exact hflush pend hp y hy
        · exact hx' h
        · exact ih _ (hb _ hs) y hy
      · rcases hy with hy | rfl | hy
        · exact hflush pend hp y hy
        · exact hx' h
        · exact ih _ hs y hy

/-- The first token. -/
theorem head_respace (hmk : ∀ e, e ≠ [] → (mk e).toks = blankToks e) (l : List (Node k))
    (hl : ∀ x ∈ l, if x.blankOf ≠ [] then x.toks = blankToks x.blankOf else ∃ t u v, (re x).toks = t :: u ∧ x.toks = t :: v)
    (pend : Str) (r : List Token) :
    (((respace mk re more pend l).map Node.toks).flatten ++ r).head? = (blankToks pend ++ (l.map Node.toks).flatten ++ r).head? := by
  have hflush : ∀ pend, ((flush mk pend).map Node.toks).flatten = blankToks pend := by
    intro pend
    unfold flush
    split
    · rename_i h; subst h; rfl
    · rename_i h; simp [hmk _ h]
  induction l generalizing pend with
  | nil => simp [respace, hflush]
  | cons x l ih =>
    have ih := ih fun y hy => hl y (by simp [hy])
    have hx := hl x (by simp)
    simp only [respace]
    split
    · rename_i h
      rw [if_pos h] at hx
      rw [ih, List.map_cons, List.flatten_cons, hx]
      cases pend with
      | cons c p => rfl
      | nil =>
        cases e : x.blankOf with
        | nil => exact absurd e h
        | cons c e => rfl
    · rename_i h
      rw [if_neg h] at hx
      obtain ⟨t, u, v, h1, h2⟩ := hx
      split <;> simp [hflush, h1, h2]

/-- The items can follow each other. -/
theorem chain_respace (hk : k.isItem = true) (hmk : ∀ e, e ≠ [] → (mk e).toks = blankToks e ∧ ∀ r, headNot (·.sym = .lf) r = true → (mk e).follow r = true)
    (r : List Token) (hr : headNot (·.sym = .lf) r = true) (l : List (Node k))
    (hl : ∀ x ∈ l, if x.blankOf ≠ [] then x.toks = blankToks x.blankOf else
      (∃ t u v, (re x).toks = t :: u ∧ x.toks = t :: v ∧ t.sym ≠ .lf) ∧
      ∀ r, (if x.isRemark then r.head?.any (·.sym = .lf) = true else more ≠ [] ∨ x.follow r = true) → (re x).follow r = true)
    (hc : more = [] → (Out.items l).chain r = true) (pend : Str) :
    (Out.items (respace mk re more pend l)).chain r = true := by
  have hh : ∀ x ∈ l, if x.blankOf ≠ [] then x.toks = blankToks x.blankOf else ∃ t u v, (re x).toks = t :: u ∧ x.toks = t :: v := by
    intro x hx
    have := hl x hx
    split at this
    · rename_i h; rw [if_pos h]; exact this
    · rename_i h
      rw [if_neg h]
      obtain ⟨⟨t, u, v, h1, h2, -⟩, -⟩ := this
      exact ⟨t, u, v, h1, h2⟩
  have hflush : ∀ pend (s : List (Node k)), (Out.items s).chain r = true →
      headNot (·.sym = .lf) ((Out.items s).tokss.flatten ++ r) = true → (Out.items (flush mk pend ++ s)).chain r = true := by
    intro pend s h1 h2
    unfold flush
    split
    · exact h1
    · rename_i h
      simp only [List.cons_append, List.nil_append, Out.items, Node.chain, Bool.and_eq_true]
      exact ⟨by simpa only [Node.follow] using (hmk _ h).2 _ h2, h1⟩
  induction l generalizing pend with
  | nil =>
    simp only [respace]
    have := hflush pend [] rfl (by simpa [Out.items, Node.tokss] using hr)
    simpa using this
  | cons x l ih =>
    have ih := ih (fun y hy => hl y (by simp [hy])) (fun h => by
      have := hc h
      simp only [Out.items, Node.chain, Bool.and_eq_true] at this
      exact this.2) (hh := fun y hy => hh y (by simp [hy]))
    have hx := hl x (by simp)
    have hhead := head_respace (more := more) (fun e he => (hmk e he).1) l (fun y hy => hh y (by simp [hy]))
    simp only [respace]
    split
    · exact ih _
    · rename_i h
      rw [if_neg h] at hx
      obtain ⟨⟨t, u, v, h1, h2, h3⟩, h4⟩ := hx
      split
      · rename_i hrm
        simp only [hrm, if_true] at h4
        refine hflush _ _ ?_ ?_
        · simp only [Out.items, Node.chain, Node.follow, Bool.and_eq_true]
          refine ⟨h4 _ ?_, ih _⟩
          rw [tokss_items, hhead]
          rfl
        · simp [Out.items, Node.tokss, Node.toks, h1, headNot, h3]
      · rename_i hrm
        simp only [hrm, Bool.false_eq_true, if_false] at h4
        refine hflush _ _ ?_ ?_
        · simp only [Out.items, Node.chain, Node.follow, Bool.and_eq_true]
          refine ⟨h4 _ ?_, ih _⟩
          by_cases hm : more = []
          · right
            have := hc hm
            simp only [Out.items, Node.chain, Node.follow, Bool.and_eq_true] at this
            rw [← this.1]
            refine follow_head hk x ?_
            rw [tokss_items, tokss_items, hhead, hm]
            simp [blankToks]
          · exact .inl hm
        · simp [Out.items, Node.tokss, Node.toks, h1, headNot, h3]

/-- Which items are not blank lines. -/
theorem filter_respace (hmk : ∀ e, (mk e).blankOf = e) (hre : ∀ x, (re x).blankOf = x.blankOf) (l : List (Node k)) (pend : Str) :
    (respace mk re more pend l).filter (fun x => x.blankOf = []) = (l.filter (fun x => x.blankOf = [])).map re := by
  have hflush : ∀ pend, (flush mk pend).filter (fun x => x.blankOf = []) = [] := by
    intro pend
    unfold flush
    split
    · rfl
    · rename_i h; simp [hmk, h]
  induction l generalizing pend with
  | nil => simp [respace, hflush]
  | cons x l ih =>
    simp only [respace]
    split
    · rename_i h
      rw [ih, List.filter_cons_of_neg (by simpa using h)]
    · rename_i h
      simp only [ne_eq, not_not] at h
      rw [List.filter_cons_of_pos (by simpa using h), List.map_cons]
      split <;> rw [List.filter_append, hflush, List.nil_append, List.filter_cons_of_pos (by simp [hre, h]), ih]

end

/-! ## Statements and items -/

theorem blankStatement_toks {e : Str} (h : e ≠ []) : (blankStatement e).toks = blankToks e := by simp [blankStatement, Node.toks, h]
theorem blankItem_toks {e : Str} (h : e ≠ []) : (blankItem e).toks = blankToks e := by simp [blankItem, Node.toks, h]

section

variable [FloatValue]

theorem blankStatement_canon {e : Str} (h : e ≠ []) (hb : Node.blank e = true) : (blankStatement e).canon = true := by
  simp [blankStatement, Node.canon, Node.everywhere, Node.shaped, Node.writable, Node.one, isRef_nil, h, hb, Node.headTxtNot, Node.toks, headNot]

theorem blankItem_canon {e : Str} (h : e ≠ []) (hb : Node.blank e = true) : (blankItem e).canon = true := by
  simp [blankItem, Node.canon, Node.everywhere, Node.shaped, Node.writable, Node.one, isRef_nil, h, hb]

/-- A slice of canonical elements. -/
theorem canon_slice {k : Kind} {l : List (Node k)} (a : Nat) (hl : l ≠ []) (h : ∀ x ∈ l, x.set = true ∧ x.canon = true) :
    (Node.mkSlice a (Out.items l)).canon = true := by
  have h2 : (Out.items l).canon = true := by
    clear hl
    induction l with
    | nil => rfl
    | cons x l ih =>
      obtain ⟨h1, h2⟩ := h x (by simp)
      have ih := ih fun y hy => h y (by simp [hy])
      have e : (Node.cons (.ref x) (Out.items l)).canon = ((((Node.ref x).isRef && true) && ((x.set && true) && x.canon)) && (Out.items l).canon) := rfl
      rw [Out.items, e, h1, h2, ih, Node.isRef_ref]
      rfl
  have e : (Node.mkSlice a (Out.items l)).canon = ((decide ((Out.items l).len ≠ 0) && true) && (Out.items l).canon) := rfl
  rw [e, h2, Out.len_items]
  simp [hl]

/-- The first token of a struct pointed to. -/
theorem head_ptr {k : Kind} {p : Node (.ptr k)} (h : Reads (.ptr k) p) (hp : p.isRef = true)
    (hg : ∀ y : Node k, y.set = true → Reads k y → Good y) (hn : nullKind k = false := by rfl)
    (hlf : (starts k).contains .lf = false := by rfl) : ∃ t u, p.toks = t :: u ∧ t.sym ≠ .lf := by
  rcases h with rfl | ⟨y, rfl, hs, -, hy⟩
  · simp [isRef_nil] at hp
  · obtain ⟨t, u, h1, -, h2⟩ := (hg y hs hy).1 hn
    refine ⟨t, u, by rw [Node.toks]; exact h1, fun h => ?_⟩
    simp only [startOk, Bool.and_eq_true, h, hlf] at h2
    cases h2.1

omit [FloatValue] in
/-- A comment that ends with a line feed can be followed by line feeds. -/
theorem follow_lineComment {c : Node (.ptr .comment)} (h : c.lineComment = true) {r : List Token}
    (hr : r.head?.any (·.sym = .lf) = true) : c.follow r = true := by
  cases c with
  | nil => rfl
  | ref c =>
    cases c with
    | comment m s w =>
      cases r with
      | nil => cases hr
      | cons t r =>
        have ht : t.sym = .lf := by simpa using hr
        simp only [Node.follow]
        split
        · rename_i hw
          simp only [Node.lineComment, Node.isRef_ref, Node.toks, if_pos hw, multilineToks, Bool.not_true, Bool.false_or] at h
          split at h
          · rename_i hl; simp [hl]
          · simp [tk, lfTok] at h
        · simp [headNot, ht]

theorem statement_head {x : Node .funcStatement} (hc : x.canon = true) (hb : x.blankOf = []) :
    ∃ t u, x.toks = t :: u ∧ t.sym ≠ .lf := by
  cases x with
  | funcStatement m e c d y =>
    have hk := hc
    simp only [Node.canon, Node.everywhere, Node.shaped, Node.one, Node.writable, Bool.and_eq_true] at hk
    obtain ⟨⟨⟨⟨ho, -⟩, h1⟩, h2⟩, h3⟩ := hk
    simp only [Node.blankOf] at hb
    subst hb
    simp only [Node.toks, ne_eq, not_true_eq_false, if_false]
    split
    · exact head_ptr (reads_of_canon c h1) ‹_› (fun y hs hy => hy hs)
    · split
      · obtain ⟨t, u, h, h'⟩ := head_ptr (reads_of_canon d h2) ‹_› (fun y hs hy => hy hs)
        exact ⟨t, _, by rw [h]; rfl, h'⟩
      · have hy : y.isRef = true := by simpa [List.count_cons, *] using ho
        obtain ⟨t, u, h, h'⟩ := head_ptr (reads_of_canon y h3) hy (fun y hs hy => hy hs)
        exact ⟨t, _, by rw [h]; rfl, h'⟩

omit [FloatValue] in
theorem respaceFunc_toks (f : Node .func) : ∃ t u v, (respaceFunc f).toks = t :: u ∧ f.toks = t :: v ∧ t.sym ≠ .lf := by
  cases f with
  | func m l ps ret body => exact ⟨tk .ident c!"def", _, _, by rw [respaceFunc, Node.toks], by rw [Node.toks], by simp [tk]⟩

omit [FloatValue] in
theorem isRef_mapRef {k : Kind} (g : Node k → Node k) (x : Node (.ptr k)) : (mapRef g x).isRef = x.isRef := by
  cases x <;> simp [mapRef, isRef_nil, Node.isRef_ref]

theorem item_head {x : Node .rootItem} (hc : x.canon = true) (hb : x.blankOf = []) :
    ∃ t u v, (respaceItem x).toks = t :: u ∧ x.toks = t :: v ∧ t.sym ≠ .lf := by
  cases x with
  | rootItem m e d f t b a c =>
    have hk := hc
    simp only [Node.canon, Node.everywhere, Node.shaped, Node.one, Node.writable, Bool.and_eq_true] at hk
    obtain ⟨⟨⟨⟨⟨⟨⟨ho, -⟩, h1⟩, h2⟩, h3⟩, h4⟩, h5⟩, h6⟩ := hk
    simp only [Node.blankOf] at hb
    subst hb
    simp only [respaceItem, Node.toks, ne_eq, not_true_eq_false, if_false, isRef_mapRef]
    by_cases hcm : c.isRef = true
    · obtain ⟨t, u, h, h'⟩ := head_ptr (reads_of_canon c h6) hcm (fun y hs hy => hy hs)
      simp only [if_pos hcm]
      exact ⟨t, u, u, h, h, h'⟩
    by_cases hd : d.isRef = true
    · obtain ⟨t, u, h, h'⟩ := head_ptr (reads_of_canon d h1) hd (fun y hs hy => hy hs)
      simp only [if_neg hcm, if_pos hd]
      exact ⟨t, _, _, by rw [h]; rfl, by rw [h]; rfl, h'⟩
    by_cases hf : f.isRef = true
    · cases f with
      | nil => simp [isRef_nil] at hf
      | ref f =>
        obtain ⟨t, u, v, h1, h2, h3⟩ := respaceFunc_toks f
        simp only [if_neg hcm, if_neg hd, if_pos hf, mapRef, Node.toks]
        exact ⟨t, _, _, by rw [h1]; rfl, by rw [h2]; rfl, h3⟩
    by_cases ht : t.isRef = true
    · obtain ⟨t, u, h, h'⟩ := head_ptr (reads_of_canon t h3) ht (fun y hs hy => hy hs)
      simp only [if_neg hcm, if_neg hd, if_neg hf, if_pos ht]
      exact ⟨t, _, _, by rw [h]; rfl, by rw [h]; rfl, h'⟩
    by_cases hbr : b.isRef = true
    · obtain ⟨t, u, h, h'⟩ := head_ptr (reads_of_canon b h4) hbr (fun y hs hy => hy hs)
      simp only [if_neg hcm, if_neg hd, if_neg hf, if_neg ht, if_pos hbr]
      exact ⟨t, _, _, by rw [h]; rfl, by rw [h]; rfl, h'⟩
    have ha : a.isRef = true := by simpa [List.count_cons, *] using ho
    obtain ⟨t, u, h, h'⟩ := head_ptr (reads_of_canon a h5) ha (fun y hs hy => hy hs)
    simp only [if_neg hcm, if_neg hd, if_neg hf, if_neg ht, if_neg hbr]
    exact ⟨t, _, _, by rw [h]; rfl, by rw [h]; rfl, h'⟩

omit [FloatValue] in
theorem everywhere_tidy {k : Kind} {x : Node k} (h : x.neat = true) : x.tidy = true := by
  cases x <;> simp only [Node.neat, Node.everywhere, Bool.and_eq_true] at h <;> first | exact h | tauto

omit [FloatValue] in
/-- The elements of a slice of neat elements. -/
theorem neat_slice {k : Kind} {l : List (Node k)} {a : Nat} (h : (Node.mkSlice a (Out.items l)).neat = true) : ∀ x ∈ l, x.neat = true := by
  simp only [Node.neat, Node.everywhere, Bool.and_eq_true] at h
  replace h := h.2
  induction l with
  | nil => simp
  | cons x l ih =>
    simp only [Out.items, Node.everywhere, Bool.and_eq_true] at h
    intro y hy
    rcases List.mem_cons.mp hy with rfl | hy
    · exact h.1.2.2
    · exact ih h.2 y hy

/-! ## Functions -/

theorem respace_body {m : Meta} {w : Str} {x : Node (.slice .funcParameter)} {y : Node (.slice .parameterType)}
    {z : Node (.slice .funcStatement)} (hc : (Node.func m w x y z).canon = true) (hn : (Node.func m w x y z).neat = true) :
    (respaceFunc (.func m w x y z)).canon = true := by
  have hk := hc
  simp only [Node.canon, Node.everywhere, Node.shaped, Node.writable, Bool.and_eq_true] at hk
  obtain ⟨⟨⟨⟨hw, hch, hnb, hr⟩, h1⟩, h2⟩, h3⟩ := hk
  have hz := reads_of_canon z h3
  rcases hz with rfl | ⟨a, l, rfl, hl, hy⟩
  · exact hc
  simp only [respaceFunc, mapSlice, structs_items]
  have hneat : ∀ s ∈ l, s.neat = true := by
    have e : (Node.func m w x y (.mkSlice a (Out.items l))).neat =
      (((Node.tidy (.func m w x y (.mkSlice a (Out.items l))) && x.neat) && y.neat) && (Node.mkSlice a (Out.items l)).neat) := rfl
    rw [e, Bool.and_eq_true] at hn
    exact neat_slice hn.2
  have hh : ∀ s ∈ l, if s.blankOf ≠ [] then s.toks = blankToks s.blankOf else ∃ t u v, (id s).toks = t :: u ∧ s.toks = t :: v := by
    intro s hs
    split
    · cases s with
      | funcStatement m e c d y => simp only [Node.blankOf] at *; simp [Node.toks, *]
    · rename_i h
      obtain ⟨t, u, h1, -⟩ := statement_head (hy s hs).2.1 (by simpa using h)
      exact ⟨t, u, u, h1, h1⟩
  have hcanon : (Node.mkSlice a (Out.items (respace blankStatement id [] [] l))).canon = true := by
    refine canon_slice a (respace_ne l [] (.inl hl)) (mem_respace (fun e he hb => ⟨rfl, blankStatement_canon he hb⟩) rfl l (fun s hs => ⟨?_, fun _ => ?_⟩) [] rfl)
    · have := (hy s hs).2.1
      cases s with
      | funcStatement m e c d y =>
        simp only [Node.canon, Node.everywhere, Node.shaped, Node.writable, Bool.and_eq_true] at this
        exact this.1.1.1.2.1
    · exact ⟨(hy s hs).1, (hy s hs).2.1⟩
  have hchain : (Out.items (respace blankStatement id [] [] l)).chain [tk .blockEnd c!"}"] = true := by
    refine chain_respace rfl (fun e he => ⟨blankStatement_toks he, fun r hr => by simpa [blankStatement, Node.follow, he] using hr⟩) _ rfl l
      (fun s hs => ?_) (fun _ => by simpa [Node.chain] using hch) []
    split
    · have := hh s hs
      rwa [if_pos ‹_›] at this
    · rename_i h
      obtain ⟨t, u, h1, h2⟩ := statement_head (hy s hs).2.1 (by simpa using h)
      refine ⟨⟨t, u, u, h1, h1, h2⟩, fun r hr => ?_⟩
      split at hr
      · rename_i hrm
        have h3 := everywhere_tidy (hneat s hs)
        have h4 := (hy s hs).2.1
        cases s with
        | funcStatement m e c d y =>
          simp only [Node.blankOf, ne_eq, not_not] at h
          subst h
          simp only [Node.isRemark] at hrm
          simp only [Node.tidy] at h3
          simp only [Node.canon, Node.everywhere, Node.shaped, Node.writable, Bool.and_eq_true] at h4
          simp only [id, Node.follow, hrm, ne_eq, not_true_eq_false, if_false, if_true]
          exact follow_lineComment h3 hr
      · simpa using hr
  have hnoBlank : (Node.mkSlice a (Out.items (respace blankStatement id [] [] l))).noBlank = true := by
    have h4 := head_respace (mk := blankStatement) (more := []) (fun e he => blankStatement_toks he) l hh [] []
    simp only [Node.noBlank, Node.tokss, tokss_items] at hnb ⊢
    simp only [List.append_nil, blankToks, List.map_nil, List.nil_append] at h4
    rw [headNot_congr h4]
    exact hnb
  have e : ∀ z : Node (.slice .funcStatement), (Node.func m w x y z).canon =
    ((((Node.func m w x y z).shaped && (Node.func m w x y z).writable) && x.canon) && y.canon && z.canon) := fun _ => rfl
  rw [e, hcanon]
  simp only [Node.shaped, Node.writable, Bool.and_eq_true]
  exact ⟨⟨⟨⟨hw, by simpa only [Node.chain] using hchain, hnoBlank, hr⟩, h1⟩, h2⟩, trivial⟩

/-! ## Documents -/

theorem respaceItem_canon {x : Node .rootItem} (hc : x.canon = true) (hn : x.neat = true) : (respaceItem x).canon = true := by
  cases x with
  | rootItem m e d f t b a c =>
    cases f with
    | nil => exact hc
    | ref f =>
      cases f with
      | func m' w x y z =>
        have hf : (respaceFunc (.func m' w x y z)).canon = true := by
          simp only [Node.canon, Node.neat, Node.everywhere, Bool.and_eq_true] at hc hn
          refine respace_body ?_ ?_ <;> simp only [Node.canon, Node.neat, Node.everywhere, Bool.and_eq_true] <;> tauto
        have hs : (respaceFunc (.func m' w x y z)).set = true := rfl
        simp only [respaceItem, mapRef, Node.canon, Node.everywhere, Node.shaped, Node.writable, Bool.and_eq_true, Node.isRef_ref, hs] at hc hf ⊢
        tauto

theorem respaceDoc_ok {x : Node (.slice .rootItem)} (hc : x.canon = true) (hn : x.neat = true) :
    (respaceDoc x).canon = true ∧ (respaceDoc x).chain [] = true := by
  rcases reads_of_canon x hc with rfl | ⟨a, l, rfl, hl, hy⟩
  · exact ⟨hc, rfl⟩
  have hneat := neat_slice hn
  simp only [respaceDoc, mapSlice, structs_items]
  constructor
  · refine canon_slice a (respace_ne l [] (.inl hl)) (mem_respace (fun e he hb => ⟨rfl, blankItem_canon he hb⟩) rfl l (fun s hs => ⟨?_, fun _ => ?_⟩) [] rfl)
    · have := (hy s hs).2.1
      cases s with
      | rootItem m e d f t b a c =>
        simp only [Node.canon, Node.everywhere, Node.shaped, Node.writable, Bool.and_eq_true] at this
        exact this.1.1.1.1.1.1.2
    · exact ⟨by cases s; rfl, respaceItem_canon (hy s hs).2.1 (hneat s hs)⟩
  · rw [Node.chain]
    refine chain_respace rfl (fun e he => ⟨blankItem_toks he, fun r hr => by simpa [blankItem, Node.follow, he] using hr⟩) _ rfl l
      (fun s hs => ?_) (by intro h; cases h) []
    split
    · cases s with
      | rootItem m e d f t b a c => simp only [Node.blankOf] at *; simp [Node.toks, *]
    · rename_i h
      refine ⟨item_head (hy s hs).2.1 (by simpa using h), fun r hr => ?_⟩
      have h3 := everywhere_tidy (hneat s hs)
      have h4 := (hy s hs).2.1
      cases s with
      | rootItem m e d f t b a c =>
        simp only [Node.blankOf, ne_eq, not_not] at h
        subst h
        simp only [Node.tidy, Bool.and_eq_true, Bool.not_eq_true'] at h3
        simp only [Node.canon, Node.everywhere, Node.shaped, Node.writable, Bool.and_eq_true] at h4
        simp only [Node.isRemark] at hr
        simp only [respaceItem, Node.follow, ne_eq, not_true_eq_false, if_false]
        split
        · rename_i hrm
          exact follow_lineComment h3.2 (by simpa [hrm] using hr)
        · simp [h3]

end

/-! ## The text -/

theorem indentFrom_none (b : Bool) (s : Str) : indentFrom '\n' [] b s = s := by
  induction s generalizing b with
  | nil => rfl
  | cons c s ih => simp [indentFrom, ih]

/-- The tokens of a text that is written as it is read. -/
theorem W.lex {f p : Char → Bool} {s : Str} {ts : List Token} (h : W f p s ts) : ∃ us, lex s = some us ∧ sig us = sig ts := by
  have h1 := (h [(.root, [])] .root (.inl ⟨_, _, rfl⟩)).run [] [] (by simp) (by simp)
  rw [indentFrom_none, List.append_nil] at h1
  have h2 := h1.kinds .start .start
  rw [lexAll_nil] at h2
  have h3 : kinds (Etx.lex s) = some (sig ts) := h2.trans (by simp [kinds])
  cases hs : Etx.lex s with
  | none => rw [hs] at h3; cases h3
  | some us => rw [hs] at h3; exact ⟨us, rfl, Option.some.inj h3⟩

theorem lined_join (l : List Str) (h : l ≠ []) : lined c!"\n" l = join c!"\n\n" l ++ c!"\n" := by
  induction l with
  | nil => exact absurd rfl h
  | cons x l ih =>
    cases l with
    | nil => simp [lined, join]
    | cons y l =>
      have := ih (by simp)
      rw [lined, this]
      simp [join]

/-- A document is formatted as the text of the respaced document. -/
theorem fmt_doc [FloatValue] [FloatText] {t : AST} (hc : t.items.canon = true) (hn : t.items.neat = true) :
    ∃ s us, t.fmt = some s ∧ lex s = some us ∧ sig us = sig (respaceDoc t.items).tokss.flatten := by
  obtain ⟨a, x⟩ := t
  rcases fmts_of_neat x hc hn with rfl | ⟨b, l, rfl, hl, h⟩
  · exact ⟨[], [], by simp [AST.fmt, Node.len], rfl, by simp [respaceDoc, mapSlice, Node.tokss]⟩
  obtain ⟨ss, h1, h2⟩ := gatherLines (re := respaceItem) fun y hy => (h y hy).2
  have hss : ss ≠ [] := by rintro rfl; cases h2; exact hl rfl
  have h3 := W.respaced (mk := blankItem) (more := c!"\n") (fun e he => blankItem_toks he) (fun x hx => by
    cases x with
    | rootItem m e d f t b a c => simp only [Node.blankOf] at hx; simp [respaceItem, Node.toks, Node.blankOf, hx]) rfl h2 [] [] (.inl ⟨rfl, rfl⟩)
  rw [List.nil_append, lined_join _ hss] at h3
  rcases h3 with ⟨h3, -⟩ | h3
  · simp at h3
  obtain ⟨us, h4, h5⟩ := h3.lex
  refine ⟨_, us, ?_, h4, ?_⟩
  · have : (Node.mkSlice b (Out.items l)).len ≠ 0 := by simp [Node.len, Out.len_items, hl]
    simp only [AST.fmt, if_neg this, Node.texts, h1, Option.map_some]
  · rw [h5]
    simp only [respaceDoc, mapSlice, structs_items, Node.tokss, tokss_items]

end Verif.Etx
