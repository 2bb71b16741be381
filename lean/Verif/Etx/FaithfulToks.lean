import Verif.Etx.FaithfulKinds

/-!
# What the structs with tokens of their own keep
-/

namespace Verif.Etx
open Node Gram

variable [FloatValue]

/-- An operator: its type is known from its text. -/
def opSym (y : Sym) : Bool :=
  match y.word with
  | some v => decide (v ≠ [] ∧ symOf v = y ∧ word y v = [(y, v)])
  | none => false

omit [FloatValue] in
theorem flat_ops (ys : List Sym) (h0 : ys ≠ []) (hy : ∀ y ∈ ys, opSym y = true) {u : List Word} {o : Out}
    (h : Flat (Gram.al (ys.map tok)) u o) : ∃ w, w ≠ [] ∧ u = word (symOf w) w ∧ o = ⟨[w], []⟩ := by
  have one : ∀ y ∈ ys, ∀ u o, Flat (tok y) u o → ∃ w, w ≠ [] ∧ u = word (symOf w) w ∧ o = ⟨[w], []⟩ := by
    intro y hm u o h
    have hy := hy y hm
    unfold opSym at hy
    cases hv : y.word with
    | none => rw [hv] at hy; cases hy
    | some v =>
      rw [hv] at hy
      obtain ⟨h2, h3, h4⟩ := of_decide_eq_true hy
      rw [flat_tok] at h
      obtain ⟨w, hw, -, rfl, rfl⟩ := h
      obtain rfl := exact_word hw hv
      exact ⟨w, h2, by rw [h3], rfl⟩
  clear hy
  induction ys with
  | nil => exact absurd rfl h0
  | cons y ys ih =>
    cases ys with
    | nil => exact one y (by simp) _ _ h
    | cons z ys =>
      rw [show Gram.al ((y :: z :: ys).map tok) = alt (tok y) (Gram.al ((z :: ys).map tok)) from rfl, flat_alt] at h
      rcases h with h | h
      · exact one y (by simp) _ _ h
      · exact ih (by simp) h fun y hy => one y (by simp [hy])

omit [FloatValue] in
theorem flat_unaryOp {u : List Word} {o : Out} (h : Flat (Gram.al (unaryOp.map tok)) u o) :
    ∃ w, w ≠ [] ∧ u = word (symOf w) w ∧ o = ⟨[w], []⟩ :=
  flat_ops _ (by decide) (by decide +kernel) h

omit [FloatValue] in
theorem flat_binOp {l : Level} {u : List Word} {o : Out} (h : Flat (Gram.al ((binOp l).map tok)) u o) :
    ∃ w, w ≠ [] ∧ u = word (symOf w) w ∧ o = ⟨[w], []⟩ :=
  flat_ops _ (by cases l <;> decide) (by cases l <;> decide +kernel) h

theorem faithful_unary : Faithful .unary := by
  flat_start
  · flat_done
  · intro h
    obtain ⟨w, h0, rfl, rfl⟩ := flat_unaryOp h
    repeat' flat_step
    subst_vars
    simp [build, out_append]
    intro h
    subst h
    simp [toks, h0, words_tk, typed]
    same

theorem faithful_bin (l : Level) : Faithful (.bin l) := by
  flat_start
  · flat_done
  · intro h
    obtain ⟨w, h0, rfl, rfl⟩ := flat_binOp h
    repeat' flat_step
    subst_vars
    simp [build, out_append, ptrOf]
    intro h
    subst h
    simp [toks, words_append, words_tk, typed, Node.isRef]
    same

omit [FloatValue] in
theorem flat_parts {u : List Word} {o : Out} (h : Flat (star (seq (lit c!".") (cap .parts (tok .ident)))) u o) :
    ∃ t l, o = ⟨t, capStrs .parts l⟩ ∧ u = l.flatMap fun w => [(.dot, c!"."), (.ident, w)] := by
  refine flat_star (P := fun u o => ∃ t l, o = ⟨t, capStrs .parts l⟩ ∧ u = l.flatMap fun w => [(.dot, c!"."), (.ident, w)])
    ⟨[], [], rfl, rfl⟩ ?_ h
  intro u1 u2 o1 o2 h
  revert h
  repeat' flat_step
  subst_vars
  rintro ⟨t, l, rfl, rfl⟩
  rename_i w _ _
  exact ⟨_, w :: l, rfl, rfl⟩

omit [FloatValue] in
theorem words_parts (w : Str) (l : List Str) : words (sepBy [tk .dot c!"."] ((w :: l).map fun w => [tk .ident w])) =
    (.ident, w) :: l.flatMap fun w => [(.dot, c!"."), (.ident, w)] := by
  induction l generalizing w with
  | nil => rfl
  | cons v l ih =>
    rw [List.map_cons, List.map_cons, sepBy, words_append, words_append]
    · have := ih v
      rw [List.map_cons] at this
      rw [this]
      rfl
    · simp

omit [FloatValue] in
theorem strsOf_list (l : List Str) : (strsOf l).list = l := by cases l <;> rfl

theorem faithful_ident : Faithful .ident := by
  intro u o m x
  simp only [Gram.of, Gram.sq]
  intro h
  rw [flat_seq] at h
  obtain ⟨u1, u2, o1, o2, rfl, rfl, h1, h2⟩ := h
  have : ∃ t l, o2 = ⟨t, capStrs .parts l⟩ ∧ u2 = l.flatMap fun w => [(.dot, c!"."), (.ident, w)] := by
    rw [flat_opt] at h2
    rcases h2 with ⟨rfl, rfl⟩ | h2
    · exact ⟨[], [], rfl, rfl⟩
    · exact flat_parts h2
  obtain ⟨t, l, rfl, rfl⟩ := this
  rw [flat_cap] at h1
  obtain ⟨o', rfl, h1⟩ := h1
  rw [flat_tok] at h1
  obtain ⟨w, -, -, rfl, rfl⟩ := h1
  rintro ⟨⟩
  refine ⟨?_, trivial⟩
  have e : (⟨[w], [.toks .parts [w]]⟩ ++ ⟨t, capStrs .parts l⟩ : Out).strs .parts = strsOf (w :: l) := by
    rw [out_append]
    simp
  simp only [toks]
  rw [e, strsOf_list, words_parts]
  exact SameWords.refl _

omit [FloatValue] in
theorem flat_singles {u : List Word} {o : Out} (h : Flat (star (seq (cap .singleLine (tok .singleLineComment)) lf?)) u o) :
    ∃ t l, o = ⟨t, capStrs .singleLine l⟩ ∧ u = l.map fun w => (.singleLineComment, w) := by
  refine flat_star (P := fun u o => ∃ t l, o = ⟨t, capStrs .singleLine l⟩ ∧ u = l.map fun w => (.singleLineComment, w))
    ⟨[], [], rfl, rfl⟩ ?_ h
  rintro u1 u2 o1 o2 h ⟨t, l, rfl, rfl⟩
  rw [flat_seq] at h
  obtain ⟨u1, u2, o1, o2, rfl, rfl, h1, h2⟩ := h
  rw [flat_cap] at h1
  obtain ⟨o', rfl, h1⟩ := h1
  rw [flat_tok] at h1
  obtain ⟨w, -, -, rfl, rfl⟩ := h1
  obtain ⟨rfl, t, rfl, -⟩ := flat_lf? h2
  exact ⟨_, w :: l, rfl, rfl⟩

omit [FloatValue] in
theorem words_singles (l : List Str) : words (l.flatMap fun w => [tk .singleLineComment w, lfTok]) =
    l.map fun w => (.singleLineComment, w) := by
  induction l with
  | nil => rfl
  | cons w l ih => rw [List.flatMap_cons, words_append, ih]; rfl

theorem faithful_comment : Faithful .comment := by
  intro u o m x
  simp only [Gram.of, Gram.sq, Gram.al]
  intro h
  rw [flat_alt] at h
  rcases h with h | h
  · rw [flat_plus] at h
    obtain ⟨u1, u2, o1, o2, rfl, rfl, h1, h2⟩ := h
    obtain ⟨t, l, rfl, rfl⟩ := flat_singles h2
    rw [flat_seq] at h1
    obtain ⟨u1, u2, o1, o2, rfl, rfl, h1, h3⟩ := h1
    rw [flat_cap] at h1
    obtain ⟨o', rfl, h1⟩ := h1
    rw [flat_tok] at h1
    obtain ⟨w, -, -, rfl, rfl⟩ := h1
    obtain ⟨rfl, t, rfl, -⟩ := flat_lf? h3
    rintro ⟨⟩
    refine ⟨?_, trivial⟩
    simp only [out_append, Out.str_mk, Out.strs_mk]
    simp only [toks, List.append_nil, List.cons_append, List.nil_append]
    rw [if_neg (by simp)]
    rw [strs_same, strs_capStrs, strsOf_list, words_singles]
    exact SameWords.refl _
  · rw [flat_cap] at h
    obtain ⟨o', rfl, h⟩ := h
    rw [flat_seq] at h
    obtain ⟨u1, u2, o1, o2, rfl, rfl, h1, h2⟩ := h
    rw [flat_tok] at h1
    obtain ⟨w, hw, -, rfl, rfl⟩ := h1
    obtain ⟨rfl, t, rfl, ht⟩ := flat_lf? h2
    have hw : w.head? = some '/' ∧ w.getLast? = some '/' := by simpa [Sym.exact, Sym.word] using hw
    have h0 : w ≠ [] := by rintro rfl; simp at hw
    rintro ⟨⟩
    refine ⟨?_, trivial⟩
    rcases ht with rfl | rfl | rfl
    · simp [toks, out_append, h0, multilineToks, hw, words_tk, words_nil]
      exact SameWords.refl _
    · simp [toks, out_append, h0, multilineToks, words_tk, words_nil, words_lf]
      exact SameWords.refl _
    · simp [toks, out_append, h0, multilineToks, words_tk, words_nil, word, hw]
      exact SameWords.refl _

end Verif.Etx
