import Verif.Etx.Layout
import Verif.Etx.StopLemmas

/-!
# The texts of single tokens
-/

namespace Verif.Etx

open Re

/-- What may follow an identifier. -/
def stopI (c : Char) : Bool := !isWord c && c ≠ '-'

/-- What may follow a number. -/
def stopN (c : Char) : Bool := stopI c && (c ≠ '.' && c ≠ '+')

/-- What an operand begins with. -/
def operand (c : Char) : Bool := isAlpha c || isDigitSep c || ['.', '"', '[', '{'].contains c

/-- What an expression begins with. -/
def opening (c : Char) : Bool := operand c || ['+', '-', '!', '~'].contains c

/-- Anything. -/
def anyC (_ : Char) : Bool := true

/-- The text of an identifier that does not begin with a keyword. -/
def identOk (w : Str) : Bool :=
  match w.splitOn '-' with
  | (c :: a) :: ps =>
    isAlpha c && a.all isWord && ps.all (fun p => decide (p ≠ []) && p.all isWord) && !(keywords.map (·.1)).contains (c :: a)
  | _ => false

/-- The text of a number. -/
def numberOk (w : Str) : Bool :=
  w.head?.any (fun c => isDigitSep c || c = '.') && decide (reNumber.first w = some ⟨w, some w, []⟩)

theorem stopN_stopI {c : Char} (h : stopN c = true) : stopI c = true := by
  simp only [stopN, Bool.and_eq_true] at h; exact h.1

theorem endsWord_of {y : Str} (h : ∀ c ∈ y.head?, stopI c = true) : EndsWord y := by
  refine ⟨fun c hc => ?_, ?_⟩
  · have := h c hc
    simp only [stopI, Bool.and_eq_true, Bool.not_eq_true'] at this
    exact this.1
  · rintro c u rfl
    exact absurd (h '-' rfl) (by decide)

theorem dashed_intercalate (c : Str) (ps : List Str) : ['-'].intercalate (c :: ps) = c ++ dashed ps := by
  induction ps generalizing c with
  | nil => simp [dashed, List.intercalate]
  | cons p ps ih =>
    have := ih p
    simp only [List.intercalate] at this ⊢
    rw [List.intersperse_cons_cons]
    simp only [List.flatten_cons, this, dashed, List.map_cons]
    simp

theorem identOk_spec {w : Str} (h : identOk w = true) :
    IsIdent w ∧ w.takeWhile isWord ∉ keywords.map (·.1) ∧ '\n' ∉ w ∧ ∀ c ∈ w.head?, isAlpha c = true := by
  have hw : ['-'].intercalate (w.splitOn '-') = w := List.intercalate_splitOn ..
  unfold identOk at h
  split at h
  · rename_i c a ps e
    rw [e, dashed_intercalate] at hw
    simp only [Bool.and_eq_true, List.all_eq_true, decide_eq_true_eq, Bool.not_eq_true', ← Bool.not_eq_true,
      List.contains_iff_mem] at h
    obtain ⟨⟨⟨hc, ha⟩, hp⟩, hk⟩ := h
    have e1 := takeWhile_stop (p := isWord) (l := c :: a) (r := dashed ps)
      (by simpa [alpha_word hc] using ha) (by simpa using head_dashed_append ps [] (by simp))
    rw [← hw]
    refine ⟨.mk c a ps hc ha hp, by rw [e1.1]; exact hk, ?_, by simpa using hc⟩
    have hnl : isWord '\n' = false := by decide
    simp only [List.mem_append, List.mem_cons, dashed, List.mem_flatten, List.mem_map, not_or, not_exists, not_and]
    refine ⟨⟨?_, fun hm => ?_⟩, ?_⟩
    · rintro rfl; revert hc; decide
    · have := ha _ hm; rw [hnl] at this; cases this
    · rintro x ⟨p, hpm, rfl⟩ hm
      simp only [List.mem_cons] at hm
      rcases hm with hm | hm
      · revert hm; decide
      · have := (hp p hpm).2 _ hm; rw [hnl] at this; cases this
  · cases h

theorem digit_cases {c : Char} (h : isDigit c = true) : c ∈ c!"0123456789" := by
  have key : ∀ n ∈ List.range' 48 10, Char.ofNat n ∈ c!"0123456789" := by decide
  have h1 : 48 ≤ c.toNat ∧ c.toNat ≤ 57 := by
    simp only [isDigit, Bool.and_eq_true, decide_eq_true_eq] at h
    exact h
  have := key c.toNat (by rw [List.mem_range'_1]; omega)
  rwa [Char.ofNat_toNat] at this

namespace Writes

variable {st : Stack}

theorem ident (hst : Plain st) {w : Str} (h : identOk w = true) : Writes st st isAlpha stopI w [(.ident, w)] := by
  obtain ⟨h1, h2, h3, h4⟩ := identOk_spec h
  refine of_token ?_ h4 (by decide) h3 fun y hy => C42_ident_partial st w y hst h1 h2 (endsWord_of hy)
  rintro rfl
  cases h

theorem keyword (hst : Plain st) {w : Str} {sym : Sym} (h : (w, sym) ∈ keywords) : Writes st st isAlpha stopI w [(sym, w)] := by
  have key : ∀ k ∈ keywords, k.1 ≠ [] ∧ (∀ c ∈ k.1.head?, isAlpha c = true) ∧ k.2 ≠ .whitespace ∧ '\n' ∉ k.1 := by decide
  obtain ⟨h1, h2, h3, h4⟩ := key _ h
  exact of_token h1 h2 h3 h4 fun y hy => C42_keywords st w sym y hst h (endsWord_of hy).1

/-- The characters that may follow an operator. -/
def _root_.Verif.Etx.afterOp (w : Str) (c : Char) : Bool :=
  !(operators.any fun o => (w ++ [c]).isPrefixOf o.1) && !(w = c!"." && isDigitSep c) && !(w = c!"/" && (c = '/' || c = '*')) &&
    !(w = c!"<<" && (isWord c || c = '-'))

theorem op (hst : Plain st) {w : Str} {sym : Sym} (h : (w, sym) ∈ operators) :
    Writes st st (fun c => w.head?.any (· = c)) (afterOp w) w [(sym, w)] := by
  have key : ∀ k ∈ operators, k.1 ≠ [] ∧ k.2 ≠ .whitespace ∧ '\n' ∉ k.1 ∧ k.1.length ≤ 2 ∧
      (c!"//" <+: k.1 → False) ∧ (c!"/*" <+: k.1 → False) := by decide
  obtain ⟨h1, h2, h3, h4, h5, h6⟩ := key _ h
  refine of_token h1 (by intro c hc; simp [Option.mem_def.mp hc]) h2 h3 fun y hy => C43_longest_partial st w y sym hst h ?_ ?_
  · intro o ho hp
    by_contra hlt
    simp only [Nat.not_le] at hlt
    obtain ⟨t, ht⟩ := hp
    have hpre : w <+: o := List.prefix_of_prefix_length_le (List.prefix_append w y) (ht ▸ List.prefix_append o t) (by omega)
    obtain ⟨u, rfl⟩ := hpre
    cases u with
    | nil => simp at hlt
    | cons c u =>
      rw [List.append_assoc, List.append_cancel_left_eq] at ht
      have hc := hy c (by rw [← ht]; rfl)
      simp only [afterOp, Bool.and_eq_true, Bool.not_eq_true'] at hc
      have := hc.1.1.1
      rw [List.any_eq_false] at this
      simp only [List.mem_map] at ho
      obtain ⟨o', ho', e⟩ := ho
      refine this o' ho' ?_
      rw [e, List.isPrefixOf_iff_prefix]
      exact ⟨u, by simp⟩
  · have cut : ∀ a b : Char, ∀ z, w ++ y = a :: b :: z → (∃ u, w = a :: b :: u) ∨ (w = [a] ∧ y = b :: z) := by
      intro a b z e
      match w, h1 with
      | [c], _ => simp at e; right; simp [e]
      | c :: d :: u, _ => simp at e; left; exact ⟨u, by simp [e]⟩
    have hy' : ∀ c z, y = c :: z → afterOp w c = true := fun c z e => hy c (by simp [e])
    rintro (⟨z, e⟩ | ⟨⟨z, e⟩, -⟩ | ⟨d, z, e, hd⟩ | ⟨d, z, e, hd⟩ | ⟨c, z, e, hc⟩)
    · rcases cut _ _ _ e.symm with ⟨u, rfl⟩ | ⟨rfl, rfl⟩
      · exact h5 ⟨u, rfl⟩
      · have := hy' _ _ rfl; revert this; decide
    · rcases cut _ _ _ e.symm with ⟨u, rfl⟩ | ⟨rfl, rfl⟩
      · exact h6 ⟨u, rfl⟩
      · have := hy' _ _ rfl; revert this; decide
    · obtain ⟨hd, hw⟩ := hd
      obtain ⟨d0, d, rfl⟩ := List.exists_cons_of_ne_nil hd
      have hw0 := hw d0 (by simp)
      rcases cut '<' '<' _ (by simpa using e) with ⟨u, rfl⟩ | ⟨rfl, rfl⟩
      · simp at h4
        subst h4
        simp at e
        have := hy' _ _ e
        simp [afterOp, hw0] at this
      · have := hy' _ _ rfl; revert this; decide
    · rcases cut '<' '<' _ (by simpa using e) with ⟨u, rfl⟩ | ⟨rfl, rfl⟩
      · simp at h4
        subst h4
        simp at e
        have := hy' _ _ e
        simp [afterOp] at this
      · have := hy' _ _ rfl; revert this; decide
    · rcases cut _ _ _ e with ⟨u, rfl⟩ | ⟨rfl, rfl⟩
      · have : ∀ k ∈ operators, k.1.head? = some '.' → k.1 = c!"." := by decide
        have := this _ h rfl
        simp at this
      · have := hy' _ _ rfl
        simp [afterOp, isDigitSep] at this
        rcases hc with hc | rfl
        · simp [hc] at this
        · simp at this

theorem number (hst : Plain st) {w : Str} (h : numberOk w = true) :
    Writes st st (fun c => isDigitSep c || c = '.') stopN w [(.number, w)] := by
  simp only [numberOk, Bool.and_eq_true, decide_eq_true_eq] at h
  obtain ⟨h1, h2⟩ := h
  obtain ⟨state, g, below, hst⟩ := hst
  cases w with
  | nil => simp at h1
  | cons c w =>
    simp only [List.head?_cons, Option.any_some] at h1
    have hchars : ∀ d ∈ c :: w, reNumber.chars d = true := reNumber.run_chars none _ _ (List.mem_of_head? h2)
    refine of_token (by simp) (by simpa using h1) (by decide) ?_ fun y hy => ?_
    · intro hn
      have := hchars _ hn
      rw [number_chars _ (by decide) (by decide) (by decide) (by decide)] at this
      cases this
    · have hf : reNumber.first (c :: w ++ y) = some ⟨c :: w, some (c :: w), y⟩ := by
        rw [Re.first_before rfl ?_, h2]
        · rfl
        · intro d hd
          have := hy d hd
          simp only [stopN, stopI, Bool.and_eq_true, Bool.not_eq_true', decide_eq_true_eq] at this
          exact number_chars d this.1.1 this.1.2 this.2.2 this.2.1
      refine TokenOf.of_firstRule (r := rule .number reNumber) (m := ⟨c :: w, some (c :: w), y⟩) ?_ (by simp) rfl
      rw [List.cons_append, firstRule_filter]
      have : ∃ rs, (rulesOf state).filter (Rule.can g c) = rule .number reNumber :: rs := by
        have hc : c ∈ c!"0123456789_." := by
          simp only [isDigitSep, Bool.or_eq_true, decide_eq_true_eq] at h1
          rcases h1 with (h1 | rfl) | rfl
          · exact List.mem_append_left (bs := c!"_.") (digit_cases h1)
          · decide
          · decide
        have key : ∀ c ∈ c!"0123456789_.", ((rulesOf .root).filter (Rule.can g c)).head? = some (rule .number reNumber) ∧
            ((rulesOf .stringExpr).filter (Rule.can g c)).head? = some (rule .number reNumber) := by
          intro c hc
          simp only [List.mem_cons, List.not_mem_nil, or_false] at hc
          rcases hc with rfl | rfl | rfl | rfl | rfl | rfl | rfl | rfl | rfl | rfl | rfl | rfl <;> exact ⟨rfl, rfl⟩
        have := key c hc
        rcases hst with rfl | rfl
        · obtain ⟨rs, h⟩ := List.head?_eq_some_iff.mp this.1; exact ⟨rs, h⟩
        · obtain ⟨rs, h⟩ := List.head?_eq_some_iff.mp this.2; exact ⟨rs, h⟩
      obtain ⟨rs, this⟩ := this
      rw [this]
      exact firstRule_hit hf

theorem closeBrace {g : Str} {below : Stack} :
    Writes ((.root, g) :: below) ((.root, g) :: below) (fun c => c = '}') anyC c!"}" [(.blockEnd, c!"}")] := by
  refine of_token (by simp) (by simp) (by decide) (by decide) fun y _ => ?_
  refine TokenOf.of_firstRule (r := rule .blockEnd (lit c!"}")) (m := ⟨c!"}", none, y⟩) ?_ (by simp) rfl
  rw [List.cons_append, firstRule_filter]
  have : (rulesOf .root).filter (Rule.can g '}') = [rule .blockEnd (lit c!"}")] := rfl
  rw [this, firstRule_lit]
  simp

end Writes

end Verif.Etx
