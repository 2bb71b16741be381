import Verif.Props.Interpolation

/-! # Property C74: `\u` in strings -/

set_option linter.unusedSimpArgs false

namespace Verif.Etx
open Gram Re

variable [FloatValue]

/-- The document with one attribute, the value of which is a string with these fragments. -/
def fragDoc (k : Str) (l : List (Node .stringFragment)) : Node (.slice .rootItem) :=
  keyDoc k (stringExpr (.valueString noPos (sliceOf l)))

/-- A fragment that is an escaped character. -/
def unicodeFrag (w : Str) : Node .stringFragment := .stringFragment noPos [] w .nil .nil []

/-- A fragment that is text. -/
def textFrag (t : Str) : Node .stringFragment := .stringFragment noPos [] [] .nil .nil t

/-- Text that needs no escaping. -/
abbrev PlainText (t : Str) : Prop := ∀ c ∈ t, isSpecial c = false

/-- **C74**, in full: `\u` and four digits are a character, whatever text follows. -/
def C74_full : Prop := ∀ (k w t : Str) (q : Char), NameText k → isQuote q = true → (∀ c ∈ w, isHex c = true) → w.length = 4 → t ≠ [] →
  PlainText t → docOf (k ++ c!" = " ++ q :: c!"\\u" ++ w ++ t ++ q :: c!"\n") = some (fragDoc k [unicodeFrag w, textFrag t])

/-- It holds if the text does not begin with four more digits. -/
theorem C74_short_partial (k w t : Str) (q : Char) (hk : NameText k) (hq : isQuote q = true) (hw : ∀ c ∈ w, isHex c = true)
    (hl : w.length = 4) (ht : t ≠ []) (hp : PlainText t) (h4 : (t.takeWhile isHex).length < 4) :
    docOf (k ++ c!" = " ++ q :: c!"\\u" ++ w ++ t ++ q :: c!"\n") = some (fragDoc k [unicodeFrag w, textFrag t]) := by
  have h := C73_template_partial k q [.unicode w, .text t] hk hq (by
    refine ⟨⟨hw, .inr ⟨hl, ?_⟩⟩, ⟨ht, hp, ?_⟩, trivial⟩
    · have : (srcs [.text t] ++ [q]).takeWhile isHex = t.takeWhile isHex := by
        simp only [srcs, Piece.src, List.map_cons, List.map_nil, List.flatten_cons, List.flatten_nil, List.append_nil]
        clear ht hp h4
        induction t with
        | nil => simp [(quote_special hq).2]
        | cons c t ih => simp only [List.cons_append, List.takeWhile_cons, ih]
      rw [this]
      exact h4
    · simp [srcs, (quote_special hq).1]) (by simp [Piece.expr?])
  have e : stringAttr k q [.unicode w, .text t] ++ c!"\n" = k ++ c!" = " ++ q :: c!"\\u" ++ w ++ t ++ q :: c!"\n" := by
    simp [stringAttr, srcs, Piece.src]
  rw [← e, h]
  rfl

/-- Eight digits are always one character. -/
theorem C74_long (k w t : Str) (q : Char) (hk : NameText k) (hq : isQuote q = true) (hw : ∀ c ∈ w, isHex c = true)
    (hl : w.length = 8) (ht : t ≠ []) (hp : PlainText t) :
    docOf (k ++ c!" = " ++ q :: c!"\\u" ++ w ++ t ++ q :: c!"\n") = some (fragDoc k [unicodeFrag w, textFrag t]) := by
  have h := C73_template_partial k q [.unicode w, .text t] hk hq (by
    refine ⟨⟨hw, .inl hl⟩, ⟨ht, hp, ?_⟩, trivial⟩
    simp [srcs, (quote_special hq).1]) (by simp [Piece.expr?])
  have e : stringAttr k q [.unicode w, .text t] ++ c!"\n" = k ++ c!" = " ++ q :: c!"\\u" ++ w ++ t ++ q :: c!"\n" := by
    simp [stringAttr, srcs, Piece.src]
  rw [← e, h]
  rfl

omit [FloatValue] in
theorem take_hex {t : Str} (h : 4 ≤ (t.takeWhile isHex).length) : (t.take 4).length = 4 ∧ ∀ c ∈ t.take 4, isHex c = true := by
  have h1 := (List.takeWhile_prefix isHex (l := t)).length_le
  refine ⟨by simp; omega, fun c hc => ?_⟩
  have h2 : t.take 4 = (t.takeWhile isHex).take 4 := by
    conv_lhs => rw [← List.takeWhile_append_dropWhile (p := isHex) (l := t)]
    rw [List.take_append_of_le_length h]
  rw [h2] at hc
  exact List.all_eq_true.1 List.all_takeWhile c (List.mem_of_mem_take hc)

/-- **C74** fails whenever the text begins with four more digits: the eight digits are one character. -/
theorem C74_swallow (k w t : Str) (q : Char) (hk : NameText k) (hq : isQuote q = true) (hw : ∀ c ∈ w, isHex c = true)
    (hl : w.length = 4) (hp : PlainText t) (h4 : 4 ≤ (t.takeWhile isHex).length) :
    docOf (k ++ c!" = " ++ q :: c!"\\u" ++ w ++ t ++ q :: c!"\n") =
      some (fragDoc k (unicodeFrag (w ++ t.take 4) :: if t.length = 4 then [] else [textFrag (t.drop 4)])) := by
  obtain ⟨h5, h6⟩ := take_hex h4
  have hw8 : ∀ c ∈ w ++ t.take 4, isHex c = true := by
    intro c hc
    rcases List.mem_append.1 hc with hc | hc
    · exact hw c hc
    · exact h6 c hc
  have hl8 : (w ++ t.take 4).length = 8 := by rw [List.length_append, hl, h5]
  have et : t.take 4 ++ t.drop 4 = t := List.take_append_drop 4 t
  by_cases hd : t.length = 4
  · rw [if_pos hd]
    have h := C73_template_partial k q [.unicode (w ++ t.take 4)] hk hq ⟨⟨hw8, .inl hl8⟩, trivial⟩ (by simp [Piece.expr?])
    have e : stringAttr k q [.unicode (w ++ t.take 4)] ++ c!"\n" = k ++ c!" = " ++ q :: c!"\\u" ++ w ++ t ++ q :: c!"\n" := by
      have : t.take 4 = t := List.take_of_length_le (by omega)
      simp [stringAttr, srcs, Piece.src, this]
    rw [← e, h]
    rfl
  · rw [if_neg hd]
    have hd' : t.drop 4 ≠ [] := by
      rw [Ne, List.drop_eq_nil_iff]
      have := h5
      rw [List.length_take] at this
      omega
    have h := C74_long k (w ++ t.take 4) (t.drop 4) q hk hq hw8 hl8 hd' fun c hc => hp c (List.mem_of_mem_drop hc)
    rw [← h]
    congr 1
    conv_lhs => rw [← et]
    simp

/-- **C74** is false: `\u0041beef`. -/
theorem C74_counterexample : ¬ C74_full := by
  intro h
  have hk : NameText c!"k" := ⟨.mk 'k' [] [] (by decide) (by simp) (by simp), by decide, by decide⟩
  have h1 := h c!"k" c!"0041" c!"beef" '"' hk rfl (by decide) rfl (by simp) (by decide)
  rw [C74_swallow c!"k" c!"0041" c!"beef" '"' hk rfl (by decide) rfl (by decide) (by decide)] at h1
  have h2 := congrArg (Option.map Node.size) h1
  revert h2
  decide

/-- A text with fewer than four digits after `\u` in a string is rejected. (`hrun`: the lexer has read `x` and is in a string.) -/
theorem C74_few (x w y : Str) (ks : List (Sym × Str)) (q : Char) (st : Stack) (hq : isQuote q = true)
    (hrun : LexRun [(.root, [])] (x ++ (c!"\\u" ++ (w ++ y))) ks ((.string, [q]) :: st) (c!"\\u" ++ (w ++ y)))
    (hw : w.length < 4) (hy : ∀ c ∈ y.head?, isHex c = false) (hne : w ++ y ≠ []) : docOf (x ++ (c!"\\u" ++ (w ++ y))) = none := by
  obtain ⟨r, hr, h1⟩ := lexStep_backslash_u q hq (w ++ y) st
  have h1 := lexRun_one hr (by decide) h1
  have h2 := (hrun.trans h1).kinds .start .start
  have h3 : lexStep ((.unicode, []) :: (.string, [q]) :: st) (w ++ y) = none := by
    have : firstRule [] (w ++ y) (rulesOf .unicode) = none := by
      simp only [rulesOf, unicodeRules]
      rw [firstRule_miss, firstRule_miss]
      · rfl
      · simp only [rule]
        rw [Re.first_none]
        exact run_rep_short 4 w y none hw hy
      · simp only [rule]
        rw [Re.first_none]
        exact run_rep_short 8 w y none (by omega) hy
    simp [lexStep, this]
  have h4 : lexAll ((.unicode, []) :: (.string, [q]) :: st) .start (w ++ y) = none := by
    rw [lexAll_step hne, h3]
    rfl
  rw [h4, ← lex_eq] at h2
  have h5 : lex (x ++ (c!"\\u" ++ (w ++ y))) = none := by
    cases e : lex (x ++ (c!"\\u" ++ (w ++ y))) with
    | none => rfl
    | some ts => rw [e] at h2; cases h2
  rw [docOf_eq, parseTree, h5]
  rfl

/-- `"x\u0041be"`. -/
example : docOf c!"k = \"\\u0041be\"\n" = some (fragDoc c!"k" [unicodeFrag c!"0041", textFrag c!"be"]) :=
  C74_short_partial c!"k" c!"0041" c!"be" '"' ⟨.mk 'k' [] [] (by decide) (by simp) (by simp), by decide, by decide⟩ rfl (by decide) rfl
    (by simp) (by decide) (by decide)

/-- `"\u0041beefs"`. -/
example : docOf c!"k = \"\\u0041beefs\"\n" = some (fragDoc c!"k" [unicodeFrag c!"0041beef", textFrag c!"s"]) :=
  C74_swallow c!"k" c!"0041" c!"beefs" '"' ⟨.mk 'k' [] [] (by decide) (by simp) (by simp), by decide, by decide⟩ rfl (by decide) rfl
    (by decide) (by decide)

/-- `"a\u41"`. -/
example : docOf (c!"k = \"a" ++ (c!"\\u" ++ (c!"41" ++ c!"\"\n"))) = none :=
  C74_few c!"k = \"a" c!"41" c!"\"\n" [(.ident, c!"k"), (.opAssign, c!"="), (.string, c!"\""), (.char, c!"a")] '"' [(.root, [])] rfl
    (LexRun.of_runSteps 6 (by decide +kernel)) (by decide) (by decide) (by simp)

end Verif.Etx
