import Verif.Etx.TokenLemmas
import Verif.Props.LexBlank
import Verif.Props.Number

/-!
# Identifiers and operators (C42, C43)
-/

namespace Verif.Etx

open Re

/-- The first token of `s` is `w` of type `sym`, the text after it is `y`, and the stack of states does not change. -/
def TokenOf (st : Stack) (s : Str) (sym : Sym) (w y : Str) : Prop :=
  ∃ r m, lexStep st s = some (r, m, st) ∧ r.sym = sym ∧ m.txt = w ∧ m.rest = y

/-- The state is one in which the ordinary tokens are read: the root, or an expression in a string. -/
inductive Plain : Stack → Prop where
  | mk (state : LexState) (g : Str) (below : Stack) : state = .root ∨ state = .stringExpr → Plain ((state, g) :: below)

theorem Plain.root : Plain [(.root, [])] := ⟨_, _, _, .inl rfl⟩

theorem TokenOf.of_firstRule {state : LexState} {g : Str} {below : Stack} {s : Str} {r : Rule} {m : Match}
    (h : firstRule g s (rulesOf state) = some (r, m)) (hne : m.txt ≠ [])
    (ha : r.action = .none) : TokenOf ((state, g) :: below) s r.sym m.txt m.rest := by
  refine ⟨r, m, ?_, rfl, rfl, rfl⟩
  rw [lexStep_of h hne, ha]

/-- A token is the next one of the list. -/
theorem TokenOf.run {st : Stack} {s : Str} {sym : Sym} {w y : Str} (h : TokenOf st s sym w y) (hs : sym ≠ .whitespace) :
    LexRun st s [(sym, w)] st y := by
  obtain ⟨r, m, h1, rfl, rfl, rfl⟩ := h
  have := LexRun.step h1 (.refl _ _)
  simpa [hs] using this

/-! ## Identifiers -/

/-- The keywords of the language and their tokens. -/
def keywords : List (Str × Sym) := [(c!"if", .if_), (c!"else", .else_), (c!"switch", .switch_), (c!"case", .case_)]

/-- C42, as stated: an identifier that is not a keyword is one token. -/
def C42_full : Prop :=
  ∀ st w y, Plain st → IsIdent w → w ∉ keywords.map (·.1) → EndsWord y → TokenOf st (w ++ y) .ident w y

/-- A word followed by something else is a keyword token if it is a keyword. -/
theorem C42_keywords (st : Stack) (w : Str) (sym : Sym) (y : Str) (hst : Plain st) (hw : (w, sym) ∈ keywords)
    (hy : ∀ c ∈ y.head?, isWord c = false) : TokenOf st (w ++ y) sym w y := by
  obtain ⟨state, g, below, hst⟩ := hst
  simp only [keywords, List.mem_cons, List.not_mem_nil, or_false, Prod.mk.injEq] at hw
  have key : ∀ c w k, isAlpha c = true → (∀ d ∈ c :: w, isWord d = true) →
      (∀ s : Str, (c :: s).takeWhile isWord = c :: w → firstRule g (c :: s) (rulesOf state) =
        some (rule k (reKeyword (c :: w)), ⟨c :: w, some (c :: w), (c :: s).dropWhile isWord⟩)) →
      TokenOf ((state, g) :: below) (c :: w ++ y) k (c :: w) y := by
    intro c w k hc hw h
    have e := takeWhile_stop (p := isWord) hw hy
    have := h (w ++ y) e.1
    rw [← List.cons_append, e.2] at this
    exact TokenOf.of_firstRule this (by simp) rfl
  rcases hw with ⟨rfl, rfl⟩ | ⟨rfl, rfl⟩ | ⟨rfl, rfl⟩ | ⟨rfl, rfl⟩ <;>
  · refine key _ _ _ (by decide) (by decide) fun s hs => ?_
    rw [firstRule_alpha hst g _ _ (by decide), hs]
    rfl

/-- C42 is false: `if-x` is an identifier, but its first token is the keyword `if`. -/
theorem C42_keyword_prefix : ¬ C42_full := by
  intro h
  have hi : IsIdent c!"if-x" := .mk 'i' c!"f" [c!"x"] (by decide) (by decide) (by simp [WordPart]; decide)
  obtain ⟨r, m, h1, h2, h3, h4⟩ := h [(.root, [])] c!"if-x" [] .root hi (by decide) ⟨by simp, by simp⟩
  obtain ⟨r', m', h1', h2', h3', h4'⟩ := C42_keywords [(.root, [])] c!"if" .if_ c!"-x" .root (by simp [keywords]) (by decide)
  have e : c!"if" ++ c!"-x" = c!"if-x" ++ [] := rfl
  rw [e, h1] at h1'
  simp at h1'
  rw [← h1'.2, h3] at h3'
  revert h3'; decide

/-- C42, what holds: an identifier whose part before the first hyphen is not a keyword is one token. -/
theorem C42_ident_partial (st : Stack) (w y : Str) (hst : Plain st) (hw : IsIdent w)
    (hk : w.takeWhile isWord ∉ keywords.map (·.1)) (hy : EndsWord y) : TokenOf st (w ++ y) .ident w y := by
  obtain ⟨state, g, below, hst⟩ := hst
  obtain ⟨cap, hf⟩ := first_ident hw y hy
  obtain ⟨c, a, parts, hc, ha, hp⟩ := hw
  have e1 := takeWhile_stop (p := isWord) (l := c :: a) (r := dashed parts)
    (by simpa [alpha_word hc] using ha) (by simpa using head_dashed_append parts [] (by simp))
  have e2 := takeWhile_stop (p := isWord) (l := c :: a) (r := dashed parts ++ y)
    (by simpa [alpha_word hc] using ha) (head_dashed_append parts y hy.1)
  rw [e1.1] at hk
  simp only [keywords, List.map_cons, List.map_nil, List.mem_cons, List.not_mem_nil, or_false, not_or] at hk
  refine TokenOf.of_firstRule (r := rule .ident reIdent) (m := ⟨c :: a ++ dashed parts, cap, y⟩) ?_ (by simp) rfl
  simp only [List.cons_append, List.append_assoc] at hf e2 ⊢
  rw [firstRule_alpha hst g _ _ hc]
  simp only [e2.1, hk, if_false, hf, Option.map_some]

/-- C42, the rest: if the part before the first hyphen is a keyword, the token is this keyword. -/
theorem C42_keyword_first (st : Stack) (w k y : Str) (sym : Sym) (hst : Plain st) (hw : IsIdent w)
    (hk : w.takeWhile isWord = k) (hmem : (k, sym) ∈ keywords) (hy : EndsWord y) :
    TokenOf st (w ++ y) sym k (w.drop k.length ++ y) := by
  obtain ⟨c, a, parts, hc, ha, hp⟩ := hw
  have e1 := takeWhile_stop (p := isWord) (l := c :: a) (r := dashed parts)
    (by simpa [alpha_word hc] using ha) (by simpa using head_dashed_append parts [] (by simp))
  rw [e1.1] at hk
  subst hk
  have := C42_keywords st _ sym (dashed parts ++ y) hst hmem (head_dashed_append parts y hy.1)
  simpa using this

/-- A name with hyphens and a name that begins with the letters of a keyword. -/
example : TokenOf [(.root, [])] (c!"my-if-x" ++ c!"+1") .ident c!"my-if-x" c!"+1" :=
  C42_ident_partial _ _ _ .root (.mk 'm' c!"y" [c!"if", c!"x"] (by decide) (by decide) (by simp [WordPart]; decide)) (by decide)
    ⟨by decide, by simp⟩

example : TokenOf [(.stringExpr, []), (.string, c!"'"), (.root, [])] (c!"iffy" ++ c!"}'") .ident c!"iffy" c!"}'" :=
  C42_ident_partial _ _ _ ⟨_, _, _, .inr rfl⟩ (.mk 'i' c!"ffy" [] (by decide) (by decide) (by simp)) (by decide)
    ⟨by decide, by simp⟩

/-! ## Operators -/

/-- The operators, brackets and separators with their tokens. -/
def operators : List (Str × Sym) := [
  (c!"=>", .opLambda), (c!"->", .opLambdaDef), (c!"(", .opLParen), (c!")", .opRParen), (c!"{", .blockStart),
  (c!",", .opComma), (c!"==", .opEqual), (c!"!=", .opNotEqual), (c!"&&", .opLogicalAnd), (c!"||", .opLogicalOr),
  (c!"<<", .opBitwiseShiftLeft), (c!">>", .opBitwiseShiftRight), (c!"!", .opLogicalNot), (c!"~", .opBitwiseNot),
  (c!"&", .opBitwiseAnd), (c!"|", .opBitwiseOr), (c!"^", .opBitwiseXOr), (c!"*", .opMultiplication),
  (c!"/", .opDivision), (c!"%", .opModulo), (c!"+", .opPlus), (c!"-", .opMinus), (c!"<=", .opLessOrEqual),
  (c!">=", .opMoreOrEqual), (c!"<", .opLess), (c!">", .opMore), (c!"=", .opAssign), (c!"?", .opCondition),
  (c!":", .opColon), (c!"[", .opLBracket), (c!"]", .opRBracket), (c!".", .dot)]

/-- `w` is the longest operator at the beginning of `w ++ y`. -/
def LongestOp (w y : Str) : Prop := ∀ o ∈ operators.map (·.1), o <+: w ++ y → o.length ≤ w.length

/-- The text begins like a comment, a heredoc or a number. -/
def NotOp (s : Str) : Prop :=
  c!"//" <+: s ∨ (c!"/*" <+: s ∧ c!"*/" <:+: s.drop 2) ∨ (∃ d y, s = c!"<<" ++ d ++ '\n' :: y ∧ WordPart d) ∨
  (∃ d y, s = c!"<<-" ++ d ++ '\n' :: y ∧ WordPart d) ∨ ∃ c y, s = '.' :: c :: y ∧ (isDigit c = true ∨ c = '_')

/-- C43, as stated for the operators of more than one character: they are read whatever follows. -/
def C43_full : Prop :=
  ∀ st w sym y, Plain st → (w, sym) ∈ operators → 1 < w.length → TokenOf st (w ++ y) sym w y

/-- C43 is false: `<<` followed by a word and a newline opens a heredoc. -/
theorem C43_shift_heredoc : ¬ C43_full := by
  intro h
  obtain ⟨r, m, h1, h2, h3, h4⟩ := h [(.root, [])] c!"<<" .opBitwiseShiftLeft c!"b\n" .root (by decide) (by decide)
  have : ((lexStep [(.root, [])] c!"<<b\n").map fun x => x.2.1.txt) = some c!"<<b\n" := by decide +kernel
  have e : c!"<<" ++ c!"b\n" = c!"<<b\n" := rfl
  rw [← e, h1] at this
  simp [h3] at this

theorem closeAt_none {s : Str} (h : ¬ c!"*/" <:+: s) : closeAt s = none := by
  induction s with
  | nil => rfl
  | cons c s ih =>
    rw [closeAt_cons _ _ fun hp => h hp.isInfix, ih fun hi => h (hi.trans (List.suffix_cons _ _).isInfix)]
    rfl

/-- A dot that no digit follows is not a number. -/
theorem number_dot (y : Str) (hy : ∀ c ∈ y.head?, isDigitSep c = false) : reNumber.first ('.' :: y) = none := by
  have hdec : reDec.run none ('.' :: y) = [] := by
    have h1 : (star (cls isDigitSep)).run none ('.' :: y) = [.nothing ('.' :: y)] :=
      run_star_nil (by simp [run_cls_cons]; decide)
    have h2 : ∀ p, (opt (lit c!".")).run p ('.' :: y) = [⟨c!".", none, y⟩, .nothing ('.' :: y)] := by
      intro p
      have := run_lit c!"." p y
      simp only [List.cons_append, List.nil_append] at this
      simp [opt, run, this]
    have h3 : ∀ p, (plus (cls isDigitSep)).run p y = [] := fun p => run_plus_cls_fail hy
    have h4 : ∀ p, (plus (cls isDigitSep)).run p ('.' :: y) = [] := fun p => run_plus_cls_fail (by simp; decide)
    rw [reDec, run, h1]
    simp only [List.flatMap_cons, List.flatMap_nil, List.append_nil, Match.nothing_rest]
    rw [run, h2]
    simp only [List.flatMap_cons, List.flatMap_nil, List.append_nil, Match.nothing_rest, run_seq_nil (h3 _), run_seq_nil (h4 _),
      List.map_nil]
  have hx : ∀ r : Re, r.nullable = false → r.starts '.' = false → r.run none ('.' :: y) = [] :=
    fun r h1 h2 => run_fail h1 h2 _ _
  rw [Re.first_none, reNumber]
  simp only [run, List.map_eq_nil_iff, List.append_eq_nil_iff]
  exact ⟨hx reHex (by decide) (by decide), hx reBin (by decide) (by decide), hx reOct (by decide) (by decide), hdec⟩

set_option linter.unusedSimpArgs false in
theorem firstRule_op {state : LexState} (hst : state = .root ∨ state = .stringExpr) (g : Str) (w y : Str) (sym : Sym)
    (hmem : (w, sym) ∈ operators) (hl : LongestOp w y) (hn : ¬ NotOp (w ++ y)) :
    firstRule g (w ++ y) (rulesOf state) = some (rule sym (lit w), ⟨w, none, y⟩) := by
  have hl' : ∀ o ∈ operators.map (·.1), w.length < o.length → ¬ o <+: w ++ y := by
    intro o ho hlt hp
    have := hl o ho hp
    omega
  clear hl
  have hlt : c!"<<" <+: w ++ y → reHeredoc.first (w ++ y) = none := by
    intro _
    cases hf : reHeredoc.first (w ++ y) with
    | none => rfl
    | some m =>
      have hm : m ∈ reHeredoc.run none (w ++ y) := List.mem_of_head? hf
      obtain ⟨tabs, d, h1, h2, h3, -⟩ := heredoc_match hm
      have h4 := run_split _ _ _ _ hm
      rw [h3] at h4
      refine absurd ?_ hn
      cases tabs with
      | false => exact .inr (.inr (.inl ⟨d, m.rest, by simp [← h4, heredocToken], h1, h2⟩))
      | true => exact .inr (.inr (.inr (.inl ⟨d, m.rest, by simp [← h4, heredocToken], h1, h2⟩)))
  have hnl : ¬ c!"<<" <+: w ++ y → reHeredoc.first (w ++ y) = none := by
    intro h
    rw [Re.first_none, reHeredoc, run_seq_nil (run_lit_fail _ _ _ h)]
  have hh : reHeredoc.first (w ++ y) = none := by
    by_cases h : c!"<<" <+: w ++ y
    · exact hlt h
    · exact hnl h
  clear hlt hnl
  simp only [operators, List.map_cons, List.map_nil, List.forall_mem_cons] at hl'
  simp only [operators, List.mem_cons, List.not_mem_nil, or_false, Prod.mk.injEq] at hmem
  have step : ∀ c u rs, (rulesOf state).filter (Rule.can g c) = rs →
      firstRule g (c :: u) (rulesOf state) = firstRule g (c :: u) rs := by
    intro c u rs h
    rw [firstRule_filter, h]
  rcases hmem with ⟨rfl, rfl⟩ | ⟨rfl, rfl⟩ | ⟨rfl, rfl⟩ | ⟨rfl, rfl⟩ | ⟨rfl, rfl⟩ | ⟨rfl, rfl⟩ | ⟨rfl, rfl⟩ | ⟨rfl, rfl⟩ |
    ⟨rfl, rfl⟩ | ⟨rfl, rfl⟩ | ⟨rfl, rfl⟩ | ⟨rfl, rfl⟩ | ⟨rfl, rfl⟩ | ⟨rfl, rfl⟩ | ⟨rfl, rfl⟩ | ⟨rfl, rfl⟩ | ⟨rfl, rfl⟩ |
    ⟨rfl, rfl⟩ | ⟨rfl, rfl⟩ | ⟨rfl, rfl⟩ | ⟨rfl, rfl⟩ | ⟨rfl, rfl⟩ | ⟨rfl, rfl⟩ | ⟨rfl, rfl⟩ | ⟨rfl, rfl⟩ | ⟨rfl, rfl⟩ |
    ⟨rfl, rfl⟩ | ⟨rfl, rfl⟩ | ⟨rfl, rfl⟩ | ⟨rfl, rfl⟩ | ⟨rfl, rfl⟩ | ⟨rfl, rfl⟩
  · rw [List.cons_append, step _ _ [rule .opLambda (lit c!"=>"), rule .opEqual (lit c!"=="), rule .opAssign (lit c!"=")]
      (by rcases hst with rfl | rfl <;> rfl)]
    simp only [List.cons_append, List.nil_append] at hh ⊢
    simp at hl'
    simp [firstRule_lit, hl']
  · rw [List.cons_append, step _ _ [rule .opLambdaDef (lit c!"->"), rule .opMinus (lit c!"-")]
      (by rcases hst with rfl | rfl <;> rfl)]
    simp only [List.cons_append, List.nil_append] at hh ⊢
    simp at hl'
    simp [firstRule_lit, hl']
  · rw [List.cons_append, step _ _ [rule .opLParen (lit c!"("), rule .opLParen (lit c!"(")]
      (by rcases hst with rfl | rfl <;> rfl)]
    simp only [List.cons_append, List.nil_append] at hh ⊢
    simp at hl'
    simp [firstRule_lit, hl']
  · rw [List.cons_append, step _ _ [rule .opRParen (lit c!")"), rule .opRParen (lit c!")")]
      (by rcases hst with rfl | rfl <;> rfl)]
    simp only [List.cons_append, List.nil_append] at hh ⊢
    simp at hl'
    simp [firstRule_lit, hl']
  · rw [List.cons_append, step _ _ [rule .blockStart (lit c!"{")]
      (by rcases hst with rfl | rfl <;> rfl)]
    simp only [List.cons_append, List.nil_append] at hh ⊢
    simp at hl'
    simp [firstRule_lit, hl']
  · rw [List.cons_append, step _ _ [rule .opComma (lit c!",")]
      (by rcases hst with rfl | rfl <;> rfl)]
    simp only [List.cons_append, List.nil_append] at hh ⊢
    simp at hl'
    simp [firstRule_lit, hl']
  · rw [List.cons_append, step _ _ [rule .opLambda (lit c!"=>"), rule .opEqual (lit c!"=="), rule .opAssign (lit c!"=")]
      (by rcases hst with rfl | rfl <;> rfl)]
    simp only [List.cons_append, List.nil_append] at hh ⊢
    simp at hl'
    simp [firstRule_lit, hl']
  · rw [List.cons_append, step _ _ [rule .opNotEqual (lit c!"!="), rule .opLogicalNot (lit c!"!")]
      (by rcases hst with rfl | rfl <;> rfl)]
    simp only [List.cons_append, List.nil_append] at hh ⊢
    simp at hl'
    simp [firstRule_lit, hl']
  · rw [List.cons_append, step _ _ [rule .opLogicalAnd (lit c!"&&"), rule .opBitwiseAnd (lit c!"&")]
      (by rcases hst with rfl | rfl <;> rfl)]
    simp only [List.cons_append, List.nil_append] at hh ⊢
    simp at hl'
    simp [firstRule_lit, hl']
  · rw [List.cons_append, step _ _ [rule .opLogicalOr (lit c!"||"), rule .opBitwiseOr (lit c!"|")]
      (by rcases hst with rfl | rfl <;> rfl)]
    simp only [List.cons_append, List.nil_append] at hh ⊢
    simp at hl'
    simp [firstRule_lit, hl']
  · rw [List.cons_append, step _ _ [rule .heredoc reHeredoc (.push .heredoc), rule .opBitwiseShiftLeft (lit c!"<<"), rule .opLessOrEqual (lit c!"<="), rule .opLess (lit c!"<")]
      (by rcases hst with rfl | rfl <;> rfl)]
    simp only [List.cons_append, List.nil_append] at hh ⊢
    rw [firstRule_miss (show ((rule .heredoc reHeredoc (.push .heredoc)).pat g).first _ = none from hh)]
    simp at hl'
    simp [firstRule_lit, hl']
  · rw [List.cons_append, step _ _ [rule .opBitwiseShiftRight (lit c!">>"), rule .opMoreOrEqual (lit c!">="), rule .opMore (lit c!">")]
      (by rcases hst with rfl | rfl <;> rfl)]
    simp only [List.cons_append, List.nil_append] at hh ⊢
    simp at hl'
    simp [firstRule_lit, hl']
  · rw [List.cons_append, step _ _ [rule .opNotEqual (lit c!"!="), rule .opLogicalNot (lit c!"!")]
      (by rcases hst with rfl | rfl <;> rfl)]
    simp only [List.cons_append, List.nil_append] at hh ⊢
    simp at hl'
    simp [firstRule_lit, hl']
  · rw [List.cons_append, step _ _ [rule .opBitwiseNot (lit c!"~")]
      (by rcases hst with rfl | rfl <;> rfl)]
    simp only [List.cons_append, List.nil_append] at hh ⊢
    simp at hl'
    simp [firstRule_lit, hl']
  · rw [List.cons_append, step _ _ [rule .opLogicalAnd (lit c!"&&"), rule .opBitwiseAnd (lit c!"&")]
      (by rcases hst with rfl | rfl <;> rfl)]
    simp only [List.cons_append, List.nil_append] at hh ⊢
    simp at hl'
    simp [firstRule_lit, hl']
  · rw [List.cons_append, step _ _ [rule .opLogicalOr (lit c!"||"), rule .opBitwiseOr (lit c!"|")]
      (by rcases hst with rfl | rfl <;> rfl)]
    simp only [List.cons_append, List.nil_append] at hh ⊢
    simp at hl'
    simp [firstRule_lit, hl']
  · rw [List.cons_append, step _ _ [rule .opBitwiseXOr (lit c!"^")]
      (by rcases hst with rfl | rfl <;> rfl)]
    simp only [List.cons_append, List.nil_append] at hh ⊢
    simp at hl'
    simp [firstRule_lit, hl']
  · rw [List.cons_append, step _ _ [rule .opMultiplication (lit c!"*")]
      (by rcases hst with rfl | rfl <;> rfl)]
    simp only [List.cons_append, List.nil_append] at hh ⊢
    simp at hl'
    simp [firstRule_lit, hl']
  · rw [List.cons_append, step _ _ [rule .singleLineComment reSingleLine, rule .multilineComment reMultiline, rule .opDivision (lit c!"/")]
      (by rcases hst with rfl | rfl <;> rfl)]
    simp only [List.cons_append, List.nil_append] at hh ⊢
    have h1 : ¬ c!"//" <+: '/' :: y := fun h => hn (.inl h)
    have h2 : reMultiline.first ('/' :: y) = none := by
      by_cases hs : c!"/*" <+: '/' :: y
      · obtain ⟨t, ht⟩ := hs
        have ht' : y = '*' :: t := by simpa using ht.symm
        subst ht'
        have := first_multiline t
        simp only [List.cons_append, List.nil_append] at this
        rw [this, closeAt_none]
        · rfl
        · intro hi
          exact hn (.inr (.inl ⟨⟨t, rfl⟩, by simpa using hi⟩))
      · exact first_multiline_none _ hs
    rw [firstRule_miss (show ((rule .singleLineComment reSingleLine).pat g).first _ = none from by
        show reSingleLine.first _ = none
        rw [first_singleLine, if_neg]
        rintro (h | h)
        · exact h1 h
        · simp at h),
      firstRule_miss (show ((rule .multilineComment reMultiline).pat g).first _ = none from h2)]
    simp at hl'
    simp [firstRule_lit, hl']
  · rw [List.cons_append, step _ _ [rule .opModulo (lit c!"%")]
      (by rcases hst with rfl | rfl <;> rfl)]
    simp only [List.cons_append, List.nil_append] at hh ⊢
    simp at hl'
    simp [firstRule_lit, hl']
  · rw [List.cons_append, step _ _ [rule .opPlus (lit c!"+")]
      (by rcases hst with rfl | rfl <;> rfl)]
    simp only [List.cons_append, List.nil_append] at hh ⊢
    simp at hl'
    simp [firstRule_lit, hl']
  · rw [List.cons_append, step _ _ [rule .opLambdaDef (lit c!"->"), rule .opMinus (lit c!"-")]
      (by rcases hst with rfl | rfl <;> rfl)]
    simp only [List.cons_append, List.nil_append] at hh ⊢
    simp at hl'
    simp [firstRule_lit, hl']
  · rw [List.cons_append, step _ _ [rule .heredoc reHeredoc (.push .heredoc), rule .opBitwiseShiftLeft (lit c!"<<"), rule .opLessOrEqual (lit c!"<="), rule .opLess (lit c!"<")]
      (by rcases hst with rfl | rfl <;> rfl)]
    simp only [List.cons_append, List.nil_append] at hh ⊢
    rw [firstRule_miss (show ((rule .heredoc reHeredoc (.push .heredoc)).pat g).first _ = none from hh)]
    simp at hl'
    simp [firstRule_lit, hl']
  · rw [List.cons_append, step _ _ [rule .opBitwiseShiftRight (lit c!">>"), rule .opMoreOrEqual (lit c!">="), rule .opMore (lit c!">")]
      (by rcases hst with rfl | rfl <;> rfl)]
    simp only [List.cons_append, List.nil_append] at hh ⊢
    simp at hl'
    simp [firstRule_lit, hl']
  · rw [List.cons_append, step _ _ [rule .heredoc reHeredoc (.push .heredoc), rule .opBitwiseShiftLeft (lit c!"<<"), rule .opLessOrEqual (lit c!"<="), rule .opLess (lit c!"<")]
      (by rcases hst with rfl | rfl <;> rfl)]
    simp only [List.cons_append, List.nil_append] at hh ⊢
    rw [firstRule_miss (show ((rule .heredoc reHeredoc (.push .heredoc)).pat g).first _ = none from hh)]
    simp at hl'
    simp [firstRule_lit, hl']
  · rw [List.cons_append, step _ _ [rule .opBitwiseShiftRight (lit c!">>"), rule .opMoreOrEqual (lit c!">="), rule .opMore (lit c!">")]
      (by rcases hst with rfl | rfl <;> rfl)]
    simp only [List.cons_append, List.nil_append] at hh ⊢
    simp at hl'
    simp [firstRule_lit, hl']
  · rw [List.cons_append, step _ _ [rule .opLambda (lit c!"=>"), rule .opEqual (lit c!"=="), rule .opAssign (lit c!"=")]
      (by rcases hst with rfl | rfl <;> rfl)]
    simp only [List.cons_append, List.nil_append] at hh ⊢
    simp at hl'
    simp [firstRule_lit, hl']
  · rw [List.cons_append, step _ _ [rule .opCondition (lit c!"?")]
      (by rcases hst with rfl | rfl <;> rfl)]
    simp only [List.cons_append, List.nil_append] at hh ⊢
    simp at hl'
    simp [firstRule_lit, hl']
  · rw [List.cons_append, step _ _ [rule .opColon (lit c!":")]
      (by rcases hst with rfl | rfl <;> rfl)]
    simp only [List.cons_append, List.nil_append] at hh ⊢
    simp at hl'
    simp [firstRule_lit, hl']
  · rw [List.cons_append, step _ _ [rule .opLBracket (lit c!"[")]
      (by rcases hst with rfl | rfl <;> rfl)]
    simp only [List.cons_append, List.nil_append] at hh ⊢
    simp at hl'
    simp [firstRule_lit, hl']
  · rw [List.cons_append, step _ _ [rule .opRBracket (lit c!"]")]
      (by rcases hst with rfl | rfl <;> rfl)]
    simp only [List.cons_append, List.nil_append] at hh ⊢
    simp at hl'
    simp [firstRule_lit, hl']
  · rw [List.cons_append, step _ _ [rule .number reNumber, rule .dot (lit c!".")]
      (by rcases hst with rfl | rfl <;> rfl)]
    simp only [List.cons_append, List.nil_append] at hh ⊢
    rw [firstRule_miss (show ((rule .number reNumber).pat g).first _ = none from number_dot y (by
      intro c hc
      cases y with
      | nil => simp at hc
      | cons d y =>
        simp at hc
        subst hc
        by_contra hd
        simp only [isDigitSep, Bool.not_eq_false, Bool.or_eq_true, decide_eq_true_eq] at hd
        exact hn (.inr (.inr (.inr (.inr ⟨d, y, rfl, hd⟩))))))]
    simp at hl'
    simp [firstRule_lit, hl']

/-- C43, what holds: the longest operator at the beginning of the text is read, unless there is a comment, a heredoc or
a number. -/
theorem C43_longest_partial (st : Stack) (w y : Str) (sym : Sym) (hst : Plain st) (hmem : (w, sym) ∈ operators)
    (hl : LongestOp w y) (hn : ¬ NotOp (w ++ y)) : TokenOf st (w ++ y) sym w y := by
  obtain ⟨state, g, below, hst⟩ := hst
  refine TokenOf.of_firstRule (firstRule_op hst g w y sym hmem hl hn) ?_ rfl
  rintro rfl
  revert hmem
  simp [operators]

/-- C43 for the operators of more than one character other than `<<`: they are read whatever follows. -/
theorem C43_two_partial (st : Stack) (w y : Str) (sym : Sym) (hst : Plain st) (hmem : (w, sym) ∈ operators)
    (h2 : 1 < w.length) (hw : w ≠ c!"<<") : TokenOf st (w ++ y) sym w y := by
  have hops : ∀ o ∈ operators, o.1.length ≤ 2 := by decide
  have hfirst : ∀ o ∈ operators, 1 < o.1.length → o.1 ≠ c!"<<" →
      ∃ a b, o.1 = [a, b] ∧ [a, b] ≠ c!"<<" ∧ [a, b] ≠ c!"//" ∧ [a, b] ≠ c!"/*" ∧ a ≠ '.' := by
    simp only [operators, List.forall_mem_cons]
    simp
  obtain ⟨a, b, hab, h3, h4, h5, h6⟩ := hfirst _ hmem h2 hw
  simp only at hab
  subst hab
  refine C43_longest_partial st _ y sym hst hmem ?_ ?_
  · intro o ho _
    simp only [List.mem_map] at ho
    obtain ⟨o', ho', rfl⟩ := ho
    simpa using hops _ ho'
  · rintro (h | ⟨h, -⟩ | ⟨d, z, h, -⟩ | ⟨d, z, h, -⟩ | ⟨c, z, h, -⟩)
    · simp at h; exact h4 (by rw [← h.1, ← h.2])
    · simp at h; exact h5 (by rw [← h.1, ← h.2])
    · simp at h; exact h3 (by rw [h.1, h.2.1])
    · simp at h; exact h3 (by rw [h.1, h.2.1])
    · simp at h; exact h6 h.1

/-- `a<=b`, `a<-1`, `<<` as a shift. -/
example : TokenOf [(.root, [])] c!"<==1" .opLessOrEqual c!"<=" c!"=1" :=
  C43_two_partial _ c!"<=" _ _ .root (by decide) (by decide) (by decide)

example : TokenOf [(.root, [])] c!"<-1" .opLess c!"<" c!"-1" :=
  C43_longest_partial _ c!"<" _ _ .root (by decide) (by simp [LongestOp, operators]) (by simp [NotOp])

end Verif.Etx
