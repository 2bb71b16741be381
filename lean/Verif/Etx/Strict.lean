import Verif.Etx.LexRun
import Verif.Etx.Derive

/-!
# Literals are read as what they were lexed as

A literal of the grammar matches a token by its text, so that a piece of a string could be taken for a bracket or a keyword.  This
never happens in a complete parse: the tokens that begin and end strings, heredocs and the expressions in them are counted
(`weight_le`), and the stack of the lexer is followed through the derivation (`strict_of`).
-/

namespace Verif.Etx

/-- The token type of a literal of the grammar. -/
def litSym (w : Str) : Sym :=
  if w = c!"(" then .opLParen else if w = c!")" then .opRParen else if w = c!"," then .opComma else if w = c!"." then .dot
  else if w = c!"{" then .blockStart else if w = c!"}" then .blockEnd else if w = c!"[" then .opLBracket
  else if w = c!"]" then .opRBracket else if w = c!"=" then .opAssign else if w = c!":" then .opColon
  else if w = c!"?" then .opCondition else .ident

/-- `Derives`, where each literal matches a token of its own type. -/
inductive Strict [FloatValue] : Gram → List Token → Out → Prop
  | lit {w : Str} {t : Token} : t.txt = w → t.sym = litSym w → Strict (.lit w) [t] ⟨[t.txt], []⟩
  | tok {y : Sym} {t : Token} : t.sym = y → Strict (.tok y) [t] ⟨[t.txt], []⟩
  | seq {a b : Gram} {s s' : List Token} {o o' : Out} : Strict a s o → Strict b s' o' →
      Strict (.seq a b) (s ++ s') (o ++ o')
  | altL {a b : Gram} {s : List Token} {o : Out} : Strict a s o → Strict (.alt a b) s o
  | altR {a b : Gram} {s : List Token} {o : Out} : Strict b s o → Strict (.alt a b) s o
  | skip {a : Gram} : Strict (.opt a) [] {}
  | once {a : Gram} {s : List Token} {o : Out} : Strict a s o → Strict (.opt a) s o
  | nil {a : Gram} : Strict (.star a) [] {}
  | cons {a : Gram} {s s' : List Token} {o o' : Out} : Strict a s o → Strict (.star a) s' o' →
      Strict (.star a) (s ++ s') (o ++ o')
  | plus {a : Gram} {s s' : List Token} {o o' : Out} : Strict a s o → Strict (.star a) s' o' →
      Strict (.plus a) (s ++ s') (o ++ o')
  | cap {f : Field} {a : Gram} {s : List Token} {o : Out} : Strict a s o →
      Strict (.cap f a) s ⟨o.txt, [.toks f o.txt]⟩
  | sub {f : Field} {k : Kind} {s : List Token} {o : Out} {pos : Position} {x : Node k} : Strict (Gram.of k) s o →
      build { addr := 0, pos := pos } o k = some x → (∀ t ∈ s.head?, pos = t.pos) → Strict (.sub f k) s ⟨[], [.node f k x]⟩

/-! ## Counting -/

/-- How much higher the stack is after a token. -/
def Sym.weight (y : Sym) : Int :=
  match y.action with
  | .none => 0
  | .push _ => 1
  | .pop => -1

/-- How much higher the stack is after some tokens. -/
def height (s : List Token) : Int := (s.map fun t => t.sym.weight).sum

theorem height_append (a b : List Token) : height (a ++ b) = height a + height b := by simp [height]

/-- All token types. -/
def allSyms : List Sym := [
  .singleLineComment, .multilineComment, .opLambda, .opLambdaDef, .opLParen, .opRParen,
  .if_, .else_, .switch_, .case_, .blockStart, .blockEnd, .ident, .number, .heredoc,
  .opComma, .opEqual, .opNotEqual, .opLogicalAnd, .opLogicalOr, .opBitwiseShiftLeft, .opBitwiseShiftRight,
  .opLogicalNot, .opBitwiseNot, .opBitwiseAnd, .opBitwiseOr, .opBitwiseXOr, .opMultiplication, .opDivision, .opModulo,
  .opPlus, .opMinus, .opLessOrEqual, .opMoreOrEqual, .opLess, .opMore, .opAssign, .opCondition, .opColon,
  .opLBracket, .opRBracket, .string, .dot, .lf, .whitespace,
  .unicode, .escaped, .stringEnd, .quote, .nonExpr, .expr, .directive, .char,
  .unicodeLong, .unicodeShort, .heredocEnd, .eol, .body, .exprEnd]

theorem mem_allSyms (y : Sym) : y ∈ allSyms := by cases y <;> decide

/-- A literal that cannot be confused with another token of an expression, nor with the beginning of a string. -/
def litOk (w : Str) : Bool :=
  allSyms.all fun y => !y.exact w || ((!y.core || decide (y = litSym w)) && decide (y.weight ≤ 0))

namespace Gram

/-- How much higher the stack is after a production. -/
def weight : Gram → Int
  | lit _ => 0
  | tok y => y.weight
  | seq a b => a.weight + b.weight
  | alt a _ => a.weight
  | opt _ => 0
  | star _ => 0
  | plus _ => 0
  | cap _ a => a.weight
  | sub _ _ => 0

/-- The weight does not depend on the choices. -/
def balanced : Gram → Bool
  | lit w => litOk w
  | tok _ => true
  | seq a b => a.balanced && b.balanced
  | alt a b => a.balanced && b.balanced && decide (a.weight = b.weight)
  | opt a => a.balanced && decide (a.weight = 0)
  | star a => a.balanced && decide (a.weight = 0)
  | plus a => a.balanced && decide (a.weight = 0)
  | cap _ a => a.balanced
  | sub _ _ => true

theorem balanced_of (k : Kind) : (of k).balanced = true ∧ (of k).weight = 0 := by
  cases k
  case bin l => cases l <;> decide +kernel
  case ptr | slice | items => exact (by decide +kernel : (lit []).balanced = true ∧ (lit []).weight = 0)
  all_goals decide +kernel

end Gram

variable [FloatValue]

omit [FloatValue] in
theorem lit_weight {t : Token} {w : Str} (h : litOk w = true) (ht : t.exact = true) (e : t.txt = w) : t.sym.weight ≤ 0 := by
  have := List.all_eq_true.mp h t.sym (mem_allSyms _)
  subst e
  simp only [Token.exact] at ht
  rw [ht] at this
  simp only [Bool.not_true, Bool.false_or, Bool.and_eq_true, decide_eq_true_eq] at this
  exact this.2

omit [FloatValue] in
theorem lit_sym {t : Token} {w : Str} (h : litOk w = true) (ht : t.exact = true) (e : t.txt = w) (hc : t.sym.core = true) :
    t.sym = litSym w := by
  have := List.all_eq_true.mp h t.sym (mem_allSyms _)
  subst e
  simp only [Token.exact] at ht
  rw [ht, hc] at this
  simp only [Bool.not_true, Bool.false_or, Bool.and_eq_true, decide_eq_true_eq] at this
  exact this.1

theorem weight_le {g : Gram} {s : List Token} {o : Out} (h : Derives g s o) (hb : g.balanced = true)
    (ht : ∀ t ∈ s, t.exact = true) : height s ≤ g.weight := by
  induction h with
  | @lit w t e =>
    have := lit_weight hb (ht t (by simp)) e
    simpa [height, Gram.weight] using this
  | @tok y t e => simp [height, Gram.weight, e]
  | seq _ _ iha ihb =>
    simp only [Gram.balanced, Bool.and_eq_true] at hb
    have h1 := iha hb.1 fun t h => ht t (by simp [h])
    have h2 := ihb hb.2 fun t h => ht t (by simp [h])
    rw [height_append, Gram.weight]
    omega
  | altL _ ih =>
    simp only [Gram.balanced, Bool.and_eq_true, decide_eq_true_eq] at hb
    have := ih hb.1.1 ht
    simpa [Gram.weight] using this
  | altR _ ih =>
    simp only [Gram.balanced, Bool.and_eq_true, decide_eq_true_eq] at hb
    have := ih hb.1.2 ht
    simpa [Gram.weight, hb.2] using this
  | skip => exact Int.le_refl _
  | once _ ih =>
    simp only [Gram.balanced, Bool.and_eq_true, decide_eq_true_eq] at hb
    have := ih hb.1 ht
    simpa [Gram.weight, hb.2] using this
  | nil => exact Int.le_refl _
  | cons _ _ iha ihb =>
    have hb' := hb
    simp only [Gram.balanced, Bool.and_eq_true, decide_eq_true_eq] at hb
    have h1 := iha hb.1 fun t h => ht t (by simp [h])
    have h2 := ihb hb' fun t h => ht t (by simp [h])
    simp only [Gram.weight] at h2
    rw [height_append, Gram.weight]
    omega
  | plus _ _ iha ihb =>
    have hb' := hb
    simp only [Gram.balanced, Bool.and_eq_true, decide_eq_true_eq] at hb
    have h1 := iha hb.1 fun t h => ht t (by simp [h])
    have h2 := ihb (by simpa [Gram.balanced] using hb) fun t h => ht t (by simp [h])
    simp only [Gram.weight] at h2
    rw [height_append, Gram.weight]
    omega
  | cap _ ih => exact ih hb ht
  | @sub f k s o pos x _ _ _ ih =>
    have := ih (Gram.balanced_of k).1 ht
    rw [(Gram.balanced_of k).2] at this
    exact this

/-! ## Following the stack -/

/-- A state up to the kind of expressions. -/
def LexState.abs : LexState → LexState
  | .root => .stringExpr
  | x => x

/-- The state in which a struct is lexed. -/
def Kind.state : Kind → LexState
  | .stringFragment => .string
  | .heredocFragment => .heredoc
  | _ => .stringExpr

namespace Gram

/-- What a production does to the stack: `c` are the states pushed so far, on top of `b`. -/
def flow (b : LexState) : Gram → List LexState → Option (List LexState)
  | lit _, c => if c.headD b = .stringExpr then some c else none
  | tok y, c =>
    match y.action with
    | .none => some c
    | .push n => some (n.abs :: c)
    | .pop => match c with
      | [] => none
      | _ :: c => some c
  | seq g h, c => (g.flow b c).bind (h.flow b)
  | alt g h, c => if g.flow b c = h.flow b c then g.flow b c else none
  | opt g, c => if g.flow b c = some c then some c else none
  | star g, c => if g.flow b c = some c then some c else none
  | plus g, c => if g.flow b c = some c then some c else none
  | cap _ g, c => g.flow b c
  | sub _ k, c => if c.headD b = k.state then some c else none

omit [FloatValue] in
theorem flow_of (k : Kind) : (of k).flow k.state [] = some [] := by
  cases k
  case bin l => cases l <;> decide +kernel
  case ptr | slice | items => exact (by decide +kernel : (lit []).flow .stringExpr [] = some [])
  all_goals decide +kernel

end Gram

/-- The stack has these states on top of `below`, whose first state is `b`. -/
def Above (b : LexState) (below : Stack) (c : List LexState) (st : Stack) : Prop :=
  below.head?.map (fun x => x.1.abs) = some b ∧ ∃ cs, st = cs ++ below ∧ cs.map (fun x => x.1.abs) = c

omit [FloatValue] in
theorem Above.head {b : LexState} {below st : Stack} {c : List LexState} (h : Above b below c st) :
    st.head?.map (fun x => x.1.abs) = some (c.headD b) := by
  obtain ⟨h1, cs, rfl, rfl⟩ := h
  cases cs with
  | nil => exact h1
  | cons x cs => simp

theorem strict_of {g : Gram} {s : List Token} {o : Out} (h : Derives g s o) (hb : g.balanced = true)
    (hw : height s = g.weight) {b : LexState} {below st st' : Stack} {c c' : List LexState} (hr : TokRun st s st')
    (ha : Above b below c st) (hf : g.flow b c = some c') : Strict g s o ∧ Above b below c' st' := by
  induction h generalizing b below st st' c c' with
  | @lit w t e =>
    have h1 := hr.one
    simp only [Gram.flow] at hf
    split at hf
    · rename_i hc
      cases hf
      have hh := ha.head
      obtain ⟨h2, state, q, rest, rfl, h3, -, h4⟩ := h1
      simp only [height, List.map_cons, List.map_nil, List.sum_cons, List.sum_nil, Int.add_zero, Gram.weight] at hw
      rw [hc] at hh
      have hs : state.core = true := by
        cases state <;> simp_all [LexState.abs, LexState.core]
      have hcore : t.sym.core = true := by
        rcases h3 hs with h | h
        · exact h
        · rw [h] at hw; cases hw
      have hact : t.sym.action = .none := by
        revert hw
        unfold Sym.weight
        cases t.sym.action <;> simp
      rw [hact] at h4
      subst h4
      exact ⟨.lit e (lit_sym hb h2 e hcore), ha⟩
    · cases hf
  | @tok y t e =>
    refine ⟨.tok e, ?_⟩
    obtain ⟨-, state, q, rest, rfl, -, -, h4⟩ := hr.one
    obtain ⟨h1, cs, e1, e2⟩ := ha
    refine ⟨h1, ?_⟩
    rw [e] at h4
    simp only [Gram.flow] at hf
    cases ey : y.action with
    | none =>
      rw [ey] at h4 hf
      cases hf
      exact ⟨cs, h4.trans e1, e2⟩
    | push n =>
      rw [ey] at h4 hf
      cases hf
      obtain ⟨g', h4⟩ := h4
      exact ⟨(n, g') :: cs, by rw [h4, e1]; rfl, by simp [e2]⟩
    | pop =>
      rw [ey] at h4 hf
      cases cs with
      | nil =>
        simp only [List.map_nil] at e2
        subst e2
        cases hf
      | cons x cs =>
        simp only [List.map_cons] at e2
        subst e2
        simp only [Option.some.injEq] at hf
        simp only [List.cons_append, List.cons.injEq] at e1
        exact ⟨cs, by rw [← e1.2]; exact h4, hf⟩
  | seq d1 d2 ih1 ih2 =>
    simp only [Gram.balanced, Bool.and_eq_true] at hb
    obtain ⟨st1, r1, r2⟩ := hr.split
    have l1 := weight_le d1 hb.1 r1.exact
    have l2 := weight_le d2 hb.2 r2.exact
    rw [height_append, Gram.weight] at hw
    simp only [Gram.flow, Option.bind_eq_some_iff] at hf
    obtain ⟨c1, f1, f2⟩ := hf
    obtain ⟨s1, a1⟩ := ih1 hb.1 (by omega) r1 ha f1
    obtain ⟨s2, a2⟩ := ih2 hb.2 (by omega) r2 a1 f2
    exact ⟨.seq s1 s2, a2⟩
  | altL _ ih =>
    simp only [Gram.balanced, Bool.and_eq_true, decide_eq_true_eq] at hb
    simp only [Gram.flow] at hf
    split at hf
    · obtain ⟨s1, a1⟩ := ih hb.1.1 hw hr ha hf
      exact ⟨.altL s1, a1⟩
    · cases hf
  | altR _ ih =>
    simp only [Gram.balanced, Bool.and_eq_true, decide_eq_true_eq] at hb
    simp only [Gram.flow] at hf
    split at hf
    · rename_i e
      obtain ⟨s1, a1⟩ := ih hb.1.2 (hw.trans hb.2) hr ha (e ▸ hf)
      exact ⟨.altR s1, a1⟩
    · cases hf
  | skip =>
    simp only [Gram.flow] at hf
    split at hf
    · cases hf
      cases hr
      exact ⟨.skip, ha⟩
    · cases hf
  | once _ ih =>
    simp only [Gram.balanced, Bool.and_eq_true, decide_eq_true_eq] at hb
    simp only [Gram.flow] at hf
    split at hf
    · rename_i e
      cases hf
      obtain ⟨s1, a1⟩ := ih hb.1 (hw.trans hb.2.symm) hr ha e
      exact ⟨.once s1, a1⟩
    · cases hf
  | nil =>
    simp only [Gram.flow] at hf
    split at hf
    · cases hf
      cases hr
      exact ⟨.nil, ha⟩
    · cases hf
  | cons d1 d2 ih1 ih2 =>
    have hb' := hb
    have hf' := hf
    simp only [Gram.balanced, Bool.and_eq_true, decide_eq_true_eq] at hb
    obtain ⟨st1, r1, r2⟩ := hr.split
    have l1 := weight_le d1 hb.1 r1.exact
    have l2 := weight_le d2 hb' r2.exact
    simp only [Gram.weight] at hw l2
    rw [height_append] at hw
    simp only [Gram.flow] at hf
    split at hf
    · rename_i e
      cases hf
      obtain ⟨s1, a1⟩ := ih1 hb.1 (by omega) r1 ha e
      obtain ⟨s2, a2⟩ := ih2 hb' (by simp only [Gram.weight]; omega) r2 a1 hf'
      exact ⟨.cons s1 s2, a2⟩
    · cases hf
  | @plus a s s' o o' d1 d2 ih1 ih2 =>
    have hb' : (Gram.star a).balanced = true := hb
    have hf' : (Gram.star a).flow b c = some c' := hf
    simp only [Gram.balanced, Bool.and_eq_true, decide_eq_true_eq] at hb
    obtain ⟨st1, r1, r2⟩ := hr.split
    have l1 := weight_le d1 hb.1 r1.exact
    have l2 := weight_le d2 hb' r2.exact
    simp only [Gram.weight] at hw l2
    rw [height_append] at hw
    simp only [Gram.flow] at hf
    split at hf
    · rename_i e
      cases hf
      obtain ⟨s1, a1⟩ := ih1 hb.1 (by omega) r1 ha e
      obtain ⟨s2, a2⟩ := ih2 hb' (by simp only [Gram.weight]; omega) r2 a1 hf'
      exact ⟨.plus s1 s2, a2⟩
    · cases hf
  | cap _ ih =>
    obtain ⟨s1, a1⟩ := ih hb hw hr ha hf
    exact ⟨.cap s1, a1⟩
  | @sub f k s o pos x _ hbd hpos ih =>
    simp only [Gram.flow] at hf
    split at hf
    · rename_i e
      cases hf
      have hh := ha.head
      rw [e] at hh
      obtain ⟨s1, h1, cs, e1, e2⟩ := ih (Gram.balanced_of k).1 (hw.trans (Gram.balanced_of k).2.symm) hr
        (below := st) (c := []) ⟨hh, [], rfl, rfl⟩ (Gram.flow_of k)
      simp only [List.map_eq_nil_iff] at e2
      subst e2
      simp only [List.nil_append] at e1
      subst e1
      exact ⟨.sub s1 hbd hpos, ha⟩
    · cases hf

/-! ## Whole texts -/

omit [FloatValue] in
theorem TokRun.height_eq {st st' : Stack} {ts : List Token} (h : TokRun st ts st') :
    (st'.length : Int) = st.length + height ts := by
  induction h with
  | nil => simp [height]
  | @cons st st1 st2 t ts h1 _ ih =>
    obtain ⟨-, state, g, below, rfl, -, -, h2⟩ := h1
    rw [ih]
    have : height (t :: ts) = t.sym.weight + height ts := by simp [height]
    rw [this]
    unfold Sym.weight
    cases e : t.sym.action with
    | none => rw [e] at h2; subst h2; simp only; omega
    | push n =>
      rw [e] at h2
      obtain ⟨g', rfl⟩ := h2
      simp only [List.length_cons]
      push_cast
      omega
    | pop =>
      rw [e] at h2
      subst h2
      simp only [List.length_cons]
      push_cast
      omega

omit [FloatValue] in
theorem core_action : ∀ y : Sym, y.core = true → y.action ≠ .pop := by
  intro y
  cases y <;> decide

omit [FloatValue] in
theorem TokRun.root {st st' : Stack} {ts : List Token} (h : TokRun st ts st')
    (hr : st.getLast?.map (·.1) = some .root) : st'.getLast?.map (·.1) = some .root := by
  induction h with
  | nil => exact hr
  | @cons st st1 st2 t ts h1 _ ih =>
    refine ih ?_
    obtain ⟨-, state, g, below, rfl, -, h3, h2⟩ := h1
    cases e : t.sym.action with
    | none => rw [e] at h2; subst h2; exact hr
    | push n =>
      rw [e] at h2
      obtain ⟨g', rfl⟩ := h2
      simpa using hr
    | pop =>
      rw [e] at h2
      subst h2
      cases st1 with
      | nil =>
        simp only [List.getLast?_singleton, Option.map_some, Option.some.injEq] at hr
        exact absurd e (core_action _ (h3 hr))
      | cons x st1 => simpa using hr

/-- Every literal of a derivation of a whole text matches a token of its own type. -/
theorem strict_text {s : Str} {ts : List Token} {o : Out} (hl : lex s = some ts)
    (hd : Derives (.star (.sub .items .rootItem)) ts o) : Strict (.star (.sub .items .rootItem)) ts o := by
  obtain ⟨st, hr⟩ := lex_run hl
  have h1 := weight_le hd (by decide) hr.exact
  have h2 := hr.height_eq
  have h3 := hr.root rfl
  have h4 : 1 ≤ st.length := by
    cases st with
    | nil => cases h3
    | cons => simp
  refine (strict_of hd (by decide) (b := .stringExpr) (below := [(.root, [])]) (c := []) (c' := []) ?_ hr
    ⟨rfl, [], rfl, rfl⟩ (by decide)).1
  simp only [Gram.weight, List.length_singleton] at h1 h2 ⊢
  omega

theorem parseTokens_strict {s : Str} {ts : List Token} {eof : Position} {x : Node (.slice .rootItem)} (hl : lex s = some ts)
    (h : parseTokens eof ts = some x) : ∃ o, Strict (.star (.sub .items .rootItem)) ts o ∧ x = o.slice .items := by
  obtain ⟨o, h1, h2⟩ := parseTokens_derives h
  exact ⟨o, strict_text hl h1, h2⟩

end Verif.Etx
