import Verif.Etx.Template

/-!
# Expressions made of expressions

The way of an expression in parentheses, of lists, maps, calls and operators up to an expression, if the parts are read in front of
closing brackets and commas (`Closes`).
-/

set_option linter.unusedSimpArgs false

namespace Verif.Etx
open Gram

/-- A list of tokens without positions. -/
def toks (ks : List (Sym × Str)) : List Token := ks.map fun k => tk k.1 k.2

@[simp] theorem toks_append (a b : List (Sym × Str)) : toks (a ++ b) = toks a ++ toks b := by simp [toks]
@[simp] theorem toks_cons (k : Sym × Str) (b : List (Sym × Str)) : toks (k :: b) = tk k.1 k.2 :: toks b := rfl
@[simp] theorem toks_nil : toks [] = [] := rfl

theorem posOf_toks (ks : List (Sym × Str)) (y : Sym) (w : Str) (r : List Token) : posOf {} (toks ks ++ tk y w :: r) = {} := by
  cases ks <;> rfl

/-! ## Trees -/

/-- An operand that is alone on its level. -/
abbrev alone (l : Level) (x : Node l.operand) : Node (.bin l) := .bin l noPos x [] .nil

/-- A prefix expression on a level. -/
def onLevel : (l : Level) → Node .unary → Node (.bin l)
  | .multiplicative, u => alone _ u
  | .additive, u => alone .additive (alone .multiplicative u)
  | .shift, u => alone .shift (alone .additive (alone .multiplicative u))
  | .relational, u => alone .relational (alone .shift (alone .additive (alone .multiplicative u)))
  | .equality, u => alone .equality (alone .relational (alone .shift (alone .additive (alone .multiplicative u))))
  | .bitwiseAnd, u => alone .bitwiseAnd (alone .equality (alone .relational (alone .shift (alone .additive (alone .multiplicative u)))))
  | .bitwiseXor, u => alone .bitwiseXor (alone .bitwiseAnd (alone .equality (alone .relational (alone .shift (alone .additive
      (alone .multiplicative u))))))
  | .bitwiseOr, u => alone .bitwiseOr (alone .bitwiseXor (alone .bitwiseAnd (alone .equality (alone .relational (alone .shift
      (alone .additive (alone .multiplicative u)))))))
  | .logicalAnd, u => alone .logicalAnd (alone .bitwiseOr (alone .bitwiseXor (alone .bitwiseAnd (alone .equality (alone .relational
      (alone .shift (alone .additive (alone .multiplicative u))))))))
  | .logicalOr, u => alone .logicalOr (alone .logicalAnd (alone .bitwiseOr (alone .bitwiseXor (alone .bitwiseAnd (alone .equality
      (alone .relational (alone .shift (alone .additive (alone .multiplicative u)))))))))

/-- A prefix expression as an operand of a level. -/
def asOperand : (l : Level) → Node .unary → Node l.operand
  | .multiplicative, u => u
  | .additive, u => onLevel .multiplicative u
  | .shift, u => onLevel .additive u
  | .relational, u => onLevel .shift u
  | .equality, u => onLevel .relational u
  | .bitwiseAnd, u => onLevel .equality u
  | .bitwiseXor, u => onLevel .bitwiseAnd u
  | .bitwiseOr, u => onLevel .bitwiseXor u
  | .logicalAnd, u => onLevel .bitwiseOr u
  | .logicalOr, u => onLevel .logicalAnd u

/-- An expression that has no operators outside a level. -/
def ofLevel : (l : Level) → Node (.bin l) → Node .expr
  | .logicalOr, x => .expr noPos (.ref (.conditional noPos x false .nil .nil)) .nil .nil
  | .logicalAnd, x => .expr noPos (.ref (.conditional noPos (alone .logicalOr x) false .nil .nil)) .nil .nil
  | .bitwiseOr, x => .expr noPos (.ref (.conditional noPos (alone .logicalOr (alone .logicalAnd x)) false .nil .nil)) .nil .nil
  | .bitwiseXor, x => .expr noPos (.ref (.conditional noPos (alone .logicalOr (alone .logicalAnd (alone .bitwiseOr x)))
      false .nil .nil)) .nil .nil
  | .bitwiseAnd, x => .expr noPos (.ref (.conditional noPos (alone .logicalOr (alone .logicalAnd (alone .bitwiseOr
      (alone .bitwiseXor x)))) false .nil .nil)) .nil .nil
  | .equality, x => .expr noPos (.ref (.conditional noPos (alone .logicalOr (alone .logicalAnd (alone .bitwiseOr
      (alone .bitwiseXor (alone .bitwiseAnd x))))) false .nil .nil)) .nil .nil
  | .relational, x => .expr noPos (.ref (.conditional noPos (alone .logicalOr (alone .logicalAnd (alone .bitwiseOr
      (alone .bitwiseXor (alone .bitwiseAnd (alone .equality x)))))) false .nil .nil)) .nil .nil
  | .shift, x => .expr noPos (.ref (.conditional noPos (alone .logicalOr (alone .logicalAnd (alone .bitwiseOr
      (alone .bitwiseXor (alone .bitwiseAnd (alone .equality (alone .relational x))))))) false .nil .nil)) .nil .nil
  | .additive, x => .expr noPos (.ref (.conditional noPos (alone .logicalOr (alone .logicalAnd (alone .bitwiseOr
      (alone .bitwiseXor (alone .bitwiseAnd (alone .equality (alone .relational (alone .shift x)))))))) false .nil .nil)) .nil .nil
  | .multiplicative, x => .expr noPos (.ref (.conditional noPos (alone .logicalOr (alone .logicalAnd (alone .bitwiseOr
      (alone .bitwiseXor (alone .bitwiseAnd (alone .equality (alone .relational (alone .shift (alone .additive x)))))))))
      false .nil .nil)) .nil .nil

/-- A primary expression without prefix, index and selector. -/
def justPrimary (p : Node .primary) : Node .unary := .unary noPos [] (.postfixE noPos p .nil .nil)

/-- `(x)` -/
def inParens (x : Node .expr) : Node .primary := .primary noPos (.ref x) .nil .nil .nilSlice .nil

/-- A prefix expression as an expression. -/
def unaryExpr (u : Node .unary) : Node .expr := ofLevel .logicalOr (onLevel .logicalOr u)

/-- `(x)` -/
def parenExpr (x : Node .expr) : Node .expr := unaryExpr (justPrimary (inParens x))

/-- `[x, …]` -/
def listExpr (xs : List (Node .expr)) : Node .expr :=
  unaryExpr (justPrimary (.primary noPos .nil (.ref (.value noPos false .nil .nil .nil .nil (.ref (.valueList noPos
    (sliceOf (xs.map fun x => .listItem noPos [] (.ref x) .nil)))) .nil)) .nil .nilSlice .nil))

/-- A name. -/
def oneName (w : Str) : Node .ident := .ident noPos (.mk 0 [w])

/-- `{k = x, …}` -/
def mapExpr (xs : List (Str × Node .expr)) : Node .expr :=
  unaryExpr (justPrimary (.primary noPos .nil (.ref (.value noPos false .nil .nil .nil .nil .nil (.ref (.valueMap noPos
    (sliceOf (xs.map fun x => .mapItem noPos [] (.ref (.mapKey noPos (.ref (oneName x.1)) .nil)) (.ref x.2) .nil)))))) .nil
    .nilSlice .nil))

/-- `f(x, …)` -/
def callExpr (f : Str) (xs : List (Node .expr)) : Node .expr :=
  unaryExpr (justPrimary (.primary noPos .nil .nil (.ref (oneName f)) (sliceOf [.invocation noPos (sliceOf xs)]) .nil))

/-- `(x)[i]` -/
def indexExpr (x i : Node .expr) : Node .expr := unaryExpr (.unary noPos [] (.postfixE noPos (inParens x) (.ref i) .nil))

/-- `-(x)` and the like -/
def prefixExpr (op : Str) (x : Node .expr) : Node .expr := unaryExpr (.unary noPos op (.postfixE noPos (inParens x) .nil .nil))

/-- `(x) op (y)` -/
def opExpr (l : Level) (x : Node .expr) (op : Str) (y : Node .expr) : Node .expr :=
  ofLevel l (.bin l noPos (asOperand l (justPrimary (inParens x))) op (.ref (onLevel l (justPrimary (inParens y)))))

/-- `(c) ? (x) : (y)` -/
def condExpr (c x y : Node .expr) : Node .expr :=
  .expr noPos (.ref (.conditional noPos (onLevel .logicalOr (justPrimary (inParens c))) true (.ref (parenExpr x)) (.ref (parenExpr y))))
    .nil .nil

/-- `if (c) {x} else {y}` -/
def ifExpr (c x y : Node .expr) : Node .expr :=
  .expr noPos .nil (.ref (.exprIf noPos (onLevel .logicalOr (justPrimary (inParens c))) (.ref x) (.ref y))) .nil

/-- `if (c) {x}` -/
def ifOnlyExpr (c x : Node .expr) : Node .expr :=
  .expr noPos .nil (.ref (.exprIf noPos (onLevel .logicalOr (justPrimary (inParens c))) (.ref x) .nil)) .nil

/-- `case (c), …: {x}`, `default: {x}` -/
def caseNode (cs : List (Node .expr)) (d : Bool) (x : Node .expr) : Node .exprCase :=
  .exprCase noPos (sliceOf (cs.map fun c => onLevel .logicalOr (justPrimary (inParens c)))) d (.ref x)

/-- `switch (s) {case …}` -/
def switchExpr (c : Node .expr) (l : List (Node .exprCase)) : Node .expr :=
  .expr noPos .nil .nil (.ref (.exprSwitch noPos (onLevel .logicalOr (justPrimary (inParens c))) (sliceOf l)))

/-! ## Parsing -/

variable [FloatValue]

theorem onLevel_ok (l : Level) {s r : List Token} {u : Node .unary} (h : OkKind {} s u r) (hp : posOf {} s = {})
    (hr : ∀ l' ∈ tighter l, ∀ t ∈ r.head?, t.sym ∉ binOp l') : OkKind {} s (onLevel l u) r := by
  cases l <;> simp only [tighter, List.forall_mem_cons] at hr
  case multiplicative => exact bin_up h hp hr.1
  case additive => exact bin_up (l := .additive) (bin_up (l := .multiplicative) h hp hr.2.1) hp hr.1
  case shift =>
    exact bin_up (l := .shift) (bin_up (l := .additive) (bin_up (l := .multiplicative) h hp hr.2.2.1) hp hr.2.1) hp hr.1
  case relational =>
    exact bin_up (l := .relational) (bin_up (l := .shift) (bin_up (l := .additive) (bin_up (l := .multiplicative) h hp hr.2.2.2.1) hp
      hr.2.2.1) hp hr.2.1) hp hr.1
  case equality =>
    exact bin_up (l := .equality) (bin_up (l := .relational) (bin_up (l := .shift) (bin_up (l := .additive)
      (bin_up (l := .multiplicative) h hp hr.2.2.2.2.1) hp hr.2.2.2.1) hp hr.2.2.1) hp hr.2.1) hp hr.1
  case bitwiseAnd =>
    exact bin_up (l := .bitwiseAnd) (bin_up (l := .equality) (bin_up (l := .relational) (bin_up (l := .shift) (bin_up (l := .additive)
      (bin_up (l := .multiplicative) h hp hr.2.2.2.2.2.1) hp hr.2.2.2.2.1) hp hr.2.2.2.1) hp hr.2.2.1) hp hr.2.1) hp hr.1
  case bitwiseXor =>
    exact bin_up (l := .bitwiseXor) (bin_up (l := .bitwiseAnd) (bin_up (l := .equality) (bin_up (l := .relational) (bin_up (l := .shift)
      (bin_up (l := .additive) (bin_up (l := .multiplicative) h hp hr.2.2.2.2.2.2.1) hp hr.2.2.2.2.2.1) hp hr.2.2.2.2.1) hp
      hr.2.2.2.1) hp hr.2.2.1) hp hr.2.1) hp hr.1
  case bitwiseOr =>
    exact bin_up (l := .bitwiseOr) (bin_up (l := .bitwiseXor) (bin_up (l := .bitwiseAnd) (bin_up (l := .equality)
      (bin_up (l := .relational) (bin_up (l := .shift) (bin_up (l := .additive) (bin_up (l := .multiplicative) h hp
      hr.2.2.2.2.2.2.2.1) hp hr.2.2.2.2.2.2.1) hp hr.2.2.2.2.2.1) hp hr.2.2.2.2.1) hp hr.2.2.2.1) hp hr.2.2.1) hp hr.2.1) hp hr.1
  case logicalAnd =>
    exact bin_up (l := .logicalAnd) (bin_up (l := .bitwiseOr) (bin_up (l := .bitwiseXor) (bin_up (l := .bitwiseAnd)
      (bin_up (l := .equality) (bin_up (l := .relational) (bin_up (l := .shift) (bin_up (l := .additive) (bin_up (l := .multiplicative)
      h hp hr.2.2.2.2.2.2.2.2.1) hp hr.2.2.2.2.2.2.2.1) hp hr.2.2.2.2.2.2.1) hp hr.2.2.2.2.2.1) hp hr.2.2.2.2.1) hp hr.2.2.2.1) hp
      hr.2.2.1) hp hr.2.1) hp hr.1
  case logicalOr =>
    exact bin_up (l := .logicalOr) (bin_up (l := .logicalAnd) (bin_up (l := .bitwiseOr) (bin_up (l := .bitwiseXor)
      (bin_up (l := .bitwiseAnd) (bin_up (l := .equality) (bin_up (l := .relational) (bin_up (l := .shift) (bin_up (l := .additive)
      (bin_up (l := .multiplicative) h hp hr.2.2.2.2.2.2.2.2.2.1) hp hr.2.2.2.2.2.2.2.2.1) hp hr.2.2.2.2.2.2.2.1) hp
      hr.2.2.2.2.2.2.1) hp hr.2.2.2.2.2.1) hp hr.2.2.2.2.1) hp hr.2.2.2.1) hp hr.2.2.1) hp hr.2.1) hp hr.1

theorem asOperand_ok (l : Level) {s r : List Token} {u : Node .unary} (h : OkKind {} s u r) (hp : posOf {} s = {})
    (hr : ∀ l' ∈ (tighter l).tail, ∀ t ∈ r.head?, t.sym ∉ binOp l') : OkKind {} s (asOperand l u) r := by
  cases l
  case multiplicative => exact h
  all_goals exact onLevel_ok _ h hp hr

omit [FloatValue] in
/-- What does not continue an expression. -/
theorem not_badExpr {r : List Token} (h : headNot badExpr r = true) : ∀ t ∈ r.head?,
    t.txt ≠ c!"." ∧ t.txt ≠ c!"(" ∧ t.txt ≠ c!"[" ∧ t.txt ≠ c!"?" ∧ ∀ l, t.sym ∉ binOp l := by
  intro t ht
  have := headNot_iff.1 h t ht
  simp only [badExpr, badBin, badPost, Bool.or_eq_false_iff, decide_eq_false_iff_not, ← Bool.not_eq_true (List.contains _ _),
    List.contains_iff_mem] at this
  refine ⟨this.1.1.1.1, this.1.1.1.2, this.1.1.2, this.2, fun l hm => this.1.2 ?_⟩
  revert hm
  generalize t.sym = s
  revert s
  cases l <;> decide

theorem conditional_up {s r : List Token} {x : Node (.bin .logicalOr)} (h : OkKind {} s x r) (hp : posOf {} s = {})
    (hr : headNot badExpr r = true) : OkKind {} s (ofLevel .logicalOr x) r := by
  have h15 := OkKind.ofTakes (k := .conditional) (Takes.seq (Takes.sub h) (Takes.skip (Soft.seqL (Soft.cap (Soft.lit
    fun t ht => (not_badExpr hr t ht).2.2.2.1).soft)))) hp fun txt => by simp [build, ptrOf]; rfl
  exact OkKind.ofTakes (Takes.altL (Takes.sub h15)) hp fun txt => by simp [build, ptrOf, ofLevel]

theorem ofLevel_ok (l : Level) {s r : List Token} {x : Node (.bin l)} (h : OkKind {} s x r) (hp : posOf {} s = {})
    (hr : headNot badExpr r = true) : OkKind {} s (ofLevel l x) r := by
  have hb : ∀ l, ∀ t ∈ r.head?, t.sym ∉ binOp l := fun l t ht => (not_badExpr hr t ht).2.2.2.2 l
  have up : ∀ (l : Level) {x : Node l.operand}, OkKind {} s x r → OkKind {} s (alone l x) r := fun l x h => bin_up h hp (hb l)
  have top : ∀ {x : Node (.bin .logicalOr)}, OkKind {} s x r → OkKind {} s (ofLevel .logicalOr x) r := fun h => conditional_up h hp hr
  cases l
  case logicalOr => exact top h
  case logicalAnd => exact top (up .logicalOr h)
  case bitwiseOr => exact top (up .logicalOr (up .logicalAnd h))
  case bitwiseXor => exact top (up .logicalOr (up .logicalAnd (up .bitwiseOr h)))
  case bitwiseAnd => exact top (up .logicalOr (up .logicalAnd (up .bitwiseOr (up .bitwiseXor h))))
  case equality => exact top (up .logicalOr (up .logicalAnd (up .bitwiseOr (up .bitwiseXor (up .bitwiseAnd h)))))
  case relational => exact top (up .logicalOr (up .logicalAnd (up .bitwiseOr (up .bitwiseXor (up .bitwiseAnd (up .equality h))))))
  case shift =>
    exact top (up .logicalOr (up .logicalAnd (up .bitwiseOr (up .bitwiseXor (up .bitwiseAnd (up .equality (up .relational h)))))))
  case additive =>
    exact top (up .logicalOr (up .logicalAnd (up .bitwiseOr (up .bitwiseXor (up .bitwiseAnd (up .equality (up .relational
      (up .shift h))))))))
  case multiplicative =>
    exact top (up .logicalOr (up .logicalAnd (up .bitwiseOr (up .bitwiseXor (up .bitwiseAnd (up .equality (up .relational
      (up .shift (up .additive h)))))))))

theorem unaryExpr_ok {s r : List Token} {u : Node .unary} (h : OkKind {} s u r) (hp : posOf {} s = {})
    (hr : headNot badExpr r = true) : OkKind {} s (unaryExpr u) r :=
  conditional_up (onLevel_ok .logicalOr h hp fun l _ t ht => (not_badExpr hr t ht).2.2.2.2 l) hp hr

/-- A primary expression alone. -/
theorem justPrimary_ok {t : Token} {s r : List Token} {p : Node .primary} (h : OkKind {} (t :: s) p r) (hp : t.pos = {})
    (ht : t.sym ∉ unaryOp) (hr : ∀ t ∈ r.head?, t.txt ≠ c!"[" ∧ t.txt ≠ c!".") : OkKind {} (t :: s) (justPrimary p) r := by
  have h3 := OkKind.ofTakes (k := .postfixE) (x := .postfixE noPos p .nil .nil) (Takes.seq (Takes.sub h) (Takes.seq (Takes.skip
      (Soft.seqL (Soft.lit fun t ht => (hr t ht).1).soft)) (Takes.skip (Soft.seqL (Soft.lit fun t ht => (hr t ht).2).soft)))) hp
    fun txt => by simp [build, ptrOf]
  exact OkKind.ofTakes (k := .unary) (Takes.seq (Takes.skip (Soft.cap (Bare.alToks (by simp [unaryOp]) (by
      simpa using ht)))) (Takes.sub h3)) hp fun txt => by simp [build, justPrimary]

/-- `(x)` -/
theorem inParens_ok {s r : List Token} {x : Node .expr} (h : OkKind {} s x (tk .opRParen c!")" :: r)) :
    OkKind {} (tk .opLParen c!"(" :: s) (inParens x) r :=
  OkKind.ofTakes (Takes.altL (Takes.seq (Takes.lit rfl) (Takes.seq (Takes.sub h) (Takes.lit rfl)))) rfl fun txt => by
    simp [build, ptrOf, sliceOf, inParens]

/-- `(x)` -/
theorem parenUnary_ok {s r : List Token} {x : Node .expr} (h : OkKind {} s x (tk .opRParen c!")" :: r))
    (hr : ∀ t ∈ r.head?, t.txt ≠ c!"[" ∧ t.txt ≠ c!".") : OkKind {} (tk .opLParen c!"(" :: s) (justPrimary (inParens x)) r :=
  justPrimary_ok (inParens_ok h) rfl (by decide) hr

theorem parenExpr_ok {s r : List Token} {x : Node .expr} (h : OkKind {} s x (tk .opRParen c!")" :: r))
    (hr : headNot badExpr r = true) : OkKind {} (tk .opLParen c!"(" :: s) (parenExpr x) r :=
  unaryExpr_ok (parenUnary_ok h fun t ht => ⟨(not_badExpr hr t ht).2.2.1, (not_badExpr hr t ht).1⟩) rfl hr

/-- A value. -/
theorem value_ok {t : Token} {s r : List Token} {v : Node .value} (h : OkKind {} (t :: s) v r) (hp : t.pos = {})
    (ht : t.sym ∉ unaryOp) (hw : t.txt ≠ c!"(") (hr : headNot badExpr r = true) :
    OkKind {} (t :: s) (unaryExpr (justPrimary (.primary noPos .nil (.ref v) .nil .nilSlice .nil))) r := by
  have h2 : OkKind {} (t :: s) (.primary noPos .nil (.ref v) .nil .nilSlice .nil) r :=
    OkKind.ofTakes (Takes.altR (Soft.seqL (Soft.lit (by simpa using hw)).soft) (Takes.altL (Takes.sub h))) hp fun txt => by
      simp [build, ptrOf, sliceOf]
  exact unaryExpr_ok (justPrimary_ok h2 hp ht fun t ht => ⟨(not_badExpr hr t ht).2.2.1, (not_badExpr hr t ht).1⟩) hp hr

/-- `-(x)` and the like -/
theorem prefixExpr_ok {y : Sym} {w : Str} (hy : y ∈ unaryOp) {s r : List Token} {x : Node .expr}
    (h : OkKind {} s x (tk .opRParen c!")" :: r)) (hr : headNot badExpr r = true) :
    OkKind {} (tk y w :: tk .opLParen c!"(" :: s) (prefixExpr w x) r := by
  have h3 := OkKind.ofTakes (k := .postfixE) (x := .postfixE noPos (inParens x) .nil .nil) (Takes.seq (Takes.sub (inParens_ok h))
    (Takes.seq (Takes.skip (Soft.seqL (Soft.lit fun t ht => (not_badExpr hr t ht).2.2.1).soft)) (Takes.skip (Soft.seqL (Soft.lit
      fun t ht => (not_badExpr hr t ht).1).soft)))) rfl fun txt => by simp [build, ptrOf]
  have h4 : OkKind {} (tk y w :: tk .opLParen c!"(" :: s) (.unary noPos w (.postfixE noPos (inParens x) .nil .nil)) r :=
    OkKind.ofTakes (k := .unary) (Takes.seq (Takes.once (Takes.cap (Ok.alToks (ys := unaryOp) (t := tk y w) hy)))
      (Takes.sub h3)) rfl fun txt => by simp [build, tk]
  exact unaryExpr_ok h4 rfl hr

/-- `(x)[i]` -/
theorem indexExpr_ok {s s' r : List Token} {x i : Node .expr} (h : OkKind {} s x (tk .opRParen c!")" :: tk .opLBracket c!"[" :: s'))
    (hi : OkKind {} s' i (tk .opRBracket c!"]" :: r)) (hr : headNot badExpr r = true) :
    OkKind {} (tk .opLParen c!"(" :: s) (indexExpr x i) r := by
  have h3 := OkKind.ofTakes (k := .postfixE) (x := .postfixE noPos (inParens x) (.ref i) .nil) (Takes.seq (Takes.sub (inParens_ok h))
    (Takes.seq (Takes.once (Takes.seq (Takes.lit rfl) (Takes.seq (Takes.sub hi) (Takes.lit rfl)))) (Takes.skip (Soft.seqL (Soft.lit
      fun t ht => (not_badExpr hr t ht).1).soft)))) rfl fun txt => by simp [build, ptrOf]
  have h4 : OkKind {} (tk .opLParen c!"(" :: s) (.unary noPos [] (.postfixE noPos (inParens x) (.ref i) .nil)) r :=
    OkKind.ofTakes (k := .unary) (Takes.seq (Takes.skip (Soft.cap (Bare.alToks (by simp [unaryOp]) (by simp [tk, unaryOp]))))
      (Takes.sub h3)) rfl fun txt => by simp [build]
  exact unaryExpr_ok h4 rfl hr

omit [FloatValue] in
theorem binOp_disjoint {y : Sym} {l : Level} (h : y ∈ binOp l) : ∀ l' ∈ (tighter l).tail, y ∉ binOp l' := by
  revert y
  cases l <;> decide

/-- `(x) op (y)` -/
theorem opExpr_ok {l : Level} {o : Sym} {w : Str} (ho : o ∈ binOp l) (hw : w ≠ c!"[" ∧ w ≠ c!".") {s s' r : List Token}
    {x y : Node .expr} (h : OkKind {} s x (tk .opRParen c!")" :: tk o w :: tk .opLParen c!"(" :: s'))
    (h' : OkKind {} s' y (tk .opRParen c!")" :: r)) (hr : headNot badExpr r = true) :
    OkKind {} (tk .opLParen c!"(" :: s) (opExpr l x w y) r := by
  have hl := asOperand_ok l (parenUnary_ok h (by simpa [tk] using hw)) rfl (by simpa [tk] using binOp_disjoint ho)
  have hr' := onLevel_ok l (parenUnary_ok h' fun t ht => ⟨(not_badExpr hr t ht).2.2.1, (not_badExpr hr t ht).1⟩) rfl
    fun l _ t ht => (not_badExpr hr t ht).2.2.2.2 l
  refine ofLevel_ok l (OkKind.ofTakes (Takes.seq (Takes.sub hl) (Takes.once (Takes.seq (Takes.cap (Ok.alToks (ys := binOp l)
    (t := tk o w) ho)) (Takes.sub hr')))) rfl fun txt => ?_) rfl hr
  simp [build, ptrOf, tk]

/-- `(c) ? (x) : (y)` -/
theorem condExpr_ok {s s' s'' r : List Token} {c x y : Node .expr}
    (h : OkKind {} s c (tk .opRParen c!")" :: tk .opCondition c!"?" :: tk .opLParen c!"(" :: s'))
    (h' : OkKind {} s' x (tk .opRParen c!")" :: tk .opColon c!":" :: tk .opLParen c!"(" :: s''))
    (h'' : OkKind {} s'' y (tk .opRParen c!")" :: r)) (hr : headNot badExpr r = true) :
    OkKind {} (tk .opLParen c!"(" :: s) (condExpr c x y) r := by
  have h1 := onLevel_ok .logicalOr (parenUnary_ok h (by simp [tk])) rfl (by simp [tk]; decide)
  have h2 := parenExpr_ok h' rfl
  have h3 := parenExpr_ok h'' hr
  have h4 := OkKind.ofTakes (k := .conditional) (x := .conditional noPos (onLevel .logicalOr (justPrimary (inParens c))) true
    (.ref (parenExpr x)) (.ref (parenExpr y))) (Takes.seq (Takes.sub h1) (Takes.once (Takes.seq (Takes.capLit rfl) (Takes.seq
      (Takes.sub h2) (Takes.seq (Takes.lit rfl) (Takes.sub h3)))))) rfl fun txt => by simp [build, ptrOf]
  exact OkKind.ofTakes (Takes.altL (Takes.sub h4)) rfl fun txt => by simp [build, ptrOf, condExpr]

/-! ## Lists, maps and arguments -/

/-- Lists with a separator between them. -/
def joinBy {α : Type} (sep : α) : List (List α) → List α
  | [] => []
  | [x] => x
  | x :: xs => x ++ sep :: joinBy sep xs

/-- A comma. -/
def commaKind : Sym × Str := (.opComma, c!",")

/-- What the tokens `ks` of an expression are read as. -/
structure Part (ks : List (Sym × Str)) (x : Node .expr) : Prop where
  ok : ∀ z, Closes z → OkKind {} (toks ks ++ z) x z
  head : ∀ k ∈ ks.head?, k.1 ≠ .lf
  calm : ∀ k ∈ ks.head?, k.1 ≠ .else_
  ne : ks ≠ []

/-- What the tokens `ks` of an expression are read as in front of brackets, commas, line ends and comments. -/
structure LinePart (ks : List (Sym × Str)) (x : Node .expr) : Prop extends Part ks x where
  line : ∀ t r, t.sym.endsLine = true → t.exact = true → OkKind {} (toks ks ++ t :: r) x (t :: r)

omit [FloatValue] in
theorem closes_cons {y : Sym} {w : Str} (h : (y, w) ∈ closers) (r : List Token) : Closes (tk y w :: r) := ⟨_, _, rfl, h⟩

omit [FloatValue] in
theorem Closes.bad {z : List Token} (h : Closes z) : headNot badExpr z = true := by
  obtain ⟨t, r, rfl, h⟩ := h
  obtain ⟨s, w, p⟩ := t
  simp only [closers, List.mem_cons, Prod.mk.injEq, List.not_mem_nil, or_false] at h
  rcases h with ⟨rfl, rfl⟩ | ⟨rfl, rfl⟩ | ⟨rfl, rfl⟩ | ⟨rfl, rfl⟩ | ⟨rfl, rfl⟩ <;> rfl

theorem Part.noLf {ks : List (Sym × Str)} {x : Node .expr} (h : Part ks x) (z : List Token) :
    headNot (fun t => t.sym = .lf) (toks ks ++ z) = true := by
  obtain ⟨k, ks, rfl⟩ := List.exists_cons_of_ne_nil h.ne
  have := h.head k rfl
  simpa [headNot, tk] using this

theorem Part.length {ks : List (Sym × Str)} {x : Node .expr} (h : Part ks x) : 0 < ks.length := List.length_pos_iff.2 h.ne

omit [FloatValue] in
@[simp] theorem toks_length (ks : List (Sym × Str)) : (toks ks).length = ks.length := by simp [toks]

/-- The elements of a list. -/
theorem listItems_ok {l : List (List (Sym × Str) × Node .expr)} (hl : ∀ p ∈ l, Part p.1 p.2) (r : List Token) :
    Takes (.star (.sub .items .listItem)) (toks (joinBy commaKind (l.map (·.1))) ++ tk .opRBracket c!"]" :: r)
      (capNodes .items (l.map fun p => .listItem noPos [] (.ref p.2) .nil)) (tk .opRBracket c!"]" :: r) := by
  have hz : Closes (tk .opRBracket c!"]" :: r) := closes_cons (by decide) r
  induction l with
  | nil => exact Takes.nil (bare_of_head rfl).soft
  | cons p l ih =>
    have ih := ih fun q hq => hl q (by simp [hq])
    have hp := hl p (by simp)
    cases l with
    | nil =>
      have h1 : OkKind {} (toks p.1 ++ tk .opRBracket c!"]" :: r) (.listItem noPos [] (.ref p.2) .nil) (tk .opRBracket c!"]" :: r) := by
        refine OkKind.ofTakes (Takes.altR (Soft.plus (Soft.cap (Soft.tok fun t ht => of_decide_eq_false (headNot_iff.1 (hp.noLf _) t ht)).soft))
          (Takes.altL (Takes.seq (Takes.sub (hp.ok _ hz)) (Takes.seq (Takes.skip (Soft.lit (by simp [tk])).soft) (Takes.noLf rfl)))))
          (posOf_toks _ _ _ _) fun txt => by simp [build, ptrOf]
      have := Takes.cons (Takes.sub (f := .items) h1) (by have := hp.length; simp; omega) ih
      simpa [joinBy, capNodes] using this
    | cons q l =>
      have hq := hl q (by simp)
      have hrest : ∃ u, toks (joinBy commaKind ((q :: l).map (·.1))) ++ tk .opRBracket c!"]" :: r = toks q.1 ++ u := by
        cases l with
        | nil => exact ⟨_, rfl⟩
        | cons q' l => exact ⟨_, by simp only [List.map_cons, joinBy, toks_append, List.append_assoc]; rfl⟩
      have hnl : headNot (fun t => t.sym = .lf) (toks (joinBy commaKind ((q :: l).map (·.1))) ++ tk .opRBracket c!"]" :: r) = true := by
        obtain ⟨u, hu⟩ := hrest
        rw [hu]
        exact hq.noLf u
      generalize hw : toks (joinBy commaKind ((q :: l).map (·.1))) ++ tk .opRBracket c!"]" :: r = w at ih hnl
      have h1 : OkKind {} (toks p.1 ++ tk .opComma c!"," :: w) (.listItem noPos [] (.ref p.2) .nil) w := by
        refine OkKind.ofTakes (Takes.altR (Soft.plus (Soft.cap (Soft.tok fun t ht => of_decide_eq_false (headNot_iff.1 (hp.noLf _) t ht)).soft))
          (Takes.altL (Takes.seq (Takes.sub (hp.ok _ (closes_cons (by decide) w))) (Takes.seq (Takes.once (Takes.lit rfl))
          (Takes.noLf hnl))))) (posOf_toks _ _ _ _) fun txt => by simp [build, ptrOf]
      have := Takes.cons (Takes.sub (f := .items) h1) (by have := hp.length; simp; omega) ih
      rw [← hw] at this
      simpa [joinBy, capNodes, commaKind] using this

omit [FloatValue] in
theorem join_head {p : List (Sym × Str) × Node .expr} (l : List (List (Sym × Str) × Node .expr)) (y : Sym) (w : Str) (r : List Token) :
    ∃ u, toks (joinBy commaKind ((p :: l).map (·.1))) ++ tk y w :: r = toks p.1 ++ u := by
  cases l with
  | nil => exact ⟨_, rfl⟩
  | cons q l => exact ⟨_, by simp only [List.map_cons, joinBy, toks_append, List.append_assoc]; rfl⟩

theorem join_noLf {l : List (List (Sym × Str) × Node .expr)} (hl : ∀ p ∈ l, Part p.1 p.2) {y : Sym} (hy : y ≠ .lf) (w : Str)
    (r : List Token) : headNot (fun t => t.sym = .lf) (toks (joinBy commaKind (l.map (·.1))) ++ tk y w :: r) = true := by
  cases l with
  | nil => simpa [joinBy, headNot, tk] using hy
  | cons p l =>
    obtain ⟨u, hu⟩ := join_head (p := p) l y w r
    rw [hu]
    exact (hl p (by simp)).noLf u

/-- `[x, …]` -/
theorem listExpr_ok {l : List (List (Sym × Str) × Node .expr)} (hl : ∀ p ∈ l, Part p.1 p.2) {r : List Token}
    (hr : headNot badExpr r = true) :
    OkKind {} (tk .opLBracket c!"[" :: (toks (joinBy commaKind (l.map (·.1))) ++ tk .opRBracket c!"]" :: r))
      (listExpr (l.map (·.2))) r := by
  have h1 : OkKind {} (tk .opLBracket c!"[" :: (toks (joinBy commaKind (l.map (·.1))) ++ tk .opRBracket c!"]" :: r))
      (.valueList noPos (sliceOf (l.map fun p => .listItem noPos [] (.ref p.2) .nil))) r :=
    OkKind.ofTakes (Takes.seq (Takes.lit rfl) (Takes.seq (Takes.noLfs (join_noLf hl (by decide) _ r)) (Takes.seq (listItems_ok hl r)
      (Takes.lit rfl)))) rfl fun txt => by simp [build]
  have h2 := OkKind.ofTakes (k := .value) (x := .value noPos false .nil .nil .nil .nil (.ref (.valueList noPos (sliceOf (l.map
      fun p => .listItem noPos [] (.ref p.2) .nil)))) .nil) (Takes.altR (bare_of_head rfl).soft (Takes.altR (bare_of_head rfl).soft
      (Takes.altR (bare_of_head rfl).soft (Takes.altR (bare_of_head rfl).soft (Takes.altR (bare_of_head rfl).soft (Takes.altL
      (Takes.sub h1))))))) rfl fun txt => by simp [build, ptrOf]
  have := value_ok h2 rfl (by decide) (by decide) hr
  simpa [listExpr, Function.comp_def] using this

/-- The arguments of a call. -/
theorem args_ok {l : List (List (Sym × Str) × Node .expr)} (hl : ∀ p ∈ l, Part p.1 p.2) (r : List Token) :
    OkKind {} (toks (joinBy commaKind (l.map (·.1))) ++ tk .opRParen c!")" :: r) (.invocation noPos (sliceOf (l.map (·.2))))
      (tk .opRParen c!")" :: r) := by
  have hz : Closes (tk .opRParen c!")" :: r) := closes_cons (by decide) r
  have star : ∀ l : List (List (Sym × Str) × Node .expr), (∀ p ∈ l, Part p.1 p.2) →
      Takes (.star (.seq (.lit c!",") (.sub .values .expr))) (toks (l.flatMap fun p => commaKind :: p.1) ++ tk .opRParen c!")" :: r)
        (capNodes .values (l.map (·.2))) (tk .opRParen c!")" :: r) := by
    intro l hl
    induction l with
    | nil => exact Takes.nil (Soft.seqL (Soft.lit (by simp [tk])).soft)
    | cons p l ih =>
      have ih := ih fun q hq => hl q (by simp [hq])
      have hp := hl p (by simp)
      have hcl : Closes (toks (l.flatMap fun p => commaKind :: p.1) ++ tk .opRParen c!")" :: r) := by
        cases l with
        | nil => exact hz
        | cons q l => exact ⟨_, _, rfl, by decide⟩
      have := Takes.cons (Takes.seq (Takes.lit (w := c!",") (t := tk .opComma c!",") rfl) (Takes.sub (f := .values) (hp.ok _ hcl)))
        (by simp; omega) ih
      simpa [capNodes, commaKind] using this
  cases l with
  | nil =>
    refine OkKind.ofTakes (k := .invocation) (Takes.skip (Soft.seqL (bare_of_head rfl).soft)) rfl fun txt => by
      simp [build, sliceOf]
  | cons p l =>
    have hp := hl p (by simp)
    have hs := star l fun q hq => hl q (by simp [hq])
    have hcl : Closes (toks (l.flatMap fun p => commaKind :: p.1) ++ tk .opRParen c!")" :: r) := by
      cases l with
      | nil => exact hz
      | cons q l => exact ⟨_, _, rfl, by decide⟩
    have e : ∀ (p : List (Sym × Str) × Node .expr) l, joinBy commaKind ((p :: l).map (·.1)) = p.1 ++ l.flatMap fun p => commaKind :: p.1 := by
      intro p l
      induction l generalizing p with
      | nil => simp [joinBy]
      | cons q l ih =>
        have := ih q
        simp only [List.map_cons] at this ⊢
        rw [joinBy, this]
        · simp
        · simp
    rw [e, toks_append, List.append_assoc]
    refine OkKind.ofTakes (k := .invocation) (Takes.once (Takes.seq (Takes.sub (hp.ok _ hcl)) hs)) ?_ fun txt => ?_
    · obtain ⟨k, ks, hk⟩ := List.exists_cons_of_ne_nil hp.ne
      rw [hk]
      rfl
    · simp [build]

/-- `f(x, …)` -/
theorem callExpr_ok {f : Str} (hf : f ∉ [c!"null", c!"true", c!"false", c!"(", c!"[", c!"{"])
    {l : List (List (Sym × Str) × Node .expr)} (hl : ∀ p ∈ l, Part p.1 p.2) {r : List Token} (hr : headNot badExpr r = true) :
    OkKind {} (tk .ident f :: tk .opLParen c!"(" :: (toks (joinBy commaKind (l.map (·.1))) ++ tk .opRParen c!")" :: r))
      (callExpr f (l.map (·.2))) r := by
  have h1 : OkKind {} (tk .ident f :: tk .opLParen c!"(" :: (toks (joinBy commaKind (l.map (·.1))) ++ tk .opRParen c!")" :: r))
      (oneName f) (tk .opLParen c!"(" :: (toks (joinBy commaKind (l.map (·.1))) ++ tk .opRParen c!")" :: r)) := by
    refine OkKind.ofTakes (Takes.seq (Takes.capTok rfl) (Takes.once (Takes.nil (Soft.seqL (Soft.lit (by simp [tk])).soft)))) rfl fun txt => ?_
    simp [build, oneName, tk, strsOf]
  have hb := not_badExpr hr
  have h2 := Takes.once (Takes.plus (a := sq [lit c!"(", sub .monads .invocation, lit c!")"]) (Takes.seq (Takes.lit
    (t := tk .opLParen c!"(") rfl) (Takes.seq (Takes.sub (args_ok hl r)) (Takes.lit rfl))) (Takes.nil (Soft.seqL
    (Soft.lit fun t ht => (hb t ht).2.1).soft)))
  have h3 : OkKind {} (tk .ident f :: tk .opLParen c!"(" :: (toks (joinBy commaKind (l.map (·.1))) ++ tk .opRParen c!")" :: r))
      (.primary noPos .nil .nil (.ref (oneName f)) (sliceOf [.invocation noPos (sliceOf (l.map (·.2)))]) .nil) r := by
    refine OkKind.ofTakes (Takes.altR (Soft.seqL (Soft.lit ?_).soft) (Takes.altR (bare_of_head (any_excluded (ys := [.ident])
      (by decide) (by simp [tk]) hf)).soft (Takes.seq (Takes.sub h1) (Takes.seq h2 (Takes.skip (Soft.seqL (Soft.lit
      fun t ht => (hb t ht).1).soft)))))) rfl fun txt => ?_
    · intro t ht e
      simp only [List.head?_cons, Option.mem_some_iff] at ht
      subst ht
      rw [show f = c!"(" from e] at hf
      revert hf; decide
    · simp [build, ptrOf, sliceOf]
  exact unaryExpr_ok (justPrimary_ok h3 rfl (by simp [tk, unaryOp]) fun t ht => ⟨(hb t ht).2.2.1, (hb t ht).1⟩) rfl hr

/-- The items of a map. -/
theorem mapItems_ok {l : List (Str × List (Sym × Str) × Node .expr)} (hl : ∀ p ∈ l, Part p.2.1 p.2.2) (r : List Token) :
    Takes (.star (.sub .items .mapItem)) (toks (joinBy commaKind (l.map fun p => (.ident, p.1) :: (.opAssign, c!"=") :: p.2.1)) ++
        tk .blockEnd c!"}" :: r)
      (capNodes .items (l.map fun p => .mapItem noPos [] (.ref (.mapKey noPos (.ref (oneName p.1)) .nil)) (.ref p.2.2) .nil))
      (tk .blockEnd c!"}" :: r) := by
  have hz : Closes (tk .blockEnd c!"}" :: r) := closes_cons (by decide) r
  have key : ∀ (w : Str) (r : List Token), OkKind {} (tk .ident w :: tk .opAssign c!"=" :: r) (.mapKey noPos (.ref (oneName w)) .nil)
      (tk .opAssign c!"=" :: r) := by
    intro w r
    have h1 : OkKind {} (tk .ident w :: tk .opAssign c!"=" :: r) (oneName w) (tk .opAssign c!"=" :: r) :=
      OkKind.ofTakes (Takes.seq (Takes.capTok rfl) (Takes.once (Takes.nil (Soft.seqL (Soft.lit (by simp [tk])).soft)))) rfl fun txt => by
        simp [build, oneName, tk, strsOf]
    exact OkKind.ofTakes (Takes.altL (Takes.sub h1)) rfl fun txt => by simp [build, ptrOf]
  induction l with
  | nil => exact Takes.nil (bare_of_head rfl).soft
  | cons p l ih =>
    have ih := ih fun q hq => hl q (by simp [hq])
    have hp := hl p (by simp)
    cases l with
    | nil =>
      have h1 : OkKind {} (tk .ident p.1 :: tk .opAssign c!"=" :: (toks p.2.1 ++ tk .blockEnd c!"}" :: r))
          (.mapItem noPos [] (.ref (.mapKey noPos (.ref (oneName p.1)) .nil)) (.ref p.2.2) .nil) (tk .blockEnd c!"}" :: r) := by
        refine OkKind.ofTakes (Takes.altR (Soft.plus (Soft.cap (Soft.tok (by simp [tk])).soft))
          (Takes.altL (Takes.seq (Takes.sub (key _ _)) (Takes.seq (Takes.lit rfl) (Takes.seq (Takes.sub (hp.ok _ hz))
          (Takes.seq (Takes.skip (Soft.lit (by simp [tk])).soft) (Takes.noLf rfl))))))) rfl fun txt => by simp [build, ptrOf]
      have := Takes.cons (Takes.sub (f := .items) h1) (by simp; omega) ih
      simpa [joinBy, capNodes] using this
    | cons q l =>
      have hnl : headNot (fun t => t.sym = .lf) (toks (joinBy commaKind ((q :: l).map fun p => (.ident, p.1) :: (.opAssign, c!"=") ::
          p.2.1)) ++ tk .blockEnd c!"}" :: r) = true := by
        cases l <;> rfl
      generalize hw : toks (joinBy commaKind ((q :: l).map fun p => (.ident, p.1) :: (.opAssign, c!"=") ::
          p.2.1)) ++ tk .blockEnd c!"}" :: r = w at ih hnl
      have h1 : OkKind {} (tk .ident p.1 :: tk .opAssign c!"=" :: (toks p.2.1 ++ tk .opComma c!"," :: w))
          (.mapItem noPos [] (.ref (.mapKey noPos (.ref (oneName p.1)) .nil)) (.ref p.2.2) .nil) w := by
        refine OkKind.ofTakes (Takes.altR (Soft.plus (Soft.cap (Soft.tok (by simp [tk])).soft))
          (Takes.altL (Takes.seq (Takes.sub (key _ _)) (Takes.seq (Takes.lit rfl) (Takes.seq (Takes.sub (hp.ok _ (closes_cons
          (by decide) w))) (Takes.seq (Takes.once (Takes.lit rfl)) (Takes.noLf hnl))))))) rfl fun txt => by simp [build, ptrOf]
      have := Takes.cons (Takes.sub (f := .items) h1) (by simp; omega) ih
      rw [← hw] at this
      simpa [joinBy, capNodes, commaKind] using this

/-- `{k = x, …}` -/
theorem mapExpr_ok {l : List (Str × List (Sym × Str) × Node .expr)} (hl : ∀ p ∈ l, Part p.2.1 p.2.2) {r : List Token}
    (hr : headNot badExpr r = true) :
    OkKind {} (tk .blockStart c!"{" :: (toks (joinBy commaKind (l.map fun p => (.ident, p.1) :: (.opAssign, c!"=") :: p.2.1)) ++
      tk .blockEnd c!"}" :: r)) (mapExpr (l.map fun p => (p.1, p.2.2))) r := by
  have hnl : headNot (fun t => t.sym = .lf) (toks (joinBy commaKind (l.map fun p => (.ident, p.1) :: (.opAssign, c!"=") ::
      p.2.1)) ++ tk .blockEnd c!"}" :: r) = true := by
    match l with
    | [] => rfl
    | [_] => rfl
    | _ :: _ :: _ => rfl
  have h1 : OkKind {} (tk .blockStart c!"{" :: (toks (joinBy commaKind (l.map fun p => (.ident, p.1) :: (.opAssign, c!"=") :: p.2.1)) ++
      tk .blockEnd c!"}" :: r)) (.valueMap noPos (sliceOf (l.map fun p => .mapItem noPos [] (.ref (.mapKey noPos (.ref (oneName p.1))
      .nil)) (.ref p.2.2) .nil))) r :=
    OkKind.ofTakes (Takes.seq (Takes.lit rfl) (Takes.seq (Takes.noLfs hnl) (Takes.seq (mapItems_ok hl r)
      (Takes.lit rfl)))) rfl fun txt => by simp [build]
  have h2 := OkKind.ofTakes (k := .value) (x := .value noPos false .nil .nil .nil .nil .nil (.ref (.valueMap noPos (sliceOf (l.map
      fun p => .mapItem noPos [] (.ref (.mapKey noPos (.ref (oneName p.1)) .nil)) (.ref p.2.2) .nil)))))
      (Takes.altR (bare_of_head rfl).soft (Takes.altR (bare_of_head rfl).soft
      (Takes.altR (bare_of_head rfl).soft (Takes.altR (bare_of_head rfl).soft (Takes.altR (bare_of_head rfl).soft (Takes.altR
      (bare_of_head rfl).soft (Takes.sub h1))))))) rfl fun txt => by simp [build, ptrOf]
  have := value_ok h2 rfl (by decide) (by decide) hr
  simpa [mapExpr, Function.comp_def] using this

/-! ## `if` and `switch` -/

omit [FloatValue] in
theorem skipLF_lfs (n : Nat) {r : List Token} (h : headNot (fun t => t.sym = .lf) r = true) : skipLF (List.replicate n lfTok ++ r) = r := by
  induction n with
  | zero => exact skipLF_headNot h
  | succ n ih => rw [List.replicate_succ, List.cons_append, skipLF_lf rfl, ih]

/-- Several line ends. -/
theorem Takes.gap (n : Nat) {r : List Token} (h : headNot (fun t => t.sym = .lf) r = true) : Takes Gram.lfs (List.replicate n lfTok ++ r) [] r := by
  have := Takes.lfs (List.replicate n lfTok ++ r)
  rwa [skipLF_lfs n h] at this

/-- The tokens `ks` between braces, with line ends around an expression, and what the expression is read as. -/
def Braced (ks : List (Sym × Str)) (x : Node .expr) : Prop := ∀ z, ∃ s s', Takes lfs (toks ks ++ tk .blockEnd c!"}" :: z) [] s ∧
  OkKind {} s x s' ∧ Takes lfs s' [] (tk .blockEnd c!"}" :: z)

theorem Part.braced (n : Nat) {ks : List (Sym × Str)} {x : Node .expr} (h : Part ks x) :
    Braced (List.replicate n (.lf, c!"\n") ++ ks) x := fun z =>
  ⟨_, _, by simpa [toks, lfTok] using Takes.gap n (h.noLf (tk .blockEnd c!"}" :: z)), h.ok _ (closes_cons (by decide) z), Takes.noLfs rfl⟩

theorem LinePart.braced (n m : Nat) {ks : List (Sym × Str)} {x : Node .expr} (h : LinePart ks x) :
    Braced (List.replicate n (.lf, c!"\n") ++ ks ++ List.replicate (m + 1) (.lf, c!"\n")) x := fun z =>
  ⟨_, _, by simpa [toks, lfTok, List.replicate_succ] using Takes.gap n (h.noLf (lfTok :: (List.replicate m lfTok ++ tk .blockEnd c!"}" :: z))),
    h.line _ _ rfl rfl, by simpa [List.replicate_succ, lfTok] using Takes.gap (m + 1) (r := tk .blockEnd c!"}" :: z) rfl⟩

/-- `if (c) {x} else {y}` -/
theorem ifExpr_ok {s r : List Token} {kx ky : List (Sym × Str)} {c x y : Node .expr}
    (h : OkKind {} s c (tk .opRParen c!")" :: tk .blockStart c!"{" :: (toks kx ++ tk .blockEnd c!"}" :: tk .else_ c!"else" ::
      tk .blockStart c!"{" :: (toks ky ++ tk .blockEnd c!"}" :: r)))) (hx : Braced kx x) (hy : Braced ky y) :
    OkKind {} (tk .if_ c!"if" :: tk .opLParen c!"(" :: s) (ifExpr c x y) r := by
  have h1 := onLevel_ok .logicalOr (parenUnary_ok h (by simp [tk])) rfl (by simp [tk]; decide)
  obtain ⟨s1, s2, h3, h4, h5⟩ := hx (tk .else_ c!"else" :: tk .blockStart c!"{" :: (toks ky ++ tk .blockEnd c!"}" :: r))
  obtain ⟨s3, s4, h6, h7, h8⟩ := hy r
  have h2 := OkKind.ofTakes (k := .exprIf) (x := .exprIf noPos (onLevel .logicalOr (justPrimary (inParens c))) (.ref x) (.ref y))
    (Takes.seq (Takes.tok (t := tk .if_ c!"if") rfl) (Takes.seq (Takes.sub h1) (Takes.seq (Takes.noLfs rfl) (Takes.seq (Takes.lit rfl)
    (Takes.seq h3 (Takes.seq (Takes.once (Takes.sub h4)) (Takes.seq h5 (Takes.seq (Takes.lit rfl) (Takes.seq (Takes.noLfs rfl)
    (Takes.once (Takes.seq (Takes.tok rfl) (Takes.seq (Takes.lit rfl) (Takes.seq h6 (Takes.seq (Takes.sub h7) (Takes.seq
    h8 (Takes.lit rfl)))))))))))))))) rfl fun txt => by simp [build, ptrOf]
  exact OkKind.ofTakes (Takes.altR (bare_of_head rfl).soft (Takes.altL (Takes.sub h2))) rfl fun txt => by
    simp [build, ptrOf, ifExpr]

/-- `if (c) {x}`: the line ends after it are read too. -/
theorem ifOnlyExpr_ok {s z : List Token} {kx : List (Sym × Str)} {c x : Node .expr}
    (h : OkKind {} s c (tk .opRParen c!")" :: tk .blockStart c!"{" :: (toks kx ++ tk .blockEnd c!"}" :: z))) (hx : Braced kx x)
    (hz : headNot (fun t => t.sym = .else_) (skipLF z) = true) :
    OkKind {} (tk .if_ c!"if" :: tk .opLParen c!"(" :: s) (ifOnlyExpr c x) (skipLF z) := by
  have h1 := onLevel_ok .logicalOr (parenUnary_ok h (by simp [tk])) rfl (by simp [tk]; decide)
  obtain ⟨s1, s2, h3, h4, h5⟩ := hx z
  have h2 := OkKind.ofTakes (k := .exprIf) (x := .exprIf noPos (onLevel .logicalOr (justPrimary (inParens c))) (.ref x) .nil)
    (Takes.seq (Takes.tok (t := tk .if_ c!"if") rfl) (Takes.seq (Takes.sub h1) (Takes.seq (Takes.noLfs rfl) (Takes.seq (Takes.lit rfl)
    (Takes.seq h3 (Takes.seq (Takes.once (Takes.sub h4)) (Takes.seq h5 (Takes.seq (Takes.lit rfl) (Takes.seq (Takes.lfs z)
    (Takes.skip (Soft.seqL (Soft.tok fun t ht => of_decide_eq_false (headNot_iff.1 hz t ht)).soft))))))))))) rfl
    fun txt => by simp [build, ptrOf]
  exact OkKind.ofTakes (Takes.altR (bare_of_head rfl).soft (Takes.altL (Takes.sub h2))) rfl fun txt => by
    simp [build, ptrOf, ifOnlyExpr]

/-- The tokens in front of the brace of a case, and what they are read as. -/
inductive CaseHead : List (Sym × Str) → List (Node .expr) → Bool → Prop
  /-- `case (c₁), …:` -/
  | of {l : List (List (Sym × Str) × Node .expr)} : l ≠ [] → (∀ p ∈ l, Part p.1 p.2) →
      CaseHead ((.case_, c!"case") :: joinBy commaKind (l.map fun p => (.opLParen, c!"(") :: p.1 ++ [(.opRParen, c!")")]) ++
        [(.opColon, c!":")]) (l.map (·.2)) false
  /-- `default:` -/
  | dflt : CaseHead [(.ident, c!"default"), (.opColon, c!":")] [] true

/-- The conditions of a case. -/
theorem conditions_ok {l : List (List (Sym × Str) × Node .expr)} (hl : ∀ p ∈ l, Part p.1 p.2) (z : List Token) :
    Takes (.star (.seq (.lit c!",") (.sub .conditions (.bin .logicalOr))))
      (toks (l.flatMap fun p => commaKind :: (.opLParen, c!"(") :: p.1 ++ [(.opRParen, c!")")]) ++ tk .opColon c!":" :: z)
      (capNodes .conditions (l.map fun p => onLevel .logicalOr (justPrimary (inParens p.2)))) (tk .opColon c!":" :: z) := by
  induction l with
  | nil => exact Takes.nil (Soft.seqL (Soft.lit (by simp [tk])).soft)
  | cons p l ih =>
    have ih := ih fun q hq => hl q (by simp [hq])
    have hp := hl p (by simp)
    obtain ⟨t, u, e, ht⟩ : ∃ t u, toks (l.flatMap fun p => commaKind :: (.opLParen, c!"(") :: p.1 ++ [(.opRParen, c!")")]) ++
        tk .opColon c!":" :: z = t :: u ∧ (t = tk .opColon c!":" ∨ t = tk .opComma c!",") := by
      cases l with
      | nil => exact ⟨_, _, rfl, .inl rfl⟩
      | cons q l => exact ⟨_, _, rfl, .inr rfl⟩
    have h1 := onLevel_ok .logicalOr (parenUnary_ok (hp.ok (tk .opRParen c!")" :: (toks (l.flatMap fun p => commaKind :: (.opLParen, c!"(") ::
      p.1 ++ [(.opRParen, c!")")]) ++ tk .opColon c!":" :: z)) (closes_cons (by decide) _)) (by
        rw [e]; rcases ht with rfl | rfl <;> simp [tk])) rfl (by
        rw [e]; rcases ht with rfl | rfl <;> (simp [tk]; decide))
    have := Takes.cons (Takes.seq (Takes.lit (w := c!",") (t := tk .opComma c!",") rfl) (Takes.sub (f := .conditions) h1))
      (by simp; omega) ih
    simpa [capNodes, commaKind] using this

theorem joinBy_cons {α β : Type} (sep : α) (f : β → List α) (p : β) (l : List β) :
    joinBy sep ((p :: l).map f) = f p ++ l.flatMap fun p => sep :: f p := by
  induction l generalizing p with
  | nil => simp [joinBy]
  | cons q l ih =>
    have := ih q
    simp only [List.map_cons] at this ⊢
    rw [joinBy, this]
    · simp
    · simp

/-- A case. -/
theorem case_ok {kh kb : List (Sym × Str)} {cs : List (Node .expr)} {d : Bool} {x : Node .expr} (h : CaseHead kh cs d) (hx : Braced kb x)
    (z : List Token) : OkKind {} (toks (kh ++ (.blockStart, c!"{") :: kb ++ [(.blockEnd, c!"}")]) ++ z) (caseNode cs d x) z := by
  obtain ⟨s1, s2, h3, h4, h5⟩ := hx z
  have hb : Takes (sq [lfs, lit c!"{", lfs, sub .expr .expr, lfs, lit c!"}"]) (tk .blockStart c!"{" :: (toks kb ++ tk .blockEnd c!"}" :: z))
      _ z := Takes.seq (Takes.noLfs rfl) (Takes.seq (Takes.lit rfl) (Takes.seq h3 (Takes.seq (Takes.sub h4) (Takes.seq h5 (Takes.lit rfl)))))
  cases h with
  | @of l hne hl =>
    obtain ⟨p, l, rfl⟩ := List.exists_cons_of_ne_nil hne
    have hp := hl p (by simp)
    have hc := conditions_ok (l := l) (fun q hq => hl q (by simp [hq])) (tk .blockStart c!"{" :: (toks kb ++ tk .blockEnd c!"}" :: z))
    obtain ⟨t, u, e, ht⟩ : ∃ t u, toks (l.flatMap fun p => commaKind :: (.opLParen, c!"(") :: p.1 ++ [(.opRParen, c!")")]) ++
        tk .opColon c!":" :: tk .blockStart c!"{" :: (toks kb ++ tk .blockEnd c!"}" :: z) = t :: u ∧ (t = tk .opColon c!":" ∨ t = tk .opComma c!",") := by
      cases l with
      | nil => exact ⟨_, _, rfl, .inl rfl⟩
      | cons q l => exact ⟨_, _, rfl, .inr rfl⟩
    have h1 := onLevel_ok .logicalOr (parenUnary_ok (hp.ok (tk .opRParen c!")" :: (toks (l.flatMap fun p => commaKind :: (.opLParen, c!"(") ::
      p.1 ++ [(.opRParen, c!")")]) ++ tk .opColon c!":" :: tk .blockStart c!"{" :: (toks kb ++ tk .blockEnd c!"}" :: z))) (closes_cons (by decide) _)) (by
        rw [e]; rcases ht with rfl | rfl <;> simp [tk])) rfl (by
        rw [e]; rcases ht with rfl | rfl <;> (simp [tk]; decide))
    have := OkKind.ofTakes (k := .exprCase) (x := caseNode ((p :: l).map (·.2)) false x) (Takes.seq (Takes.altL (Takes.seq (Takes.tok
      (t := tk .case_ c!"case") rfl) (Takes.seq (Takes.sub h1) (Takes.seq hc (Takes.lit rfl))))) hb) rfl
      fun txt => by simp [build, ptrOf, caseNode, Function.comp_def]
    rw [joinBy_cons]
    simpa using this
  | dflt =>
    have := OkKind.ofTakes (k := .exprCase) (x := caseNode [] true x) (Takes.seq (Takes.altR (bare_of_head (by rfl)).soft (Takes.seq (Takes.cap (Ok.lit
      (t := tk .ident c!"default") rfl)) (Takes.lit (t := tk .opColon c!":") rfl))) hb) rfl
      fun txt => by simp [build, ptrOf, caseNode, sliceOf]
    simpa using this

/-- A case with the line ends after it. -/
structure CasePart (ks : List (Sym × Str)) (x : Node .exprCase) : Prop where
  ok : ∀ z, OkKind {} (toks ks ++ z) x z
  head : ∀ k ∈ ks.head?, k.1 ≠ .lf
  ne : ks ≠ []

theorem case_part {kh kb : List (Sym × Str)} {cs : List (Node .expr)} {d : Bool} {x : Node .expr} (h : CaseHead kh cs d) (hx : Braced kb x) :
    CasePart (kh ++ (.blockStart, c!"{") :: kb ++ [(.blockEnd, c!"}")]) (caseNode cs d x) := by
  refine ⟨case_ok h hx, ?_, ?_⟩ <;> cases h <;> simp

/-- The cases of a `switch`. -/
theorem cases_ok {l : List (List (Sym × Str) × Nat × Node .exprCase)} (hl : ∀ p ∈ l, CasePart p.1 p.2.2) (z : List Token) :
    Takes (.star (.seq (.sub .cases .exprCase) lfs)) (toks (l.flatMap fun p => p.1 ++ List.replicate p.2.1 (.lf, c!"\n")) ++ tk .blockEnd c!"}" :: z)
      (capNodes .cases (l.map (·.2.2))) (tk .blockEnd c!"}" :: z) ∧
    headNot (fun t => t.sym = .lf) (toks (l.flatMap fun p => p.1 ++ List.replicate p.2.1 (.lf, c!"\n")) ++ tk .blockEnd c!"}" :: z) = true := by
  induction l with
  | nil => exact ⟨Takes.nil (Soft.seqL (bare_of_head (by rfl)).soft), rfl⟩
  | cons p l ih =>
    obtain ⟨ih, ih'⟩ := ih fun q hq => hl q (by simp [hq])
    have hp := hl p (by simp)
    obtain ⟨k, ks, hk⟩ := List.exists_cons_of_ne_nil hp.ne
    constructor
    · have := Takes.cons (Takes.seq (b := lfs) (Takes.sub (f := .cases) (hp.ok _)) (Takes.gap p.2.1 ih')) (by rw [hk]; simp; omega) ih
      simpa [capNodes, toks, lfTok] using this
    · have := hp.head k (by rw [hk]; rfl)
      simpa [hk, headNot, tk] using this

/-- `switch (s) {case …}` -/
theorem switchExpr_ok {n : Nat} {s z : List Token} {l : List (List (Sym × Str) × Nat × Node .exprCase)} {c : Node .expr}
    (h : OkKind {} s c (tk .opRParen c!")" :: tk .blockStart c!"{" :: (List.replicate n lfTok ++
      (toks (l.flatMap fun p => p.1 ++ List.replicate p.2.1 (.lf, c!"\n")) ++ tk .blockEnd c!"}" :: z)))) (hl : ∀ p ∈ l, CasePart p.1 p.2.2) :
    OkKind {} (tk .switch_ c!"switch" :: tk .opLParen c!"(" :: s) (switchExpr c (l.map (·.2.2))) z := by
  have h1 := onLevel_ok .logicalOr (parenUnary_ok h (by simp [tk])) rfl (by simp [tk]; decide)
  obtain ⟨h3, h4⟩ := cases_ok hl z
  have h2 := OkKind.ofTakes (k := .exprSwitch) (x := .exprSwitch noPos (onLevel .logicalOr (justPrimary (inParens c))) (sliceOf (l.map (·.2.2))))
    (Takes.seq (Takes.tok (t := tk .switch_ c!"switch") rfl) (Takes.seq (Takes.sub h1) (Takes.seq (Takes.noLfs rfl) (Takes.seq (Takes.lit rfl)
    (Takes.seq (Takes.gap n h4) (Takes.seq h3 (Takes.lit rfl))))))) rfl fun txt => by simp [build, ptrOf]
  exact OkKind.ofTakes (Takes.altR (bare_of_head rfl).soft (Takes.altR (bare_of_head rfl).soft (Takes.sub h2))) rfl fun txt => by
    simp [build, ptrOf, switchExpr]

end Verif.Etx
