import Verif.Etx.Multi

/-!
# Operands, operators and what binds them

What the parser makes of the tokens of names, calls, indexes, selections, prefix and binary operators without parentheses
(`pkg/etx/expr.go:230-900`), in front of any token that does not continue them.
-/

set_option linter.unusedSimpArgs false

namespace Verif.Etx
open Gram

/-! ## Trees -/

/-- The name `a.b` followed by the arguments of calls and by a selection. -/
def callNode (ws : List Str) (as : List (List (Node .expr))) (p : Node (.ptr .postfixE)) : Node .primary :=
  .primary noPos .nil .nil (.ref (.ident noPos (strsOf ws))) (sliceOf (as.map fun a => .invocation noPos (sliceOf a))) p

/-- A value. -/
def valueNode (v : Node .value) : Node .primary := .primary noPos .nil (.ref v) .nil .nilSlice .nil

/-- `null` -/
def nullNode : Node .value := .value noPos true .nil .nil .nil .nil .nil .nil
/-- `true` and `false` -/
def boolNode (b : Bool) : Node .value := .value noPos false (.ref (.valueBool noPos b)) .nil .nil .nil .nil .nil
/-- A number. -/
def numberNode (f : BigFloat) (src : Str) : Node .value := .value noPos false .nil (.ref (.valueNumber noPos (some (0, f)) src)) .nil .nil .nil .nil
/-- A string of any parts. -/
def stringNode (fs : List (Node .stringFragment)) : Node .value :=
  .value noPos false .nil .nil (.ref (.valueString noPos (sliceOf fs))) .nil .nil .nil
/-- `{k = x, …}` -/
def mapNode (xs : List (Str × Node .expr)) : Node .value :=
  .value noPos false .nil .nil .nil .nil .nil (.ref (.valueMap noPos
    (sliceOf (xs.map fun x => .mapItem noPos [] (.ref (.mapKey noPos (.ref (oneName x.1)) .nil)) (.ref x.2) .nil))))
/-- `[x, …]` -/
def listNode (xs : List (Node .expr)) : Node .value :=
  .value noPos false .nil .nil .nil .nil (.ref (.valueList noPos (sliceOf (xs.map fun x => .listItem noPos [] (.ref x) .nil)))) .nil

/-- `c ? x : y` -/
def condNode (c : Node (.bin .logicalOr)) (x y : Node .expr) : Node .expr :=
  .expr noPos (.ref (.conditional noPos c true (.ref x) (.ref y))) .nil .nil

/-! ## Parsing -/

/-- The tokens that continue a primary expression. -/
def badPrimary (t : Token) : Bool := t.txt = c!"." || t.txt = c!"("

/-- The tokens that continue something of the kind. -/
def badKind : Kind → Token → Bool
  | .primary => badPrimary
  | .bin l => badBin l
  | .expr => badExpr
  | _ => badPost

variable [FloatValue]

/-- A value as a primary expression. -/
theorem valueNode_ok {t : Token} {s r : List Token} {v : Node .value} (h : OkKind {} (t :: s) v r) (hp : t.pos = {})
    (hw : t.txt ≠ c!"(") : OkKind {} (t :: s) (valueNode v) r :=
  OkKind.ofTakes (Takes.altR (Soft.seqL (Soft.lit (by simpa using hw)).soft) (Takes.altL (Takes.sub h))) hp fun txt => by
    simp [build, ptrOf, sliceOf, valueNode]

theorem nullNode_ok (r : List Token) : OkKind {} (tk .ident c!"null" :: r) nullNode r :=
  OkKind.ofTakes (Takes.altL (Takes.cap (Ok.lit (t := tk .ident c!"null") rfl))) rfl fun txt => by simp [build, ptrOf, nullNode]

theorem boolNode_ok (b : Bool) (r : List Token) : OkKind {} (tk .ident (if b then c!"true" else c!"false") :: r) (boolNode b) r := by
  cases b
  · exact OkKind.ofTakes (Takes.altR (bare_of_head rfl).soft (Takes.altL (Takes.cap (Ok.altR (Soft.lit (by simp [tk])).soft (Ok.lit (t := tk .ident c!"false") rfl))))) rfl
      fun txt => by simp [build, ptrOf, boolNode, tk]
  · exact OkKind.ofTakes (Takes.altR (bare_of_head rfl).soft (Takes.altL (Takes.cap (Ok.altL (Ok.lit (t := tk .ident c!"true") rfl))))) rfl
      fun txt => by simp [build, ptrOf, boolNode, tk]

theorem numberNode_ok {w src : Str} {f : BigFloat} (h : captureNumber w = some (f, src)) (hw : w ∉ [c!"null", c!"true", c!"false"])
    (r : List Token) : OkKind {} (tk .number w :: r) (numberNode f src) r := by
  refine OkKind.ofTakes (Takes.altR (bare_of_head (any_excluded (ys := [.number]) (ws := [c!"null", c!"true", c!"false"]) (by decide) (by simp [tk]) hw)).soft
    (Takes.altR (bare_of_head (any_excluded (ys := [.number]) (ws := [c!"null", c!"true", c!"false"]) (by decide) (by simp [tk]) hw)).soft
    (Takes.altL (Takes.capTok (y := .number) rfl)))) rfl fun txt => ?_
  simp [build, ptrOf, numberNode, tk, h]

theorem stringNode_ok {q : Char} (hq : isQuote q = true) {ks : List (Sym × Str)} {l : List (Node .stringFragment)} {r : List Token}
    (h : Takes (.star (.sub .fragment .stringFragment)) (toks ks ++ tk .stringEnd [q] :: r) (capNodes .fragment l) (tk .stringEnd [q] :: r)) :
    OkKind {} (tk .string [q] :: (toks ks ++ tk .stringEnd [q] :: r)) (stringNode l) r := by
  have hq' : [q] = c!"\"" ∨ [q] = c!"'" := by
    simp only [isQuote, Bool.or_eq_true, decide_eq_true_eq] at hq
    rcases hq with rfl | rfl <;> simp
  have h2 : OkKind {} (tk .string [q] :: (toks ks ++ tk .stringEnd [q] :: r)) (.valueString noPos (sliceOf l)) r :=
    OkKind.ofTakes (Takes.seq (Takes.tok rfl) (Takes.seq h (Takes.tok rfl))) rfl fun txt => by simp [build]
  refine OkKind.ofTakes (Takes.altR (bare_of_head ?_).soft (Takes.altR (bare_of_head ?_).soft (Takes.altR (bare_of_head ?_).soft
    (Takes.altL (Takes.sub h2))))) rfl fun txt => by simp [build, ptrOf, stringNode]
  all_goals rcases hq' with h | h <;> rw [h] <;> rfl

theorem listNode_ok {l : List (List (Sym × Str) × Node .expr)} (hl : ∀ p ∈ l, Part p.1 p.2) (r : List Token) :
    OkKind {} (tk .opLBracket c!"[" :: (toks (joinBy commaKind (l.map (·.1))) ++ tk .opRBracket c!"]" :: r)) (listNode (l.map (·.2))) r := by
  have h1 : OkKind {} (tk .opLBracket c!"[" :: (toks (joinBy commaKind (l.map (·.1))) ++ tk .opRBracket c!"]" :: r))
      (.valueList noPos (sliceOf (l.map fun p => .listItem noPos [] (.ref p.2) .nil))) r :=
    OkKind.ofTakes (Takes.seq (Takes.lit rfl) (Takes.seq (Takes.noLfs (join_noLf hl (by decide) _ r)) (Takes.seq (listItems_ok hl r)
      (Takes.lit rfl)))) rfl fun txt => by simp [build]
  exact OkKind.ofTakes (Takes.altR (bare_of_head rfl).soft (Takes.altR (bare_of_head rfl).soft
      (Takes.altR (bare_of_head rfl).soft (Takes.altR (bare_of_head rfl).soft (Takes.altR (bare_of_head rfl).soft (Takes.altL
      (Takes.sub h1))))))) rfl fun txt => by simp [build, ptrOf, listNode, Function.comp_def]

theorem mapNode_ok {l : List (Str × List (Sym × Str) × Node .expr)} (hl : ∀ p ∈ l, Part p.2.1 p.2.2) (r : List Token) :
    OkKind {} (tk .blockStart c!"{" :: (toks (joinBy commaKind (l.map fun p => (.ident, p.1) :: (.opAssign, c!"=") :: p.2.1)) ++
      tk .blockEnd c!"}" :: r)) (mapNode (l.map fun p => (p.1, p.2.2))) r := by
  have hnl : headNot (fun t => t.sym = .lf) (toks (joinBy commaKind (l.map fun p => (.ident, p.1) :: (.opAssign, c!"=") ::
      p.2.1)) ++ tk .blockEnd c!"}" :: r) = true := by
    match l with
    | [] => rfl
    | [_] => rfl
    | _ :: _ :: _ => rfl
  have h1 : OkKind {} (tk .blockStart c!"{" :: (toks (joinBy commaKind (l.map fun p => (.ident, p.1) :: (.opAssign, c!"=") :: p.2.1)) ++
      tk .blockEnd c!"}" :: r)) (.valueMap noPos (sliceOf (l.map fun p => .mapItem noPos [] (.ref (.mapKey noPos (.ref (oneName p.1))
      .nil)) (.ref p.2.2) .nil))) r :=
    OkKind.ofTakes (Takes.seq (Takes.lit rfl) (Takes.seq (Takes.noLfs hnl) (Takes.seq (mapItems_ok hl r)
      (Takes.lit rfl)))) rfl fun txt => by simp [build]
  exact OkKind.ofTakes (Takes.altR (bare_of_head rfl).soft (Takes.altR (bare_of_head rfl).soft
      (Takes.altR (bare_of_head rfl).soft (Takes.altR (bare_of_head rfl).soft (Takes.altR (bare_of_head rfl).soft (Takes.altR
      (bare_of_head rfl).soft (Takes.sub h1))))))) rfl fun txt => by simp [build, ptrOf, mapNode, Function.comp_def]

/-- A name. -/
theorem names_ok (w : Str) (ls : List Str) {r : List Token} (hr : headNot (fun t => t.txt = c!".") r = true) :
    OkKind {} (toks (nameKinds (w :: ls)) ++ r) (.ident noPos (strsOf (w :: ls))) r := by
  have star : ∀ ls : List Str, Takes (.star (.seq (.lit c!".") (.cap .parts (.tok .ident))))
      (toks (ls.flatMap fun w => [(.dot, c!"."), (.ident, w)]) ++ r) (capStrs .parts ls) r := by
    intro ls
    induction ls with
    | nil => exact Takes.nil (Soft.seqL (Soft.lit (by simpa [headNot_iff] using hr)).soft)
    | cons w ls ih =>
      have := Takes.cons (Takes.seq (Takes.lit (w := c!".") (t := tk .dot c!".") rfl) (Takes.capTok (f := .parts) (y := .ident)
        (t := tk .ident w) rfl)) (by simp; omega) ih
      simpa [capStrs, tk, toks] using this
  exact OkKind.ofTakes (s := tk .ident w :: (toks (ls.flatMap fun w => [(.dot, c!"."), (.ident, w)]) ++ r))
    (Takes.seq (Takes.capTok (y := .ident) rfl) (Takes.once (star ls))) rfl fun txt => by simp [build, tk, strsOf]

/-- The tokens of the arguments of a call. -/
def argKinds (a : List (List (Sym × Str) × Node .expr)) : List (Sym × Str) :=
  (.opLParen, c!"(") :: joinBy commaKind (a.map (·.1)) ++ [(.opRParen, c!")")]

/-- The arguments of several calls. -/
theorem calls_ok {as : List (List (List (Sym × Str) × Node .expr))} (h : ∀ a ∈ as, ∀ p ∈ a, Part p.1 p.2) {r : List Token}
    (hr : ∀ t ∈ r.head?, t.txt ≠ c!"(") :
    Takes (.star (sq [lit c!"(", sub .monads .invocation, lit c!")"])) (toks (as.flatMap argKinds) ++ r)
      (capNodes .monads (as.map fun a => .invocation noPos (sliceOf (a.map (·.2))))) r := by
  induction as with
  | nil => exact Takes.nil (Soft.seqL (Soft.lit hr).soft)
  | cons a as ih =>
    have ih := ih fun b hb => h b (by simp [hb])
    have h1 : Takes (.star (sq [lit c!"(", sub .monads .invocation, lit c!")"])) _ _ _ := Takes.cons (Takes.seq (b := sq [sub .monads .invocation, lit c!")"]) (Takes.lit (t := tk .opLParen c!"(") rfl) (Takes.seq (Takes.sub (f := .monads) (args_ok (h a (by simp)) (toks (as.flatMap argKinds) ++ r)))
      (Takes.lit rfl))) (by simp; omega) ih
    simpa [argKinds, capNodes] using h1

/-- A name or a call. -/
theorem call_ok {w : Str} (ls : List Str) (hw : w ∉ [c!"null", c!"true", c!"false", c!"(", c!"[", c!"{"])
    {as : List (List (List (Sym × Str) × Node .expr))} (h : ∀ a ∈ as, ∀ p ∈ a, Part p.1 p.2) {c : List Capture} {z r : List Token}
    {p : Node (.ptr .postfixE)} (hz : ∀ t ∈ z.head?, t.txt ≠ c!"(") (hz' : as = [] → ∀ t ∈ z.head?, t.txt ≠ c!".")
    (hp : Takes (.opt (.seq (.lit c!".") (.sub .post .postfixE))) z c r)
    (hc : (c = [] ∧ p = .nil) ∨ ∃ x, c = capNodes .post [x] ∧ p = .ref x) :
    OkKind {} (toks (nameKinds (w :: ls) ++ as.flatMap argKinds) ++ z) (callNode (w :: ls) (as.map fun a => a.map (·.2)) p) r := by
  have hn : headNot (fun t => t.txt = c!".") (toks (as.flatMap argKinds) ++ z) = true := by
    cases as with
    | nil => simpa [headNot_iff] using hz' rfl
    | cons a as => simp [argKinds, headNot, tk]
  have h1 := names_ok w ls hn
  have h2 : Takes (.opt (.plus (sq [lit c!"(", sub .monads .invocation, lit c!")"]))) (toks (as.flatMap argKinds) ++ z)
      (capNodes .monads (as.map fun a => .invocation noPos (sliceOf (a.map (·.2))))) z := by
    cases as with
    | nil => exact Takes.skip (Soft.plus (Soft.seqL (Soft.lit hz).soft))
    | cons a as =>
      have := Takes.once (Takes.plus (a := sq [lit c!"(", sub .monads .invocation, lit c!")"]) (Takes.seq (Takes.lit
        (t := tk .opLParen c!"(") rfl) (Takes.seq (Takes.sub (f := .monads) (args_ok (h a (by simp)) (toks (as.flatMap argKinds) ++ z))) (Takes.lit rfl)))
        (calls_ok (fun b hb => h b (by simp [hb])) hz))
      simpa [argKinds, capNodes] using this
  rw [toks_append, List.append_assoc]
  have e : toks (nameKinds (w :: ls)) ++ (toks (as.flatMap argKinds) ++ z) = tk .ident w :: (toks (ls.flatMap fun w => [(.dot, c!"."), (.ident, w)]) ++ (toks (as.flatMap argKinds) ++ z)) := rfl
  rw [e] at h1 ⊢
  refine OkKind.ofTakes (Takes.altR (Soft.seqL (Soft.lit ?_).soft) (Takes.altR (bare_of_head (any_excluded (ys := [.ident])
    (by decide) (by simp [tk]) hw)).soft (Takes.seq (Takes.sub h1) (Takes.seq h2 hp)))) rfl fun txt => ?_
  · intro t ht e
    simp only [List.head?_cons, Option.mem_some_iff] at ht
    subst ht
    rw [show w = c!"(" from e] at hw
    revert hw; decide
  · rcases hc with ⟨rfl, rfl⟩ | ⟨x, rfl, rfl⟩ <;> simp [build, ptrOf, callNode, Function.comp_def]

/-- An index and a selection. -/
theorem post_ok {s z z' r : List Token} {p : Node .primary} {c c' : List Capture} {i : Node (.ptr .expr)} {q : Node (.ptr .postfixE)}
    (h : OkKind {} s p z) (hs : posOf {} s = {})
    (hi : Takes (.opt (sq [lit c!"[", sub .index .expr, lit c!"]"])) z c z')
    (hi' : (c = [] ∧ i = .nil) ∨ ∃ x, c = capNodes .index [x] ∧ i = .ref x)
    (hq : Takes (.opt (.seq (.lit c!".") (.sub .post .postfixE))) z' c' r)
    (hq' : (c' = [] ∧ q = .nil) ∨ ∃ x, c' = capNodes .post [x] ∧ q = .ref x) :
    OkKind {} s (.postfixE noPos p i q) r := by
  refine OkKind.ofTakes (Takes.seq (Takes.sub h) (Takes.seq hi hq)) hs fun txt => ?_
  rcases hi' with ⟨rfl, rfl⟩ | ⟨x, rfl, rfl⟩ <;> rcases hq' with ⟨rfl, rfl⟩ | ⟨y, rfl, rfl⟩ <;> simp [build, ptrOf]

theorem noIndex {r : List Token} (hr : ∀ t ∈ r.head?, t.txt ≠ c!"[") : Takes (.opt (sq [lit c!"[", sub .index .expr, lit c!"]"])) r [] r :=
  Takes.skip (Soft.seqL (Soft.lit hr).soft)

theorem noSelect {r : List Token} (hr : ∀ t ∈ r.head?, t.txt ≠ c!".") : Takes (.opt (.seq (.lit c!".") (.sub .post .postfixE))) r [] r :=
  Takes.skip (Soft.seqL (Soft.lit hr).soft)

theorem takes_index {ks : List (Sym × Str)} {x : Node .expr} (h : Part ks x) (r : List Token) :
    Takes (.opt (sq [lit c!"[", sub .index .expr, lit c!"]"])) (tk .opLBracket c!"[" :: (toks ks ++ tk .opRBracket c!"]" :: r)) (capNodes .index [x]) r := by
  have : Takes (.opt (sq [lit c!"[", sub .index .expr, lit c!"]"])) _ _ _ := Takes.once (Takes.seq (Takes.lit (w := c!"[") (t := tk .opLBracket c!"[") rfl) (Takes.seq (Takes.sub (f := .index) (h.ok _ (closes_cons (y := .opRBracket) (w := c!"]") (by decide) r))) (Takes.lit (w := c!"]") rfl)))
  simpa [capNodes] using this

theorem takes_select {s r : List Token} {x : Node .postfixE} (h : OkKind {} s x r) :
    Takes (.opt (.seq (.lit c!".") (.sub .post .postfixE))) (tk .dot c!"." :: s) (capNodes .post [x]) r := by
  have := Takes.once (Takes.seq (Takes.lit (w := c!".") (t := tk .dot c!".") rfl) (Takes.sub (f := .post) h))
  simpa [capNodes] using this

/-- An expression without prefix operator. -/
theorem noPrefix_ok {t : Token} {s r : List Token} {p : Node .postfixE} (h : OkKind {} (t :: s) p r) (hp : t.pos = {}) (ht : t.sym ∉ unaryOp) :
    OkKind {} (t :: s) (.unary noPos [] p) r :=
  OkKind.ofTakes (k := .unary) (Takes.seq (Takes.skip (Soft.cap (Bare.alToks (by simp [unaryOp]) (by simpa using ht)))) (Takes.sub h)) hp
    fun txt => by simp [build]

/-- A prefix operator. -/
theorem prefix_ok {y : Sym} {w : Str} (hy : y ∈ unaryOp) {s r : List Token} {p : Node .postfixE} (h : OkKind {} s p r) :
    OkKind {} (tk y w :: s) (.unary noPos w p) r :=
  OkKind.ofTakes (k := .unary) (Takes.seq (Takes.once (Takes.cap (Ok.alToks (ys := unaryOp) (t := tk y w) hy))) (Takes.sub h)) rfl
    fun txt => by simp [build, tk]

/-- A binary operator. -/
theorem binary_ok {l : Level} {o : Sym} {w : Str} (ho : o ∈ binOp l) {s s' r : List Token} {x : Node l.operand} {y : Node (.bin l)}
    (h : OkKind {} s x (tk o w :: s')) (hs : posOf {} s = {}) (h' : OkKind {} s' y r) : OkKind {} s (.bin l noPos x w (.ref y)) r := by
  refine OkKind.ofTakes (Takes.seq (Takes.sub h) (Takes.once (Takes.seq (Takes.cap (Ok.alToks (ys := binOp l) (t := tk o w) ho)) (Takes.sub h')))) hs fun txt => ?_
  simp [build, ptrOf, tk]

/-- `c ? x : y` -/
theorem condNode_ok {s s' s'' r : List Token} {c : Node (.bin .logicalOr)} {x y : Node .expr}
    (h : OkKind {} s c (tk .opCondition c!"?" :: s')) (hs : posOf {} s = {}) (h' : OkKind {} s' x (tk .opColon c!":" :: s''))
    (h'' : OkKind {} s'' y r) : OkKind {} s (condNode c x y) r := by
  have h4 := OkKind.ofTakes (k := .conditional) (x := .conditional noPos c true (.ref x) (.ref y)) (Takes.seq (Takes.sub h) (Takes.once (Takes.seq (Takes.capLit rfl) (Takes.seq
      (Takes.sub h') (Takes.seq (Takes.lit rfl) (Takes.sub h'')))))) hs fun txt => by simp [build, ptrOf]
  exact OkKind.ofTakes (Takes.altL (Takes.sub h4)) hs fun txt => by simp [build, ptrOf, condNode]

end Verif.Etx
