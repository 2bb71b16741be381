import Verif.Etx.Ast

/-!
# `Clone`

Every allocation takes a fresh address from a counter.  *Simplification*: fields are cloned in declaration
order (the order is not observable).
-/

namespace Verif.Etx

/-- A computation that allocates: it takes and returns the next free address. -/
def Alloc (α : Type) := Nat → α × Nat

namespace Alloc

def pure {α : Type} (a : α) : Alloc α := fun n => (a, n)
def bind {α β : Type} (m : Alloc α) (f : α → Alloc β) : Alloc β := fun n => f (m n).1 (m n).2

instance : Monad Alloc where
  pure := pure
  bind := bind

/-- A new address. -/
def new : Alloc Nat := fun n => (n, n + 1)

end Alloc

/-- The meta data of a new struct initialised with `ASTNode: n.ASTNode.Clone()` (`ast.go:27-33`): the
position is copied, the parent is not. -/
def Meta.clone (m : Meta) : Alloc Meta := do
  return { addr := ← Alloc.new, pos := m.pos }

/-- `utils.go:35-43` (`cloneStrings`) -/
def Strs.clone : Strs → Alloc Strs
  | .nil => return .nil
  | .mk _ l => return .mk (← Alloc.new) l

/-- `value.go:190-193`: `big.NewFloat(0)` and `Copy`. -/
def cloneFloat : Option (Nat × BigFloat) → Alloc (Option (Nat × BigFloat))
  | none => return none
  | some (_, f) => return some (← Alloc.new, f)

/-- The pointer `&s` after `s := *v.Heredoc` (`value.go:48-51`): a new struct with all fields copied, so
that the parent and the slice `Fragments` are those of the original. -/
def shallowHeredoc : Node (.ptr .heredoc) → Alloc (Node (.ptr .heredoc))
  | .nil => return .nil
  | .ref (.heredoc m lt d fs) => return .ref (.heredoc { m with addr := ← Alloc.new } lt d fs)

/-- The `Clone` method of each struct; for `ptr`, `Clone` called on a pointer (nil gives nil); for `slice`,
`cloneCollection` (`utils.go:22-33`).  A field assigned `*n.F.Clone()` is the clone stored by value. -/
def Node.clone : {k : Kind} → Node k → Alloc (Node k)
  -- ast.go:101-116
  | _, .rootItem m e d f t b a c => do
    return .rootItem (← m.clone) e (← d.clone) (← f.clone) (← t.clone) (← b.clone) (← a.clone) (← c.clone)
  -- ast.go:168-178
  | _, .parameterType m i f => do return .parameterType (← m.clone) (← i.clone) (← f.clone)
  -- ast.go:212-222
  | _, .funcSignature m ps r => do return .funcSignature (← m.clone) (← ps.clone) (← r.clone)
  -- ident.go:14-23
  | _, .ident m ps => do return .ident (← m.clone) (← ps.clone)
  -- comment.go:13-23
  | _, .comment m s ml => do return .comment (← m.clone) (← s.clone) ml
  -- attribute.go:15-25
  | _, .attr m key v => do return .attr (← m.clone) key (← v.clone)
  -- block.go:16-27
  | _, .block m name ls body => do return .block (← m.clone) name (← ls.clone) (← body.clone)
  -- block.go:77-89
  | _, .blockItem m e b a c => do return .blockItem (← m.clone) e (← b.clone) (← a.clone) (← c.clone)
  -- decl.go:20-32
  | _, .decl m dt l t v => do return .decl (← m.clone) dt l (← t.clone) (← v.clone)
  -- lambda.go:16-27
  | _, .lambda m c ps e => do return .lambda (← m.clone) (← c.clone) (← ps.clone) (← e.clone)
  -- lambda.go:69-79
  | _, .lambdaParameter m l t => do return .lambdaParameter (← m.clone) l (← t.clone)
  -- func.go:17-29
  | _, .func m l ps r b => do return .func (← m.clone) l (← ps.clone) (← r.clone) (← b.clone)
  -- func.go:94-104
  | _, .funcParameter m l t => do return .funcParameter (← m.clone) l (← t.clone)
  -- func.go:133-145
  | _, .funcStatement m e c d x => do return .funcStatement (← m.clone) e (← c.clone) (← d.clone) (← x.clone)
  -- func.go:189-201; `Type: n.Type`
  | _, .funcDecl m dt l t v => do return .funcDecl (← m.clone) dt l t (← v.clone)
  -- type.go:18-31
  | _, .type m l e o => do return .type (← m.clone) l (← e.clone) (← o.clone)
  -- type.go:70-79
  | _, .typeEnum m is => do return .typeEnum (← m.clone) (← is.clone)
  -- type.go:118-130
  | _, .typeEnumItem m e c l v => do return .typeEnumItem (← m.clone) e (← c.clone) l (← v.clone)
  -- type.go:161-172
  | _, .typeObject m is => do return .typeObject (← m.clone) (← is.clone)
  -- type.go:211-223
  | _, .typeObjectItem m e c l t => do return .typeObjectItem (← m.clone) e (← c.clone) l (← t.clone)
  -- value.go:32-54; the clone of `Heredoc` is computed, then replaced
  | _, .value m nul b n s h l mp => do
    let out := Node.value (← m.clone) nul (← b.clone) (← n.clone) (← s.clone)
    let _ ← h.clone
    return out (← shallowHeredoc h) (← l.clone) (← mp.clone)
  -- value.go:131-142
  | _, .valueBool m b => do return .valueBool (← m.clone) b
  -- value.go:180-196
  | _, .valueNumber m v s => do return .valueNumber (← m.clone) (← cloneFloat v) s
  -- value.go:219-229, 274-279
  | _, .heredoc m lt d fs => do return .heredoc (← m.clone) lt d (← fs.clone)
  -- value.go:301-312
  | _, .heredocFragment m e d t => do return .heredocFragment (← m.clone) (← e.clone) (← d.clone) t
  -- value.go:347-356
  | _, .valueString m fs => do return .valueString (← m.clone) (← fs.clone)
  -- value.go:390-403
  | _, .stringFragment m esc u e d t => do return .stringFragment (← m.clone) esc u (← e.clone) (← d.clone) t
  -- value.go:442-451
  | _, .valueList m is => do return .valueList (← m.clone) (← is.clone)
  -- value.go:486-497
  | _, .listItem m e v c => do return .listItem (← m.clone) e (← v.clone) (← c.clone)
  -- value.go:532-541
  | _, .valueMap m is => do return .valueMap (← m.clone) (← is.clone)
  -- value.go:579-591
  | _, .mapItem m e key v c => do return .mapItem (← m.clone) e (← key.clone) (← v.clone) (← c.clone)
  -- value.go:630-640
  | _, .mapKey m i s => do return .mapKey (← m.clone) (← i.clone) (← s.clone)
  -- expr.go:16-27
  | _, .expr m l i s => do return .expr (← m.clone) (← l.clone) (← i.clone) (← s.clone)
  -- expr.go:66-77
  | _, .exprIf m c l r => do return .exprIf (← m.clone) (← c.clone) (← l.clone) (← r.clone)
  -- expr.go:114-124
  | _, .exprSwitch m s cs => do return .exprSwitch (← m.clone) (← s.clone) (← cs.clone)
  -- expr.go:162-173
  | _, .exprCase m cs d e => do return .exprCase (← m.clone) (← cs.clone) d (← e.clone)
  -- expr.go:221-233
  | _, .conditional m c op t f => do return .conditional (← m.clone) (← c.clone) op (← t.clone) (← f.clone)
  -- expr.go:276-287, 321-332, 366-377, 411-422, 456-467, 501-512, 546-557, 591-602, 636-647, 681-692
  | _, .bin l m left op right => do return .bin l (← m.clone) (← left.clone) op (← right.clone)
  -- expr.go:725-735
  | _, .unary m op r => do return .unary (← m.clone) op (← r.clone)
  -- expr.go:757-768
  | _, .postfixE m v i p => do return .postfixE (← m.clone) (← v.clone) (← i.clone) (← p.clone)
  -- expr.go:807-820
  | _, .primary m s v i ms p => do
    return .primary (← m.clone) (← s.clone) (← v.clone) (← i.clone) (← ms.clone) (← p.clone)
  -- expr.go:887-896
  | _, .invocation m vs => do return .invocation (← m.clone) (← vs.clone)
  -- `if n == nil { return nil }`
  | _, .nil => return .nil
  | _, .ref x => do return .ref (← x.clone)
  -- utils.go:22-33
  | _, .nilSlice => return .nilSlice
  | _, .mkSlice _ xs => do return .mkSlice (← Alloc.new) (← xs.clone)
  | _, .empty => return .empty
  | _, .cons x xs => do return .cons (← x.clone) (← xs.clone)

theorem Node.clone_nil {k : Kind} : (Node.nil : Node (.ptr k)).clone = pure .nil := by simp only [Node.clone]

/-- `ast.go:46-56` -/
def AST.clone : Option AST → Alloc (Option AST)
  | none => return none
  | some a => do return some ⟨← Alloc.new, ← a.items.clone⟩

end Verif.Etx
