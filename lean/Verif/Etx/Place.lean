import Verif.Etx.Clone

/-!
# Allocation of a parsed tree

The parser model builds trees with all addresses 0; `place` gives every struct, slice and number an address of its
own.  The real parser allocates each of them with `reflect.New`, `append` or `big.NewFloat`; in which order is not
observable.
-/

namespace Verif.Etx

/-- The same meta data at a new address. -/
def Meta.place (m : Meta) : Alloc Meta := do
  return { m with addr := ← Alloc.new }

/-- The same tree with every struct, slice and number at a new address. -/
def Node.place : {k : Kind} → Node k → Alloc (Node k)
  | _, .rootItem m x2 x3 x4 x5 x6 x7 x8 => do return .rootItem (← m.place) x2 (← x3.place) (← x4.place) (← x5.place) (← x6.place) (← x7.place) (← x8.place)
  | _, .parameterType m x2 x3 => do return .parameterType (← m.place) (← x2.place) (← x3.place)
  | _, .funcSignature m x2 x3 => do return .funcSignature (← m.place) (← x2.place) (← x3.place)
  | _, .ident m x2 => do return .ident (← m.place) (← x2.clone)
  | _, .comment m x2 x3 => do return .comment (← m.place) (← x2.clone) x3
  | _, .attr m x2 x3 => do return .attr (← m.place) x2 (← x3.place)
  | _, .block m x2 x3 x4 => do return .block (← m.place) x2 (← x3.clone) (← x4.place)
  | _, .blockItem m x2 x3 x4 x5 => do return .blockItem (← m.place) x2 (← x3.place) (← x4.place) (← x5.place)
  | _, .decl m x2 x3 x4 x5 => do return .decl (← m.place) x2 x3 (← x4.place) (← x5.place)
  | _, .lambda m x2 x3 x4 => do return .lambda (← m.place) (← x2.place) (← x3.place) (← x4.place)
  | _, .lambdaParameter m x2 x3 => do return .lambdaParameter (← m.place) x2 (← x3.place)
  | _, .func m x2 x3 x4 x5 => do return .func (← m.place) x2 (← x3.place) (← x4.place) (← x5.place)
  | _, .funcParameter m x2 x3 => do return .funcParameter (← m.place) x2 (← x3.place)
  | _, .funcStatement m x2 x3 x4 x5 => do return .funcStatement (← m.place) x2 (← x3.place) (← x4.place) (← x5.place)
  | _, .funcDecl m x2 x3 x4 x5 => do return .funcDecl (← m.place) x2 x3 (← x4.place) (← x5.place)
  | _, .type m x2 x3 x4 => do return .type (← m.place) x2 (← x3.place) (← x4.place)
  | _, .typeEnum m x2 => do return .typeEnum (← m.place) (← x2.place)
  | _, .typeEnumItem m x2 x3 x4 x5 => do return .typeEnumItem (← m.place) x2 (← x3.place) x4 (← x5.place)
  | _, .typeObject m x2 => do return .typeObject (← m.place) (← x2.place)
  | _, .typeObjectItem m x2 x3 x4 x5 => do return .typeObjectItem (← m.place) x2 (← x3.place) x4 (← x5.place)
  | _, .value m x2 x3 x4 x5 x6 x7 x8 => do return .value (← m.place) x2 (← x3.place) (← x4.place) (← x5.place) (← x6.place) (← x7.place) (← x8.place)
  | _, .valueBool m x2 => do return .valueBool (← m.place) x2
  | _, .valueNumber m x2 x3 => do return .valueNumber (← m.place) (← cloneFloat x2) x3
  | _, .heredoc m x2 x3 x4 => do return .heredoc (← m.place) x2 x3 (← x4.place)
  | _, .heredocFragment m x2 x3 x4 => do return .heredocFragment (← m.place) (← x2.place) (← x3.place) x4
  | _, .valueString m x2 => do return .valueString (← m.place) (← x2.place)
  | _, .stringFragment m x2 x3 x4 x5 x6 => do return .stringFragment (← m.place) x2 x3 (← x4.place) (← x5.place) x6
  | _, .valueList m x2 => do return .valueList (← m.place) (← x2.place)
  | _, .listItem m x2 x3 x4 => do return .listItem (← m.place) x2 (← x3.place) (← x4.place)
  | _, .valueMap m x2 => do return .valueMap (← m.place) (← x2.place)
  | _, .mapItem m x2 x3 x4 x5 => do return .mapItem (← m.place) x2 (← x3.place) (← x4.place) (← x5.place)
  | _, .mapKey m x2 x3 => do return .mapKey (← m.place) (← x2.place) (← x3.place)
  | _, .expr m x2 x3 x4 => do return .expr (← m.place) (← x2.place) (← x3.place) (← x4.place)
  | _, .exprIf m x2 x3 x4 => do return .exprIf (← m.place) (← x2.place) (← x3.place) (← x4.place)
  | _, .exprSwitch m x2 x3 => do return .exprSwitch (← m.place) (← x2.place) (← x3.place)
  | _, .exprCase m x2 x3 x4 => do return .exprCase (← m.place) (← x2.place) x3 (← x4.place)
  | _, .conditional m x2 x3 x4 x5 => do return .conditional (← m.place) (← x2.place) x3 (← x4.place) (← x5.place)
  | _, .bin l m x3 x4 x5 => do return .bin l (← m.place) (← x3.place) x4 (← x5.place)
  | _, .unary m x2 x3 => do return .unary (← m.place) x2 (← x3.place)
  | _, .postfixE m x2 x3 x4 => do return .postfixE (← m.place) (← x2.place) (← x3.place) (← x4.place)
  | _, .primary m x2 x3 x4 x5 x6 => do return .primary (← m.place) (← x2.place) (← x3.place) (← x4.place) (← x5.place) (← x6.place)
  | _, .invocation m x2 => do return .invocation (← m.place) (← x2.place)
  | _, .nil => return .nil
  | _, .ref x => do return .ref (← x.place)
  | _, .nilSlice => return .nilSlice
  | _, .mkSlice _ xs => do return .mkSlice (← Alloc.new) (← xs.place)
  | _, .empty => return .empty
  | _, .cons x xs => do return .cons (← x.place) (← xs.place)

end Verif.Etx
