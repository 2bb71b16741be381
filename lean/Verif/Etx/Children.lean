import Verif.Etx.Tree

/-!
# `Children` and `UpdateParentRefs`
-/

namespace Verif.Etx

namespace Node

/-- `if p != nil { children = append(children, p) }` -/
def opt {k : Kind} : Node (.ptr k) → List (Option AnyNode)
  | .nil => []
  | .ref x => [some ⟨k, x⟩]

/-- An element of a slice as a `Node`: a nil pointer is kept. -/
def elem {k : Kind} : Node (.ptr k) → Option AnyNode
  | .nil => none
  | .ref x => some ⟨k, x⟩

/-- `for _, item := range s { children = append(children, item) }` (`[]` for other kinds). -/
def elems : {k : Kind} → Node k → List (Option AnyNode)
  | _, .nilSlice => []
  | _, .mkSlice _ xs => xs.elems
  | _, .empty => []
  | _, .cons x xs => x.elem :: xs.elems
  | _, _ => []

/-- `children = append(children, &n.F)` -/
def val {k : Kind} (x : Node k) : List (Option AnyNode) := [some ⟨k, x⟩]

/-- `p != nil` -/
def isRef : {k : Kind} → Node k → Bool
  | _, .ref _ => true
  | _, _ => false

/-- The method `Children` of every struct (`[]` for other kinds).  An element that is a nil pointer is
`none`. -/
def children : {k : Kind} → Node k → List (Option AnyNode)
  -- ast.go:118-136
  | _, .rootItem _ _ decl' func' type' block' attr' comment' =>
    if attr'.isRef then attr'.opt
    else if decl'.isRef then decl'.opt
    else if func'.isRef then func'.opt
    else if type'.isRef then type'.opt
    else if block'.isRef then block'.opt
    else if comment'.isRef then comment'.opt
    else []
  -- ast.go:180-190
  | _, .parameterType _ ident' func' => ident'.opt ++ func'.opt
  -- ast.go:224-232
  | _, .funcSignature _ parameters ret => parameters.elems ++ ret.val
  -- ident.go:25-27
  | _, .ident _ _ => []
  -- comment.go:25-27
  | _, .comment _ _ _ => []
  -- attribute.go:27-33
  | _, .attr _ _ value' => value'.opt
  -- block.go:29-35
  | _, .block _ _ _ body => body.elems
  -- block.go:91-105
  | _, .blockItem _ _ block' attr' comment' => comment'.opt ++ block'.opt ++ attr'.opt
  -- decl.go:34-44
  | _, .decl _ _ _ type' value' => type'.opt ++ value'.opt
  -- lambda.go:29-41
  | _, .lambda _ comment' parameters expr' => comment'.opt ++ parameters.elems ++ expr'.val
  -- lambda.go:81-87
  | _, .lambdaParameter _ _ type' => type'.opt
  -- func.go:31-45
  | _, .func _ _ parameters ret body => parameters.elems ++ ret.elems ++ body.elems
  -- func.go:106-112
  | _, .funcParameter _ _ type' => type'.opt
  -- func.go:147-161
  | _, .funcStatement _ _ comment' decl' expr' => comment'.opt ++ decl'.opt ++ expr'.opt
  -- func.go:203-213
  | _, .funcDecl _ _ _ type' value' => type'.opt ++ value'.opt
  -- type.go:33-43
  | _, .type _ _ enum object => enum.opt ++ object.opt
  -- type.go:81-87
  | _, .typeEnum _ items => items.elems
  -- type.go:132-140
  | _, .typeEnumItem _ _ comment' _ value' => comment'.opt ++ value'.val
  -- type.go:174-180
  | _, .typeObject _ items => items.elems
  -- type.go:225-233
  | _, .typeObjectItem _ _ comment' _ type' => comment'.opt ++ type'.val
  -- value.go:56-82
  | _, .value _ _ bool number str heredoc' list map' =>
    bool.opt ++ number.opt ++ str.opt ++ heredoc'.opt ++ list.opt ++ map'.opt
  -- value.go:144-146
  | _, .valueBool _ _ => []
  -- value.go:198-200
  | _, .valueNumber _ _ _ => []
  -- value.go:231-237
  | _, .heredoc _ _ _ fragments => fragments.elems
  -- value.go:314-324
  | _, .heredocFragment _ expr' directive _ => expr'.opt ++ directive.opt
  -- value.go:358-364
  | _, .valueString _ fragment => fragment.elems
  -- value.go:405-415
  | _, .stringFragment _ _ _ expr' directive _ => expr'.opt ++ directive.opt
  -- value.go:453-459
  | _, .valueList _ items => items.elems
  -- value.go:499-509
  | _, .listItem _ _ value' comment' => value'.opt ++ comment'.opt
  -- value.go:543-549
  | _, .valueMap _ items => items.elems
  -- value.go:593-607
  | _, .mapItem _ _ key value' comment' => key.opt ++ value'.opt ++ comment'.opt
  -- value.go:642-651
  | _, .mapKey _ ident' str => if ident'.isRef then ident'.opt else if str.isRef then str.opt else []
  -- expr.go:29-41
  | _, .expr _ left ifE switch =>
    if left.isRef then left.opt else if ifE.isRef then ifE.opt else if switch.isRef then switch.opt else []
  -- expr.go:79-91
  | _, .exprIf _ condition left right => condition.val ++ left.opt ++ right.opt
  -- expr.go:126-135
  | _, .exprSwitch _ selector cases => selector.val ++ cases.elems
  -- expr.go:175-185
  | _, .exprCase _ conditions _ expr' => conditions.elems ++ expr'.opt
  -- expr.go:235-247
  | _, .conditional _ condition _ trueExpr falseExpr => condition.val ++ trueExpr.opt ++ falseExpr.opt
  -- expr.go:289-297, 334-342, 379-387, 424-432, 469-477, 514-522, 559-567, 604-612, 649-657, 694-702
  | _, .bin _ _ left _ right => left.val ++ right.opt
  -- expr.go:737-741
  | _, .unary _ _ right => right.val
  -- expr.go:770-778
  | _, .postfixE _ value' index _ => value'.val ++ index.opt
  -- expr.go:822-844
  | _, .primary _ subExpression value' ident' monads post =>
    subExpression.opt ++ ident'.opt ++ monads.elems ++ post.opt ++ value'.opt
  -- expr.go:898-904
  | _, .invocation _ values => values.elems
  | _, _ => []

end Node

/-- The address of a struct. -/
def AnyNode.addr (x : AnyNode) : Nat := x.2.info.addr

/-- `parser.go:58-64` (`updateParentRefs`): the nodes visited, in order, with the parent stored in each;
`none` is a nil pointer dereference.  `fuel` bounds the depth; `walk_fuel` shows that it does not matter. -/
def walk : Nat → Option Nat → Option AnyNode → Option (List (Option Nat × AnyNode))
  | _, _, none => none
  | 0, _, some _ => none
  | fuel + 1, parent, some x => do
    let below ← (x.2.children).mapM (walk fuel (some x.addr))
    return (parent, x) :: below.flatten

/-- The sequence of assignments `node.Node().Parent = parent`, for addresses: the last one counts. -/
def lastWrite (ws : List (Nat × Option Nat)) (a : Nat) : Option (Option Nat) :=
  (ws.reverse.find? (fun w => w.1 = a)).map Prod.snd

/-- A value after the assignments. -/
def Node.reparent {k : Kind} (ws : List (Nat × Option Nat)) (x : Node k) : Node k :=
  x.map (fun m => { m with parent := (lastWrite ws m.addr).getD m.parent }) id

namespace AST

/-- `ast.go:58-64` -/
def children (t : AST) : List (Option AnyNode) := t.items.elems

/-- The nodes visited by `UpdateParentRefs` (`ast.go:80-84`), with the parents they get. -/
def visits (t : AST) : Option (List (Option Nat × AnyNode)) := do
  let l ← t.children.mapM (walk t.items.size none)
  return l.flatten

/-- `ast.go:80-84`; `none` is a panic.  `Children` does not depend on `Parent`, so the assignments can be
carried out at the end. -/
def updateParentRefs (t : AST) : Option AST := do
  let vs ← t.visits
  return { t with items := t.items.reparent (vs.map fun v => (v.2.addr, v.1)) }

end AST

end Verif.Etx
