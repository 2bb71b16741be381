import Verif.Etx.Ast

/-!
# Generic traversals of AST values

These are specification vocabulary (not code of the repository): which addresses and nodes a value
contains, what it looks like when addresses are ignored.
-/

namespace Verif.Etx

/-- Apply `f` to the address. -/
def Strs.map (f : Nat → Nat) : Strs → Strs
  | .nil => .nil
  | .mk a l => .mk (f a) l

/-- The address. -/
def Strs.collect {β : Type} (f : Nat → List β) : Strs → List β
  | .nil => []
  | .mk a _ => f a

/-- Apply `f` to the address of a `big.Float`. -/
def mapFloat (f : Nat → Nat) : Option (Nat × BigFloat) → Option (Nat × BigFloat)
  | none => none
  | some (a, x) => some (f a, x)

/-- The address of a `big.Float`. -/
def collectFloat {β : Type} (f : Nat → List β) : Option (Nat × BigFloat) → List β
  | none => []
  | some (a, _) => f a

/-- An assignment through a pointer or slice: to the struct, the elements of the slice, or the number at
an address. -/
inductive Write where
  | struct (a : Nat) (v : AnyNode)
  | array (a : Nat) (v : AnyNode)
  | strs (a : Nat) (l : List Str)
  | float (a : Nat) (f : BigFloat)

/-- The address assigned to. -/
def Write.addr : Write → Nat
  | .struct a _ | .array a _ | .strs a _ | .float a _ => a

/-- The effect of an assignment on a `[]string`. -/
def Strs.write (w : Write) : Strs → Strs
  | .nil => .nil
  | .mk a l => match w with
    | .strs b l' => if a = b then .mk a l' else .mk a l
    | _ => .mk a l

/-- The effect of an assignment on a `*big.Float`. -/
def writeFloat (w : Write) : Option (Nat × BigFloat) → Option (Nat × BigFloat)
  | none => none
  | some (a, x) => match w with
    | .float b x' => if a = b then some (a, x') else some (a, x)
    | _ => some (a, x)

namespace Node

/-- Apply `fm` to the meta data of every struct and `fa` to the address of every slice and number. -/
def map (fm : Meta → Meta) (fa : Nat → Nat) : {k : Kind} → Node k → Node k
  | _, .rootItem m s1 x1 x2 x3 x4 x5 x6 => .rootItem (fm m) s1 (x1.map fm fa) (x2.map fm fa) (x3.map fm fa) (x4.map fm fa) (x5.map fm fa) (x6.map fm fa)
  | _, .parameterType m x1 x2 => .parameterType (fm m) (x1.map fm fa) (x2.map fm fa)
  | _, .funcSignature m x1 x2 => .funcSignature (fm m) (x1.map fm fa) (x2.map fm fa)
  | _, .ident m s1 => .ident (fm m) (s1.map fa)
  | _, .comment m s1 s2 => .comment (fm m) (s1.map fa) s2
  | _, .attr m s1 x1 => .attr (fm m) s1 (x1.map fm fa)
  | _, .block m s1 s2 x1 => .block (fm m) s1 (s2.map fa) (x1.map fm fa)
  | _, .blockItem m s1 x1 x2 x3 => .blockItem (fm m) s1 (x1.map fm fa) (x2.map fm fa) (x3.map fm fa)
  | _, .decl m s1 s2 x1 x2 => .decl (fm m) s1 s2 (x1.map fm fa) (x2.map fm fa)
  | _, .lambda m x1 x2 x3 => .lambda (fm m) (x1.map fm fa) (x2.map fm fa) (x3.map fm fa)
  | _, .lambdaParameter m s1 x1 => .lambdaParameter (fm m) s1 (x1.map fm fa)
  | _, .func m s1 x1 x2 x3 => .func (fm m) s1 (x1.map fm fa) (x2.map fm fa) (x3.map fm fa)
  | _, .funcParameter m s1 x1 => .funcParameter (fm m) s1 (x1.map fm fa)
  | _, .funcStatement m s1 x1 x2 x3 => .funcStatement (fm m) s1 (x1.map fm fa) (x2.map fm fa) (x3.map fm fa)
  | _, .funcDecl m s1 s2 x1 x2 => .funcDecl (fm m) s1 s2 (x1.map fm fa) (x2.map fm fa)
  | _, .type m s1 x1 x2 => .type (fm m) s1 (x1.map fm fa) (x2.map fm fa)
  | _, .typeEnum m x1 => .typeEnum (fm m) (x1.map fm fa)
  | _, .typeEnumItem m s1 x1 s2 x2 => .typeEnumItem (fm m) s1 (x1.map fm fa) s2 (x2.map fm fa)
  | _, .typeObject m x1 => .typeObject (fm m) (x1.map fm fa)
  | _, .typeObjectItem m s1 x1 s2 x2 => .typeObjectItem (fm m) s1 (x1.map fm fa) s2 (x2.map fm fa)
  | _, .value m s1 x1 x2 x3 x4 x5 x6 => .value (fm m) s1 (x1.map fm fa) (x2.map fm fa) (x3.map fm fa) (x4.map fm fa) (x5.map fm fa) (x6.map fm fa)
  | _, .valueBool m s1 => .valueBool (fm m) s1
  | _, .valueNumber m s1 s2 => .valueNumber (fm m) (mapFloat fa s1) s2
  | _, .heredoc m s1 s2 x1 => .heredoc (fm m) s1 s2 (x1.map fm fa)
  | _, .heredocFragment m x1 x2 s1 => .heredocFragment (fm m) (x1.map fm fa) (x2.map fm fa) s1
  | _, .valueString m x1 => .valueString (fm m) (x1.map fm fa)
  | _, .stringFragment m s1 s2 x1 x2 s3 => .stringFragment (fm m) s1 s2 (x1.map fm fa) (x2.map fm fa) s3
  | _, .valueList m x1 => .valueList (fm m) (x1.map fm fa)
  | _, .listItem m s1 x1 x2 => .listItem (fm m) s1 (x1.map fm fa) (x2.map fm fa)
  | _, .valueMap m x1 => .valueMap (fm m) (x1.map fm fa)
  | _, .mapItem m s1 x1 x2 x3 => .mapItem (fm m) s1 (x1.map fm fa) (x2.map fm fa) (x3.map fm fa)
  | _, .mapKey m x1 x2 => .mapKey (fm m) (x1.map fm fa) (x2.map fm fa)
  | _, .expr m x1 x2 x3 => .expr (fm m) (x1.map fm fa) (x2.map fm fa) (x3.map fm fa)
  | _, .exprIf m x1 x2 x3 => .exprIf (fm m) (x1.map fm fa) (x2.map fm fa) (x3.map fm fa)
  | _, .exprSwitch m x1 x2 => .exprSwitch (fm m) (x1.map fm fa) (x2.map fm fa)
  | _, .exprCase m x1 s1 x2 => .exprCase (fm m) (x1.map fm fa) s1 (x2.map fm fa)
  | _, .conditional m x1 s1 x2 x3 => .conditional (fm m) (x1.map fm fa) s1 (x2.map fm fa) (x3.map fm fa)
  | _, .bin l m x1 s1 x2 => .bin l (fm m) (x1.map fm fa) s1 (x2.map fm fa)
  | _, .unary m s1 x1 => .unary (fm m) s1 (x1.map fm fa)
  | _, .postfixE m x1 x2 x3 => .postfixE (fm m) (x1.map fm fa) (x2.map fm fa) (x3.map fm fa)
  | _, .primary m x1 x2 x3 x4 x5 => .primary (fm m) (x1.map fm fa) (x2.map fm fa) (x3.map fm fa) (x4.map fm fa) (x5.map fm fa)
  | _, .invocation m x1 => .invocation (fm m) (x1.map fm fa)
  | _, .nil => .nil
  | _, .ref x1 => .ref (x1.map fm fa)
  | _, .nilSlice => .nilSlice
  | _, .mkSlice addr x1 => .mkSlice (fa addr) (x1.map fm fa)
  | _, .empty => .empty
  | _, .cons x1 x2 => .cons (x1.map fm fa) (x2.map fm fa)

/-- Collect over all structs (`gm`) and all slice and number addresses (`ga`), in field order. -/
def collect {β : Type} (gm : Meta → List β) (ga : Nat → List β) : {k : Kind} → Node k → List β
  | _, .rootItem m _ x1 x2 x3 x4 x5 x6 => gm m ++ x1.collect gm ga ++ x2.collect gm ga ++ x3.collect gm ga ++ x4.collect gm ga ++ x5.collect gm ga ++ x6.collect gm ga
  | _, .parameterType m x1 x2 => gm m ++ x1.collect gm ga ++ x2.collect gm ga
  | _, .funcSignature m x1 x2 => gm m ++ x1.collect gm ga ++ x2.collect gm ga
  | _, .ident m s1 => gm m ++ s1.collect ga
  | _, .comment m s1 _ => gm m ++ s1.collect ga
  | _, .attr m _ x1 => gm m ++ x1.collect gm ga
  | _, .block m _ s2 x1 => gm m ++ s2.collect ga ++ x1.collect gm ga
  | _, .blockItem m _ x1 x2 x3 => gm m ++ x1.collect gm ga ++ x2.collect gm ga ++ x3.collect gm ga
  | _, .decl m _ _ x1 x2 => gm m ++ x1.collect gm ga ++ x2.collect gm ga
  | _, .lambda m x1 x2 x3 => gm m ++ x1.collect gm ga ++ x2.collect gm ga ++ x3.collect gm ga
  | _, .lambdaParameter m _ x1 => gm m ++ x1.collect gm ga
  | _, .func m _ x1 x2 x3 => gm m ++ x1.collect gm ga ++ x2.collect gm ga ++ x3.collect gm ga
  | _, .funcParameter m _ x1 => gm m ++ x1.collect gm ga
  | _, .funcStatement m _ x1 x2 x3 => gm m ++ x1.collect gm ga ++ x2.collect gm ga ++ x3.collect gm ga
  | _, .funcDecl m _ _ x1 x2 => gm m ++ x1.collect gm ga ++ x2.collect gm ga
  | _, .type m _ x1 x2 => gm m ++ x1.collect gm ga ++ x2.collect gm ga
  | _, .typeEnum m x1 => gm m ++ x1.collect gm ga
  | _, .typeEnumItem m _ x1 _ x2 => gm m ++ x1.collect gm ga ++ x2.collect gm ga
  | _, .typeObject m x1 => gm m ++ x1.collect gm ga
  | _, .typeObjectItem m _ x1 _ x2 => gm m ++ x1.collect gm ga ++ x2.collect gm ga
  | _, .value m _ x1 x2 x3 x4 x5 x6 => gm m ++ x1.collect gm ga ++ x2.collect gm ga ++ x3.collect gm ga ++ x4.collect gm ga ++ x5.collect gm ga ++ x6.collect gm ga
  | _, .valueBool m _ => gm m
  | _, .valueNumber m s1 _ => gm m ++ collectFloat ga s1
  | _, .heredoc m _ _ x1 => gm m ++ x1.collect gm ga
  | _, .heredocFragment m x1 x2 _ => gm m ++ x1.collect gm ga ++ x2.collect gm ga
  | _, .valueString m x1 => gm m ++ x1.collect gm ga
  | _, .stringFragment m _ _ x1 x2 _ => gm m ++ x1.collect gm ga ++ x2.collect gm ga
  | _, .valueList m x1 => gm m ++ x1.collect gm ga
  | _, .listItem m _ x1 x2 => gm m ++ x1.collect gm ga ++ x2.collect gm ga
  | _, .valueMap m x1 => gm m ++ x1.collect gm ga
  | _, .mapItem m _ x1 x2 x3 => gm m ++ x1.collect gm ga ++ x2.collect gm ga ++ x3.collect gm ga
  | _, .mapKey m x1 x2 => gm m ++ x1.collect gm ga ++ x2.collect gm ga
  | _, .expr m x1 x2 x3 => gm m ++ x1.collect gm ga ++ x2.collect gm ga ++ x3.collect gm ga
  | _, .exprIf m x1 x2 x3 => gm m ++ x1.collect gm ga ++ x2.collect gm ga ++ x3.collect gm ga
  | _, .exprSwitch m x1 x2 => gm m ++ x1.collect gm ga ++ x2.collect gm ga
  | _, .exprCase m x1 _ x2 => gm m ++ x1.collect gm ga ++ x2.collect gm ga
  | _, .conditional m x1 _ x2 x3 => gm m ++ x1.collect gm ga ++ x2.collect gm ga ++ x3.collect gm ga
  | _, .bin _ m x1 _ x2 => gm m ++ x1.collect gm ga ++ x2.collect gm ga
  | _, .unary m _ x1 => gm m ++ x1.collect gm ga
  | _, .postfixE m x1 x2 x3 => gm m ++ x1.collect gm ga ++ x2.collect gm ga ++ x3.collect gm ga
  | _, .primary m x1 x2 x3 x4 x5 => gm m ++ x1.collect gm ga ++ x2.collect gm ga ++ x3.collect gm ga ++ x4.collect gm ga ++ x5.collect gm ga
  | _, .invocation m x1 => gm m ++ x1.collect gm ga
  | _, .nil => []
  | _, .ref x1 => x1.collect gm ga
  | _, .nilSlice => []
  | _, .mkSlice addr x1 => ga addr ++ x1.collect gm ga
  | _, .empty => []
  | _, .cons x1 x2 => x1.collect gm ga ++ x2.collect gm ga

/-- The addresses of all objects (structs, slice backing arrays, numbers) contained in a value. -/
def addrs {k : Kind} (x : Node k) : List Nat := x.collect (fun m => [m.addr]) (fun a => [a])

/-- The `Parent` fields of all structs contained in a value. -/
def parents {k : Kind} (x : Node k) : List (Option Nat) := x.collect (fun m => [m.parent]) (fun _ => [])

/-- What the value looks like when addresses and parents are ignored: kinds, texts, flags, numbers,
positions, nil-ness and the contents of slices. -/
def erase {k : Kind} (x : Node k) : Node k := x.map (fun m => { addr := 0, pos := m.pos, parent := none }) (fun _ => 0)


/-- Every struct stored in the value, with the address of the struct that directly contains it (`p` for
the outermost ones); without the field `Post` of `ExprPostfix` if `post` is false. -/
def storedBy (post : Bool) : {k : Kind} → Option Nat → Node k → List (Option Nat × AnyNode)
  | _, p, .rootItem m s1 x1 x2 x3 x4 x5 x6 => (p, ⟨_, .rootItem m s1 x1 x2 x3 x4 x5 x6⟩) :: (x1.storedBy post (some m.addr) ++ x2.storedBy post (some m.addr) ++ x3.storedBy post (some m.addr) ++ x4.storedBy post (some m.addr) ++ x5.storedBy post (some m.addr) ++ x6.storedBy post (some m.addr))
  | _, p, .parameterType m x1 x2 => (p, ⟨_, .parameterType m x1 x2⟩) :: (x1.storedBy post (some m.addr) ++ x2.storedBy post (some m.addr))
  | _, p, .funcSignature m x1 x2 => (p, ⟨_, .funcSignature m x1 x2⟩) :: (x1.storedBy post (some m.addr) ++ x2.storedBy post (some m.addr))
  | _, p, .ident m s1 => (p, ⟨_, .ident m s1⟩) :: ([])
  | _, p, .comment m s1 s2 => (p, ⟨_, .comment m s1 s2⟩) :: ([])
  | _, p, .attr m s1 x1 => (p, ⟨_, .attr m s1 x1⟩) :: (x1.storedBy post (some m.addr))
  | _, p, .block m s1 s2 x1 => (p, ⟨_, .block m s1 s2 x1⟩) :: (x1.storedBy post (some m.addr))
  | _, p, .blockItem m s1 x1 x2 x3 => (p, ⟨_, .blockItem m s1 x1 x2 x3⟩) :: (x1.storedBy post (some m.addr) ++ x2.storedBy post (some m.addr) ++ x3.storedBy post (some m.addr))
  | _, p, .decl m s1 s2 x1 x2 => (p, ⟨_, .decl m s1 s2 x1 x2⟩) :: (x1.storedBy post (some m.addr) ++ x2.storedBy post (some m.addr))
  | _, p, .lambda m x1 x2 x3 => (p, ⟨_, .lambda m x1 x2 x3⟩) :: (x1.storedBy post (some m.addr) ++ x2.storedBy post (some m.addr) ++ x3.storedBy post (some m.addr))
  | _, p, .lambdaParameter m s1 x1 => (p, ⟨_, .lambdaParameter m s1 x1⟩) :: (x1.storedBy post (some m.addr))
  | _, p, .func m s1 x1 x2 x3 => (p, ⟨_, .func m s1 x1 x2 x3⟩) :: (x1.storedBy post (some m.addr) ++ x2.storedBy post (some m.addr) ++ x3.storedBy post (some m.addr))
  | _, p, .funcParameter m s1 x1 => (p, ⟨_, .funcParameter m s1 x1⟩) :: (x1.storedBy post (some m.addr))
  | _, p, .funcStatement m s1 x1 x2 x3 => (p, ⟨_, .funcStatement m s1 x1 x2 x3⟩) :: (x1.storedBy post (some m.addr) ++ x2.storedBy post (some m.addr) ++ x3.storedBy post (some m.addr))
  | _, p, .funcDecl m s1 s2 x1 x2 => (p, ⟨_, .funcDecl m s1 s2 x1 x2⟩) :: (x1.storedBy post (some m.addr) ++ x2.storedBy post (some m.addr))
  | _, p, .type m s1 x1 x2 => (p, ⟨_, .type m s1 x1 x2⟩) :: (x1.storedBy post (some m.addr) ++ x2.storedBy post (some m.addr))
  | _, p, .typeEnum m x1 => (p, ⟨_, .typeEnum m x1⟩) :: (x1.storedBy post (some m.addr))
  | _, p, .typeEnumItem m s1 x1 s2 x2 => (p, ⟨_, .typeEnumItem m s1 x1 s2 x2⟩) :: (x1.storedBy post (some m.addr) ++ x2.storedBy post (some m.addr))
  | _, p, .typeObject m x1 => (p, ⟨_, .typeObject m x1⟩) :: (x1.storedBy post (some m.addr))
  | _, p, .typeObjectItem m s1 x1 s2 x2 => (p, ⟨_, .typeObjectItem m s1 x1 s2 x2⟩) :: (x1.storedBy post (some m.addr) ++ x2.storedBy post (some m.addr))
  | _, p, .value m s1 x1 x2 x3 x4 x5 x6 => (p, ⟨_, .value m s1 x1 x2 x3 x4 x5 x6⟩) :: (x1.storedBy post (some m.addr) ++ x2.storedBy post (some m.addr) ++ x3.storedBy post (some m.addr) ++ x4.storedBy post (some m.addr) ++ x5.storedBy post (some m.addr) ++ x6.storedBy post (some m.addr))
  | _, p, .valueBool m s1 => (p, ⟨_, .valueBool m s1⟩) :: ([])
  | _, p, .valueNumber m s1 s2 => (p, ⟨_, .valueNumber m s1 s2⟩) :: ([])
  | _, p, .heredoc m s1 s2 x1 => (p, ⟨_, .heredoc m s1 s2 x1⟩) :: (x1.storedBy post (some m.addr))
  | _, p, .heredocFragment m x1 x2 s1 => (p, ⟨_, .heredocFragment m x1 x2 s1⟩) :: (x1.storedBy post (some m.addr) ++ x2.storedBy post (some m.addr))
  | _, p, .valueString m x1 => (p, ⟨_, .valueString m x1⟩) :: (x1.storedBy post (some m.addr))
  | _, p, .stringFragment m s1 s2 x1 x2 s3 => (p, ⟨_, .stringFragment m s1 s2 x1 x2 s3⟩) :: (x1.storedBy post (some m.addr) ++ x2.storedBy post (some m.addr))
  | _, p, .valueList m x1 => (p, ⟨_, .valueList m x1⟩) :: (x1.storedBy post (some m.addr))
  | _, p, .listItem m s1 x1 x2 => (p, ⟨_, .listItem m s1 x1 x2⟩) :: (x1.storedBy post (some m.addr) ++ x2.storedBy post (some m.addr))
  | _, p, .valueMap m x1 => (p, ⟨_, .valueMap m x1⟩) :: (x1.storedBy post (some m.addr))
  | _, p, .mapItem m s1 x1 x2 x3 => (p, ⟨_, .mapItem m s1 x1 x2 x3⟩) :: (x1.storedBy post (some m.addr) ++ x2.storedBy post (some m.addr) ++ x3.storedBy post (some m.addr))
  | _, p, .mapKey m x1 x2 => (p, ⟨_, .mapKey m x1 x2⟩) :: (x1.storedBy post (some m.addr) ++ x2.storedBy post (some m.addr))
  | _, p, .expr m x1 x2 x3 => (p, ⟨_, .expr m x1 x2 x3⟩) :: (x1.storedBy post (some m.addr) ++ x2.storedBy post (some m.addr) ++ x3.storedBy post (some m.addr))
  | _, p, .exprIf m x1 x2 x3 => (p, ⟨_, .exprIf m x1 x2 x3⟩) :: (x1.storedBy post (some m.addr) ++ x2.storedBy post (some m.addr) ++ x3.storedBy post (some m.addr))
  | _, p, .exprSwitch m x1 x2 => (p, ⟨_, .exprSwitch m x1 x2⟩) :: (x1.storedBy post (some m.addr) ++ x2.storedBy post (some m.addr))
  | _, p, .exprCase m x1 s1 x2 => (p, ⟨_, .exprCase m x1 s1 x2⟩) :: (x1.storedBy post (some m.addr) ++ x2.storedBy post (some m.addr))
  | _, p, .conditional m x1 s1 x2 x3 => (p, ⟨_, .conditional m x1 s1 x2 x3⟩) :: (x1.storedBy post (some m.addr) ++ x2.storedBy post (some m.addr) ++ x3.storedBy post (some m.addr))
  | _, p, .bin l m x1 s1 x2 => (p, ⟨_, .bin l m x1 s1 x2⟩) :: (x1.storedBy post (some m.addr) ++ x2.storedBy post (some m.addr))
  | _, p, .unary m s1 x1 => (p, ⟨_, .unary m s1 x1⟩) :: (x1.storedBy post (some m.addr))
  | _, p, .postfixE m x1 x2 x3 => (p, ⟨_, .postfixE m x1 x2 x3⟩) :: (x1.storedBy post (some m.addr) ++ x2.storedBy post (some m.addr) ++ (if post then x3.storedBy post (some m.addr) else []))
  | _, p, .primary m x1 x2 x3 x4 x5 => (p, ⟨_, .primary m x1 x2 x3 x4 x5⟩) :: (x1.storedBy post (some m.addr) ++ x2.storedBy post (some m.addr) ++ x3.storedBy post (some m.addr) ++ x4.storedBy post (some m.addr) ++ x5.storedBy post (some m.addr))
  | _, p, .invocation m x1 => (p, ⟨_, .invocation m x1⟩) :: (x1.storedBy post (some m.addr))
  | _, _, .nil => []
  | _, p, .ref x1 => x1.storedBy post p
  | _, _, .nilSlice => []
  | _, p, .mkSlice _ x1 => x1.storedBy post p
  | _, _, .empty => []
  | _, p, .cons x1 x2 => x1.storedBy post p ++ x2.storedBy post p

/-- Every struct stored in the value, with the address of the struct that directly contains it. -/
def stored {k : Kind} (p : Option Nat) (x : Node k) : List (Option Nat × AnyNode) := x.storedBy true p

/-- `P` holds for the value and everything inside it. -/
def everywhere (P : {k : Kind} → Node k → Bool) : {k : Kind} → Node k → Bool
  | _, .rootItem m s1 x1 x2 x3 x4 x5 x6 => P (.rootItem m s1 x1 x2 x3 x4 x5 x6) && x1.everywhere P && x2.everywhere P && x3.everywhere P && x4.everywhere P && x5.everywhere P && x6.everywhere P
  | _, .parameterType m x1 x2 => P (.parameterType m x1 x2) && x1.everywhere P && x2.everywhere P
  | _, .funcSignature m x1 x2 => P (.funcSignature m x1 x2) && x1.everywhere P && x2.everywhere P
  | _, .ident m s1 => P (.ident m s1)
  | _, .comment m s1 s2 => P (.comment m s1 s2)
  | _, .attr m s1 x1 => P (.attr m s1 x1) && x1.everywhere P
  | _, .block m s1 s2 x1 => P (.block m s1 s2 x1) && x1.everywhere P
  | _, .blockItem m s1 x1 x2 x3 => P (.blockItem m s1 x1 x2 x3) && x1.everywhere P && x2.everywhere P && x3.everywhere P
  | _, .decl m s1 s2 x1 x2 => P (.decl m s1 s2 x1 x2) && x1.everywhere P && x2.everywhere P
  | _, .lambda m x1 x2 x3 => P (.lambda m x1 x2 x3) && x1.everywhere P && x2.everywhere P && x3.everywhere P
  | _, .lambdaParameter m s1 x1 => P (.lambdaParameter m s1 x1) && x1.everywhere P
  | _, .func m s1 x1 x2 x3 => P (.func m s1 x1 x2 x3) && x1.everywhere P && x2.everywhere P && x3.everywhere P
  | _, .funcParameter m s1 x1 => P (.funcParameter m s1 x1) && x1.everywhere P
  | _, .funcStatement m s1 x1 x2 x3 => P (.funcStatement m s1 x1 x2 x3) && x1.everywhere P && x2.everywhere P && x3.everywhere P
  | _, .funcDecl m s1 s2 x1 x2 => P (.funcDecl m s1 s2 x1 x2) && x1.everywhere P && x2.everywhere P
  | _, .type m s1 x1 x2 => P (.type m s1 x1 x2) && x1.everywhere P && x2.everywhere P
  | _, .typeEnum m x1 => P (.typeEnum m x1) && x1.everywhere P
  | _, .typeEnumItem m s1 x1 s2 x2 => P (.typeEnumItem m s1 x1 s2 x2) && x1.everywhere P && x2.everywhere P
  | _, .typeObject m x1 => P (.typeObject m x1) && x1.everywhere P
  | _, .typeObjectItem m s1 x1 s2 x2 => P (.typeObjectItem m s1 x1 s2 x2) && x1.everywhere P && x2.everywhere P
  | _, .value m s1 x1 x2 x3 x4 x5 x6 => P (.value m s1 x1 x2 x3 x4 x5 x6) && x1.everywhere P && x2.everywhere P && x3.everywhere P && x4.everywhere P && x5.everywhere P && x6.everywhere P
  | _, .valueBool m s1 => P (.valueBool m s1)
  | _, .valueNumber m s1 s2 => P (.valueNumber m s1 s2)
  | _, .heredoc m s1 s2 x1 => P (.heredoc m s1 s2 x1) && x1.everywhere P
  | _, .heredocFragment m x1 x2 s1 => P (.heredocFragment m x1 x2 s1) && x1.everywhere P && x2.everywhere P
  | _, .valueString m x1 => P (.valueString m x1) && x1.everywhere P
  | _, .stringFragment m s1 s2 x1 x2 s3 => P (.stringFragment m s1 s2 x1 x2 s3) && x1.everywhere P && x2.everywhere P
  | _, .valueList m x1 => P (.valueList m x1) && x1.everywhere P
  | _, .listItem m s1 x1 x2 => P (.listItem m s1 x1 x2) && x1.everywhere P && x2.everywhere P
  | _, .valueMap m x1 => P (.valueMap m x1) && x1.everywhere P
  | _, .mapItem m s1 x1 x2 x3 => P (.mapItem m s1 x1 x2 x3) && x1.everywhere P && x2.everywhere P && x3.everywhere P
  | _, .mapKey m x1 x2 => P (.mapKey m x1 x2) && x1.everywhere P && x2.everywhere P
  | _, .expr m x1 x2 x3 => P (.expr m x1 x2 x3) && x1.everywhere P && x2.everywhere P && x3.everywhere P
  | _, .exprIf m x1 x2 x3 => P (.exprIf m x1 x2 x3) && x1.everywhere P && x2.everywhere P && x3.everywhere P
  | _, .exprSwitch m x1 x2 => P (.exprSwitch m x1 x2) && x1.everywhere P && x2.everywhere P
  | _, .exprCase m x1 s1 x2 => P (.exprCase m x1 s1 x2) && x1.everywhere P && x2.everywhere P
  | _, .conditional m x1 s1 x2 x3 => P (.conditional m x1 s1 x2 x3) && x1.everywhere P && x2.everywhere P && x3.everywhere P
  | _, .bin l m x1 s1 x2 => P (.bin l m x1 s1 x2) && x1.everywhere P && x2.everywhere P
  | _, .unary m s1 x1 => P (.unary m s1 x1) && x1.everywhere P
  | _, .postfixE m x1 x2 x3 => P (.postfixE m x1 x2 x3) && x1.everywhere P && x2.everywhere P && x3.everywhere P
  | _, .primary m x1 x2 x3 x4 x5 => P (.primary m x1 x2 x3 x4 x5) && x1.everywhere P && x2.everywhere P && x3.everywhere P && x4.everywhere P && x5.everywhere P
  | _, .invocation m x1 => P (.invocation m x1) && x1.everywhere P
  | _, .nil (k := k) => P (.nil (k := k))
  | _, .ref x1 => P (.ref x1) && x1.everywhere P
  | _, .nilSlice (k := k) => P (.nilSlice (k := k))
  | _, .mkSlice addr x1 => P (.mkSlice addr x1) && x1.everywhere P
  | _, .empty (k := k) => P (.empty (k := k))
  | _, .cons x1 x2 => P (.cons x1 x2) && x1.everywhere P && x2.everywhere P

/-- The number of structs, pointers and slices. -/
def size : {k : Kind} → Node k → Nat
  | _, .rootItem _ _ x1 x2 x3 x4 x5 x6 => 1 + x1.size + x2.size + x3.size + x4.size + x5.size + x6.size
  | _, .parameterType _ x1 x2 => 1 + x1.size + x2.size
  | _, .funcSignature _ x1 x2 => 1 + x1.size + x2.size
  | _, .ident _ _ => 1
  | _, .comment _ _ _ => 1
  | _, .attr _ _ x1 => 1 + x1.size
  | _, .block _ _ _ x1 => 1 + x1.size
  | _, .blockItem _ _ x1 x2 x3 => 1 + x1.size + x2.size + x3.size
  | _, .decl _ _ _ x1 x2 => 1 + x1.size + x2.size
  | _, .lambda _ x1 x2 x3 => 1 + x1.size + x2.size + x3.size
  | _, .lambdaParameter _ _ x1 => 1 + x1.size
  | _, .func _ _ x1 x2 x3 => 1 + x1.size + x2.size + x3.size
  | _, .funcParameter _ _ x1 => 1 + x1.size
  | _, .funcStatement _ _ x1 x2 x3 => 1 + x1.size + x2.size + x3.size
  | _, .funcDecl _ _ _ x1 x2 => 1 + x1.size + x2.size
  | _, .type _ _ x1 x2 => 1 + x1.size + x2.size
  | _, .typeEnum _ x1 => 1 + x1.size
  | _, .typeEnumItem _ _ x1 _ x2 => 1 + x1.size + x2.size
  | _, .typeObject _ x1 => 1 + x1.size
  | _, .typeObjectItem _ _ x1 _ x2 => 1 + x1.size + x2.size
  | _, .value _ _ x1 x2 x3 x4 x5 x6 => 1 + x1.size + x2.size + x3.size + x4.size + x5.size + x6.size
  | _, .valueBool _ _ => 1
  | _, .valueNumber _ _ _ => 1
  | _, .heredoc _ _ _ x1 => 1 + x1.size
  | _, .heredocFragment _ x1 x2 _ => 1 + x1.size + x2.size
  | _, .valueString _ x1 => 1 + x1.size
  | _, .stringFragment _ _ _ x1 x2 _ => 1 + x1.size + x2.size
  | _, .valueList _ x1 => 1 + x1.size
  | _, .listItem _ _ x1 x2 => 1 + x1.size + x2.size
  | _, .valueMap _ x1 => 1 + x1.size
  | _, .mapItem _ _ x1 x2 x3 => 1 + x1.size + x2.size + x3.size
  | _, .mapKey _ x1 x2 => 1 + x1.size + x2.size
  | _, .expr _ x1 x2 x3 => 1 + x1.size + x2.size + x3.size
  | _, .exprIf _ x1 x2 x3 => 1 + x1.size + x2.size + x3.size
  | _, .exprSwitch _ x1 x2 => 1 + x1.size + x2.size
  | _, .exprCase _ x1 _ x2 => 1 + x1.size + x2.size
  | _, .conditional _ x1 _ x2 x3 => 1 + x1.size + x2.size + x3.size
  | _, .bin _ _ x1 _ x2 => 1 + x1.size + x2.size
  | _, .unary _ _ x1 => 1 + x1.size
  | _, .postfixE _ x1 x2 x3 => 1 + x1.size + x2.size + x3.size
  | _, .primary _ x1 x2 x3 x4 x5 => 1 + x1.size + x2.size + x3.size + x4.size + x5.size
  | _, .invocation _ x1 => 1 + x1.size
  | _, .nil => 1
  | _, .ref x1 => 1 + x1.size
  | _, .nilSlice => 1
  | _, .mkSlice _ x1 => 1 + x1.size
  | _, .empty => 1
  | _, .cons x1 x2 => 1 + x1.size + x2.size

/-- The meta data of a struct (a default for other kinds). -/
def info : {k : Kind} → Node k → Meta
  | _, .rootItem m _ _ _ _ _ _ _ => m
  | _, .parameterType m _ _ => m
  | _, .funcSignature m _ _ => m
  | _, .ident m _ => m
  | _, .comment m _ _ => m
  | _, .attr m _ _ => m
  | _, .block m _ _ _ => m
  | _, .blockItem m _ _ _ _ => m
  | _, .decl m _ _ _ _ => m
  | _, .lambda m _ _ _ => m
  | _, .lambdaParameter m _ _ => m
  | _, .func m _ _ _ _ => m
  | _, .funcParameter m _ _ => m
  | _, .funcStatement m _ _ _ _ => m
  | _, .funcDecl m _ _ _ _ => m
  | _, .type m _ _ _ => m
  | _, .typeEnum m _ => m
  | _, .typeEnumItem m _ _ _ _ => m
  | _, .typeObject m _ => m
  | _, .typeObjectItem m _ _ _ _ => m
  | _, .value m _ _ _ _ _ _ _ => m
  | _, .valueBool m _ => m
  | _, .valueNumber m _ _ => m
  | _, .heredoc m _ _ _ => m
  | _, .heredocFragment m _ _ _ => m
  | _, .valueString m _ => m
  | _, .stringFragment m _ _ _ _ _ => m
  | _, .valueList m _ => m
  | _, .listItem m _ _ _ => m
  | _, .valueMap m _ => m
  | _, .mapItem m _ _ _ _ => m
  | _, .mapKey m _ _ => m
  | _, .expr m _ _ _ => m
  | _, .exprIf m _ _ _ => m
  | _, .exprSwitch m _ _ => m
  | _, .exprCase m _ _ _ => m
  | _, .conditional m _ _ _ _ => m
  | _, .bin _ m _ _ _ => m
  | _, .unary m _ _ => m
  | _, .postfixE m _ _ _ => m
  | _, .primary m _ _ _ _ _ => m
  | _, .invocation m _ => m
  | _, _ => { addr := 0 }

/-- `dflt`, unless `w` assigns this struct. -/
def pickStruct (w : Write) (m : Meta) {k : Kind} (dflt : Node k) : Node k :=
  match w with
  | .struct a v => if m.addr = a then (if h : v.1 = k then h ▸ v.2 else dflt) else dflt
  | _ => dflt

/-- `dflt`, unless `w` assigns the elements of this slice. -/
def pickArray (w : Write) (a : Nat) {k : Kind} (dflt : Node (.items k)) : Node (.items k) :=
  match w with
  | .array b v => if a = b then (if h : v.1 = .items k then h ▸ v.2 else dflt) else dflt
  | _ => dflt

/-- The effect of an assignment on a value: every occurrence of the object is changed. -/
def write (w : Write) : {k : Kind} → Node k → Node k
  | _, .rootItem m s1 x1 x2 x3 x4 x5 x6 => pickStruct w m (.rootItem m s1 (x1.write w) (x2.write w) (x3.write w) (x4.write w) (x5.write w) (x6.write w))
  | _, .parameterType m x1 x2 => pickStruct w m (.parameterType m (x1.write w) (x2.write w))
  | _, .funcSignature m x1 x2 => pickStruct w m (.funcSignature m (x1.write w) (x2.write w))
  | _, .ident m s1 => pickStruct w m (.ident m (s1.write w))
  | _, .comment m s1 s2 => pickStruct w m (.comment m (s1.write w) s2)
  | _, .attr m s1 x1 => pickStruct w m (.attr m s1 (x1.write w))
  | _, .block m s1 s2 x1 => pickStruct w m (.block m s1 (s2.write w) (x1.write w))
  | _, .blockItem m s1 x1 x2 x3 => pickStruct w m (.blockItem m s1 (x1.write w) (x2.write w) (x3.write w))
  | _, .decl m s1 s2 x1 x2 => pickStruct w m (.decl m s1 s2 (x1.write w) (x2.write w))
  | _, .lambda m x1 x2 x3 => pickStruct w m (.lambda m (x1.write w) (x2.write w) (x3.write w))
  | _, .lambdaParameter m s1 x1 => pickStruct w m (.lambdaParameter m s1 (x1.write w))
  | _, .func m s1 x1 x2 x3 => pickStruct w m (.func m s1 (x1.write w) (x2.write w) (x3.write w))
  | _, .funcParameter m s1 x1 => pickStruct w m (.funcParameter m s1 (x1.write w))
  | _, .funcStatement m s1 x1 x2 x3 => pickStruct w m (.funcStatement m s1 (x1.write w) (x2.write w) (x3.write w))
  | _, .funcDecl m s1 s2 x1 x2 => pickStruct w m (.funcDecl m s1 s2 (x1.write w) (x2.write w))
  | _, .type m s1 x1 x2 => pickStruct w m (.type m s1 (x1.write w) (x2.write w))
  | _, .typeEnum m x1 => pickStruct w m (.typeEnum m (x1.write w))
  | _, .typeEnumItem m s1 x1 s2 x2 => pickStruct w m (.typeEnumItem m s1 (x1.write w) s2 (x2.write w))
  | _, .typeObject m x1 => pickStruct w m (.typeObject m (x1.write w))
  | _, .typeObjectItem m s1 x1 s2 x2 => pickStruct w m (.typeObjectItem m s1 (x1.write w) s2 (x2.write w))
  | _, .value m s1 x1 x2 x3 x4 x5 x6 => pickStruct w m (.value m s1 (x1.write w) (x2.write w) (x3.write w) (x4.write w) (x5.write w) (x6.write w))
  | _, .valueBool m s1 => pickStruct w m (.valueBool m s1)
  | _, .valueNumber m s1 s2 => pickStruct w m (.valueNumber m (writeFloat w s1) s2)
  | _, .heredoc m s1 s2 x1 => pickStruct w m (.heredoc m s1 s2 (x1.write w))
  | _, .heredocFragment m x1 x2 s1 => pickStruct w m (.heredocFragment m (x1.write w) (x2.write w) s1)
  | _, .valueString m x1 => pickStruct w m (.valueString m (x1.write w))
  | _, .stringFragment m s1 s2 x1 x2 s3 => pickStruct w m (.stringFragment m s1 s2 (x1.write w) (x2.write w) s3)
  | _, .valueList m x1 => pickStruct w m (.valueList m (x1.write w))
  | _, .listItem m s1 x1 x2 => pickStruct w m (.listItem m s1 (x1.write w) (x2.write w))
  | _, .valueMap m x1 => pickStruct w m (.valueMap m (x1.write w))
  | _, .mapItem m s1 x1 x2 x3 => pickStruct w m (.mapItem m s1 (x1.write w) (x2.write w) (x3.write w))
  | _, .mapKey m x1 x2 => pickStruct w m (.mapKey m (x1.write w) (x2.write w))
  | _, .expr m x1 x2 x3 => pickStruct w m (.expr m (x1.write w) (x2.write w) (x3.write w))
  | _, .exprIf m x1 x2 x3 => pickStruct w m (.exprIf m (x1.write w) (x2.write w) (x3.write w))
  | _, .exprSwitch m x1 x2 => pickStruct w m (.exprSwitch m (x1.write w) (x2.write w))
  | _, .exprCase m x1 s1 x2 => pickStruct w m (.exprCase m (x1.write w) s1 (x2.write w))
  | _, .conditional m x1 s1 x2 x3 => pickStruct w m (.conditional m (x1.write w) s1 (x2.write w) (x3.write w))
  | _, .bin l m x1 s1 x2 => pickStruct w m (.bin l m (x1.write w) s1 (x2.write w))
  | _, .unary m s1 x1 => pickStruct w m (.unary m s1 (x1.write w))
  | _, .postfixE m x1 x2 x3 => pickStruct w m (.postfixE m (x1.write w) (x2.write w) (x3.write w))
  | _, .primary m x1 x2 x3 x4 x5 => pickStruct w m (.primary m (x1.write w) (x2.write w) (x3.write w) (x4.write w) (x5.write w))
  | _, .invocation m x1 => pickStruct w m (.invocation m (x1.write w))
  | _, .nil => .nil
  | _, .ref x1 => .ref (x1.write w)
  | _, .nilSlice => .nilSlice
  | _, .mkSlice addr x1 => .mkSlice addr (pickArray w addr (x1.write w))
  | _, .empty => .empty
  | _, .cons x1 x2 => .cons (x1.write w) (x2.write w)

/-! Unfolding the definitions once here keeps their equations in this module. -/

theorem map_nil {k : Kind} (fm : Meta → Meta) (fa : Nat → Nat) : (nil : Node (.ptr k)).map fm fa = nil := by simp only [map]
theorem collect_nil {β : Type} {k : Kind} (gm : Meta → List β) (ga : Nat → List β) :
    (nil : Node (.ptr k)).collect gm ga = [] := by simp only [collect]
theorem storedBy_nil {k : Kind} (b : Bool) (p : Option Nat) : (nil : Node (.ptr k)).storedBy b p = [] := by simp only [storedBy]
theorem everywhere_nil {k : Kind} (P : {k : Kind} → Node k → Bool) : (nil : Node (.ptr k)).everywhere P = P (nil : Node (.ptr k)) := by
  simp only [everywhere]
theorem size_nil {k : Kind} : (nil : Node (.ptr k)).size = 1 := by simp only [size]
theorem info_nil {k : Kind} : (nil : Node (.ptr k)).info = { addr := 0 } := by simp only [info]
theorem write_nil {k : Kind} (w : Write) : (nil : Node (.ptr k)).write w = nil := by simp only [write]

end Node

end Verif.Etx
