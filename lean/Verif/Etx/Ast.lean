import Verif.Etx.Str

/-!
# The AST of `pkg/etx`

One constructor per Go struct.  `Node k` is the type of values of the Go type named by `k`: a struct
type, a pointer `*T` (`ptr`), a slice `[]*T` (`slice`; `items` are its elements).  A field that holds a
struct by value is a `Node` of that struct.

Every struct value, slice backing array and `big.Float` has an address (a number), so that sharing is
visible; a struct stored inside another one has its own (interior) address.  *Simplification*: values are
finite trees; a shared sub-object occurs twice with the same addresses, cyclic values do not occur.
-/

namespace Verif.Etx

/-- `lexer.Position` -/
structure Position where
  filename : Str := []
  offset : Nat := 0
  line : Nat := 0
  column : Nat := 0
  deriving DecidableEq, Repr

/-- `ASTNode` (`ast.go:22-25`) together with the address of the struct it is embedded in.  `Parent` is the
address of a node or nil. -/
structure Meta where
  addr : Nat
  pos : Position := {}
  parent : Option Nat := none
  deriving DecidableEq, Repr

/-- A non-negative `*big.Float`: infinity or `mant * 2^exp`, with `prec` bits of precision. -/
structure BigFloat where
  prec : Nat
  mant : Nat
  exp : Int
  inf : Bool
  deriving DecidableEq, Repr

/-- A `[]string`: nil or a backing array. -/
inductive Strs where
  | nil
  | mk (addr : Nat) (l : List Str)
  deriving DecidableEq, Repr

/-- The elements. -/
def Strs.list : Strs → List Str
  | .nil => []
  | .mk _ l => l

/-- The ten binary expression structs, whose methods differ only in the type names
(`expr.go:268-714`): `ExprLogicalOr`, …, `ExprMultiplicative`. -/
inductive Level where
  | logicalOr | logicalAnd | bitwiseOr | bitwiseXor | bitwiseAnd | equality | relational | shift
  | additive | multiplicative
  deriving DecidableEq, Repr

/-- Go types. -/
inductive Kind where
  | rootItem | parameterType | funcSignature | ident | comment | attr | block | blockItem | decl
  | lambda | lambdaParameter | func | funcParameter | funcStatement | funcDecl
  | type | typeEnum | typeEnumItem | typeObject | typeObjectItem
  | value | valueBool | valueNumber | heredoc | heredocFragment | valueString | stringFragment
  | valueList | listItem | valueMap | mapItem | mapKey
  | expr | exprIf | exprSwitch | exprCase | conditional | bin (l : Level) | unary | postfixE | primary | invocation
  | ptr (k : Kind) | slice (k : Kind) | items (k : Kind)
  deriving DecidableEq, Repr

/-- The type of the field `Left` of a binary expression struct. -/
def Level.operand : Level → Kind
  | .logicalOr => .bin .logicalAnd
  | .logicalAnd => .bin .bitwiseOr
  | .bitwiseOr => .bin .bitwiseXor
  | .bitwiseXor => .bin .bitwiseAnd
  | .bitwiseAnd => .bin .equality
  | .equality => .bin .relational
  | .relational => .bin .shift
  | .shift => .bin .additive
  | .additive => .bin .multiplicative
  | .multiplicative => .unary

open Kind in
/-- Values of the Go types.  Fields in the order of the Go struct declarations. -/
inductive Node : Kind → Type where
  /-- `ast.go:89-99` -/
  | rootItem (m : Meta) (emptyLine : Str) (decl : Node (ptr decl)) (func : Node (ptr func)) (type : Node (ptr type))
      (block : Node (ptr block)) (attr : Node (ptr attr)) (comment : Node (ptr comment)) : Node rootItem
  /-- `ast.go:161-166` -/
  | parameterType (m : Meta) (ident : Node (ptr ident)) (func : Node (ptr funcSignature)) : Node parameterType
  /-- `ast.go:205-210` -/
  | funcSignature (m : Meta) (parameters : Node (slice parameterType)) (ret : Node parameterType) : Node funcSignature
  /-- `ident.go:7-11` -/
  | ident (m : Meta) (parts : Strs) : Node ident
  /-- `comment.go:6-11` -/
  | comment (m : Meta) (singleLine : Strs) (multiline : Str) : Node comment
  /-- `attribute.go:8-13` -/
  | attr (m : Meta) (key : Str) (value : Node (ptr expr)) : Node attr
  /-- `block.go:8-14` -/
  | block (m : Meta) (name : Str) (labels : Strs) (body : Node (slice blockItem)) : Node block
  /-- `block.go:68-75` -/
  | blockItem (m : Meta) (emptyLine : Str) (block : Node (ptr block)) (attr : Node (ptr attr))
      (comment : Node (ptr comment)) : Node blockItem
  /-- `decl.go:11-18` -/
  | decl (m : Meta) (declType label : Str) (type : Node (ptr parameterType)) (value : Node (ptr expr)) : Node decl
  /-- `lambda.go:8-14` -/
  | lambda (m : Meta) (comment : Node (ptr comment)) (parameters : Node (slice lambdaParameter)) (expr : Node expr) :
      Node lambda
  /-- `lambda.go:62-67` -/
  | lambdaParameter (m : Meta) (label : Str) (type : Node (ptr parameterType)) : Node lambdaParameter
  /-- `func.go:8-15` -/
  | func (m : Meta) (label : Str) (parameters : Node (slice funcParameter)) (ret : Node (slice parameterType))
      (body : Node (slice funcStatement)) : Node func
  /-- `func.go:87-92` -/
  | funcParameter (m : Meta) (label : Str) (type : Node (ptr parameterType)) : Node funcParameter
  /-- `func.go:124-131` -/
  | funcStatement (m : Meta) (emptyLine : Str) (comment : Node (ptr comment)) (decl : Node (ptr funcDecl))
      (expr : Node (ptr expr)) : Node funcStatement
  /-- `func.go:180-187` -/
  | funcDecl (m : Meta) (declType label : Str) (type : Node (ptr parameterType)) (value : Node (ptr expr)) :
      Node funcDecl
  /-- `type.go:10-16` -/
  | type (m : Meta) (label : Str) (enum : Node (ptr typeEnum)) (object : Node (ptr typeObject)) : Node type
  /-- `type.go:64-68` -/
  | typeEnum (m : Meta) (items : Node (slice typeEnumItem)) : Node typeEnum
  /-- `type.go:109-116` -/
  | typeEnumItem (m : Meta) (emptyLine : Str) (comment : Node (ptr comment)) (label : Str) (value : Node expr) :
      Node typeEnumItem
  /-- `type.go:155-159` -/
  | typeObject (m : Meta) (items : Node (slice typeObjectItem)) : Node typeObject
  /-- `type.go:202-209` -/
  | typeObjectItem (m : Meta) (emptyLine : Str) (comment : Node (ptr comment)) (label : Str)
      (type : Node parameterType) : Node typeObjectItem
  /-- `value.go:20-30` -/
  | value (m : Meta) (null : Bool) (bool : Node (ptr valueBool)) (number : Node (ptr valueNumber))
      (str : Node (ptr valueString)) (heredoc : Node (ptr heredoc)) (list : Node (ptr valueList))
      (map : Node (ptr valueMap)) : Node value
  /-- `value.go:119-123` -/
  | valueBool (m : Meta) (value : Bool) : Node valueBool
  /-- `value.go:155-160`; `Value` is nil or a `big.Float` with its address. -/
  | valueNumber (m : Meta) (value : Option (Nat × BigFloat)) (source : Str) : Node valueNumber
  /-- `value.go:212-217`; `Delimiter` (`value.go:254-257`) is its two fields. -/
  | heredoc (m : Meta) (leadingTabs : Bool) (delimiter : Str) (fragments : Node (slice heredocFragment)) : Node heredoc
  /-- `value.go:293-299` -/
  | heredocFragment (m : Meta) (expr directive : Node (ptr .expr)) (text : Str) : Node heredocFragment
  /-- `value.go:341-345` -/
  | valueString (m : Meta) (fragment : Node (slice stringFragment)) : Node valueString
  /-- `value.go:380-388` -/
  | stringFragment (m : Meta) (escaped unicode : Str) (expr directive : Node (ptr .expr)) (text : Str) :
      Node stringFragment
  /-- `value.go:436-440` -/
  | valueList (m : Meta) (items : Node (slice listItem)) : Node valueList
  /-- `value.go:478-484` -/
  | listItem (m : Meta) (emptyLine : Str) (value : Node (ptr expr)) (comment : Node (ptr comment)) : Node listItem
  /-- `value.go:526-530` -/
  | valueMap (m : Meta) (items : Node (slice mapItem)) : Node valueMap
  /-- `value.go:570-577` -/
  | mapItem (m : Meta) (emptyLine : Str) (key : Node (ptr mapKey)) (value : Node (ptr expr))
      (comment : Node (ptr comment)) : Node mapItem
  /-- `value.go:623-628` -/
  | mapKey (m : Meta) (ident : Node (ptr ident)) (str : Node (ptr valueString)) : Node mapKey
  /-- `expr.go:8-14` -/
  | expr (m : Meta) (left : Node (ptr conditional)) (ifE : Node (ptr exprIf)) (switch : Node (ptr exprSwitch)) : Node expr
  /-- `expr.go:58-64` -/
  | exprIf (m : Meta) (condition : Node (bin .logicalOr)) (left right : Node (ptr expr)) : Node exprIf
  /-- `expr.go:107-112` -/
  | exprSwitch (m : Meta) (selector : Node (bin .logicalOr)) (cases : Node (slice exprCase)) : Node exprSwitch
  /-- `expr.go:154-160` -/
  | exprCase (m : Meta) (conditions : Node (slice (bin .logicalOr))) (dflt : Bool) (expr : Node (ptr expr)) : Node exprCase
  /-- `expr.go:212-219` -/
  | conditional (m : Meta) (condition : Node (bin .logicalOr)) (conditionOp : Bool) (trueExpr falseExpr : Node (ptr expr)) :
      Node conditional
  /-- `expr.go`: 268-274, 313-319, 358-364, 403-409, 448-454, 493-499, 538-544, 583-589, 628-634, 673-679
  (`ExprLogicalOr`, …, `ExprMultiplicative`) -/
  | bin (l : Level) (m : Meta) (left : Node l.operand) (op : Str) (right : Node (ptr (bin l))) : Node (bin l)
  /-- `expr.go:718-723` -/
  | unary (m : Meta) (op : Str) (right : Node postfixE) : Node unary
  /-- `expr.go:749-755` -/
  | postfixE (m : Meta) (value : Node primary) (index : Node (ptr expr)) (post : Node (ptr postfixE)) : Node postfixE
  /-- `expr.go:797-805` -/
  | primary (m : Meta) (subExpression : Node (ptr expr)) (value : Node (ptr value)) (ident : Node (ptr ident))
      (monads : Node (slice invocation)) (post : Node (ptr postfixE)) : Node primary
  /-- `expr.go:881-885` -/
  | invocation (m : Meta) (values : Node (slice expr)) : Node invocation
  /-- A nil pointer. -/
  | nil {k : Kind} : Node (ptr k)
  /-- A non-nil pointer; the pointed-to struct carries its address. -/
  | ref {k : Kind} (x : Node k) : Node (ptr k)
  /-- A nil slice. -/
  | nilSlice {k : Kind} : Node (slice k)
  /-- A non-nil slice with the address of its backing array. -/
  | mkSlice {k : Kind} (addr : Nat) (xs : Node (items k)) : Node (slice k)
  /-- No (more) elements. -/
  | empty {k : Kind} : Node (items k)
  /-- An element (a pointer, possibly nil) and the following ones. -/
  | cons {k : Kind} (x : Node (ptr k)) (xs : Node (items k)) : Node (items k)

/-- `AST` (`ast.go:42-44`). -/
structure AST where
  addr : Nat
  items : Node (.slice .rootItem)

/-- A node of any struct type. -/
abbrev AnyNode := (k : Kind) × Node k

end Verif.Etx
