import Verif.Etx.FloatJson
import Verif.Etx.Takes

/-!
# JSON of the AST

`json.Marshal` and `json.Unmarshal` (`encoding/json`, Go 1.18) on the structs of `pkg/etx`, whose fields carry `json` tags.
The embedded `ASTNode` contributes nothing: both its fields are tagged `json:"-"` (`ast.go:23-24`).  A field with
`omitempty` is left out if it is false, an empty string, a nil pointer or an empty slice; a struct never is.

*Simplifications*: a string is a list of code points, so invalid UTF-8 does not occur; reading takes a JSON value, not its
text, and the keys exactly as written; a struct stored by value must be present when reading (in Go it would be left at
its zero value), and fields in the JSON that the struct does not have are ignored, as in Go.
-/

namespace Verif.Etx

/-- Values, the elements of an array, the fields of an object. -/
inductive JKind where
  | val | vals | fields

/-- JSON values without numbers (no field of the AST becomes a JSON number). -/
inductive Json : JKind → Type where
  | null : Json .val
  | bool (b : Bool) : Json .val
  | str (s : Str) : Json .val
  | arr (l : Json .vals) : Json .val
  | obj (l : Json .fields) : Json .val
  /-- no more elements -/
  | stop : Json .vals
  | elem (x : Json .val) (l : Json .vals) : Json .vals
  /-- no more fields -/
  | done : Json .fields
  | field (name : Str) (x : Json .val) (l : Json .fields) : Json .fields
  deriving DecidableEq

namespace Json

/-! ## Text -/

/-- A hexadecimal digit (`hex` of `encoding/json`). -/
def hexDigit (n : Nat) : Char := c!"0123456789abcdef".getD n '0'

/-- A character in a string (`encodeState.string`, with `escapeHTML`). -/
def esc (c : Char) : Str :=
  if c = '"' ∨ c = '\\' then ['\\', c]
  else if c = '\n' then c!"\\n"
  else if c = '\r' then c!"\\r"
  else if c = '\t' then c!"\\t"
  else if c.toNat < 0x20 ∨ c = '<' ∨ c = '>' ∨ c = '&' ∨ c.toNat = 0x2028 ∨ c.toNat = 0x2029 then
    '\\' :: 'u' :: [hexDigit (c.toNat / 4096 % 16), hexDigit (c.toNat / 256 % 16), hexDigit (c.toNat / 16 % 16), hexDigit (c.toNat % 16)]
  else [c]

/-- A string. -/
def quote (s : Str) : Str := '"' :: (s.flatMap esc ++ c!"\"")

/-- The text of a value; of elements and fields up to the closing bracket, with a comma in front of all but the first. -/
def text (first : Bool) : {k : JKind} → Json k → Str
  | _, .null => c!"null"
  | _, .bool true => c!"true"
  | _, .bool false => c!"false"
  | _, .str s => quote s
  | _, .arr l => '[' :: l.text true
  | _, .obj l => '{' :: l.text true
  | _, .stop => c!"]"
  | _, .elem x l => (if first then [] else c!",") ++ (x.text true ++ l.text false)
  | _, .done => c!"}"
  | _, .field name x l => (if first then [] else c!",") ++ (quote name ++ (':' :: (x.text true ++ l.text false)))

/-- Arrays and objects inside each other. -/
def depth : {k : JKind} → Json k → Nat
  | _, .null => 0
  | _, .bool _ => 0
  | _, .str _ => 0
  | _, .arr l => l.depth + 1
  | _, .obj l => l.depth + 1
  | _, .stop => 0
  | _, .elem x l => max x.depth l.depth
  | _, .done => 0
  | _, .field _ x l => max x.depth l.depth

/-! ## Writing -/

/-- A field without `omitempty`. -/
abbrev fld (name : Str) (x : Json .val) (l : Json .fields) : Json .fields := .field name x l

/-- A field with `omitempty`; `empty`: it is left out. -/
def fldOpt (name : Str) (empty : Bool) (x : Json .val) (l : Json .fields) : Json .fields := if empty then l else .field name x l

/-- An array of strings. -/
def strings : List Str → Json .vals
  | [] => .stop
  | s :: l => .elem (.str s) (strings l)

/-- The elements of an array. -/
def elems : Json .val → Json .vals
  | .arr l => l
  | _ => .stop

end Json

open Json (fld fldOpt strings)

/-- A `[]string`; nil becomes `null`. -/
def Strs.json : Strs → Json .val
  | .nil => .null
  | .mk _ l => .arr (strings l)

/-- A `*big.Float`: `MarshalText`, nil becomes `null`. -/
def numJson : Option (Nat × BigFloat) → Json .val
  | none => .null
  | some (_, f) => .str f.marshal

namespace Node

/-- No elements. -/
def noElems : {k : Kind} → Node k → Bool
  | _, .empty => true
  | _, _ => false

/-- What `omitempty` leaves out: nil pointers and empty slices. -/
def omitted : {k : Kind} → Node k → Bool
  | _, .nil => true
  | _, .nilSlice => true
  | _, .mkSlice _ xs => xs.noElems
  | _, _ => false

/-- The JSON value of a struct, a pointer, a slice (or its elements). -/
def json : {k : Kind} → Node k → Json .val
  -- ast.go:92-98
  | _, .rootItem _ emptyLine decl' func' type' block' attr' comment' => .obj <|
      fldOpt c!"empty_line" (emptyLine = []) (.str emptyLine) <|
      fldOpt c!"decl" decl'.omitted (decl'.json) <|
      fldOpt c!"func" func'.omitted (func'.json) <|
      fldOpt c!"type" type'.omitted (type'.json) <|
      fldOpt c!"block" block'.omitted (block'.json) <|
      fldOpt c!"attribute" attr'.omitted (attr'.json) <|
      fldOpt c!"comment" comment'.omitted (comment'.json) .done
  -- ast.go:164-165
  | _, .parameterType _ ident' func' => .obj <|
      fld c!"ident" (ident'.json) <|
      fld c!"func" (func'.json) .done
  -- ast.go:208-209
  | _, .funcSignature _ parameters ret => .obj <|
      fldOpt c!"parameters" parameters.omitted (parameters.json) <|
      fld c!"return" (ret.json) .done
  -- ident.go:10
  | _, .ident _ parts => .obj <|
      fld c!"parts" parts.json .done
  -- comment.go:9-10
  | _, .comment _ singleLine multiline => .obj <|
      fldOpt c!"single_line" (singleLine.list = []) singleLine.json <|
      fldOpt c!"multiline" (multiline = []) (.str multiline) .done
  -- attribute.go:11-12
  | _, .attr _ key value' => .obj <|
      fld c!"key" (.str key) <|
      fldOpt c!"value" value'.omitted (value'.json) .done
  -- block.go:11-13
  | _, .block _ name labels body => .obj <|
      fld c!"name" (.str name) <|
      fldOpt c!"labels" (labels.list = []) labels.json <|
      fld c!"body" (body.json) .done
  -- block.go:71-74
  | _, .blockItem _ emptyLine block' attr' comment' => .obj <|
      fldOpt c!"empty_line" (emptyLine = []) (.str emptyLine) <|
      fldOpt c!"block" block'.omitted (block'.json) <|
      fldOpt c!"attribute" attr'.omitted (attr'.json) <|
      fldOpt c!"comment" comment'.omitted (comment'.json) .done
  -- decl.go:14-17
  | _, .decl _ declType label type' value' => .obj <|
      fld c!"decl_type" (.str declType) <|
      fld c!"label" (.str label) <|
      fldOpt c!"type" type'.omitted (type'.json) <|
      fldOpt c!"value" value'.omitted (value'.json) .done
  -- lambda.go:11-13
  | _, .lambda _ comment' parameters expr' => .obj <|
      fldOpt c!"comment" comment'.omitted (comment'.json) <|
      fld c!"parameters" (parameters.json) <|
      fld c!"expr" (expr'.json) .done
  -- lambda.go:65-66
  | _, .lambdaParameter _ label type' => .obj <|
      fld c!"label" (.str label) <|
      fldOpt c!"type" type'.omitted (type'.json) .done
  -- func.go:11-14
  | _, .func _ label parameters ret body => .obj <|
      fld c!"label" (.str label) <|
      fldOpt c!"parameters" parameters.omitted (parameters.json) <|
      fldOpt c!"return" ret.omitted (ret.json) <|
      fldOpt c!"body" body.omitted (body.json) .done
  -- func.go:90-91
  | _, .funcParameter _ label type' => .obj <|
      fld c!"label" (.str label) <|
      fld c!"type" (type'.json) .done
  -- func.go:127-130
  | _, .funcStatement _ emptyLine comment' decl' expr' => .obj <|
      fldOpt c!"empty_line" (emptyLine = []) (.str emptyLine) <|
      fldOpt c!"comment" comment'.omitted (comment'.json) <|
      fldOpt c!"decl" decl'.omitted (decl'.json) <|
      fldOpt c!"expr" expr'.omitted (expr'.json) .done
  -- func.go:183-186
  | _, .funcDecl _ declType label type' value' => .obj <|
      fld c!"decl_type" (.str declType) <|
      fld c!"label" (.str label) <|
      fldOpt c!"type" type'.omitted (type'.json) <|
      fldOpt c!"value" value'.omitted (value'.json) .done
  -- type.go:13-15
  | _, .type _ label enum object => .obj <|
      fld c!"label" (.str label) <|
      fldOpt c!"enum" enum.omitted (enum.json) <|
      fldOpt c!"object" object.omitted (object.json) .done
  -- type.go:67
  | _, .typeEnum _ items' => .obj <|
      fldOpt c!"items" items'.omitted (items'.json) .done
  -- type.go:112-115
  | _, .typeEnumItem _ emptyLine comment' label value' => .obj <|
      fldOpt c!"empty_line" (emptyLine = []) (.str emptyLine) <|
      fldOpt c!"comment" comment'.omitted (comment'.json) <|
      fld c!"label" (.str label) <|
      fld c!"value" (value'.json) .done
  -- type.go:158
  | _, .typeObject _ items' => .obj <|
      fldOpt c!"items" items'.omitted (items'.json) .done
  -- type.go:205-208
  | _, .typeObjectItem _ emptyLine comment' label type' => .obj <|
      fldOpt c!"empty_line" (emptyLine = []) (.str emptyLine) <|
      fldOpt c!"comment" comment'.omitted (comment'.json) <|
      fld c!"label" (.str label) <|
      fld c!"type" (type'.json) .done
  -- value.go:23-29
  | _, .value _ null bool number str heredoc' list map => .obj <|
      fldOpt c!"null" (!null) (.bool null) <|
      fldOpt c!"bool" bool.omitted (bool.json) <|
      fldOpt c!"number" number.omitted (number.json) <|
      fldOpt c!"str" str.omitted (str.json) <|
      fldOpt c!"heredoc" heredoc'.omitted (heredoc'.json) <|
      fldOpt c!"list" list.omitted (list.json) <|
      fldOpt c!"map" map.omitted (map.json) .done
  -- value.go:122
  | _, .valueBool _ value' => .obj <|
      fld c!"Value" (.bool value') .done
  -- value.go:158-159
  | _, .valueNumber _ value' source => .obj <|
      fld c!"Value" (numJson value') <|
      fld c!"Source" (.str source) .done
  -- value.go:215-216, 255-256
  | _, .heredoc _ leadingTabs delimiter fragments => .obj <|
      fld c!"delimiter" (.obj <| fld c!"leading_tabs" (.bool leadingTabs) <| fld c!"delimiter" (.str delimiter) .done) <|
      fldOpt c!"fragments" fragments.omitted (fragments.json) .done
  -- value.go:296-298
  | _, .heredocFragment _ expr' directive text => .obj <|
      fldOpt c!"expr" expr'.omitted (expr'.json) <|
      fldOpt c!"directive" directive.omitted (directive.json) <|
      fldOpt c!"text" (text = []) (.str text) .done
  -- value.go:344
  | _, .valueString _ fragment => .obj <|
      fldOpt c!"fragment" fragment.omitted (fragment.json) .done
  -- value.go:383-387
  | _, .stringFragment _ escaped unicode expr' directive text => .obj <|
      fldOpt c!"escaped" (escaped = []) (.str escaped) <|
      fldOpt c!"unicode" (unicode = []) (.str unicode) <|
      fldOpt c!"expr" expr'.omitted (expr'.json) <|
      fldOpt c!"directive" directive.omitted (directive.json) <|
      fldOpt c!"text" (text = []) (.str text) .done
  -- value.go:439
  | _, .valueList _ items' => .obj <|
      fldOpt c!"items" items'.omitted (items'.json) .done
  -- value.go:481-483
  | _, .listItem _ emptyLine value' comment' => .obj <|
      fldOpt c!"empty_line" (emptyLine = []) (.str emptyLine) <|
      fldOpt c!"value" value'.omitted (value'.json) <|
      fldOpt c!"comment" comment'.omitted (comment'.json) .done
  -- value.go:529
  | _, .valueMap _ items' => .obj <|
      fldOpt c!"items" items'.omitted (items'.json) .done
  -- value.go:573-576
  | _, .mapItem _ emptyLine key value' comment' => .obj <|
      fldOpt c!"empty_line" (emptyLine = []) (.str emptyLine) <|
      fld c!"key" (key.json) <|
      fld c!"value" (value'.json) <|
      fldOpt c!"comment" comment'.omitted (comment'.json) .done
  -- value.go:626-627
  | _, .mapKey _ ident' str => .obj <|
      fldOpt c!"ident" ident'.omitted (ident'.json) <|
      fldOpt c!"str" str.omitted (str.json) .done
  -- expr.go:11-13
  | _, .expr _ left ifE switch => .obj <|
      fldOpt c!"left" left.omitted (left.json) <|
      fldOpt c!"if" ifE.omitted (ifE.json) <|
      fldOpt c!"switch" switch.omitted (switch.json) .done
  -- expr.go:61-63
  | _, .exprIf _ condition left right => .obj <|
      fld c!"condition" (condition.json) <|
      fldOpt c!"left" left.omitted (left.json) <|
      fldOpt c!"right" right.omitted (right.json) .done
  -- expr.go:110-111
  | _, .exprSwitch _ selector cases => .obj <|
      fld c!"selector" (selector.json) <|
      fldOpt c!"cases" cases.omitted (cases.json) .done
  -- expr.go:157-159
  | _, .exprCase _ conditions dflt expr' => .obj <|
      fld c!"conditions" (conditions.json) <|
      fld c!"default" (.bool dflt) <|
      fldOpt c!"expr" expr'.omitted (expr'.json) .done
  -- expr.go:215-218
  | _, .conditional _ condition conditionOp trueExpr falseExpr => .obj <|
      fld c!"condition" (condition.json) <|
      fldOpt c!"condition_op" (!conditionOp) (.bool conditionOp) <|
      fldOpt c!"true_expr" trueExpr.omitted (trueExpr.json) <|
      fldOpt c!"false_expr" falseExpr.omitted (falseExpr.json) .done
  -- expr.go:271-273, 316-318, 361-363, 406-408, 451-453, 496-498, 541-543, 586-588, 631-633, 676-678
  | _, .bin _ _ left op right => .obj <|
      fld c!"left" (left.json) <|
      fldOpt c!"op" (op = []) (.str op) <|
      fldOpt c!"right" right.omitted (right.json) .done
  -- expr.go:721-722
  | _, .unary _ op right => .obj <|
      fldOpt c!"op" (op = []) (.str op) <|
      fld c!"right" (right.json) .done
  -- expr.go:752-754
  | _, .postfixE _ value' index post => .obj <|
      fld c!"value" (value'.json) <|
      fldOpt c!"index" index.omitted (index.json) <|
      fldOpt c!"post" post.omitted (post.json) .done
  -- expr.go:800-804
  | _, .primary _ subExpression value' ident' monads post => .obj <|
      fldOpt c!"sub_expression" subExpression.omitted (subExpression.json) <|
      fldOpt c!"value" value'.omitted (value'.json) <|
      fld c!"ident" (ident'.json) <|
      fldOpt c!"monads" monads.omitted (monads.json) <|
      fldOpt c!"post" post.omitted (post.json) .done
  -- expr.go:884
  | _, .invocation _ values => .obj <|
      fldOpt c!"values" values.omitted (values.json) .done
  | _, .nil => .null
  | _, .ref x => x.json
  | _, .nilSlice => .null
  | _, .mkSlice _ xs => xs.json
  | _, .empty => .arr .stop
  | _, .cons x xs => .arr (.elem x.json xs.json.elems)

end Node

/-- The JSON value of an `AST` (`ast.go:43`). -/
def AST.json (t : AST) : Json .val := .obj (fldOpt c!"items" t.items.omitted t.items.json .done)

/-- `json.Marshal` of an `AST` -/
def AST.marshal (t : AST) : Str := t.json.text true

/-! ## Reading -/

namespace Json

/-- The value of a field. -/
def get (name : Str) : {k : JKind} → Json k → Option (Json .val)
  | _, .field n x l => if n = name then some x else l.get name
  | _, _ => none

/-- A string field. -/
def str' (fs : Json .fields) (name : Str) : Option Str :=
  match fs.get name with
  | none => some []
  | some (.str s) => some s
  | some _ => none

/-- A field of type `bool`. -/
def bool' (fs : Json .fields) (name : Str) : Option Bool :=
  match fs.get name with
  | none => some false
  | some (.bool b) => some b
  | some _ => none

/-- The strings of an array. -/
def readStrings : {k : JKind} → Json k → Option (List Str)
  | _, .stop => some []
  | _, .elem x l =>
    match x with
    | .str s => (l.readStrings).map (s :: ·)
    | _ => none
  | _, _ => none

/-- A field of type `[]string`. -/
def strs (fs : Json .fields) (name : Str) : Option Strs :=
  match fs.get name with
  | none => some .nil
  | some .null => some .nil
  | some (.arr l) => (l.readStrings).map (.mk 0 ·)
  | some _ => none

/-- The two fields of a `HeredocDelimiter`. -/
def delimiter : Json .val → Option (Bool × Str)
  | .obj fs => do return (← fs.bool' c!"leading_tabs", ← fs.str' c!"delimiter")
  | _ => none

/-- A field that holds a pointer, a slice or a struct; `p` reads a value. -/
def node (p : (k : Kind) → Json .val → Option (Node k)) {k : Kind} (fs : Json .fields) (name : Str) : Option (Node k) :=
  match fs.get name, k with
  | some x, k => p k x
  | none, .ptr _ => some .nil
  | none, .slice _ => some .nilSlice
  | none, _ => none

/-- A pointer: `null` is nil. -/
def readPtr {k : Kind} (p : Json .val → Option (Node k)) : Json .val → Option (Node (.ptr k))
  | .null => some .nil
  | x => (p x).map .ref

/-- The elements of a slice of pointers. -/
def readElems {k : Kind} (p : Json .val → Option (Node k)) : {j : JKind} → Json j → Option (Node (.items k))
  | _, .stop => some .empty
  | _, .elem x l => do return .cons (← readPtr p x) (← readElems p l)
  | _, _ => none

/-- A value of any type, given how structs are read. -/
def read (p : (k : Kind) → Json .val → Option (Node k)) : (k : Kind) → Json .val → Option (Node k)
  | .ptr k, x => readPtr (p k) x
  | .slice _, .null => some .nilSlice
  | .slice k, .arr l => (readElems (p k) l).map (.mkSlice 0 ·)
  | .slice _, _ => none
  | .items k, .arr l => readElems (p k) l
  | .items _, _ => none
  | k, x => p k x

/-- A struct, given how its fields are read: `p` nodes, `N` the field `Value` of a number (in `json.Unmarshal`, `readNum`; `N` is
also given the field `Source`, which `readNum` does not use). -/
def struct (N : Str → Json .val → Option (Option (Nat × BigFloat))) (p : (k : Kind) → Json .val → Option (Node k)) (fs : Json .fields) :
    (k : Kind) → Option (Node k)
  | .rootItem => do return .rootItem noPos (← fs.str' c!"empty_line") (← fs.node p c!"decl") (← fs.node p c!"func") (← fs.node p c!"type") (← fs.node p c!"block") (← fs.node p c!"attribute") (← fs.node p c!"comment")
  | .parameterType => do return .parameterType noPos (← fs.node p c!"ident") (← fs.node p c!"func")
  | .funcSignature => do return .funcSignature noPos (← fs.node p c!"parameters") (← fs.node p c!"return")
  | .ident => do return .ident noPos (← fs.strs c!"parts")
  | .comment => do return .comment noPos (← fs.strs c!"single_line") (← fs.str' c!"multiline")
  | .attr => do return .attr noPos (← fs.str' c!"key") (← fs.node p c!"value")
  | .block => do return .block noPos (← fs.str' c!"name") (← fs.strs c!"labels") (← fs.node p c!"body")
  | .blockItem => do return .blockItem noPos (← fs.str' c!"empty_line") (← fs.node p c!"block") (← fs.node p c!"attribute") (← fs.node p c!"comment")
  | .decl => do return .decl noPos (← fs.str' c!"decl_type") (← fs.str' c!"label") (← fs.node p c!"type") (← fs.node p c!"value")
  | .lambda => do return .lambda noPos (← fs.node p c!"comment") (← fs.node p c!"parameters") (← fs.node p c!"expr")
  | .lambdaParameter => do return .lambdaParameter noPos (← fs.str' c!"label") (← fs.node p c!"type")
  | .func => do return .func noPos (← fs.str' c!"label") (← fs.node p c!"parameters") (← fs.node p c!"return") (← fs.node p c!"body")
  | .funcParameter => do return .funcParameter noPos (← fs.str' c!"label") (← fs.node p c!"type")
  | .funcStatement => do return .funcStatement noPos (← fs.str' c!"empty_line") (← fs.node p c!"comment") (← fs.node p c!"decl") (← fs.node p c!"expr")
  | .funcDecl => do return .funcDecl noPos (← fs.str' c!"decl_type") (← fs.str' c!"label") (← fs.node p c!"type") (← fs.node p c!"value")
  | .type => do return .type noPos (← fs.str' c!"label") (← fs.node p c!"enum") (← fs.node p c!"object")
  | .typeEnum => do return .typeEnum noPos (← fs.node p c!"items")
  | .typeEnumItem => do return .typeEnumItem noPos (← fs.str' c!"empty_line") (← fs.node p c!"comment") (← fs.str' c!"label") (← fs.node p c!"value")
  | .typeObject => do return .typeObject noPos (← fs.node p c!"items")
  | .typeObjectItem => do return .typeObjectItem noPos (← fs.str' c!"empty_line") (← fs.node p c!"comment") (← fs.str' c!"label") (← fs.node p c!"type")
  | .value => do return .value noPos (← fs.bool' c!"null") (← fs.node p c!"bool") (← fs.node p c!"number") (← fs.node p c!"str") (← fs.node p c!"heredoc") (← fs.node p c!"list") (← fs.node p c!"map")
  | .valueBool => do return .valueBool noPos (← fs.bool' c!"Value")
  | .valueNumber => do return .valueNumber noPos (← (fs.get c!"Value").bind (N (← fs.str' c!"Source"))) (← fs.str' c!"Source")
  | .heredoc => do
    let d ← fs.get c!"delimiter"
    let (tabs, delimiter) ← d.delimiter
    return .heredoc noPos tabs delimiter (← fs.node p c!"fragments")
  | .heredocFragment => do return .heredocFragment noPos (← fs.node p c!"expr") (← fs.node p c!"directive") (← fs.str' c!"text")
  | .valueString => do return .valueString noPos (← fs.node p c!"fragment")
  | .stringFragment => do return .stringFragment noPos (← fs.str' c!"escaped") (← fs.str' c!"unicode") (← fs.node p c!"expr") (← fs.node p c!"directive") (← fs.str' c!"text")
  | .valueList => do return .valueList noPos (← fs.node p c!"items")
  | .listItem => do return .listItem noPos (← fs.str' c!"empty_line") (← fs.node p c!"value") (← fs.node p c!"comment")
  | .valueMap => do return .valueMap noPos (← fs.node p c!"items")
  | .mapItem => do return .mapItem noPos (← fs.str' c!"empty_line") (← fs.node p c!"key") (← fs.node p c!"value") (← fs.node p c!"comment")
  | .mapKey => do return .mapKey noPos (← fs.node p c!"ident") (← fs.node p c!"str")
  | .expr => do return .expr noPos (← fs.node p c!"left") (← fs.node p c!"if") (← fs.node p c!"switch")
  | .exprIf => do return .exprIf noPos (← fs.node p c!"condition") (← fs.node p c!"left") (← fs.node p c!"right")
  | .exprSwitch => do return .exprSwitch noPos (← fs.node p c!"selector") (← fs.node p c!"cases")
  | .exprCase => do return .exprCase noPos (← fs.node p c!"conditions") (← fs.bool' c!"default") (← fs.node p c!"expr")
  | .conditional => do return .conditional noPos (← fs.node p c!"condition") (← fs.bool' c!"condition_op") (← fs.node p c!"true_expr") (← fs.node p c!"false_expr")
  | .bin l => do return .bin l noPos (← fs.node p c!"left") (← fs.str' c!"op") (← fs.node p c!"right")
  | .unary => do return .unary noPos (← fs.str' c!"op") (← fs.node p c!"right")
  | .postfixE => do return .postfixE noPos (← fs.node p c!"value") (← fs.node p c!"index") (← fs.node p c!"post")
  | .primary => do return .primary noPos (← fs.node p c!"sub_expression") (← fs.node p c!"value") (← fs.node p c!"ident") (← fs.node p c!"monads") (← fs.node p c!"post")
  | .invocation => do return .invocation noPos (← fs.node p c!"values")
  | _ => none

/-- A struct, with at most `n` structs inside each other. -/
def readStruct (N : Str → Json .val → Option (Option (Nat × BigFloat))) : (n : Nat) → (k : Kind) → Json .val → Option (Node k)
  | 0, _, _ => none
  | n + 1, k, x =>
    match x with
    | .obj fs => struct N (read (readStruct N n)) fs k
    | _ => none

/-- A `*big.Float`: `UnmarshalText`; `null` is nil. -/
def readNum (_ : Str) : Json .val → Option (Option (Nat × BigFloat))
  | .null => some none
  | .str s => (BigFloat.unmarshal s).map fun f => some (0, f)
  | _ => none

/-- `maxNestingDepth` of `encoding/json` -/
def maxDepth : Nat := 10000

end Json

open Json (maxDepth read readStruct readNum) in
/-- `json.Unmarshal` into a zero `AST`, of the JSON text of `x`: text nested too deeply is refused by the scanner. -/
def AST.unmarshal (x : Json .val) : Option (Node (.slice .rootItem)) :=
  if x.depth ≤ maxDepth then
    match x with
    | .obj fs => fs.node (read (readStruct readNum x.depth)) c!"items"
    | _ => none
  else none

end Verif.Etx
