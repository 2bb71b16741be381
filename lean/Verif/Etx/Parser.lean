import Verif.Etx.Grammar
import Verif.Etx.Number
import Verif.Etx.Place
import Verif.Etx.Children

/-!
# The parser

The recursive descent of participle v2.0.0-alpha8 over the productions of `Grammar.lean`, with a lookahead of 50
tokens (`parser.go:11-13`), and the entry points of `parser.go`.

A production gives (`Res`) no match (Go: `nil, nil`), an error, or a match.  An error of an alternative or of an optional part is
forgotten, unless that part had read more than `lookahead` tokens; then it is final.

*Simplifications*:
* A failed alternative leaves no captures behind.  In participle some of them are left in the struct, but only if the
  whole parse fails afterwards.
* participle turns a sequence all of whose parts matched nothing into "no match"; no sequence of the grammar has only
  optional parts.
* `participle.MaxIterations` (10^6 repetitions at most) is in `Limit.lean`.
* All addresses are 0, see `Place.lean`.
-/

namespace Verif.Etx

/-- The result of a production; `rest` are the tokens not read yet (for an error: where it occurred). -/
inductive Res (α : Type) where
  | miss
  | err (rest : List Token)
  | ok (a : α) (rest : List Token)

/-- A capture: tokens into a field, or a node into a field. -/
inductive Capture where
  | toks (f : Field) (l : List Str)
  | node (f : Field) (k : Kind) (x : Node k)

/-- The texts of the matched tokens, and the captures. -/
structure Out where
  txt : List Str := []
  caps : List Capture := []

/-- One after the other. -/
def Out.append (a b : Out) : Out := ⟨a.txt ++ b.txt, a.caps ++ b.caps⟩

instance : Append Out := ⟨Out.append⟩

/-- `parser.go:12` -/
def lookahead : Nat := 50

/-- Whether an error at `rest` of a part begun at `s` is final (`parseContext.Stop`). -/
def stops (s rest : List Token) : Bool := decide (rest.length + lookahead < s.length)

/-- The loop of a repetition.  `fuel` bounds the number of iterations; a body that reads nothing ends the loop (in
participle it would run until `MaxIterations`, but no body of the grammar matches nothing). -/
def many (p : List Token → Res Out) : Nat → List Token → Res Out
  | 0, s => .ok {} s
  | n + 1, s =>
    match p s with
    | .miss => .ok {} s
    | .err r => if stops s r then .err r else .ok {} s
    | .ok o r =>
      if r.length < s.length then
        match many p n r with
        | .ok o' r' => .ok (o ++ o') r'
        | e => e
      else .ok o r

/-- A production; `p` parses the structs. -/
def run (p : (k : Kind) → List Token → Res (Node k)) : Gram → List Token → Res Out
  | .lit w, s =>
    match s with
    | t :: r => if t.txt = w then .ok ⟨[t.txt], []⟩ r else .miss
    | [] => .miss
  | .tok y, s =>
    match s with
    | t :: r => if t.sym = y then .ok ⟨[t.txt], []⟩ r else .miss
    | [] => .miss
  | .seq a b, s =>
    match run p a s with
    | .ok o r =>
      match run p b r with
      | .ok o' r' => .ok (o ++ o') r'
      | .miss => .err r
      | .err r' => .err r'
    | e => e
  | .alt a b, s =>
    match run p a s with
    | .ok o r => .ok o r
    | .miss =>
      match run p b s with
      | .err r => .err (if stops s r then r else s)
      | x => x
    | .err r =>
      if stops s r then .err r
      else
        match run p b s with
        | .ok o' r' => .ok o' r'
        | .miss => .err s
        | .err r' => .err (if stops s r' then r' else s)
  | .opt a, s =>
    match run p a s with
    | .ok o r => .ok o r
    | .miss => .ok {} s
    | .err r => if stops s r then .err r else .ok {} s
  | .star a, s => many (run p a) (s.length + 1) s
  | .plus a, s =>
    match run p a s with
    | .ok o r =>
      match many (run p a) (r.length + 1) r with
      | .ok o' r' => .ok (o ++ o') r'
      | e => e
    | .miss => .err s
    | .err r => .err (if stops s r then r else s)
  | .cap f a, s =>
    match run p a s with
    | .ok o r => .ok ⟨o.txt, [.toks f o.txt]⟩ r
    | e => e
  | .sub f k, s =>
    match p k s with
    | .ok x r => .ok ⟨[], [.node f k x]⟩ r
    | .miss => .miss
    | .err r => .err r

/-! ## Building structs from captures (`setField`) -/

namespace Out

/-- The tokens captured into a field. -/
def toks (o : Out) (f : Field) : List Str :=
  o.caps.flatMap fun c => match c with
    | .toks g l => if g = f then l else []
    | _ => []

/-- A `string` field: the tokens are concatenated. -/
def str (o : Out) (f : Field) : Str := (o.toks f).flatten

/-- A `[]string` field: the tokens are appended. -/
def strs (o : Out) (f : Field) : Strs :=
  match o.toks f with
  | [] => .nil
  | l => .mk 0 l

/-- A `bool` field: set if anything was captured. -/
def flag (o : Out) (f : Field) : Bool := !(o.toks f).isEmpty

/-- The nodes captured into a field. -/
def nodes (o : Out) (f : Field) (k : Kind) : List (Node k) :=
  o.caps.flatMap fun c => match c with
    | .node g k' x => if h : k' = k then if g = f then [h ▸ x] else [] else []
    | _ => []

/-- A pointer field. -/
def ptr (o : Out) (f : Field) {k : Kind} : Node (.ptr k) :=
  match o.nodes f k with
  | [] => .nil
  | x :: _ => .ref x

/-- The elements of a slice. -/
def items {k : Kind} : List (Node k) → Node (.items k)
  | [] => .empty
  | x :: xs => .cons (.ref x) (items xs)

/-- A slice field: the nodes are appended. -/
def slice (o : Out) (f : Field) {k : Kind} : Node (.slice k) :=
  match o.nodes f k with
  | [] => .nilSlice
  | l => .mkSlice 0 (items l)

/-- A struct field. -/
def struct (o : Out) (f : Field) {k : Kind} : Option (Node k) := (o.nodes f k).head?

end Out

/-- The meta data of structs that participle does not parse by a production: `Pos` is not set. -/
def noPos : Meta := { addr := 0 }

/-- The zero `Expr`. -/
def zeroExpr : Node .expr := .expr noPos .nil .nil .nil

/-- The zero `ParameterType`. -/
def zeroParameterType : Node .parameterType := .parameterType noPos .nil .nil

open Out in
/-- The struct with the captured fields.  `none` is an error of `Capture`; struct fields that every match of the production
captures are read with `struct`. -/
def build [FloatValue] (m : Meta) (o : Out) : (k : Kind) → Option (Node k)
  -- ast.go:89-99
  | .rootItem => some (.rootItem m (o.str .emptyLine) (o.ptr .decl) (o.ptr .func) (o.ptr .type) (o.ptr .block) (o.ptr .attr)
      (o.ptr .comment))
  -- ast.go:161-166
  | .parameterType => some (.parameterType m (o.ptr .ident) (o.ptr .func))
  -- ast.go:205-210
  | .funcSignature => do return .funcSignature m (o.slice .parameters) (← o.struct .ret)
  -- ident.go:7-11
  | .ident => some (.ident m (o.strs .parts))
  -- comment.go:6-11
  | .comment => some (.comment m (o.strs .singleLine) (o.str .multiline))
  -- attribute.go:8-13
  | .attr => some (.attr m (o.str .key) (o.ptr .value))
  -- block.go:8-14
  | .block => some (.block m (o.str .name) (o.strs .labels) (o.slice .body))
  -- block.go:68-75
  | .blockItem => some (.blockItem m (o.str .emptyLine) (o.ptr .block) (o.ptr .attr) (o.ptr .comment))
  -- decl.go:11-18
  | .decl => some (.decl m (o.str .declType) (o.str .label) (o.ptr .type) (o.ptr .value))
  -- lambda.go:8-14
  | .lambda => do return .lambda m (o.ptr .comment) (o.slice .parameters) (← o.struct .expr)
  -- lambda.go:62-67
  | .lambdaParameter => some (.lambdaParameter m (o.str .label) (o.ptr .type))
  -- func.go:8-15
  | .func => some (.func m (o.str .label) (o.slice .parameters) (o.slice .ret) (o.slice .body))
  -- func.go:87-92
  | .funcParameter => some (.funcParameter m (o.str .label) (o.ptr .type))
  -- func.go:124-131
  | .funcStatement => some (.funcStatement m (o.str .emptyLine) (o.ptr .comment) (o.ptr .decl) (o.ptr .expr))
  -- func.go:180-187
  | .funcDecl => some (.funcDecl m (o.str .declType) (o.str .label) (o.ptr .type) (o.ptr .value))
  -- type.go:10-16
  | .type => some (.type m (o.str .label) (o.ptr .enum) (o.ptr .object))
  -- type.go:64-68
  | .typeEnum => some (.typeEnum m (o.slice .items))
  -- type.go:109-116; `Value` stays zero if it is not captured
  | .typeEnumItem => some (.typeEnumItem m (o.str .emptyLine) (o.ptr .comment) (o.str .label) ((o.struct .value).getD zeroExpr))
  -- type.go:155-159
  | .typeObject => some (.typeObject m (o.slice .items))
  -- type.go:202-209; `Type` stays zero if it is not captured
  | .typeObjectItem => some (.typeObjectItem m (o.str .emptyLine) (o.ptr .comment) (o.str .label)
      ((o.struct .type).getD zeroParameterType))
  -- value.go:20-30; `ValueBool.Capture` (value.go:125-129), `ValueNumber.Capture` (value.go:164-178)
  | .value => do
    let b : Node (.ptr .valueBool) := match o.toks .bool with
      | [] => .nil
      | t :: _ => .ref (.valueBool noPos (t = c!"true"))
    let n : Node (.ptr .valueNumber) ← match o.toks .number with
      | [] => pure .nil
      | t :: _ => do
        let (f, src) ← captureNumber t
        pure (.ref (.valueNumber noPos (some (0, f)) src))
    return .value m (o.flag .null) b n (o.ptr .str) (o.ptr .heredoc) (o.ptr .list) (o.ptr .map)
  -- value.go:212-217; `HeredocDelimiter.Capture` (value.go:259-272)
  | .heredoc => do
    let (tabs, d) ← captureDelimiter (o.str .delimiter)
    return .heredoc m tabs d (o.slice .fragments)
  -- value.go:293-299
  | .heredocFragment => some (.heredocFragment m (o.ptr .expr) (o.ptr .directive) (o.str .text))
  -- value.go:341-345
  | .valueString => some (.valueString m (o.slice .fragment))
  -- value.go:380-388
  | .stringFragment => some (.stringFragment m (o.str .escaped) (o.str .unicode) (o.ptr .expr) (o.ptr .directive) (o.str .text))
  -- value.go:436-440
  | .valueList => some (.valueList m (o.slice .items))
  -- value.go:478-484
  | .listItem => some (.listItem m (o.str .emptyLine) (o.ptr .value) (o.ptr .comment))
  -- value.go:526-530
  | .valueMap => some (.valueMap m (o.slice .items))
  -- value.go:570-577
  | .mapItem => some (.mapItem m (o.str .emptyLine) (o.ptr .key) (o.ptr .value) (o.ptr .comment))
  -- value.go:623-628
  | .mapKey => some (.mapKey m (o.ptr .ident) (o.ptr .str))
  -- expr.go:8-14
  | .expr => some (.expr m (o.ptr .left) (o.ptr .ifE) (o.ptr .switch))
  -- expr.go:58-64
  | .exprIf => do return .exprIf m (← o.struct .condition) (o.ptr .left) (o.ptr .right)
  -- expr.go:107-112
  | .exprSwitch => do return .exprSwitch m (← o.struct .selector) (o.slice .cases)
  -- expr.go:154-160
  | .exprCase => some (.exprCase m (o.slice .conditions) (o.flag .dflt) (o.ptr .expr))
  -- expr.go:212-219
  | .conditional => do
    return .conditional m (← o.struct .condition) (o.flag .conditionOp) (o.ptr .trueExpr) (o.ptr .falseExpr)
  -- expr.go: 268-274, 313-319, 358-364, 403-409, 448-454, 493-499, 538-544, 583-589, 628-634, 673-679
  | .bin l => do return .bin l m (← o.struct .left) (o.str .op) (o.ptr .right)
  -- expr.go:718-723
  | .unary => do return .unary m (o.str .op) (← o.struct .right)
  -- expr.go:749-755
  | .postfixE => do return .postfixE m (← o.struct .value) (o.ptr .index) (o.ptr .post)
  -- expr.go:797-805
  | .primary => some (.primary m (o.ptr .subExpression) (o.ptr .value) (o.ptr .ident) (o.slice .monads) (o.ptr .post))
  -- expr.go:881-885
  | .invocation => some (.invocation m (o.slice .values))
  | .valueBool | .valueNumber | .ptr _ | .slice _ | .items _ => none

/-- The position of the next token; `eof` is the position of the end of the text. -/
def posOf (eof : Position) : List Token → Position
  | [] => eof
  | t :: _ => t.pos

/-- A struct, given the parser of the structs inside: match the production, then set the fields (`strct.Parse`). -/
def structStep [FloatValue] (eof : Position) (p : (k : Kind) → List Token → Res (Node k)) (k : Kind) (s : List Token) :
    Res (Node k) :=
  match run p (Gram.of k) s with
  | .miss => .miss
  | .err r => .err r
  | .ok o r =>
    match build { addr := 0, pos := posOf eof s } o k with
    | some x => .ok x r
    | none => .err r

/-- A struct; `fuel` bounds the depth of the recursion. -/
def parseFuel [FloatValue] (eof : Position) : Nat → (k : Kind) → List Token → Res (Node k)
  | 0, _, s => .err s
  | n + 1, k, s => structStep eof (parseFuel eof n) k s

/-- A depth of recursion that suffices for `n` tokens (`parse_fuel`). -/
def enough (n : Nat) : Nat := 32 * (n + 1)

/-- A struct. -/
def parseKind [FloatValue] (eof : Position) (k : Kind) (s : List Token) : Res (Node k) := parseFuel eof (enough s.length) k s

/-- `AST` (`ast.go:42-44`): all tokens must be read. -/
def parseTokens [FloatValue] (eof : Position) (s : List Token) : Option (Node (.slice .rootItem)) :=
  match run (fun k s => parseKind eof k s) (.star (.sub .items .rootItem)) s with
  | .ok o [] => some (o.slice .items)
  | _ => none

/-- What a call returns. -/
inductive Outcome (α : Type) where
  | ok (a : α)
  | error
  | panic

/-- `parser().ParseString` (`parser.go:37-38`): lexing and parsing. -/
def parseTree [FloatValue] (s : Str) : Option (Node (.slice .rootItem)) := do
  parseTokens (Position.start.advance s) (← lex s)

/-- `parser.go:35-44` -/
def parseString [FloatValue] (s : Str) : Outcome AST :=
  match parseTree s with
  | none => .error
  | some items =>
    match AST.updateParentRefs ⟨0, (items.place 1).1⟩ with
    | none => .panic
    | some t => .ok t

end Verif.Etx
