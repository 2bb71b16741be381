import Verif.Etx.Lexer

/-!
# The grammar

The `parser:"…"` tags of the structs of `pkg/etx`, transcribed one by one.  participle concatenates the tags of the
fields of a struct to one production.
-/

namespace Verif.Etx

/-- The names of the fields that tokens and nodes are captured into. -/
inductive Field where
  | emptyLine | decl | func | type | block | attr | comment | ident | parameters | ret | parts
  | singleLine | multiline | key | value | name | labels | body | declType | label | expr | enum | object | items
  | null | bool | number | str | heredoc | list | map | delimiter | fragments | directive | text | fragment
  | escaped | unicode | left | ifE | switch | condition | right | selector | cases | conditions | dflt
  | conditionOp | trueExpr | falseExpr | op | index | post | subExpression | monads | values
  deriving DecidableEq, Repr

/-- Productions. -/
inductive Gram where
  /-- `'s'`: a token with this text, whatever its type. -/
  | lit (s : Str)
  /-- `Name`: a token of this type. -/
  | tok (y : Sym)
  /-- `a b` -/
  | seq (a b : Gram)
  /-- `a | b` -/
  | alt (a b : Gram)
  /-- `[ a ]`, `a?` -/
  | opt (a : Gram)
  /-- `a*` -/
  | star (a : Gram)
  /-- `a+` -/
  | plus (a : Gram)
  /-- `@a`, where `a` consists of tokens. -/
  | cap (f : Field) (a : Gram)
  /-- `@@` for a field of type `k`, `*k` or `[]*k`. -/
  | sub (f : Field) (k : Kind)
  deriving DecidableEq, Repr

namespace Gram

/-- `a b c …` -/
def sq : List Gram → Gram
  | [] => opt (lit [])
  | [g] => g
  | g :: gs => seq g (sq gs)

/-- `a | b | c …` -/
def al : List Gram → Gram
  | [] => lit []
  | [g] => g
  | g :: gs => alt g (al gs)

/-- `LF?` -/
def lf? : Gram := opt (tok .lf)

/-- `[ LF+ ]` -/
def lfs : Gram := opt (plus (tok .lf))

/-- `@@ (',' @@)*` -/
def commaSep (f : Field) (k : Kind) : Gram := seq (sub f k) (star (seq (lit c!",") (sub f k)))

/-- The operators of a binary expression (`expr.go`: 272, 317, 362, 407, 452, 497, 542, 587, 632, 677). -/
def binOp : Level → List Sym
  | .logicalOr => [.opLogicalOr]
  | .logicalAnd => [.opLogicalAnd]
  | .bitwiseOr => [.opBitwiseOr]
  | .bitwiseXor => [.opBitwiseXOr]
  | .bitwiseAnd => [.opBitwiseAnd]
  | .equality => [.opNotEqual, .opEqual]
  | .relational => [.opMore, .opMoreOrEqual, .opLess, .opLessOrEqual]
  | .shift => [.opBitwiseShiftLeft, .opBitwiseShiftRight]
  | .additive => [.opMinus, .opPlus]
  | .multiplicative => [.opDivision, .opMultiplication, .opModulo]

/-- The prefix operators (`expr.go:721`). -/
def unaryOp : List Sym := [.opBitwiseNot, .opLogicalNot, .opMinus, .opPlus]

/-- The production of each struct.  The kinds that are not parsed by a production of their own have one that never
matches. -/
def of : Kind → Gram
  -- ast.go:92-98
  | .rootItem => al [plus (cap .emptyLine (tok .lf)), sq [sub .decl .decl, lf?], sq [sub .func .func, lf?],
      sq [sub .type .type, lf?], sq [sub .block .block, lf?], sq [sub .attr .attr, lf?], sub .comment .comment]
  -- ast.go:164-165
  | .parameterType => al [sub .ident .ident, sub .func .funcSignature]
  -- ast.go:208-209
  | .funcSignature => sq [lit c!"(", opt (commaSep .parameters .parameterType), lit c!")", tok .opLambdaDef,
      sub .ret .parameterType]
  -- ident.go:10
  | .ident => sq [cap .parts (tok .ident), opt (star (seq (lit c!".") (cap .parts (tok .ident))))]
  -- comment.go:9-10
  | .comment => al [plus (seq (cap .singleLine (tok .singleLineComment)) lf?),
      cap .multiline (seq (tok .multilineComment) lf?)]
  -- attribute.go:11-12
  | .attr => sq [cap .key (tok .ident), opt (seq (lit c!"=") (sub .value .expr))]
  -- block.go:11-13
  | .block => sq [cap .name (tok .ident),
      star (alt (sq [tok .string, cap .labels (tok .char), tok .stringEnd]) (cap .labels (tok .ident))),
      lit c!"{", lf?, star (sub .body .blockItem), lit c!"}"]
  -- block.go:71-74
  | .blockItem => al [plus (cap .emptyLine (tok .lf)), sq [sub .block .block, lf?], sq [sub .attr .attr, lf?],
      sub .comment .comment]
  -- decl.go:14-17
  | .decl => sq [cap .declType (al [lit c!"input", lit c!"output", lit c!"const", lit c!"val"]), cap .label (tok .ident),
      opt (seq (lit c!":") (sub .type .parameterType)), opt (seq (lit c!"=") (sub .value .expr))]
  -- lambda.go:11-13
  | .lambda => sq [opt (sub .comment .comment), lit c!"(", opt (commaSep .parameters .lambdaParameter), lit c!")",
      tok .opLambda, sub .expr .expr]
  -- lambda.go:65-66
  | .lambdaParameter => sq [cap .label (tok .ident), opt (seq (lit c!":") (sub .type .parameterType))]
  -- func.go:11-14
  | .func => sq [lit c!"def", cap .label (tok .ident), lit c!"(", opt (commaSep .parameters .funcParameter), lit c!")",
      opt (alt (sq [lit c!"(", opt (commaSep .ret .parameterType), lit c!")"]) (sub .ret .parameterType)),
      lfs, lit c!"{", lfs, star (sub .body .funcStatement), lit c!"}"]
  -- func.go:90-91
  | .funcParameter => sq [cap .label (tok .ident), opt (seq (lit c!":") (sub .type .parameterType))]
  -- func.go:127-130
  | .funcStatement => al [plus (cap .emptyLine (tok .lf)), sub .comment .comment, sq [sub .decl .funcDecl, lf?],
      sq [sub .expr .expr, lf?]]
  -- func.go:183-186
  | .funcDecl => sq [cap .declType (al [lit c!"const", lit c!"val"]), cap .label (tok .ident),
      opt (seq (lit c!":") (sub .type .parameterType)), opt (seq (lit c!"=") (sub .value .expr))]
  -- type.go:13-15
  | .type => sq [lit c!"type", cap .label (tok .ident),
      alt (sq [lit c!"enum", lit c!"{", lfs, sub .enum .typeEnum])
        (sq [lit c!"object", lit c!"{", lfs, sub .object .typeObject]),
      lit c!"}"]
  -- type.go:67
  | .typeEnum => star (sub .items .typeEnumItem)
  -- type.go:112-115
  | .typeEnumItem => al [plus (cap .emptyLine (tok .lf)), sub .comment .comment,
      sq [cap .label (tok .ident), lit c!":", sub .value .expr, lf?]]
  -- type.go:158
  | .typeObject => star (sub .items .typeObjectItem)
  -- type.go:205-208
  | .typeObjectItem => al [plus (cap .emptyLine (tok .lf)), sub .comment .comment,
      sq [cap .label (tok .ident), lit c!":", sub .type .parameterType, lf?]]
  -- value.go:23-29
  | .value => al [cap .null (lit c!"null"), cap .bool (alt (lit c!"true") (lit c!"false")), cap .number (tok .number),
      sub .str .valueString, sub .heredoc .heredoc, sub .list .valueList, sub .map .valueMap]
  -- value.go:215-216
  | .heredoc => sq [cap .delimiter (tok .heredoc), star (sub .fragments .heredocFragment), tok .heredocEnd]
  -- value.go:296-298
  | .heredocFragment => al [sq [tok .expr, sub .expr .expr, tok .exprEnd], sq [tok .directive, sub .directive .expr, tok .exprEnd],
      plus (cap .text (al [tok .body, tok .eol, tok .nonExpr]))]
  -- value.go:344
  | .valueString => sq [tok .string, star (sub .fragment .stringFragment), tok .stringEnd]
  -- value.go:383-387
  | .stringFragment => al [cap .escaped (tok .escaped),
      sq [tok .unicode, cap .unicode (alt (tok .unicodeLong) (tok .unicodeShort))],
      sq [tok .expr, sub .expr .expr, tok .exprEnd], sq [tok .directive, sub .directive .expr, tok .exprEnd],
      cap .text (al [tok .char, tok .quote, tok .nonExpr])]
  -- value.go:439
  | .valueList => sq [lit c!"[", lfs, star (sub .items .listItem), lit c!"]"]
  -- value.go:481-483
  | .listItem => al [plus (cap .emptyLine (tok .lf)), sq [sub .value .expr, opt (lit c!","), lf?], sub .comment .comment]
  -- value.go:529
  | .valueMap => sq [lit c!"{", lfs, star (sub .items .mapItem), lit c!"}"]
  -- value.go:573-576
  | .mapItem => al [plus (cap .emptyLine (tok .lf)),
      sq [sub .key .mapKey, lit c!"=", sub .value .expr, opt (lit c!","), lf?], sub .comment .comment]
  -- value.go:626-627
  | .mapKey => al [sub .ident .ident, sub .str .valueString]
  -- expr.go:11-13
  | .expr => al [sub .left .conditional, sub .ifE .exprIf, sub .switch .exprSwitch]
  -- expr.go:61-63
  | .exprIf => sq [tok .if_, sub .condition (.bin .logicalOr), lfs, lit c!"{", lfs, opt (sub .left .expr), lfs, lit c!"}", lfs,
      opt (sq [tok .else_, lit c!"{", lfs, sub .right .expr, lfs, lit c!"}"])]
  -- expr.go:110-111
  | .exprSwitch => sq [tok .switch_, sub .selector (.bin .logicalOr), lfs, lit c!"{", lfs, star (seq (sub .cases .exprCase) lfs),
      lit c!"}"]
  -- expr.go:157-159
  | .exprCase => sq [alt (sq [tok .case_, sub .conditions (.bin .logicalOr),
        star (seq (lit c!",") (sub .conditions (.bin .logicalOr))), lit c!":"])
        (sq [cap .dflt (lit c!"default"), lit c!":"]),
      lfs, lit c!"{", lfs, sub .expr .expr, lfs, lit c!"}"]
  -- expr.go:215-218
  | .conditional => sq [sub .condition (.bin .logicalOr),
      opt (sq [cap .conditionOp (lit c!"?"), sub .trueExpr .expr, lit c!":", sub .falseExpr .expr])]
  -- expr.go: 271-273, 316-318, 361-363, 406-408, 451-453, 496-498, 541-543, 586-588, 631-633, 676-678
  | .bin l => sq [sub .left l.operand, opt (sq [cap .op (al ((binOp l).map tok)), sub .right (.bin l)])]
  -- expr.go:721-722
  | .unary => sq [opt (cap .op (al (unaryOp.map tok))), sub .right .postfixE]
  -- expr.go:752-754
  | .postfixE => sq [sub .value .primary, opt (sq [lit c!"[", sub .index .expr, lit c!"]"]),
      opt (seq (lit c!".") (sub .post .postfixE))]
  -- expr.go:800-804
  | .primary => al [sq [lit c!"(", sub .subExpression .expr, lit c!")"], sub .value .value,
      sq [sub .ident .ident, opt (plus (sq [lit c!"(", sub .monads .invocation, lit c!")"])),
        opt (seq (lit c!".") (sub .post .postfixE))]]
  -- expr.go:884
  | .invocation => opt (commaSep .values .expr)
  | .valueBool | .valueNumber | .ptr _ | .slice _ | .items _ => lit []

end Gram

end Verif.Etx
