import Verif.Etx.Shape

/-!
# Writing a tree as tokens

A reference printer, independent of the formatter and of the parser: `Node.toks` writes a tree as the list of tokens that a
reader of the language would write, with all the brackets, commas and line feeds.  It is the specification that the parser is
compared with.

`Node.canon` says which trees can be written: texts are those of tokens of the right type, operators belong to their
level, and neighbours do not merge (as two successive blank lines do).
-/

namespace Verif.Etx

/-- A token without a position. -/
def tk (y : Sym) (w : Str) : Token := ⟨y, w, {}⟩

/-- A line feed. -/
def lfTok : Token := tk .lf c!"\n"

/-- The operators. -/
def opTable : List (Str × Sym) := [
  (c!"||", .opLogicalOr), (c!"&&", .opLogicalAnd), (c!"|", .opBitwiseOr), (c!"^", .opBitwiseXOr), (c!"&", .opBitwiseAnd),
  (c!"!=", .opNotEqual), (c!"==", .opEqual), (c!">", .opMore), (c!">=", .opMoreOrEqual), (c!"<", .opLess),
  (c!"<=", .opLessOrEqual), (c!"<<", .opBitwiseShiftLeft), (c!">>", .opBitwiseShiftRight), (c!"-", .opMinus),
  (c!"+", .opPlus), (c!"/", .opDivision), (c!"*", .opMultiplication), (c!"%", .opModulo), (c!"~", .opBitwiseNot),
  (c!"!", .opLogicalNot)]

/-- The type of an operator. -/
def symOf (w : Str) : Sym := (opTable.lookup w).getD .char

/-- The documented precedence of the binary operators, loosest first (`README.md`, operator precedence). -/
def levelOps : Level → List Str
  | .logicalOr => [c!"||"]
  | .logicalAnd => [c!"&&"]
  | .bitwiseOr => [c!"|"]
  | .bitwiseXor => [c!"^"]
  | .bitwiseAnd => [c!"&"]
  | .equality => [c!"==", c!"!="]
  | .relational => [c!"<", c!"<=", c!">", c!">="]
  | .shift => [c!"<<", c!">>"]
  | .additive => [c!"+", c!"-"]
  | .multiplicative => [c!"*", c!"/", c!"%"]

/-- The prefix operators. -/
def prefixOps : List Str := [c!"!", c!"~", c!"-", c!"+"]

/-- Lists with a separator. -/
def sepBy (sep : List Token) : List (List Token) → List Token
  | [] => []
  | [x] => x
  | x :: xs => x ++ sep ++ sepBy sep xs

/-- A comma. -/
def comma : Token := tk .opComma c!","

/-- `( … )` -/
def parens (l : List Token) : List Token := tk .opLParen c!"(" :: (l ++ [tk .opRParen c!")"])

/-- `{ … }` -/
def braces (l : List Token) : List Token := tk .blockStart c!"{" :: (l ++ [tk .blockEnd c!"}"])

/-- The line feeds of a blank line. -/
def blankToks (e : Str) : List Token := e.map fun c => tk .lf [c]

/-- The type of the token of a text fragment of a string. -/
def textSym (w : Str) : Sym :=
  if w = c!"\"" ∨ w = c!"'" then .quote else if w = c!"$${" ∨ w = c!"%%{" then .nonExpr else .char

/-- The tokens of the text of a heredoc. -/
def bodyToks : Str → List Token
  | [] => []
  | '\n' :: r => tk .eol c!"\n" :: bodyToks r
  | '$' :: '$' :: '{' :: r => tk .nonExpr c!"$${" :: bodyToks r
  | '%' :: '%' :: '{' :: r => tk .nonExpr c!"%%{" :: bodyToks r
  | c :: r =>
    match bodyToks r with
    | [] => [tk .body [c]]
    | t :: ts => if t.sym = .body then tk .body (c :: t.txt) :: ts else tk .body [c] :: t :: ts

/-- The comment, and the line feed captured together with it. -/
def multilineToks (w : Str) : List Token :=
  if w.getLast? = some '\n' then [tk .multilineComment w.dropLast, lfTok] else [tk .multilineComment w]

namespace Node

/-- One return type, which is not a function. -/
def bareRet : {k : Kind} → Node k → Bool
  | _, .mkSlice _ (.cons (.ref (.parameterType _ (.ref _) _)) .empty) => true
  | _, _ => false

mutual

/-- The tokens of a tree. -/
def toks : {k : Kind} → Node k → List Token
  | _, .rootItem _ emptyLine decl' func' type' block' attr' comment' =>
    if emptyLine ≠ [] then blankToks emptyLine
    else if comment'.isRef then comment'.toks
    else (if decl'.isRef then decl'.toks else if func'.isRef then func'.toks else if type'.isRef then type'.toks
      else if block'.isRef then block'.toks else attr'.toks) ++ [lfTok]
  | _, .parameterType _ ident' func' => if ident'.isRef then ident'.toks else func'.toks
  | _, .funcSignature _ parameters ret => parens (sepBy [comma] parameters.tokss) ++ tk .opLambdaDef c!"->" :: ret.toks
  | _, .ident _ parts => sepBy [tk .dot c!"."] (parts.list.map fun w => [tk .ident w])
  | _, .comment _ singleLine multiline =>
    if multiline ≠ [] then multilineToks multiline
    else singleLine.list.flatMap fun w => [tk .singleLineComment w, lfTok]
  | _, .attr _ key value' => tk .ident key :: if value'.isRef then tk .opAssign c!"=" :: value'.toks else []
  | _, .block _ name labels body =>
    tk .ident name :: ((labels.list.flatMap fun w => [tk .string c!"\"", tk .char w, tk .stringEnd c!"\""]) ++
      braces (if body.isNilSlice then [] else lfTok :: body.tokss.flatten))
  | _, .blockItem _ emptyLine block' attr' comment' =>
    if emptyLine ≠ [] then blankToks emptyLine
    else if comment'.isRef then comment'.toks
    else (if block'.isRef then block'.toks else attr'.toks) ++ [lfTok]
  | _, .decl _ declType label type' value' =>
    tk .ident declType :: tk .ident label :: ((if type'.isRef then tk .opColon c!":" :: type'.toks else []) ++
      if value'.isRef then tk .opAssign c!"=" :: value'.toks else [])
  | _, .lambda _ _ _ _ => []
  | _, .lambdaParameter _ _ _ => []
  | _, .func _ label parameters ret body =>
    tk .ident c!"def" :: tk .ident label :: (parens (sepBy [comma] parameters.tokss) ++
      (if ret.isNilSlice then [] else if ret.bareRet then ret.tokss.flatten else parens (sepBy [comma] ret.tokss)) ++
      braces (if body.isNilSlice then [] else lfTok :: body.tokss.flatten))
  | _, .funcParameter _ label type' => tk .ident label :: if type'.isRef then tk .opColon c!":" :: type'.toks else []
  | _, .funcStatement _ emptyLine comment' decl' expr' =>
    if emptyLine ≠ [] then blankToks emptyLine
    else if comment'.isRef then comment'.toks
    else (if decl'.isRef then decl'.toks else expr'.toks) ++ [lfTok]
  | _, .funcDecl _ declType label type' value' =>
    tk .ident declType :: tk .ident label :: ((if type'.isRef then tk .opColon c!":" :: type'.toks else []) ++
      if value'.isRef then tk .opAssign c!"=" :: value'.toks else [])
  | _, .type _ label enum object =>
    tk .ident c!"type" :: tk .ident label ::
      (if enum.isRef then tk .ident c!"enum" :: braces (lfTok :: enum.toks)
      else tk .ident c!"object" :: braces (lfTok :: object.toks))
  | _, .typeEnum _ items' => items'.tokss.flatten
  | _, .typeEnumItem _ emptyLine comment' label value' =>
    if emptyLine ≠ [] then blankToks emptyLine
    else if comment'.isRef then comment'.toks
    else tk .ident label :: tk .opColon c!":" :: (value'.toks ++ [lfTok])
  | _, .typeObject _ items' => items'.tokss.flatten
  | _, .typeObjectItem _ emptyLine comment' label type' =>
    if emptyLine ≠ [] then blankToks emptyLine
    else if comment'.isRef then comment'.toks
    else tk .ident label :: tk .opColon c!":" :: (type'.toks ++ [lfTok])
  | _, .value _ null bool number str heredoc' list map' =>
    if null then [tk .ident c!"null"]
    else if bool.isRef then bool.toks
    else if number.isRef then number.toks
    else if str.isRef then str.toks
    else if heredoc'.isRef then heredoc'.toks
    else if list.isRef then list.toks
    else map'.toks
  | _, .valueBool _ value' => [tk .ident (if value' then c!"true" else c!"false")]
  | _, .valueNumber _ _ source => [tk .number source]
  | _, .heredoc _ leadingTabs delimiter fragments =>
    tk .heredoc (c!"<<" ++ (if leadingTabs then c!"-" else []) ++ delimiter ++ c!"\n") ::
      (fragments.tokss.flatten ++ [tk .heredocEnd delimiter])
  | _, .heredocFragment _ expr' directive text =>
    if expr'.isRef then tk .expr c!"${" :: (expr'.toks ++ [tk .exprEnd c!"}"])
    else if directive.isRef then tk .directive c!"%{" :: (directive.toks ++ [tk .exprEnd c!"}"])
    else bodyToks text
  | _, .valueString _ fragment => tk .string c!"\"" :: (fragment.tokss.flatten ++ [tk .stringEnd c!"\""])
  | _, .stringFragment _ escaped unicode expr' directive text =>
    if escaped ≠ [] then [tk .escaped escaped]
    else if unicode ≠ [] then [tk .unicode c!"\\u", tk (if unicode.length = 8 then .unicodeLong else .unicodeShort) unicode]
    else if expr'.isRef then tk .expr c!"${" :: (expr'.toks ++ [tk .exprEnd c!"}"])
    else if directive.isRef then tk .directive c!"%{" :: (directive.toks ++ [tk .exprEnd c!"}"])
    else [tk (textSym text) text]
  | _, .valueList _ items' =>
    tk .opLBracket c!"[" :: ((if items'.isNilSlice then [] else lfTok :: items'.tokss.flatten) ++ [tk .opRBracket c!"]"])
  | _, .listItem _ emptyLine value' comment' =>
    if emptyLine ≠ [] then blankToks emptyLine
    else if comment'.isRef then comment'.toks
    else value'.toks ++ [comma, lfTok]
  | _, .valueMap _ items' => braces (if items'.isNilSlice then [] else lfTok :: items'.tokss.flatten)
  | _, .mapItem _ emptyLine key value' comment' =>
    if emptyLine ≠ [] then blankToks emptyLine
    else if comment'.isRef then comment'.toks
    else key.toks ++ tk .opAssign c!"=" :: (value'.toks ++ [comma, lfTok])
  | _, .mapKey _ ident' str => if ident'.isRef then ident'.toks else str.toks
  | _, .expr _ left ifE switch => if left.isRef then left.toks else if ifE.isRef then ifE.toks else switch.toks
  | _, .exprIf _ condition left right =>
    tk .if_ c!"if" :: (condition.toks ++ braces (if left.isRef then lfTok :: (left.toks ++ [lfTok]) else []) ++
      if right.isRef then tk .else_ c!"else" :: braces (lfTok :: (right.toks ++ [lfTok])) else [])
  | _, .exprSwitch _ selector cases =>
    tk .switch_ c!"switch" :: (selector.toks ++ braces (if cases.isNilSlice then [] else lfTok :: (cases.tokss.map (· ++ [lfTok])).flatten))
  | _, .exprCase _ conditions dflt expr' =>
    (if dflt then [tk .ident c!"default"] else tk .case_ c!"case" :: sepBy [comma] conditions.tokss) ++
      tk .opColon c!":" :: braces (lfTok :: (expr'.toks ++ [lfTok]))
  | _, .conditional _ condition conditionOp trueExpr falseExpr =>
    condition.toks ++ if conditionOp then
      tk .opCondition c!"?" :: (trueExpr.toks ++ tk .opColon c!":" :: falseExpr.toks) else []
  | _, .bin _ _ left op right => left.toks ++ if right.isRef then tk (symOf op) op :: right.toks else []
  | _, .unary _ op right => if op = [] then right.toks else tk (symOf op) op :: right.toks
  | _, .postfixE _ value' index post =>
    value'.toks ++ (if index.isRef then tk .opLBracket c!"[" :: (index.toks ++ [tk .opRBracket c!"]"]) else []) ++
      if post.isRef then tk .dot c!"." :: post.toks else []
  | _, .primary _ subExpression value' ident' monads post =>
    if subExpression.isRef then parens subExpression.toks
    else if value'.isRef then value'.toks
    else ident'.toks ++ (monads.tokss.map parens).flatten ++ if post.isRef then tk .dot c!"." :: post.toks else []
  | _, .invocation _ values => sepBy [comma] values.tokss
  | _, .nil => []
  | _, .ref x => x.toks
  | _, _ => []

/-- The tokens of the elements of a slice. -/
def tokss : {k : Kind} → Node k → List (List Token)
  | _, .nilSlice => []
  | _, .mkSlice _ xs => xs.tokss
  | _, .empty => []
  | _, .cons x xs => x.toks :: xs.tokss
  | _, _ => []

end

/-! ## What may follow -/

/-- The tree ends with an `if` without `else`; the parser reads the line feeds after it. -/
def dangling : {k : Kind} → Node k → Bool
  | _, .attr _ _ value' => value'.dangling
  | _, .decl _ _ _ _ value' => value'.dangling
  | _, .funcDecl _ _ _ _ value' => value'.dangling
  | _, .expr _ left ifE _ => left.dangling || ifE.dangling
  | _, .exprIf _ _ _ right => !right.isRef
  | _, .conditional _ _ _ _ falseExpr => falseExpr.dangling
  | _, .ref x => x.dangling
  | _, _ => false

end Node

/-- Without the line feeds in front. -/
def skipLF (r : List Token) : List Token := r.dropWhile (fun t => t.sym = .lf)

/-- The first token, if any, is not one of these. -/
def headNot (p : Token → Bool) : List Token → Bool
  | [] => true
  | t :: _ => !p t

/-- No further part of an identifier follows. -/
def stopIdent : List Token → Bool
  | t :: u :: _ => !(t.txt = c!"." && u.sym = .ident)
  | _ => true

/-- The tokens that continue a postfix expression. -/
def badPost (t : Token) : Bool := t.txt = c!"." || t.txt = c!"(" || t.txt = c!"["

/-- This level and those that bind tighter. -/
def tighter : Level → List Level
  | .logicalOr => [.logicalOr, .logicalAnd, .bitwiseOr, .bitwiseXor, .bitwiseAnd, .equality, .relational, .shift, .additive,
      .multiplicative]
  | .logicalAnd => [.logicalAnd, .bitwiseOr, .bitwiseXor, .bitwiseAnd, .equality, .relational, .shift, .additive,
      .multiplicative]
  | .bitwiseOr => [.bitwiseOr, .bitwiseXor, .bitwiseAnd, .equality, .relational, .shift, .additive, .multiplicative]
  | .bitwiseXor => [.bitwiseXor, .bitwiseAnd, .equality, .relational, .shift, .additive, .multiplicative]
  | .bitwiseAnd => [.bitwiseAnd, .equality, .relational, .shift, .additive, .multiplicative]
  | .equality => [.equality, .relational, .shift, .additive, .multiplicative]
  | .relational => [.relational, .shift, .additive, .multiplicative]
  | .shift => [.shift, .additive, .multiplicative]
  | .additive => [.additive, .multiplicative]
  | .multiplicative => [.multiplicative]

/-- The tokens that continue an operand of the level. -/
def badBin (l : Level) (t : Token) : Bool := badPost t || ((tighter l).flatMap Gram.binOp).contains t.sym

/-- The tokens that continue an expression. -/
def badExpr (t : Token) : Bool := badBin .logicalOr t || t.txt = c!"?"

namespace Node

/-- `x` can be read if `r` follows: `r` does not continue it. -/
def follow : {k : Kind} → Node k → List Token → Bool
  | _, .rootItem _ emptyLine decl' _ _ _ attr' comment', r =>
    if emptyLine ≠ [] then headNot (·.sym = .lf) r
    else if comment'.isRef then comment'.follow r
    else !(decl'.dangling || attr'.dangling) || headNot (fun t => t.sym = .lf || t.sym = .else_) r
  | _, .parameterType _ _ _, r => stopIdent r
  | _, .funcSignature _ _ _, r => stopIdent r
  | _, .ident _ _, r => stopIdent r
  | _, .comment _ _ multiline, r =>
    if multiline ≠ [] then multiline.getLast? = some '\n' || headNot (·.sym = .lf) r
    else headNot (·.sym = .singleLineComment) r
  | _, .attr _ _ value', r =>
    headNot (fun t => badExpr t || t.txt = c!"=") r && (!value'.dangling || headNot (·.sym = .else_) (skipLF r))
  | _, .blockItem _ emptyLine _ attr' comment', r =>
    if emptyLine ≠ [] then headNot (·.sym = .lf) r
    else if comment'.isRef then comment'.follow r
    else !attr'.dangling || headNot (fun t => t.sym = .lf || t.sym = .else_) r
  | _, .decl _ _ _ _ value', r =>
    headNot (fun t => badExpr t || t.txt = c!"=" || t.txt = c!":") r &&
      (!value'.dangling || headNot (·.sym = .else_) (skipLF r))
  | _, .funcParameter _ _ _, r => stopIdent r && headNot (·.txt = c!":") r
  | _, .funcStatement _ emptyLine comment' decl' expr', r =>
    if emptyLine ≠ [] then headNot (·.sym = .lf) r
    else if comment'.isRef then comment'.follow r
    else !(decl'.dangling || expr'.dangling) || headNot (fun t => t.sym = .lf || t.sym = .else_) r
  | _, .funcDecl _ _ _ _ value', r =>
    headNot (fun t => badExpr t || t.txt = c!"=" || t.txt = c!":") r &&
      (!value'.dangling || headNot (·.sym = .else_) (skipLF r))
  | _, .typeEnum _ _, r => r.head? = some (tk .blockEnd c!"}")
  | _, .typeEnumItem _ emptyLine comment' _ value', r =>
    if emptyLine ≠ [] then headNot (·.sym = .lf) r
    else if comment'.isRef then comment'.follow r
    else !value'.dangling || headNot (fun t => t.sym = .lf || t.sym = .else_) r
  | _, .typeObject _ _, r => r.head? = some (tk .blockEnd c!"}")
  | _, .typeObjectItem _ emptyLine comment' _ _, r =>
    if emptyLine ≠ [] then headNot (·.sym = .lf) r
    else !comment'.isRef || comment'.follow r
  | _, .heredocFragment _ _ _ text, r =>
    text = [] || headNot (fun t => t.sym = .body || t.sym = .eol || t.sym = .nonExpr) r
  | _, .listItem _ emptyLine _ comment', r =>
    if emptyLine ≠ [] then headNot (·.sym = .lf) r
    else !comment'.isRef || comment'.follow r
  | _, .mapItem _ emptyLine _ _ comment', r =>
    if emptyLine ≠ [] then headNot (·.sym = .lf) r
    else !comment'.isRef || comment'.follow r
  | _, .mapKey _ _ _, r => stopIdent r
  | _, .expr _ left ifE _, r =>
    headNot badExpr r && (!(left.dangling || ifE.dangling) || headNot (·.sym = .else_) (skipLF r))
  | _, .exprIf _ _ _ right, r => right.isRef || headNot (·.sym = .else_) (skipLF r)
  | _, .conditional _ _ _ _ falseExpr, r =>
    headNot badExpr r && (!falseExpr.dangling || headNot (·.sym = .else_) (skipLF r))
  | _, .bin l _ _ _ _, r => headNot (badBin l) r
  | _, .unary _ _ _, r => headNot badPost r
  | _, .postfixE _ _ _ _, r => headNot badPost r
  | _, .primary _ _ _ ident' _ post, r =>
    if post.isRef then headNot badPost r
    else !ident'.isRef || headNot (fun t => t.txt = c!"." || t.txt = c!"(") r
  | _, .invocation _ _, r => r.head? = some (tk .opRParen c!")")
  | _, .ref x, r => x.follow r
  | _, _, _ => true

/-- What is left over of the tokens after the tree. -/
def rest {k : Kind} (x : Node k) (r : List Token) : List Token := if x.dangling then skipLF r else r

/-! ## Trees that can be written -/

/-- Each element of a slice may be followed by the others and the tokens after the last one. -/
def chain : {k : Kind} → Node k → List Token → Bool
  | _, .mkSlice _ xs, c => xs.chain c
  | _, .cons x xs, c => x.follow (xs.tokss.flatten ++ c) && xs.chain c
  | _, _, _ => true

/-- The first element of a slice does not begin with a line feed. -/
def noBlank {k : Kind} (x : Node k) : Bool := headNot (·.sym = .lf) x.tokss.flatten

/-- The text of the first token is not one of these. -/
def headTxtNot {k : Kind} (x : Node k) (l : List Str) : Bool := headNot (fun t => l.contains t.txt) x.toks

/-- Blank lines consist of line ends. -/
def blank (e : Str) : Bool := e.all fun c => c = '\n' || c = '\r'

/-- A primary expression that is an identifier, possibly called. -/
def hasIdent : Node .primary → Bool
  | .primary _ _ _ ident' _ _ => ident'.isRef

/-- A primary expression with a `Post`. -/
def hasPost : Node .primary → Bool
  | .primary _ _ _ _ _ post => post.isRef

/-- Either nil or not empty. -/
def _root_.Verif.Etx.Strs.ok : Strs → Bool
  | .nil => true
  | .mk _ l => l ≠ []

/-- The beginning of a comment. -/
def _root_.Verif.Etx.commentText (w : Str) : Bool := w.head? = some '#' || w.head? = some '/'

/-- What is required of a struct besides its shape. -/
def writable [FloatValue] : {k : Kind} → Node k → Bool
  | _, .rootItem _ e _ _ _ _ _ _ => blank e
  | _, .comment _ s m => s.ok && (s.list.all commentText && (decide (m = []) || commentText m))
  | _, .block _ _ labels body => labels.ok && body.chain [tk .blockEnd c!"}"]
  | _, .blockItem _ e _ _ _ => blank e
  | _, .decl _ t _ _ _ => [c!"input", c!"output", c!"const", c!"val"].contains t
  | _, .lambda _ _ _ _ => false
  | _, .lambdaParameter _ _ _ => false
  | _, .func _ _ _ ret body =>
    body.chain [tk .blockEnd c!"}"] && (body.noBlank && (!ret.bareRet || headNot (·.txt = c!"(") ret.tokss.flatten))
  | _, .funcStatement _ e _ _ x => blank e && x.headTxtNot [c!"const", c!"val"]
  | _, .funcDecl _ t _ _ _ => [c!"const", c!"val"].contains t
  | _, .typeEnum _ items' => items'.chain [tk .blockEnd c!"}"] && items'.noBlank
  | _, .typeEnumItem _ e _ _ _ => blank e
  | _, .typeObject _ items' => items'.chain [tk .blockEnd c!"}"] && items'.noBlank
  | _, .typeObjectItem _ e _ _ _ => blank e
  | _, .valueNumber _ v s => decide (captureNumber s = v.map fun v => (v.2, s))
  | _, .heredoc _ tabs d fragments =>
    decide (captureDelimiter (c!"<<" ++ (if tabs then c!"-" else []) ++ d ++ c!"\n") = some (tabs, d)) &&
      fragments.chain [tk .heredocEnd d]
  | _, .valueList _ items' => items'.chain [tk .opRBracket c!"]"] && items'.noBlank
  | _, .listItem _ e _ _ => blank e
  | _, .valueMap _ items' => items'.chain [tk .blockEnd c!"}"] && items'.noBlank
  | _, .mapItem _ e _ _ _ => blank e
  | _, .bin l _ _ op _ => decide (op = []) || (levelOps l).contains op
  | _, .unary _ op _ => decide (op = []) || prefixOps.contains op
  | _, .postfixE _ x1 x2 x3 =>
    (!(x1.hasIdent && x3.isRef) || x2.isRef) && (!x1.hasPost || (!x2.isRef && !x3.isRef))
  | _, .primary _ _ _ x3 x4 x5 =>
    x3.headTxtNot [c!"null", c!"true", c!"false", c!"(", c!"[", c!"{"] &&
      (!x4.isNilSlice || headNot (·.sym = .ident) x5.toks)
  | _, _ => true

/-- The tree can be written as tokens. -/
def canon [FloatValue] {k : Kind} (x : Node k) : Bool := x.everywhere fun x => x.shaped && x.writable

end Node

end Verif.Etx
