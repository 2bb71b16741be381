import Verif.Etx.Ast
import Verif.Etx.Regex

/-!
# The lexer

The rules of `lexer.go` and the stateful lexer of participle v2.0.0-alpha8 that runs them: in each step the
first rule of the current state that matches at the beginning of the remaining text is taken.
-/

namespace Verif.Etx

/-- Token types: the names of the rules (`lexer.go:56-147`).  `TokenWhitespace` is the only one that begins with a lower case
letter, its tokens are dropped. -/
inductive Sym where
  | singleLineComment | multilineComment | opLambda | opLambdaDef | opLParen | opRParen
  | if_ | else_ | switch_ | case_ | blockStart | blockEnd | ident | number | heredoc
  | opComma | opEqual | opNotEqual | opLogicalAnd | opLogicalOr | opBitwiseShiftLeft | opBitwiseShiftRight
  | opLogicalNot | opBitwiseNot | opBitwiseAnd | opBitwiseOr | opBitwiseXOr | opMultiplication | opDivision | opModulo
  | opPlus | opMinus | opLessOrEqual | opMoreOrEqual | opLess | opMore | opAssign | opCondition | opColon
  | opLBracket | opRBracket | string | dot | lf | whitespace
  | unicode | escaped | stringEnd | quote | nonExpr | expr | directive | char
  | unicodeLong | unicodeShort | heredocEnd | eol | body | exprEnd
  deriving DecidableEq, Repr

/-- Lexer states (`lexer.go:47-54`; `Core` is only included in others). -/
inductive LexState where
  | root | string | stringExpr | unicode | heredoc
  deriving DecidableEq, Repr

/-- What to do after a match. -/
inductive LexAction where
  | none
  | push (s : LexState)
  | pop
  deriving DecidableEq, Repr

/-- A rule; the argument of the pattern is the text of `\1`, the group of the rule that pushed the state. -/
structure Rule where
  sym : Sym
  pat : Str → Re
  action : LexAction := .none

open Re

/-- A rule whose pattern has no back reference. -/
def rule (sym : Sym) (pat : Re) (action : LexAction := .none) : Rule := ⟨sym, fun _ => pat, action⟩

/-- `lexer.go:62`: `(?:\/\/|#)[^\n]*` -/
def reSingleLine : Re := seq (alt (lit c!"//") (lit c!"#")) (star (cls (· ≠ '\n')))

/-- `lexer.go:63`: `\/\*(.|\n)*?\*\/`; `.` is any character but a newline. -/
def reMultiline : Re := seq (lit c!"/*") (seq (lazyStar (grp (alt (cls (· ≠ '\n')) (lit c!"\n")))) (lit c!"*/"))

/-- `lexer.go:71-74`: `\b(if)\b` etc. -/
def reKeyword (w : Str) : Re := seq wordB (seq (grp (lit w)) wordB)

/-- `lexer.go:79`: `\b[[:alpha:]]\w*(-\w+)*\b` -/
def reIdent : Re :=
  seq wordB (seq (cls isAlpha) (seq (star (cls isWord)) (seq (star (grp (seq (lit c!"-") (plus (cls isWord))))) wordB)))

/-- `[0-9_]` -/
def isDigitSep (c : Char) : Bool := isDigit c || c = '_'

/-- `lexer.go:80`: `0[xX][0-9a-fA-F_]+` -/
def reHex : Re := seq (lit c!"0") (seq (cls fun c => c = 'x' || c = 'X') (plus (cls fun c => isHex c || c = '_')))

/-- `lexer.go:80`: `0[bB][01_]*` -/
def reBin : Re := seq (lit c!"0") (seq (cls fun c => c = 'b' || c = 'B') (star (cls fun c => c = '0' || c = '1' || c = '_')))

/-- `lexer.go:80`: `0[oO][0-7_]*` -/
def reOct : Re := seq (lit c!"0") (seq (cls fun c => c = 'o' || c = 'O') (star (cls fun c => ('0' ≤ c && c ≤ '7') || c = '_')))

/-- `lexer.go:80`: `[0-9_]*\.?[0-9_]+([eE][-+]?[0-9_]+)?`; the second group is not recorded. -/
def reDec : Re :=
  seq (star (cls isDigitSep)) (seq (opt (lit c!".")) (seq (plus (cls isDigitSep))
    (opt (seq (cls fun c => c = 'e' || c = 'E') (seq (opt (cls fun c => c = '-' || c = '+')) (plus (cls isDigitSep)))))))

/-- `lexer.go:80` -/
def reNumber : Re := grp (alt reHex (alt reBin (alt reOct reDec)))

/-- `lexer.go:82`: `<<[-]?(\w+)\n` -/
def reHeredoc : Re := seq (lit c!"<<") (seq (opt (cls (· = '-'))) (seq (grp (plus (cls isWord))) (lit c!"\n")))

/-- `lexer.go:61-117` -/
def coreRules : List Rule := [
  rule .singleLineComment reSingleLine,
  rule .multilineComment reMultiline,
  rule .opLambda (lit c!"=>"),
  rule .opLambdaDef (lit c!"->"),
  rule .opLParen (lit c!"("),
  rule .opRParen (lit c!")"),
  rule .if_ (reKeyword c!"if"),
  rule .else_ (reKeyword c!"else"),
  rule .switch_ (reKeyword c!"switch"),
  rule .case_ (reKeyword c!"case"),
  rule .blockStart (lit c!"{"),
  rule .blockEnd (lit c!"}"),
  rule .ident reIdent,
  rule .number reNumber,
  rule .heredoc reHeredoc (.push .heredoc),
  rule .opComma (lit c!","),
  rule .opEqual (lit c!"=="),
  rule .opNotEqual (lit c!"!="),
  rule .opLogicalAnd (lit c!"&&"),
  rule .opLogicalOr (lit c!"||"),
  rule .opBitwiseShiftLeft (lit c!"<<"),
  rule .opBitwiseShiftRight (lit c!">>"),
  rule .opLogicalNot (lit c!"!"),
  rule .opBitwiseNot (lit c!"~"),
  rule .opBitwiseAnd (lit c!"&"),
  rule .opBitwiseOr (lit c!"|"),
  rule .opBitwiseXOr (lit c!"^"),
  rule .opMultiplication (lit c!"*"),
  rule .opDivision (lit c!"/"),
  rule .opModulo (lit c!"%"),
  rule .opPlus (lit c!"+"),
  rule .opMinus (lit c!"-"),
  rule .opLessOrEqual (lit c!"<="),
  rule .opMoreOrEqual (lit c!">="),
  rule .opLess (lit c!"<"),
  rule .opMore (lit c!">"),
  rule .opAssign (lit c!"="),
  rule .opCondition (lit c!"?"),
  rule .opColon (lit c!":"),
  rule .opLParen (lit c!"("),
  rule .opRParen (lit c!")"),
  rule .opLBracket (lit c!"["),
  rule .opRBracket (lit c!"]"),
  rule .string (grp (cls fun c => c = '"' || c = '\'')) (.push .string),
  rule .dot (lit c!"."),
  rule .lf (cls fun c => c = '\r' || c = '\n'),
  rule .whitespace (plus (cls fun c => c = '\t' || c = ' '))]

/-- `(\$\${|%%{)` (`lexer.go:124`, `lexer.go:136`) -/
def reNonExpr : Re := grp (alt (lit c!"$${") (lit c!"%%{"))

/-- `lexer.go:119-128` -/
def stringRules : List Rule := [
  rule .unicode (lit c!"\\u") (.push .unicode),
  rule .escaped (seq (lit c!"\\") (cls (· ≠ '\n'))),
  ⟨.stringEnd, fun q => lit q, .pop⟩,
  rule .quote (cls fun c => c = '"' || c = '\''),
  rule .nonExpr reNonExpr,
  rule .expr (lit c!"${") (.push .stringExpr),
  rule .directive (lit c!"%{") (.push .stringExpr),
  rule .char (plus (cls fun c => !(c = '$' || c = '%' || c = '"' || c = '\'' || c = '\\')))]

/-- `lexer.go:129-132` -/
def unicodeRules : List Rule := [
  rule .unicodeLong (rep (cls isHex) 8) .pop,
  rule .unicodeShort (rep (cls isHex) 4) .pop]

/-- `lexer.go:133-140` -/
def heredocRules : List Rule := [
  ⟨.heredocEnd, fun d => seq bot (lit d), .pop⟩,
  rule .eol (lit c!"\n"),
  rule .nonExpr reNonExpr,
  rule .expr (lit c!"${") (.push .stringExpr),
  rule .directive (lit c!"%{") (.push .stringExpr),
  rule .body (plus (cls fun c => !(c = '\n' || c = '$' || c = '%')))]

/-- `lexer.go:56-147` -/
def rulesOf : LexState → List Rule
  | .root => coreRules
  | .string => stringRules
  | .stringExpr => rule .exprEnd (lit c!"}") .pop :: coreRules
  | .unicode => unicodeRules
  | .heredoc => heredocRules

/-- `lexer.Position.Advance`: offsets are in bytes, columns in characters. -/
def Position.advance (p : Position) (s : Str) : Position :=
  { p with
    offset := p.offset + byteLen s
    line := p.line + s.count '\n'
    column := if '\n' ∈ s then (s.reverse.takeWhile (· ≠ '\n')).length + 1 else p.column + s.length }

/-- A token. -/
structure Token where
  sym : Sym
  txt : Str
  pos : Position
  deriving DecidableEq, Repr

/-- The stack of states, the current one first, with the group of the rule that pushed it. -/
abbrev Stack := List (LexState × Str)

/-- The first rule that matches. -/
def firstRule (group : Str) (s : Str) : List Rule → Option (Rule × Match)
  | [] => none
  | r :: rs =>
    match (r.pat group).first s with
    | some m => some (r, m)
    | none => firstRule group s rs

/-- One token (or skipped whitespace): the rule, its match and the new stack.  `none` is an error: no rule
matches, or the match is empty.  The stack is never empty; if it were, popping it would panic (`none`). -/
def lexStep (st : Stack) (s : Str) : Option (Rule × Match × Stack) :=
  match st with
  | [] => none
  | (state, group) :: below => do
    let (r, m) ← firstRule group s (rulesOf state)
    if m.txt = [] then none
    match r.action with
    | .none => return (r, m, st)
    | .push new => return (r, m, (new, m.cap.getD []) :: st)
    | .pop => return (r, m, below)

/-- All tokens up to the end of the text, or an error.  `fuel` bounds the number of steps; `lex_fuel` shows
that the length of the text suffices. -/
def lexFrom : Nat → Stack → Position → Str → Option (List Token)
  | _, _, _, [] => some []
  | 0, _, _, _ :: _ => none
  | fuel + 1, st, pos, s => do
    let (r, m, st') ← lexStep st s
    let ts ← lexFrom fuel st' (pos.advance m.txt) m.rest
    return if r.sym = .whitespace then ts else ⟨r.sym, m.txt, pos⟩ :: ts

/-- The position at the beginning of a text (`ParseString("", …)`). -/
def Position.start : Position := { filename := [], offset := 0, line := 1, column := 1 }

/-- The tokens of a text, without whitespace. -/
def lex (s : Str) : Option (List Token) := lexFrom s.length [(.root, [])] .start s

end Verif.Etx
