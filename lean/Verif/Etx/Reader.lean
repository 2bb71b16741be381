import Verif.Etx.Parser

/-!
# The entry points

`Parse`, `ParseString` and `ParseBytes` of `parser.go`, and the functions of participle they call: `Parser.Parse`,
`Parser.ParseString`, `Parser.ParseBytes` and `StatefulDefinition.Lex`, which reads the whole input into a
`strings.Builder`.

Go strings are byte strings.  *Simplification*: lexing of data that is not valid UTF-8 is not modelled; its result is any
function of the data (`InvalidText`).
-/

namespace Verif.Etx

/-- The text with these bytes, if they are valid UTF-8. -/
def decode (b : List UInt8) : Option Str := b.toByteArray.utf8Decode?.map Array.toList

/-- Lexing and parsing of data that is not UTF-8, not modelled: any function of the file name and the data. -/
class InvalidText where
  /-- The result. -/
  parse : Str → List UInt8 → Option (Node (.slice .rootItem))

/-- Lexing and parsing with a file name in the positions. -/
def parseTreeNamed [FloatValue] (name s : Str) : Option (Node (.slice .rootItem)) := do
  let start := { Position.start with filename := name }
  parseTokens (start.advance s) (← lexFrom s.length [(.root, [])] start s)

/-- Lexing and parsing of the bytes of a Go string. -/
def parseBytesNamed [FloatValue] [InvalidText] (name : Str) (b : List UInt8) : Option (Node (.slice .rootItem)) :=
  match decode b with
  | some s => parseTreeNamed name s
  | none => InvalidText.parse name b

/-- The rest of all three functions: an error, or the tree with its parent references. -/
def finish : Option (Node (.slice .rootItem)) → Outcome AST
  | none => .error
  | some items =>
    match AST.updateParentRefs ⟨0, (items.place 1).1⟩ with
    | none => .panic
    | some t => .ok t

/-- An `io.Reader`: the chunks of data returned by `Read`, whether it ends with an error instead of `io.EOF`, and the
result of its method `Name` (as that of `*os.File`; empty if it has none), which `Parser.Parse` takes as file name. -/
structure Reader where
  chunks : List (List UInt8)
  fails : Bool := false
  name : Str := []

/-- `io.Copy` into a `strings.Builder`. -/
def Reader.readAll (r : Reader) : Option (List UInt8) := if r.fails then none else some r.chunks.flatten

variable [FloatValue] [InvalidText]

/-- `parser.go:22-32` -/
def parseReader (r : Reader) : Outcome AST :=
  finish (do parseBytesNamed r.name (← r.readAll))

/-- `parser.go:35-44`, for the bytes of the string. -/
def parseGoString (b : List UInt8) : Outcome AST := finish (parseBytesNamed [] b)

/-- `parser.go:47-56`; participle lexes a `bytes.Reader`, which delivers the data at once. -/
def parseBytes (b : List UInt8) : Outcome AST :=
  finish (do parseBytesNamed [] (← (Reader.mk [b] false []).readAll))

end Verif.Etx
