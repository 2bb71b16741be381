/-!
# Text

Go strings are modelled as lists of characters, i.e. *simplification*: only valid UTF-8 text.
`byteLen` is Go's `len`.
-/

namespace Verif.Etx

/-- A Go string holding valid UTF-8. -/
abbrev Str := List Char

open Lean in
/-- `c!"ab"` is the character list `['a', 'b']`. -/
macro:max "c!" s:str : term => do
  let cs : Array (TSyntax `term) := s.getString.toList.toArray.map (fun c => (⟨(Syntax.mkCharLit c).raw⟩ : TSyntax `term))
  `(([$cs,*] : List Char))

/-- `len(s)`: the number of bytes. -/
def byteLen (s : Str) : Nat := (s.map Char.utf8Size).sum

/-- `strings.Join(l, sep)` -/
def join (sep : Str) : List Str → Str
  | [] => []
  | [x] => x
  | x :: y :: l => x ++ sep ++ join sep (y :: l)

/-- `strings.Repeat(" ", n)` -/
def spaces (n : Nat) : Str := List.replicate n ' '

/-- `utils.go:51-63` (`indentBytes`), for any alphabet with a newline `nl`; `bol` is the local variable of
that name.  `res` is returned instead of accumulated. -/
def indentFrom {α : Type} [DecidableEq α] (nl : α) (pre : List α) : Bool → List α → List α
  | _, [] => []
  | bol, c :: b => (if bol = true ∧ c ≠ nl then pre else []) ++ c :: indentFrom nl pre (decide (c = nl)) b

/-- `utils.go:51-63` on bytes. -/
def indentBytes (b pre : List UInt8) : List UInt8 := indentFrom 10 pre true b

/-- `utils.go:46-48`, on text; `indent_bytes` relates it to `indentBytes`. -/
def indent (s pre : Str) : Str := indentFrom '\n' pre true s

/-- `utils.go:11` -/
def tab : Str := ['\t']

end Verif.Etx
