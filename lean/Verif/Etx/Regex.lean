import Verif.Etx.Str

/-!
# Regular expressions

The part of Go's `regexp` syntax used by `pkg/etx`, with its leftmost-first semantics: `run` lists the
possible matches at the beginning of a text in the order of preference, so that the first one is the match that
`regexp` finds for a pattern anchored by `^`.  Only the first capturing group is recorded.
-/

namespace Verif.Etx

/-- `\w` -/
def isWord (c : Char) : Bool :=
  ('0' ≤ c && c ≤ '9') || ('A' ≤ c && c ≤ 'Z') || ('a' ≤ c && c ≤ 'z') || c = '_'

/-- `[[:alpha:]]` -/
def isAlpha (c : Char) : Bool := ('A' ≤ c && c ≤ 'Z') || ('a' ≤ c && c ≤ 'z')

/-- `\d` -/
def isDigit (c : Char) : Bool := '0' ≤ c && c ≤ '9'

/-- `[0-9a-fA-F]` -/
def isHex (c : Char) : Bool := isDigit c || ('a' ≤ c && c ≤ 'f') || ('A' ≤ c && c ≤ 'F')

/-- Syntax trees. -/
inductive Re where
  /-- the empty expression -/
  | eps
  /-- one character of a class -/
  | cls (p : Char → Bool)
  | seq (a b : Re)
  | alt (a b : Re)
  /-- `a*` -/
  | star (a : Re)
  /-- `a*?` -/
  | lazyStar (a : Re)
  /-- `^` (without the flag `m`) -/
  | bot
  /-- `$` (without the flag `m`) -/
  | eot
  /-- `\b` -/
  | wordB
  /-- `(a)`, the first group of the expression -/
  | grp (a : Re)

namespace Re

/-- A fixed text (`regexp.QuoteMeta`). -/
def lit : Str → Re
  | [] => eps
  | [c] => cls (fun d => d = c)
  | c :: d :: s => seq (cls (fun d => d = c)) (lit (d :: s))

/-- `a+` -/
def plus (a : Re) : Re := seq a (star a)

/-- `a?` -/
def opt (a : Re) : Re := alt a eps

/-- `a{n}` -/
def rep (a : Re) : Nat → Re
  | 0 => eps
  | n + 1 => seq a (rep a n)

end Re

/-- A match: its text, the text of the group, and the text that follows. -/
structure Match where
  txt : Str
  cap : Option Str
  rest : Str
  deriving DecidableEq, Repr

namespace Match

/-- The match of nothing. -/
def nothing (s : Str) : Match := ⟨[], none, s⟩

/-- One match after the other. -/
def andThen (m n : Match) : Match := ⟨m.txt ++ n.txt, n.cap.or m.cap, n.rest⟩

/-- The last character before the following text, where `prev` is the one before the match. -/
def last (m : Match) (prev : Option Char) : Option Char := m.txt.getLast?.or prev

end Match

/-- `f` repeated as often as possible, at most `n` times; iterations have to consume something. -/
def starRun (f : Option Char → Str → List Match) : Nat → Option Char → Str → List Match
  | 0, _, s => [.nothing s]
  | n + 1, prev, s =>
    ((f prev s).filter (fun m => m.txt ≠ [])).flatMap
      (fun m => (starRun f n (m.last prev) m.rest).map m.andThen) ++ [.nothing s]

/-- `f` repeated as rarely as possible. -/
def lazyRun (f : Option Char → Str → List Match) : Nat → Option Char → Str → List Match
  | 0, _, s => [.nothing s]
  | n + 1, prev, s =>
    .nothing s :: ((f prev s).filter (fun m => m.txt ≠ [])).flatMap
      (fun m => (lazyRun f n (m.last prev) m.rest).map m.andThen)

/-- The matches of an expression at the beginning of `s`, best first; `prev` is the character before. -/
def Re.run : Re → Option Char → Str → List Match
  | eps, _, s => [.nothing s]
  | cls _, _, [] => []
  | cls p, _, c :: s => if p c then [⟨[c], none, s⟩] else []
  | seq a b, prev, s => (a.run prev s).flatMap (fun m => (b.run (m.last prev) m.rest).map m.andThen)
  | alt a b, prev, s => a.run prev s ++ b.run prev s
  | star a, prev, s => starRun a.run s.length prev s
  | lazyStar a, prev, s => lazyRun a.run s.length prev s
  | bot, prev, s => if prev = none then [.nothing s] else []
  | eot, _, s => if s = [] then [.nothing s] else []
  | wordB, prev, s => if (prev.any isWord) ≠ (s.head?.any isWord) then [.nothing s] else []
  | grp a, prev, s => (a.run prev s).map (fun m => { m with cap := some m.txt })

/-- The match of an expression anchored at the beginning of the text. -/
def Re.first (r : Re) (s : Str) : Option Match := (r.run none s).head?

end Verif.Etx
