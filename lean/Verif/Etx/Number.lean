import Verif.Etx.Ast
import Verif.Etx.Regex

/-!
# Captured tokens

`ValueNumber.Capture`, `HeredocDelimiter.Capture` and the part of `math/big` (Go 1.18) the former uses: the scanner
behind `(*Float).Parse` with base 0, and rounding of integers to the precision of the receiver.

*Not modelled*: the value of a literal with a fraction or an exponent, which is an arbitrary function here
(`FloatValue`; what Go computes is in `Verif.Etx.Float`); signs and `Inf`, which cannot occur in a number token; the overflow of the exponent by rounding
a literal of exactly `2^31 - 1` bits.
-/

namespace Verif.Etx

open Re

/-- `value.go:15`: `^0([\d_]+)$` -/
def needsOctalPrefix : Re := seq bot (seq (lit c!"0") (seq (grp (plus (cls fun c => isDigit c || c = '_'))) eot))

/-- `value.go:165-170`: the text that is stored and parsed. -/
def numberSource (s : Str) : Str :=
  match needsOctalPrefix.first s with
  | some m => c!"0o" ++ m.cap.getD []
  | none => s

/-! ## `nat.scan`, `scanExponent` -/

/-- The last character seen: `'_'`, `'0'` or `'.'` in Go. -/
inductive Prev where
  | sep | digit | other
  deriving DecidableEq, Repr

/-- The variables of `nat.scan`: `fracOk`, `prev`, `invalSep`, `count`, `dp` and the digits collected in `z`. -/
structure Scan where
  frac : Bool
  prev : Prev
  bad : Bool
  count : Nat
  dp : Option Nat
  mant : Nat
  deriving DecidableEq, Repr

/-- The value of a digit; 37 (`MaxBase + 1` is 63 in Go, no base here is above 16) for other characters. -/
def digitVal (c : Char) : Nat :=
  if '0' ≤ c ∧ c ≤ '9' then c.toNat - '0'.toNat
  else if 'a' ≤ c ∧ c ≤ 'z' then c.toNat - 'a'.toNat + 10
  else if 'A' ≤ c ∧ c ≤ 'Z' then c.toNat - 'A'.toNat + 10
  else 37

/-- The loop of `nat.scan` in base `b`. -/
def scanMant (b : Nat) : Scan → Str → Scan × Str
  | st, [] => (st, [])
  | st, c :: s =>
    if c = '.' ∧ st.frac = true then
      scanMant b { st with frac := false, bad := st.bad || st.prev = .sep, prev := .other, dp := some st.count } s
    else if c = '_' then
      scanMant b { st with bad := st.bad || st.prev ≠ .digit, prev := .sep } s
    else if digitVal c < b then
      scanMant b { st with prev := .digit, count := st.count + 1, mant := st.mant * b + digitVal c } s
    else (st, c :: s)

/-- The prefix of a literal: its base, the variables before the loop, the remaining text. -/
def scanPrefix : Str → Nat × Scan × Str
  | '0' :: c :: s =>
    if c = 'b' ∨ c = 'B' then (2, ⟨true, .digit, false, 0, none, 0⟩, s)
    else if c = 'o' ∨ c = 'O' then (8, ⟨true, .digit, false, 0, none, 0⟩, s)
    else if c = 'x' ∨ c = 'X' then (16, ⟨true, .digit, false, 0, none, 0⟩, s)
    else (10, ⟨true, .digit, false, 1, none, 0⟩, c :: s)
  | ['0'] => (10, ⟨true, .digit, false, 1, none, 0⟩, [])
  | s => (10, ⟨true, .other, false, 0, none, 0⟩, s)

/-- The loop of `scanExponent`: previous character, `invalSep`, digits. -/
def scanExp : Prev → Bool → List Nat → Str → Prev × Bool × List Nat × Str
  | prev, bad, ds, [] => (prev, bad, ds, [])
  | prev, bad, ds, c :: s =>
    if '0' ≤ c ∧ c ≤ '9' then scanExp .digit bad (ds ++ [digitVal c]) s
    else if c = '_' then scanExp .sep (bad || prev ≠ .digit) ds s
    else (prev, bad, ds, c :: s)

/-- `scanExponent`: the exponent and its base, if there is one, and the remaining text. -/
def scanExponent : Str → Option (Option (Int × Nat) × Str)
  | [] => some (none, [])
  | c :: s =>
    if c = 'e' ∨ c = 'E' ∨ c = 'p' ∨ c = 'P' then
      let base := if c = 'e' ∨ c = 'E' then 10 else 2
      let (neg, s) := match s with
        | '+' :: s => (false, s)
        | '-' :: s => (true, s)
        | s => (false, s)
      let (prev, bad, ds, rest) := scanExp .other false [] s
      let n : Nat := ds.foldl (fun n d => n * 10 + d) 0
      if ds = [] ∨ bad = true ∨ prev = .sep then none
      else if (neg = true ∧ n > 2 ^ 63) ∨ (neg = false ∧ n ≥ 2 ^ 63) then none
      else some (some (if neg then -(n : Int) else n, base), rest)
    else some (none, c :: s)

/-! ## Rounding -/

/-- The precision of `big.NewFloat(0)`. -/
def numberPrec : Nat := 53

/-- `(*Float).round` in mode `ToNearestEven` for an integer. -/
def roundNat (prec n : Nat) : BigFloat :=
  if n < 2 ^ prec then ⟨prec, n, 0, false⟩
  else
    let k : Nat := n.log2 + 1 - prec
    let q := n / 2 ^ k
    let r := n % 2 ^ k
    let up := 2 * r > 2 ^ k ∨ (2 * r = 2 ^ k ∧ q % 2 = 1)
    ⟨prec, if up then q + 1 else q, k, false⟩

/-- The value of a literal with a fraction or an exponent: mantissa digits, base, number of digits after the point,
exponent; `none` if the exponent overflows. -/
class FloatValue where
  value : (mant base frac : Nat) → Option (Int × Nat) → Option BigFloat

/-- `(*Float).Parse(s, 0)` with receiver `big.NewFloat(0)`. -/
def parseFloat [FloatValue] (s : Str) : Option BigFloat :=
  let (b, st, s) := scanPrefix s
  let (st, s) := scanMant b st s
  if st.count = 0 ∨ st.bad = true ∨ st.prev = .sep then none
  else do
    let (e, s) ← scanExponent s
    if s ≠ [] then none
    else if st.mant = 0 then some ⟨numberPrec, 0, 0, false⟩
    else
      match st.dp, e with
      | none, none => if st.mant.log2 + 1 ≤ 2 ^ 31 - 1 then some (roundNat numberPrec st.mant) else none
      | dp, e => FloatValue.value st.mant b (st.count - dp.getD st.count) e

/-- `value.go:164-178`: value and source, or an error. -/
def captureNumber [FloatValue] (s : Str) : Option (BigFloat × Str) :=
  (parseFloat (numberSource s)).map (·, numberSource s)

/-- `value.go:16`: `^<<([-]?)(\w+)\n$`; the second group is the recorded one. -/
def heredocDelimiter : Re :=
  seq bot (seq (lit c!"<<") (seq (opt (cls (· = '-'))) (seq (grp (plus (cls isWord))) (seq (lit c!"\n") eot))))

/-- `value.go:259-272`: `LeadingTabs` and `Delimiter`; `none` is a panic.  The first group is the text between `<<`
and the second group. -/
def captureDelimiter (s : Str) : Option (Bool × Str) :=
  match heredocDelimiter.first s with
  | none => none
  | some m =>
    let d := m.cap.getD []
    some ((s.drop 2).take (s.length - 3 - d.length) ≠ [], d)

end Verif.Etx
