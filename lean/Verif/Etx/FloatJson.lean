import Verif.Etx.Float

/-!
# The text of a number in JSON

`(*Float).MarshalText` and `(*Float).UnmarshalText` of `math/big` (Go 1.18): `Append(buf, 'g', -1)` with `decimal.init`,
`roundShortest`, `round`, `roundUp`, `roundDown`, `trim`, `fmtE` and `fmtF`; `Parse(text, 0)` on a zero `Float`.

*Simplifications*: a decimal is a list of digits (numbers, not characters); `decimal.init` is exact in Go and here one
multiplication.  Signs do not occur.
-/

namespace Verif.Etx

/-- `decimal`: the number `0.d₁d₂… * 10^exp`; the last digit is not 0. -/
structure Dec where
  mant : List Nat
  exp : Int
  deriving DecidableEq, Repr

namespace Dec

/-- Decimal digits, in front of `l`; at most `fuel` of them. -/
def digits : (fuel n : Nat) → (l : List Nat) → List Nat
  | 0, _, l => l
  | fuel + 1, n, l => if n = 0 then l else digits fuel (n / 10) (n % 10 :: l)

/-- `nat.utoa(10)` for a number that is not 0. -/
def utoa (n : Nat) : List Nat := digits (n.log2 + 1) n []

/-- Without the zeros at the end. -/
def trimEnd (l : List Nat) : List Nat := (l.reverse.dropWhile (· = 0)).reverse

/-- `trim` -/
def trim (d : Dec) : Dec :=
  let l := trimEnd d.mant
  if l = [] then ⟨[], 0⟩ else ⟨l, d.exp⟩

/-- `decimal.init`: `m * 2^shift` -/
def init (m : Nat) (shift : Int) : Dec :=
  if m = 0 then ⟨[], 0⟩
  else if 0 ≤ shift then
    let s := utoa (m * 2 ^ shift.toNat)
    ⟨trimEnd s, s.length⟩
  else
    let s := utoa (m * 5 ^ (-shift).toNat)
    ⟨trimEnd s, s.length + shift⟩

/-- `decimal.at` -/
def at' (d : Dec) (i : Nat) : Nat := d.mant.getD i 0

/-- `roundDown` -/
def roundDown (d : Dec) (n : Nat) : Dec :=
  if d.mant.length ≤ n then d else trim ⟨d.mant.take n, d.exp⟩

/-- The number of digits `roundUp` keeps: the position of the last digit below 9 among the first `n`. -/
def upTo (l : List Nat) : Nat → Nat
  | 0 => 0
  | n + 1 => if 9 ≤ l.getD n 0 then upTo l n else n + 1

/-- `roundUp` -/
def roundUp (d : Dec) (n : Nat) : Dec :=
  if d.mant.length ≤ n then d
  else
    match upTo d.mant n with
    | 0 => ⟨[1], d.exp + 1⟩
    | n + 1 => ⟨d.mant.take n ++ [d.mant.getD n 0 + 1], d.exp⟩

/-- `shouldRoundUp` -/
def shouldRoundUp (d : Dec) (n : Nat) : Bool :=
  if d.at' n = 5 ∧ n + 1 = d.mant.length then n > 0 && d.at' (n - 1) % 2 ≠ 0 else d.at' n ≥ 5

/-- `decimal.round` -/
def round (d : Dec) (n : Nat) : Dec :=
  if d.mant.length ≤ n then d else if d.shouldRoundUp n then d.roundUp n else d.roundDown n

/-- The loop of `roundShortest` from digit `i` on; `l` are the remaining digits. -/
def shortestLoop (d lower upper : Dec) (inclusive : Bool) : (i : Nat) → (l : List Nat) → Dec
  | _, [] => d
  | i, m :: l =>
    let okdown := lower.at' i ≠ m ∨ (inclusive = true ∧ i + 1 = lower.mant.length)
    let okup := m ≠ upper.at' i ∧ (inclusive = true ∨ m + 1 < upper.at' i ∨ i + 1 < upper.mant.length)
    if okdown ∧ okup then d.round (i + 1)
    else if okdown then d.roundDown (i + 1)
    else if okup then d.roundUp (i + 1)
    else shortestLoop d lower upper inclusive (i + 1) l

/-- `roundShortest`; the number is `m * 2^e`, and `d` is its decimal. -/
def roundShortest (d : Dec) (prec m : Nat) (e : Int) : Dec :=
  if d.mant = [] then d
  else
    let s : Int := Fl.bits m - (prec + 1 : Nat)
    let mant := if s < 0 then m * 2 ^ (-s).toNat else m / 2 ^ s.toNat
    shortestLoop d (init (mant - 1) (e + s)) (init (mant + 1) (e + s)) (mant / 2 % 2 = 0) 0 d.mant

/-- A digit. -/
def char (d : Nat) : Char := Char.ofNat ('0'.toNat + d)

/-- `strconv.AppendInt` of a non-negative number -/
def natText (n : Nat) : Str := if n = 0 then c!"0" else (utoa n).map char

/-- `fmtE` with format `e` and as many digits as there are -/
def fmtE (d : Dec) : Str :=
  let exp : Int := if d.mant = [] then 0 else d.exp - 1
  char (d.at' 0) :: (if 1 < d.mant.length then '.' :: (d.mant.drop 1).map char else []) ++
    'e' :: (if exp < 0 then '-' else '+') :: (if exp.natAbs < 10 then c!"0" else []) ++ natText exp.natAbs

/-- `fmtF` with `prec` digits after the point -/
def fmtF (d : Dec) (prec : Nat) : Str :=
  (if 0 < d.exp then (d.mant.take d.exp.toNat).map char ++ List.replicate (d.exp.toNat - d.mant.length) '0' else c!"0") ++
    (if 0 < prec then
      '.' :: (List.range prec).map fun (i : Nat) => if 0 ≤ d.exp + i then char (d.at' (d.exp + i).toNat) else '0'
    else [])

end Dec

namespace BigFloat

/-- `(*Float).MarshalText` -/
def marshal (f : BigFloat) : Str :=
  if f.inf then c!"+Inf"
  else
    let d := (Dec.init f.mant f.exp).roundShortest f.prec f.mant f.exp
    let prec := d.mant.length
    if d.exp - 1 < -4 ∨ d.exp - 1 ≥ 6 then d.fmtE
    else d.fmtF (prec - d.exp).toNat

/-- `(*Float).Parse(s, 0)` with a receiver of precision `prec` (see `parseFloat`) -/
def parseAt (prec : Nat) (s : Str) : Option BigFloat :=
  let (b, st, s) := scanPrefix s
  let (st, s) := scanMant b st s
  if st.count = 0 ∨ st.bad = true ∨ st.prev = .sep then none
  else do
    let (e, s) ← scanExponent s
    if s ≠ [] then none
    else if st.mant = 0 then some ⟨prec, 0, 0, false⟩
    else
      match st.dp, e with
      | none, none => if st.mant.log2 + 1 ≤ 2 ^ 31 - 1 then some (roundNat prec st.mant) else none
      | dp, e => (Fl.scanValue prec st.mant b (st.count - dp.getD st.count) e).map (Fl.toBig prec)

/-- At the precision of `Capture` this is the function `Capture` uses. -/
theorem parseAt_numberPrec (s : Str) : parseAt numberPrec s = @parseFloat goFloat s := rfl

/-- `(*Float).UnmarshalText` on a new `Float`, whose precision is 0: `scan` takes 64 instead; `SetInf` leaves it. -/
def unmarshal (s : Str) : Option BigFloat :=
  if s = c!"+Inf" ∨ s = c!"Inf" ∨ s = c!"inf" ∨ s = c!"+inf" then some ⟨0, 0, 0, true⟩ else parseAt 64 s

end BigFloat

example : BigFloat.marshal ⟨53, 7205759403792794, -56, false⟩ = c!"0.1" := by decide +kernel
example : BigFloat.marshal ⟨53, 5, 0, false⟩ = c!"5" := by decide +kernel
example : BigFloat.marshal ⟨53, 0, 0, false⟩ = c!"0" := by decide +kernel
example : BigFloat.marshal ⟨53, 1000000, 0, false⟩ = c!"1e+06" := by decide +kernel
example : BigFloat.marshal ⟨53, 4505851427184181, -52, false⟩ = c!"1.0005" := by decide +kernel
example : BigFloat.marshal ⟨53, 1, -20, false⟩ = c!"9.5367431640625e-07" := by decide +kernel
example : BigFloat.marshal ⟨53, 2 ^ 53 - 1, 3, false⟩ = c!"7.205759403792793e+16" := by decide +kernel

end Verif.Etx
