import Verif.Etx.Number

/-!
# Numbers with a fraction or an exponent

The rest of `(*Float).Parse` of `math/big` (Go 1.18): the function `(*Float).scan` after the digits have been read, with
`pow5`, `umul`, `uquo`, `setExpAndRound` and `round` (mode `ToNearestEven`).

*Simplifications*: a mantissa is a natural number, not a slice of words with the highest bit set; bits shifted out at the
low end are represented by a flag, as in Go.  Signs do not occur.
-/

namespace Verif.Etx

/-- A non-negative `Float`: its form, and for a finite number mantissa and exponent (`mant * 2^exp`, `mant ≠ 0`). -/
inductive Fl where
  | zero
  | fin (mant : Nat) (exp : Int)
  | inf
  deriving DecidableEq, Repr

namespace Fl

/-- `MaxExp` and `MinExp`. -/
def maxExp : Int := 2 ^ 31 - 1
@[inherit_doc maxExp]
def minExp : Int := -2 ^ 31

/-- The number of bits of a mantissa. -/
def bits (m : Nat) : Nat := m.log2 + 1

/-- The length of a mantissa in words. -/
def words (m : Nat) : Nat := (bits m + 63) / 64

/-- The zeros `fnorm` appends to a mantissa. -/
def pad (m : Nat) : Nat := 64 * words m - bits m

/-- `(*Float).round`; `sticky`: the mantissa continues with further bits that are not all zero. -/
def round (prec m : Nat) (e : Int) (sticky : Bool) : Fl :=
  if m < 2 ^ prec then .fin m e
  else
    let k := bits m - prec
    let q := m / 2 ^ k
    let r := m % 2 ^ k
    let q' := if 2 * r > 2 ^ k ∨ (2 * r = 2 ^ k ∧ (sticky = true ∨ q % 2 = 1)) then q + 1 else q
    if q' = 2 ^ prec ∧ e + bits m ≥ maxExp then .inf
    else .fin q' (e + k)

/-- `(*Float).setExpAndRound` -/
def setExpAndRound (prec m : Nat) (e : Int) (sticky : Bool) : Fl :=
  if e + bits m < minExp then .zero
  else if e + bits m > maxExp then .inf
  else round prec m e sticky

/-- `(*Float).Mul`, `umul`.  In Go `0 * Inf` panics; no factor here is 0. -/
def mul (prec : Nat) : Fl → Fl → Fl
  | fin m e, fin m' e' => setExpAndRound prec (m * m') (e + e') false
  | zero, _ => .zero
  | _, zero => .zero
  | inf, _ => .inf
  | _, inf => .inf

/-- `(*Float).Quo`, `uquo`: the quotient of the mantissas, the dividend extended by words so that it has enough bits.  In
Go `0 / 0` and `Inf / Inf` panic; here the dividend is finite and not 0. -/
def quo (prec : Nat) : Fl → Fl → Fl
  | fin m e, fin m' e' =>
    let x := m * 2 ^ pad m
    let y := m' * 2 ^ pad m'
    let d := prec / 64 + 1 + words m' - words m
    let x' := x * 2 ^ (64 * d)
    setExpAndRound prec (x' / y) (e - pad m - 64 * d - (e' - pad m')) (x' % y ≠ 0)
  | inf, _ => .inf
  | _, zero => .inf
  | _, inf => .zero
  | zero, _ => .zero

/-- The loop of `pow5`, at most `fuel` times. -/
def pow5Loop (prec : Nat) : (fuel n : Nat) → (z f : Fl) → Fl
  | 0, _, z, _ => z
  | fuel + 1, n, z, f =>
    if n > 0 then pow5Loop prec fuel (n / 2) (if n % 2 = 1 then mul prec z f else z) (mul (prec + 64) f f)
    else z

/-- `(*Float).pow5`: `5^n`, exact for `n ≤ 27`. -/
def pow5 (prec n : Nat) : Fl :=
  if n ≤ 27 then .fin (5 ^ n) 0
  else pow5Loop prec (n - 27) (n - 27) (.fin (5 ^ 27) 0) (.fin 5 0)

/-- The result in a variable of precision `prec`. -/
def toBig (prec : Nat) : Fl → BigFloat
  | zero => ⟨prec, 0, 0, false⟩
  | fin m e => ⟨prec, m, e, false⟩
  | inf => ⟨prec, 0, 0, true⟩

/-- The bits of a digit after the point. -/
def digitBits (base : Nat) : Nat :=
  if base = 8 then 3 else if base = 16 then 4 else 1

/-- `(*Float).scan` from the normalization of the mantissa on, which is not 0; `none`: the exponent overflows. -/
def scanValue (prec mant base frac : Nat) (e : Option (Int × Nat)) : Option Fl :=
  let exp : Int := (e.map (·.1)).getD 0
  let ebase : Nat := (e.map (·.2)).getD 10
  let exp5 : Int := (if base = 10 then -(frac : Int) else 0) + (if ebase = 10 then exp else 0)
  let exp2 : Int := exp - (digitBits base * frac : Nat)
  if minExp ≤ exp2 + bits mant ∧ exp2 + bits mant ≤ maxExp then
    if exp5 = 0 then some (round prec mant exp2 false)
    else if exp5 < 0 then some (quo prec (.fin mant exp2) (pow5 (prec + 64) (-exp5).toNat))
    else some (mul prec (.fin mant exp2) (pow5 (prec + 64) exp5.toNat))
  else none

end Fl

/-- The values Go gives to literals with a fraction or an exponent. -/
@[reducible] def goFloat : FloatValue := ⟨fun mant base frac e => (Fl.scanValue numberPrec mant base frac e).map (Fl.toBig numberPrec)⟩

end Verif.Etx
