import Verif.Etx.Float
import Mathlib.Algebra.Order.Archimedean.Basic
import Mathlib.Algebra.Order.Field.Power
import Mathlib.Algebra.Order.Field.Rat
import Mathlib.Data.Rat.Floor
import Mathlib.Tactic.FieldSimp
import Mathlib.Tactic.GCongr
import Mathlib.Tactic.Linarith
import Mathlib.Tactic.NormNum
import Mathlib.Tactic.Positivity
import Mathlib.Tactic.Ring

/-!
# Facts about rounding
-/

namespace Verif.Etx

open Fl

/-! ## Specification of rounding -/

/-- A number with at most `p` significant bits. -/
def Floating (p : Nat) (x : ℚ) : Prop := ∃ (m : Nat) (e : ℤ), m < 2 ^ p ∧ x = m * 2 ^ e

/-- `v` is `x` rounded to `p` significant bits: no such number is nearer to `x`, and between two that are equally near the one
with a zero in the last place is taken. -/
structure Rounded (p : Nat) (x v : ℚ) : Prop where
  floating : Floating p v
  near : ∀ y, Floating p y → |v - x| ≤ |y - x|
  even : ∀ y, Floating p y → |y - x| = |v - x| → y = v ∨ Floating (p - 1) v

theorem two_zpow_pos (e : ℤ) : (0 : ℚ) < 2 ^ e := by positivity

/-- No number of `p` bits is strictly between two neighbours. -/
theorem floating_gap {p q : Nat} {e : ℤ} {x : ℚ} (hp : 0 < p) (hq : 2 ^ (p - 1) ≤ q) (hx : Floating p x) :
    x ≤ q * 2 ^ e ∨ (q + 1) * 2 ^ e ≤ x := by
  obtain ⟨m, e', hm, rfl⟩ := hx
  by_contra hc
  push Not at hc
  obtain ⟨h1, h2⟩ := hc
  have he : e ≤ e' := by
    by_contra hlt
    have h3 : (2 : ℚ) ^ e' ≤ 2 ^ (e - 1) := zpow_le_zpow_right₀ (by norm_num) (by omega)
    have h4 : (m : ℚ) * 2 ^ e' ≤ 2 ^ p * 2 ^ (e - 1) := by
      have : (m : ℚ) ≤ 2 ^ p := by exact_mod_cast hm.le
      gcongr
    have h5 : (2 : ℚ) ^ p * 2 ^ (e - 1) = 2 ^ (p - 1) * 2 ^ e := by
      obtain ⟨p, rfl⟩ : ∃ r, p = r + 1 := ⟨p - 1, by omega⟩
      rw [zpow_sub_one₀ (by norm_num)]
      simp only [Nat.add_sub_cancel, pow_succ]
      ring
    have h6 : (2 : ℚ) ^ (p - 1) * 2 ^ e ≤ q * 2 ^ e := by
      have : (2 : ℚ) ^ (p - 1) ≤ q := by exact_mod_cast hq
      gcongr
    linarith
  obtain ⟨d, rfl⟩ : ∃ d : Nat, e' = e + d := ⟨(e' - e).toNat, by omega⟩
  have hpos := two_zpow_pos e
  rw [zpow_add₀ (by norm_num), zpow_natCast] at h1 h2
  have e1 : (m : ℚ) * (2 ^ e * 2 ^ d) = ((m * 2 ^ d : Nat) : ℚ) * 2 ^ e := by push_cast; ring
  rw [e1] at h1 h2
  have h3 := lt_of_mul_lt_mul_right h1 hpos.le
  have h4 := lt_of_mul_lt_mul_right h2 hpos.le
  have h5 : q < m * 2 ^ d := by exact_mod_cast h3
  have h6 : m * 2 ^ d < q + 1 := by exact_mod_cast h4
  omega

theorem Rounded.self {p : Nat} {x : ℚ} (h : Floating p x) : Rounded p x x :=
  ⟨h, fun y _ => by simp, fun y _ hy => .inl (by simpa [sub_eq_zero] using hy)⟩

theorem floating_carry {p q : Nat} {e : ℤ} (hp : 0 < p) (hq : q ≤ 2 ^ p) : Floating p (q * 2 ^ e) := by
  rcases Nat.lt_or_ge q (2 ^ p) with h | h
  · exact ⟨q, e, h, rfl⟩
  · have : q = 2 ^ p := by omega
    subst this
    refine ⟨1, e + p, Nat.one_lt_two_pow (by omega), ?_⟩
    rw [zpow_add₀ (by norm_num), zpow_natCast]
    push_cast
    ring

/-- An even number of units in the last place. -/
theorem floating_even {p q : Nat} {e : ℤ} (hp : 0 < p) (hq : q ≤ 2 ^ p) (h2 : q % 2 = 0) (hp' : 1 < p) :
    Floating (p - 1) (q * 2 ^ e) := by
  obtain ⟨p, rfl⟩ : ∃ r, p = r + 1 := ⟨p - 1, by omega⟩
  obtain ⟨h, rfl⟩ : ∃ h, q = 2 * h := ⟨q / 2, by omega⟩
  have : ((2 * h : Nat) : ℚ) * 2 ^ e = (h : ℚ) * 2 ^ (e + 1) := by
    rw [zpow_add_one₀ (by norm_num)]; push_cast; ring
  rw [this]
  refine floating_carry (by omega) ?_
  rw [Nat.pow_succ] at hq
  rw [Nat.add_sub_cancel]
  omega

theorem floating_pos {p : Nat} (hp : 1 < p) {m q : Nat} {k : Nat} {e : ℤ} (x δ : ℚ) (hδ : 0 ≤ δ) (hδ' : δ < 1) (hk : 0 < k)
    {r : Nat} (hr : r < 2 ^ k) (hq : 2 ^ (p - 1) ≤ q) (hq' : q < 2 ^ p) (hm : m = q * 2 ^ k + r) (hx : x = (m + δ) * 2 ^ e)
    (q' : Nat) (hup : q' = q + 1 ∧ (2 * r > 2 ^ k ∨ (2 * r = 2 ^ k ∧ (δ ≠ 0 ∨ q % 2 = 1))) ∨
      q' = q ∧ ¬ (2 * r > 2 ^ k ∨ (2 * r = 2 ^ k ∧ (δ ≠ 0 ∨ q % 2 = 1)))) :
    Rounded p x (q' * 2 ^ (e + k)) := by
  set U : ℚ := 2 ^ (e + k) with hU
  have hUpos : 0 < U := two_zpow_pos _
  set t : ℚ := (r + δ) / 2 ^ k with ht
  have h2k : (0 : ℚ) < 2 ^ k := by positivity
  have hxt : x = (q + t) * U := by
    rw [hx, hm, hU, ht, zpow_add₀ (by norm_num), zpow_natCast]
    push_cast
    field_simp
    ring
  have ht0 : 0 ≤ t := by positivity
  have hr1 : (r : ℚ) + 1 ≤ 2 ^ k := by exact_mod_cast hr
  have ht1 : t < 1 := by rw [ht, div_lt_one h2k]; linarith
  have gap : ∀ y, Floating p y → y ≤ q * U ∨ (q + 1) * U ≤ y := fun y hy => floating_gap (by omega) hq hy
  have hdown : 2 * r < 2 ^ k → 2 * t < 1 := by
    intro h
    have h2 : 2 * r + 2 ≤ 2 ^ k := by
      obtain ⟨k, rfl⟩ : ∃ j, k = j + 1 := ⟨k - 1, by omega⟩
      rw [Nat.pow_succ] at h ⊢
      omega
    have h3 : (2 : ℚ) * r + 2 ≤ 2 ^ k := by exact_mod_cast h2
    rw [ht, ← mul_div_assoc, div_lt_one h2k]
    linarith
  have hupw : 2 * r > 2 ^ k → 1 < 2 * t := by
    intro h
    have h3 : (2 : ℚ) ^ k < 2 * r := by exact_mod_cast h
    rw [ht, ← mul_div_assoc, one_lt_div h2k]
    linarith
  have htie : 2 * r = 2 ^ k → 2 * t = 1 + 2 * δ / 2 ^ k := by
    intro h
    have h3 : (2 : ℚ) * r = 2 ^ k := by exact_mod_cast h
    rw [ht]
    field_simp
    linarith
  -- up
  have up : 1 ≤ 2 * t → (2 * t = 1 → (q + 1) % 2 = 0) → Rounded p x ((q + 1 : Nat) * U) := by
    intro h1 h2
    have hv : |((q + 1 : Nat) : ℚ) * U - x| = (1 - t) * U := by
      rw [hxt]; push_cast
      rw [show ((q : ℚ) + 1) * U - (q + t) * U = (1 - t) * U by ring]
      exact abs_of_nonneg (by have : 0 ≤ 1 - t := by linarith
                              positivity)
    have hlow : ∀ y : ℚ, y ≤ q * U → t * U ≤ |y - x| := by
      intro y hy
      rw [abs_sub_comm]
      refine le_trans ?_ (le_abs_self _)
      rw [hxt]; linarith
    have hhigh : ∀ y : ℚ, (q + 1) * U ≤ y → (1 - t) * U ≤ |y - x| := by
      intro y hy
      refine le_trans ?_ (le_abs_self _)
      rw [hxt]; linarith
    refine ⟨floating_carry (by omega) (by omega), fun y hy => ?_, fun y hy he => ?_⟩
    · rw [hv]
      rcases gap y hy with h | h
      · refine le_trans ?_ (hlow y h)
        have : 1 - t ≤ t := by linarith
        gcongr
      · exact hhigh y h
    · rw [hv] at he
      rcases gap y hy with h | h
      · right
        have h3 := hlow y h
        rw [he] at h3
        have h4 : t ≤ 1 - t := le_of_mul_le_mul_right h3 hUpos
        exact floating_even (by omega) (by omega) (h2 (by linarith)) hp
      · left
        have h3 : y - x ≤ (1 - t) * U := by rw [← he]; exact le_abs_self _
        rw [hxt] at h3
        push_cast
        linarith
  have down : 2 * t ≤ 1 → (2 * t = 1 → q % 2 = 0) → Rounded p x ((q : Nat) * U) := by
    intro h1 h2
    have hv : |(q : ℚ) * U - x| = t * U := by
      rw [hxt, abs_sub_comm]
      rw [show ((q : ℚ) + t) * U - q * U = t * U by ring]
      exact abs_of_nonneg (by positivity)
    have hlow : ∀ y : ℚ, y ≤ q * U → t * U ≤ |y - x| := by
      intro y hy
      rw [abs_sub_comm]
      refine le_trans ?_ (le_abs_self _)
      rw [hxt]; linarith
    have hhigh : ∀ y : ℚ, (q + 1) * U ≤ y → (1 - t) * U ≤ |y - x| := by
      intro y hy
      refine le_trans ?_ (le_abs_self _)
      rw [hxt]; linarith
    refine ⟨floating_carry (by omega) (by omega), fun y hy => ?_, fun y hy he => ?_⟩
    · rw [hv]
      rcases gap y hy with h | h
      · exact hlow y h
      · refine le_trans ?_ (hhigh y h)
        have : t ≤ 1 - t := by linarith
        gcongr
    · rw [hv] at he
      rcases gap y hy with h | h
      · left
        have h3 : x - y ≤ t * U := by rw [← he, abs_sub_comm]; exact le_abs_self _
        rw [hxt] at h3
        linarith
      · right
        have h3 := hhigh y h
        rw [he] at h3
        have h4 : 1 - t ≤ t := le_of_mul_le_mul_right h3 hUpos
        exact floating_even (by omega) (by omega) (h2 (by linarith)) hp
  rcases hup with ⟨rfl, h | ⟨h, h'⟩⟩ | ⟨rfl, h⟩
  · have := hupw h
    exact up this.le (fun h => by linarith)
  · have h3 := htie h
    have h4 : 0 ≤ 2 * δ / 2 ^ k := by positivity
    refine up (by linarith) fun h5 => ?_
    rcases h' with h' | h'
    · have : 0 < δ := lt_of_le_of_ne hδ (Ne.symm h')
      have : 0 < 2 * δ / 2 ^ k := by positivity
      linarith
    · omega
  · push Not at h
    rcases Nat.lt_or_ge (2 * r) (2 ^ k) with h1 | h1
    · have := hdown h1
      exact down this.le (fun h => by linarith)
    · have h2 : 2 * r = 2 ^ k := by omega
      have h3 := htie h2
      have h4 := h.2 h2
      have h5 : δ = 0 := h4.1
      rw [h5, mul_zero, zero_div] at h3
      refine down (by linarith) fun _ => ?_
      have := h4.2
      omega

theorem bits_spec {m : Nat} (h : m ≠ 0) : 2 ^ (bits m - 1) ≤ m ∧ m < 2 ^ bits m :=
  ⟨by simpa [bits] using Nat.log2_self_le h, Nat.lt_log2_self⟩

/-- Rounding a mantissa that goes on with `δ`. -/
theorem round_rounded {prec m : Nat} {e : ℤ} {sticky : Bool} {δ : ℚ} (hp : 1 < prec) (hδ : 0 ≤ δ) (hδ' : δ < 1)
    (hs : sticky = true ↔ δ ≠ 0) (hm : sticky = true → 2 ^ prec ≤ m) {m' : Nat} {e' : ℤ}
    (h : Fl.round prec m e sticky = .fin m' e') : Rounded prec ((m + δ) * 2 ^ e) (m' * 2 ^ e') := by
  unfold Fl.round at h
  split at h
  · rename_i hlt
    cases h
    have h0 : δ = 0 := by
      by_contra hne
      have := hm (hs.2 hne)
      omega
    subst h0
    rw [add_zero]
    exact Rounded.self ⟨m, e, hlt, rfl⟩
  · rename_i hge
    have hm0 : m ≠ 0 := by rintro rfl; exact hge (by positivity)
    obtain ⟨h1, h2⟩ := bits_spec hm0
    have h3 : prec < bits m := (Nat.pow_lt_pow_iff_right (by omega : 1 < 2)).1 (by omega)
    have key : ∀ q', q' = (if 2 * (m % 2 ^ (bits m - prec)) > 2 ^ (bits m - prec) ∨
        (2 * (m % 2 ^ (bits m - prec)) = 2 ^ (bits m - prec) ∧ (sticky = true ∨ m / 2 ^ (bits m - prec) % 2 = 1))
        then m / 2 ^ (bits m - prec) + 1 else m / 2 ^ (bits m - prec)) →
        Rounded prec ((m + δ) * 2 ^ e) (q' * 2 ^ (e + ((bits m - prec : Nat) : ℤ))) := by
      intro q' hq'
      refine floating_pos (m := m) (q := m / 2 ^ (bits m - prec)) (r := m % 2 ^ (bits m - prec)) hp _ δ hδ hδ' (by omega)
        (Nat.mod_lt _ (Nat.two_pow_pos _)) ?_ ?_ ?_ rfl _ ?_
      · rw [Nat.le_div_iff_mul_le (Nat.two_pow_pos _), ← Nat.pow_add,
          show prec - 1 + (bits m - prec) = bits m - 1 by omega]
        exact h1
      · rw [Nat.div_lt_iff_lt_mul (Nat.two_pow_pos _), ← Nat.pow_add, show prec + (bits m - prec) = bits m by omega]
        exact h2
      · rw [Nat.mul_comm]; exact (Nat.div_add_mod _ _).symm
      · rw [← hs, hq']
        split
        · rename_i h
          exact .inl ⟨rfl, h⟩
        · rename_i h
          exact .inr ⟨rfl, h⟩
    simp only at h
    generalize hq : (if 2 * (m % 2 ^ (bits m - prec)) > 2 ^ (bits m - prec) ∨
        (2 * (m % 2 ^ (bits m - prec)) = 2 ^ (bits m - prec) ∧ (sticky = true ∨ m / 2 ^ (bits m - prec) % 2 = 1))
        then m / 2 ^ (bits m - prec) + 1 else m / 2 ^ (bits m - prec)) = q' at h
    split at h
    · cases h
    · injection h with h4 h5
      subst h4; subst h5
      exact key _ hq.symm

/-- Bounds of the exponent from those of the value. -/
theorem exp_range {m : Nat} {e : ℤ} {δ x : ℚ} (hm : m ≠ 0) (hδ : 0 ≤ δ) (hδ' : δ < 1) (hx : x = (m + δ) * 2 ^ e)
    (hlo : (2 : ℚ) ^ minExp ≤ x) (hhi : x < 2 ^ (maxExp - 1)) : minExp < e + bits m ∧ e + bits m < maxExp := by
  obtain ⟨h1, h2⟩ := bits_spec hm
  have hpos := two_zpow_pos e
  have h3 : (2 : ℚ) ^ (e + bits m - 1) ≤ x := by
    have : ((2 ^ (bits m - 1) : Nat) : ℚ) ≤ m := by exact_mod_cast h1
    rw [show e + bits m - 1 = ((bits m - 1 : Nat) : ℤ) + e by simp [bits]; omega, zpow_add₀ (by norm_num), zpow_natCast, hx]
    push_cast at this
    have : (2 : ℚ) ^ (bits m - 1) ≤ m + δ := by linarith
    gcongr
  have h4 : x < (2 : ℚ) ^ (e + bits m) := by
    have : ((m + 1 : Nat) : ℚ) ≤ ((2 ^ bits m : Nat) : ℚ) := by exact_mod_cast h2
    push_cast at this
    rw [add_comm, zpow_add₀ (by norm_num), zpow_natCast, hx]
    have : (m : ℚ) + δ < 2 ^ bits m := by linarith
    gcongr
  constructor
  · exact (zpow_lt_zpow_iff_right₀ (by norm_num : (1 : ℚ) < 2)).1 (lt_of_le_of_lt hlo h4)
  · have := (zpow_lt_zpow_iff_right₀ (by norm_num : (1 : ℚ) < 2)).1 (lt_of_le_of_lt h3 hhi)
    omega

theorem round_fin {prec m : Nat} {e : ℤ} {sticky : Bool} (hp : 0 < prec) (hm : m ≠ 0) (he : e + bits m < maxExp) :
    ∃ m' e', Fl.round prec m e sticky = .fin m' e' ∧ m' ≠ 0 := by
  unfold Fl.round
  split
  · exact ⟨m, e, rfl, hm⟩
  · rename_i hge
    obtain ⟨h1, h2⟩ := bits_spec hm
    have hq : m / 2 ^ (bits m - prec) ≠ 0 := by
      have : 2 ^ (bits m - prec) ≤ m := le_trans (Nat.pow_le_pow_right (by omega) (by omega)) h1
      have := Nat.div_pos this (Nat.two_pow_pos _)
      omega
    simp only
    rw [if_neg (by omega)]
    refine ⟨_, _, rfl, ?_⟩
    split
    · exact Nat.succ_ne_zero _
    · exact hq

/-- A number in the middle of the range is rounded. -/
theorem setExp_ok {prec m : Nat} {e : ℤ} {sticky : Bool} {δ x : ℚ} (hp : 1 < prec) (hm : m ≠ 0) (hδ : 0 ≤ δ) (hδ' : δ < 1)
    (hs : sticky = true ↔ δ ≠ 0) (hsm : sticky = true → 2 ^ prec ≤ m) (hx : x = (m + δ) * 2 ^ e)
    (hlo : (2 : ℚ) ^ minExp ≤ x) (hhi : x < 2 ^ (maxExp - 1)) :
    ∃ m' e', setExpAndRound prec m e sticky = .fin m' e' ∧ m' ≠ 0 ∧ Rounded prec x (m' * 2 ^ e') := by
  obtain ⟨h1, h2⟩ := exp_range hm hδ hδ' hx hlo hhi
  obtain ⟨m', e', h3, h4⟩ := round_fin (prec := prec) (sticky := sticky) (by omega) hm h2
  refine ⟨m', e', ?_, h4, ?_⟩
  · rw [setExpAndRound, if_neg (by omega), if_neg (by omega), h3]
  · rw [hx]
    exact round_rounded hp hδ hδ' hs hsm h3

theorem mul_ok {prec m m' : Nat} {e e' : ℤ} (hp : 1 < prec) (hm : m ≠ 0) (hm' : m' ≠ 0)
    (hlo : (2 : ℚ) ^ minExp ≤ (m * 2 ^ e) * (m' * 2 ^ e')) (hhi : (m * 2 ^ e) * (m' * 2 ^ e') < (2 : ℚ) ^ (maxExp - 1)) :
    ∃ k l, mul prec (.fin m e) (.fin m' e') = .fin k l ∧ k ≠ 0 ∧ Rounded prec ((m * 2 ^ e) * (m' * 2 ^ e')) (k * 2 ^ l) := by
  refine setExp_ok (δ := 0) (x := (m * 2 ^ e) * (m' * 2 ^ e')) hp (Nat.mul_ne_zero hm hm') le_rfl (by norm_num) (by simp) (by simp) ?_ hlo hhi
  rw [zpow_add₀ (by norm_num)]
  push_cast
  ring

theorem words_spec (m : Nat) : bits m ≤ 64 * words m := by unfold words; omega

theorem pad_spec {m : Nat} (h : m ≠ 0) : 2 ^ (64 * words m - 1) ≤ m * 2 ^ pad m ∧ m * 2 ^ pad m < 2 ^ (64 * words m) := by
  obtain ⟨h1, h2⟩ := bits_spec h
  have h3 := words_spec m
  have h4 : 0 < bits m := by simp [bits]
  constructor
  · calc 2 ^ (64 * words m - 1) = 2 ^ (bits m - 1) * 2 ^ pad m := by rw [← Nat.pow_add]; congr 1; unfold pad; omega
      _ ≤ m * 2 ^ pad m := Nat.mul_le_mul_right _ h1
  · calc m * 2 ^ pad m < 2 ^ bits m * 2 ^ pad m := Nat.mul_lt_mul_of_pos_right h2 (Nat.two_pow_pos _)
      _ = 2 ^ (64 * words m) := by rw [← Nat.pow_add]; congr 1; unfold pad; omega

theorem quo_ok {prec m m' : Nat} {e e' : ℤ} (hp : 1 < prec) (hm : m ≠ 0) (hm' : m' ≠ 0)
    (hlo : (2 : ℚ) ^ minExp ≤ (m * 2 ^ e) / (m' * 2 ^ e')) (hhi : (m * 2 ^ e) / (m' * 2 ^ e') < (2 : ℚ) ^ (maxExp - 1)) :
    ∃ k l, quo prec (.fin m e) (.fin m' e') = .fin k l ∧ k ≠ 0 ∧ Rounded prec ((m * 2 ^ e) / (m' * 2 ^ e')) (k * 2 ^ l) := by
  simp only [quo]
  set y := m' * 2 ^ pad m' with hy
  set d := prec / 64 + 1 + words m' - words m with hd
  set x := m * 2 ^ pad m * 2 ^ (64 * d) with hx
  obtain ⟨hy1, hy2⟩ := pad_spec hm'
  obtain ⟨hx1, -⟩ := pad_spec hm
  have hy0 : 0 < y := Nat.mul_pos (Nat.pos_of_ne_zero hm') (Nat.two_pow_pos _)
  have hbig : 2 ^ prec ≤ x / y := by
    rw [Nat.le_div_iff_mul_le hy0]
    calc 2 ^ prec * y ≤ 2 ^ prec * 2 ^ (64 * words m') := Nat.mul_le_mul_left _ hy2.le
      _ = 2 ^ (prec + 64 * words m') := by rw [Nat.pow_add]
      _ ≤ 2 ^ (64 * words m - 1 + 64 * d) := Nat.pow_le_pow_right (by omega) (by
          have : 0 < words m := by unfold words bits; omega
          omega)
      _ = 2 ^ (64 * words m - 1) * 2 ^ (64 * d) := by rw [Nat.pow_add]
      _ ≤ x := Nat.mul_le_mul_right _ hx1
  have hyq : (y : ℚ) ≠ 0 := by exact_mod_cast hy0.ne'
  have hxy : (x : ℚ) = y * (x / y : Nat) + (x % y : Nat) := by exact_mod_cast (Nat.div_add_mod x y).symm
  refine setExp_ok (δ := ((x % y : Nat) : ℚ) / y) (x := (m * 2 ^ e) / (m' * 2 ^ e')) hp ?_ ?_ ?_ ?_ (fun _ => hbig) ?_ hlo hhi
  · have := Nat.two_pow_pos prec
    omega
  · exact div_nonneg (Nat.cast_nonneg _) (Nat.cast_nonneg _)
  · rw [div_lt_one (by exact_mod_cast hy0)]
    exact_mod_cast Nat.mod_lt x hy0
  · simp [hyq]
  · have h1 : (((x / y : Nat) : ℚ) + ((x % y : Nat) : ℚ) / y) = x / y := by
      rw [hxy]; field_simp
    rw [h1, hx, hy]
    push_cast
    rw [zpow_sub₀ (by norm_num), zpow_sub₀ (by norm_num), zpow_sub₀ (by norm_num), zpow_sub₀ (by norm_num)]
    have e1 : ((2 : ℚ) ^ ((64 : ℤ) * (d : ℤ))) = 2 ^ (64 * d) := by
      rw [← zpow_natCast]; push_cast; rfl
    rw [e1, zpow_natCast, zpow_natCast]
    field_simp

theorem Rounded.eq {p : Nat} {x v : ℚ} (h : Rounded p x v) (hx : Floating p x) : v = x := by
  have := h.near x hx
  simpa [sub_eq_zero] using this

/-- The error of rounding. -/
theorem Rounded.error {p : Nat} {x v : ℚ} (hp : 0 < p) (hx : 0 < x) (h : Rounded p x v) : |v - x| ≤ x / 2 ^ p := by
  obtain ⟨e, he1, he2⟩ := exists_mem_Ico_zpow hx (by norm_num : (1 : ℚ) < 2)
  set U : ℚ := 2 ^ (e + 1 - p) with hU
  have hUpos : 0 < U := two_zpow_pos _
  have hpU : 2 ^ p * U = 2 ^ (e + 1) := by
    rw [hU, zpow_sub₀ (by norm_num), zpow_natCast]
    field_simp
  have hq1 := Nat.floor_le (div_nonneg hx.le hUpos.le)
  have hq2 := Nat.lt_floor_add_one (x / U)
  set q := ⌊x / U⌋₊ with hq
  rw [le_div_iff₀ hUpos] at hq1
  rw [div_lt_iff₀ hUpos] at hq2
  have hqp : q < 2 ^ p := by
    have : (q : ℚ) * U < 2 ^ p * U := by rw [hpU]; linarith
    exact_mod_cast lt_of_mul_lt_mul_right this hUpos.le
  have hUx : U / 2 ≤ x / 2 ^ p := by
    rw [le_div_iff₀ (by positivity)]
    have : U / 2 * 2 ^ p = 2 ^ e := by
      rw [show U / 2 * 2 ^ p = (2 ^ p * U) / 2 by ring, hpU, zpow_add_one₀ (by norm_num)]
      field_simp
    linarith
  rcases le_total (x - q * U) (U / 2) with h1 | h1
  · refine (h.near (q * U) (floating_carry hp hqp.le)).trans (le_trans ?_ hUx)
    rw [abs_sub_comm, abs_of_nonneg (by linarith)]
    exact h1
  · refine (h.near ((q + 1 : Nat) * U) (floating_carry hp hqp)).trans (le_trans ?_ hUx)
    push_cast
    rw [abs_of_nonneg (by linarith)]
    linarith

theorem Floating.pow5 {p n : Nat} (h : 5 ^ n < 2 ^ p) : Floating p (5 ^ n) := ⟨5 ^ n, 0, h, by simp⟩

theorem one_ge_min : (2 : ℚ) ^ minExp ≤ 1 := zpow_le_one_of_nonpos₀ (by norm_num) (by unfold minExp; omega)

theorem lt_max {x : ℚ} {n : Nat} (hx : x ≤ 2 ^ n) (hn : n ≤ 2 ^ 31 - 3) : x < 2 ^ (maxExp - 1) := by
  refine lt_of_le_of_lt hx ?_
  rw [← zpow_natCast]
  refine zpow_lt_zpow_right₀ (by norm_num) ?_
  unfold maxExp
  omega

/-! ### Exact powers of 5 -/

theorem pow5Loop_exact {prec : Nat} (hp : 1 < prec) : ∀ (fuel n a b : Nat) (z f : Fl), n ≤ fuel → prec ≤ 2 ^ 29 →
    (∃ m e, z = .fin m e ∧ m ≠ 0 ∧ (m * 2 ^ e : ℚ) = 5 ^ a) →
    (0 < n → ∃ m e, f = .fin m e ∧ m ≠ 0 ∧ (m * 2 ^ e : ℚ) = 5 ^ b) → 0 < b → 5 ^ (a + b * n) < 2 ^ prec →
    ∃ m e, pow5Loop prec fuel n z f = .fin m e ∧ m ≠ 0 ∧ (m * 2 ^ e : ℚ) = 5 ^ (a + b * n) := by
  intro fuel
  induction fuel with
  | zero =>
    intro n a b z f hn _ hz _ _ _
    obtain rfl : n = 0 := by omega
    simpa [pow5Loop] using hz
  | succ fuel ih =>
    intro n a b z f hn hprec hz hf hb hlt
    rw [pow5Loop]
    by_cases h0 : n = 0
    · subst h0
      simpa using hz
    rw [if_pos (by omega)]
    obtain ⟨fm, fe, rfl, hfm, hfv⟩ := hf (by omega)
    obtain ⟨zm, ze, rfl, hzm, hzv⟩ := hz
    have fits : ∀ k, k ≤ a + b * n → (5 : ℚ) ^ k ≤ 2 ^ prec ∧ (5 : ℕ) ^ k < 2 ^ prec := by
      intro k hk
      have h1 : 5 ^ k ≤ 5 ^ (a + b * n) := Nat.pow_le_pow_right (by omega) hk
      have h2 : 5 ^ k < 2 ^ prec := by omega
      exact ⟨by exact_mod_cast h2.le, h2⟩
    have hbn : b ≤ b * n := Nat.le_mul_of_pos_right _ (by omega)
    have hge : ∀ k, (2 : ℚ) ^ minExp ≤ 5 ^ k := fun k => one_ge_min.trans (one_le_pow₀ (by norm_num))
    -- the square of `f`
    have hsq : 0 < n / 2 → ∃ m e, mul (prec + 64) (.fin fm fe) (.fin fm fe) = .fin m e ∧ m ≠ 0 ∧
        (m * 2 ^ e : ℚ) = 5 ^ (2 * b) := by
      intro h2
      have hv : ((fm : ℚ) * 2 ^ fe) * (fm * 2 ^ fe) = 5 ^ (2 * b) := by rw [hfv, ← pow_add]; congr 1; omega
      have hk : 2 * b ≤ a + b * n := by
        have : 2 * b ≤ b * n := by rw [Nat.mul_comm]; exact Nat.mul_le_mul_left _ (by omega)
        omega
      obtain ⟨m, e, h3, h4, h5⟩ := mul_ok (prec := prec + 64) (e := fe) (e' := fe) (by omega) hfm hfm (by rw [hv]; exact hge _)
        (by rw [hv]; exact lt_max (fits _ hk).1 (by omega))
      refine ⟨m, e, h3, h4, ?_⟩
      rw [hv] at h5
      exact h5.eq (Floating.pow5 (lt_of_lt_of_le (fits _ hk).2 (Nat.pow_le_pow_right (by omega) (by omega))))
    by_cases hodd : n % 2 = 1
    · rw [if_pos hodd]
      have hv : ((zm : ℚ) * 2 ^ ze) * (fm * 2 ^ fe) = 5 ^ (a + b) := by rw [hzv, hfv, ← pow_add]
      obtain ⟨m, e, h3, h4, h5⟩ := mul_ok (prec := prec) (e := ze) (e' := fe) hp hzm hfm (by rw [hv]; exact hge _)
        (by rw [hv]; exact lt_max (fits _ (by omega)).1 (by omega))
      rw [hv] at h5
      have hex : a + b + 2 * b * (n / 2) = a + b * n := by
        conv_rhs => rw [show n = 2 * (n / 2) + 1 by omega]
        ring
      have := ih (n / 2) (a + b) (2 * b) _ _ (by omega) hprec ⟨m, e, h3, h4, h5.eq (Floating.pow5 (fits _ (by omega)).2)⟩ hsq
        (by omega) (by rw [hex]; exact hlt)
      rwa [hex] at this
    · rw [if_neg hodd]
      have hex : a + 2 * b * (n / 2) = a + b * n := by
        conv_rhs => rw [show n = 2 * (n / 2) by omega]
        ring
      have := ih (n / 2) a (2 * b) _ _ (by omega) hprec ⟨zm, ze, rfl, hzm, hzv⟩ hsq (by omega) (by rw [hex]; exact hlt)
      rwa [hex] at this

theorem pow5_exact {prec n : Nat} (hp : 1 < prec) (hprec : prec ≤ 2 ^ 29) (h : 5 ^ n < 2 ^ prec) :
    ∃ m e, pow5 prec n = .fin m e ∧ m ≠ 0 ∧ (m * 2 ^ e : ℚ) = 5 ^ n := by
  unfold pow5
  split
  · exact ⟨_, _, rfl, by positivity, by simp⟩
  · have := pow5Loop_exact hp (n - 27) (n - 27) 27 1 (.fin (5 ^ 27) 0) (.fin 5 0) le_rfl hprec
      ⟨_, _, rfl, by norm_num, by norm_num⟩ (fun _ => ⟨_, _, rfl, by norm_num, by norm_num⟩) (by omega)
      (by rwa [show 27 + 1 * (n - 27) = n by omega])
    rwa [show 27 + 1 * (n - 27) = n by omega] at this

/-! ### All powers of 5 -/

/-- `x` is `5^n` up to `j` roundings to `p` bits. -/
def Near (p j n : Nat) (x : ℚ) : Prop := (1 - 1 / 2 ^ p) ^ j * 5 ^ n ≤ x ∧ x ≤ (1 + 1 / 2 ^ p) ^ j * 5 ^ n

theorem unit_bound {p : Nat} (hp : 2 ≤ p) : (0 : ℚ) < 1 / 2 ^ p ∧ (1 : ℚ) / 2 ^ p ≤ 1 / 4 := by
  refine ⟨by positivity, ?_⟩
  have : (2 : ℚ) ^ 2 ≤ 2 ^ p := pow_le_pow_right₀ (by norm_num) hp
  rw [show (1 : ℚ) / 4 = 1 / 2 ^ 2 by norm_num]
  gcongr

theorem Near.range {p j n : Nat} {x : ℚ} (hp : 2 ≤ p) (hj : j ≤ n) (h : Near p j n x) : 1 ≤ x ∧ x ≤ 2 ^ (3 * n) := by
  obtain ⟨h0, h1⟩ := unit_bound hp
  constructor
  · refine le_trans ?_ h.1
    have h2 : (1 - 1 / 2 ^ p : ℚ) ^ n ≤ (1 - 1 / 2 ^ p) ^ j := pow_le_pow_of_le_one (by linarith) (by linarith) hj
    calc (1 : ℚ) ≤ ((1 - 1 / 2 ^ p) * 5) ^ n := one_le_pow₀ (by linarith)
      _ = (1 - 1 / 2 ^ p) ^ n * 5 ^ n := mul_pow _ _ _
      _ ≤ _ := by gcongr
  · refine le_trans h.2 ?_
    have h2 : (1 + 1 / 2 ^ p : ℚ) ^ j ≤ (1 + 1 / 2 ^ p) ^ n := pow_le_pow_right₀ (by linarith) hj
    calc (1 + 1 / 2 ^ p : ℚ) ^ j * 5 ^ n ≤ (1 + 1 / 2 ^ p) ^ n * 5 ^ n := by gcongr
      _ = ((1 + 1 / 2 ^ p) * 5) ^ n := (mul_pow _ _ _).symm
      _ ≤ 8 ^ n := by
        gcongr
        linarith
      _ = 2 ^ (3 * n) := by rw [pow_mul]; norm_num

theorem Near.mul {p j n j' n' : Nat} {x y v : ℚ} (hp : 2 ≤ p) (hx : Near p j n x) (hy : Near p j' n' y) (hx1 : 1 ≤ x)
    (hy1 : 1 ≤ y) (hv : |v - x * y| ≤ x * y / 2 ^ p) : Near p (j + j' + 1) (n + n') v := by
  obtain ⟨h0, h1⟩ := unit_bound hp
  obtain ⟨h2, h3⟩ := abs_le.1 hv
  have e1 : x * y / 2 ^ p = 1 / 2 ^ p * (x * y) := by ring
  rw [e1] at h2 h3
  have hu : 0 ≤ (1 - 1 / 2 ^ p : ℚ) := by linarith
  constructor
  · calc (1 - 1 / 2 ^ p : ℚ) ^ (j + j' + 1) * 5 ^ (n + n')
        = (1 - 1 / 2 ^ p) * (((1 - 1 / 2 ^ p) ^ j * 5 ^ n) * ((1 - 1 / 2 ^ p) ^ j' * 5 ^ n')) := by ring
      _ ≤ (1 - 1 / 2 ^ p) * (x * y) := by
        have := hx.1
        have := hy.1
        gcongr
      _ ≤ v := by linarith
  · calc v ≤ (1 + 1 / 2 ^ p) * (x * y) := by linarith
      _ ≤ (1 + 1 / 2 ^ p) * (((1 + 1 / 2 ^ p) ^ j * 5 ^ n) * ((1 + 1 / 2 ^ p) ^ j' * 5 ^ n')) := by
        have := hx.2
        have := hy.2
        gcongr
      _ = _ := by ring

theorem Near.mono {p j j' n : Nat} {x : ℚ} (hp : 2 ≤ p) (h : Near p j n x) (hj : j ≤ j') : Near p j' n x := by
  obtain ⟨h0, h1⟩ := unit_bound hp
  constructor
  · refine le_trans ?_ h.1
    have : (1 - 1 / 2 ^ p : ℚ) ^ j' ≤ (1 - 1 / 2 ^ p) ^ j := pow_le_pow_of_le_one (by linarith) (by linarith) hj
    gcongr
  · refine le_trans h.2 ?_
    have : (1 + 1 / 2 ^ p : ℚ) ^ j ≤ (1 + 1 / 2 ^ p) ^ j' := pow_le_pow_right₀ (by linarith) hj
    gcongr

theorem pow5Loop_near {prec : Nat} (hp : 2 ≤ prec) : ∀ (fuel n a b : Nat) (z f : Fl), n ≤ fuel →
    (∃ m e, z = .fin m e ∧ m ≠ 0 ∧ Near prec a (27 + a) (m * 2 ^ e : ℚ)) →
    (0 < n → ∃ m e, f = .fin m e ∧ m ≠ 0 ∧ Near prec (b - 1) b (m * 2 ^ e : ℚ)) → 0 < b → 27 + a + b * n ≤ 2 ^ 28 →
    ∃ m e, pow5Loop prec fuel n z f = .fin m e ∧ m ≠ 0 ∧ Near prec (a + b * n) (27 + a + b * n) (m * 2 ^ e : ℚ) := by
  intro fuel
  induction fuel with
  | zero =>
    intro n a b z f hn hz _ _ _
    obtain rfl : n = 0 := by omega
    simpa [pow5Loop] using hz
  | succ fuel ih =>
    intro n a b z f hn hz hf hb hlt
    rw [pow5Loop]
    by_cases h0 : n = 0
    · subst h0
      simpa using hz
    rw [if_pos (by omega)]
    obtain ⟨fm, fe, rfl, hfm, hfv⟩ := hf (by omega)
    obtain ⟨zm, ze, rfl, hzm, hzv⟩ := hz
    have hbn : b ≤ b * n := Nat.le_mul_of_pos_right _ (by omega)
    have hf1 := hfv.range hp (by omega)
    have hz1 := hzv.range hp (by omega)
    -- the square of `f`
    have hsq : 0 < n / 2 → ∃ m e, mul (prec + 64) (.fin fm fe) (.fin fm fe) = .fin m e ∧ m ≠ 0 ∧
        Near prec (2 * b - 1) (2 * b) (m * 2 ^ e : ℚ) := by
      intro h2
      have hv1 : 1 ≤ ((fm : ℚ) * 2 ^ fe) * (fm * 2 ^ fe) := by nlinarith [hf1.1]
      have hv2 : ((fm : ℚ) * 2 ^ fe) * (fm * 2 ^ fe) ≤ 2 ^ (3 * b + 3 * b) := by
        rw [pow_add]
        have := hf1.2
        gcongr
      have hk : 2 * b ≤ b * n := by rw [Nat.mul_comm]; exact Nat.mul_le_mul_left _ (by omega)
      obtain ⟨m, e, h3, h4, h5⟩ := mul_ok (prec := prec + 64) (e := fe) (e' := fe) (by omega) hfm hfm (one_ge_min.trans hv1)
        (lt_max hv2 (by omega))
      refine ⟨m, e, h3, h4, ?_⟩
      have h6 := h5.error (by omega) (by linarith)
      have h7 : ((fm : ℚ) * 2 ^ fe) * (fm * 2 ^ fe) / 2 ^ (prec + 64) ≤ ((fm : ℚ) * 2 ^ fe) * (fm * 2 ^ fe) / 2 ^ prec := by
        have : (2 : ℚ) ^ prec ≤ 2 ^ (prec + 64) := pow_le_pow_right₀ (by norm_num) (by omega)
        gcongr
      have h8 := hfv.mul hp hfv hf1.1 hf1.1 (h6.trans h7)
      rwa [show b - 1 + (b - 1) + 1 = 2 * b - 1 by omega, show b + b = 2 * b by omega] at h8
    by_cases hodd : n % 2 = 1
    · rw [if_pos hodd]
      have hv1 : 1 ≤ ((zm : ℚ) * 2 ^ ze) * (fm * 2 ^ fe) := by nlinarith [hf1.1, hz1.1]
      have hv2 : ((zm : ℚ) * 2 ^ ze) * (fm * 2 ^ fe) ≤ 2 ^ (3 * (27 + a) + 3 * b) := by
        rw [pow_add]
        have := hf1.2
        have := hz1.2
        gcongr
      obtain ⟨m, e, h3, h4, h5⟩ := mul_ok (prec := prec) (e := ze) (e' := fe) (by omega) hzm hfm (one_ge_min.trans hv1)
        (lt_max hv2 (by omega))
      have h6 := hzv.mul hp hfv hz1.1 hf1.1 (h5.error (by omega) (by linarith))
      rw [show a + (b - 1) + 1 = a + b by omega, show 27 + a + b = 27 + (a + b) by omega] at h6
      have hex : a + b + 2 * b * (n / 2) = a + b * n := by
        conv_rhs => rw [show n = 2 * (n / 2) + 1 by omega]
        ring
      have := ih (n / 2) (a + b) (2 * b) _ _ (by omega) ⟨m, e, h3, h4, h6⟩ hsq (by omega) (by omega)
      rwa [hex, show 27 + (a + b) + 2 * b * (n / 2) = 27 + a + b * n by omega] at this
    · rw [if_neg hodd]
      have hex : a + 2 * b * (n / 2) = a + b * n := by
        conv_rhs => rw [show n = 2 * (n / 2) by omega]
        ring
      have := ih (n / 2) a (2 * b) _ _ (by omega) ⟨zm, ze, rfl, hzm, hzv⟩ hsq (by omega) (by omega)
      rwa [hex, show 27 + a + 2 * b * (n / 2) = 27 + a + b * n by omega] at this

theorem pow5_near {prec n : Nat} (hp : 2 ≤ prec) (h : n ≤ 2 ^ 28) :
    ∃ m e, pow5 prec n = .fin m e ∧ m ≠ 0 ∧ Near prec n n (m * 2 ^ e : ℚ) := by
  have exact : ∀ k, Near prec 0 k ((5 ^ k : Nat) * 2 ^ (0 : ℤ) : ℚ) := fun k => by simp [Near]
  unfold pow5
  split
  · exact ⟨_, _, rfl, by positivity, (exact n).mono hp (by omega)⟩
  · obtain ⟨m, e, h1, h2, h3⟩ := pow5Loop_near hp (n - 27) (n - 27) 0 1 (.fin (5 ^ 27) 0) (.fin 5 0) le_rfl
      ⟨_, _, rfl, by norm_num, exact 27⟩ (fun _ => ⟨_, _, rfl, by norm_num, by simpa using exact 1⟩) (by omega) (by omega)
    rw [show 27 + 0 + 1 * (n - 27) = n by omega] at h3
    exact ⟨m, e, h1, h2, h3.mono hp (by omega)⟩

/-! ### Literals -/

theorem ge_min {x : ℚ} {n : Nat} (hn : n ≤ 2 ^ 31) (hx : 1 / 2 ^ n ≤ x) : (2 : ℚ) ^ minExp ≤ x := by
  refine le_trans ?_ hx
  rw [one_div, ← zpow_natCast, ← zpow_neg]
  refine zpow_le_zpow_right₀ (by norm_num) ?_
  unfold minExp
  omega

theorem mant_lt (m : Nat) : (m : ℚ) ≤ 2 ^ bits m := by
  have h1 : m < 2 ^ bits m := Nat.lt_log2_self
  exact_mod_cast h1.le

/-- Literals whose last digit is at most 50 places from the point. -/
theorem scanValue_rounded {mant frac : Nat} {ex : Option (Int × Nat)} {x : ℤ} (hb : ∀ p ∈ ex, p.2 = 10) (hm : mant ≠ 0)
    (hbits : bits mant ≤ 2 ^ 29) (hx : x = (ex.map (·.1)).getD 0 - frac) (hlo : -50 ≤ x) (hhi : x ≤ 50) :
    ∃ m e, scanValue 53 mant 10 frac ex = some (.fin m e) ∧ Rounded 53 (mant * 10 ^ x) (m * 2 ^ e) := by
  have heb : (ex.map (·.2)).getD 10 = 10 := by
    cases ex with
    | none => rfl
    | some p => exact hb p rfl
  have hm1 : (1 : ℚ) ≤ mant := by exact_mod_cast Nat.pos_of_ne_zero hm
  have hmlt := mant_lt mant
  simp only [scanValue, heb, if_true, digitBits]
  rw [show -(frac : ℤ) + (ex.map (·.1)).getD 0 = x by rw [hx]; ring]
  rw [show (ex.map (·.1)).getD 0 - (((if 10 = 8 then 3 else if 10 = 16 then 4 else 1) * frac : Nat) : ℤ) = x by
    rw [hx]; simp]
  rw [if_pos ⟨by unfold minExp; omega, by unfold maxExp; omega⟩]
  have pow5 : ∀ n : Nat, n ≤ 50 → ∃ m e, Fl.pow5 (53 + 64) n = .fin m e ∧ m ≠ 0 ∧ (m * 2 ^ e : ℚ) = 5 ^ n := by
    intro n hn
    refine pow5_exact (by norm_num) (by norm_num) (lt_of_le_of_lt (Nat.pow_le_pow_right (by norm_num) hn) (by norm_num))
  have h5 : ∀ n : Nat, (1 : ℚ) ≤ 5 ^ n ∧ (5 : ℚ) ^ n ≤ 2 ^ (3 * n) := fun n =>
    ⟨one_le_pow₀ (by norm_num), by rw [pow_mul]; exact pow_le_pow_left₀ (by norm_num) (by norm_num) n⟩
  split
  · rename_i h0
    obtain ⟨m, e, h1, h2⟩ := round_fin (prec := 53) (sticky := false) (e := x) (by omega) hm (by unfold maxExp; omega)
    refine ⟨m, e, by rw [h1], ?_⟩
    have := round_rounded (δ := 0) (by norm_num) le_rfl (by norm_num) (by simp) (by simp) h1
    rw [h0] at this ⊢
    simpa using this
  split
  · obtain ⟨n, rfl⟩ : ∃ n : Nat, x = -(n : ℤ) := ⟨(-x).toNat, by omega⟩
    rw [show (-(-(n : ℤ))).toNat = n by omega]
    obtain ⟨m', e', h1, h2, h3⟩ := pow5 n (by omega)
    rw [h1]
    have hv : (mant : ℚ) * 2 ^ (-(n : ℤ)) / (m' * 2 ^ e') = mant * 10 ^ (-(n : ℤ)) := by
      rw [h3, zpow_neg, zpow_neg, zpow_natCast, zpow_natCast, show (10 : ℚ) = 2 * 5 by norm_num, mul_pow]
      field_simp
    have hv' : (mant : ℚ) * 2 ^ (-(n : ℤ)) / (m' * 2 ^ e') = mant / (2 ^ n * 5 ^ n) := by
      rw [h3, zpow_neg, zpow_natCast]
      field_simp
    obtain ⟨m, e, h4, -, h6⟩ := quo_ok (prec := 53) (e := -(n : ℤ)) (e' := e') (by norm_num) hm h2 (by
      rw [hv']
      refine ge_min (n := 4 * n) (by omega) ?_
      have := (h5 n).2
      calc (1 : ℚ) / 2 ^ (4 * n) = 1 / (2 ^ n * 2 ^ (3 * n)) := by rw [← pow_add]; congr 2; omega
        _ ≤ mant / (2 ^ n * 5 ^ n) := by gcongr) (by
      rw [hv']
      refine lt_max (n := bits mant) ?_ (by omega)
      refine le_trans (div_le_self (by positivity) ?_) hmlt
      exact one_le_mul_of_one_le_of_one_le (one_le_pow₀ (by norm_num)) (h5 n).1)
    rw [hv] at h6
    exact ⟨m, e, by rw [h4], h6⟩
  · obtain ⟨n, rfl⟩ : ∃ n : Nat, x = (n : ℤ) := ⟨x.toNat, by omega⟩
    rw [show ((n : ℤ)).toNat = n by omega]
    obtain ⟨m', e', h1, h2, h3⟩ := pow5 n (by omega)
    rw [h1]
    have hv : (mant : ℚ) * 2 ^ (n : ℤ) * (m' * 2 ^ e') = mant * 10 ^ (n : ℤ) := by
      rw [h3, zpow_natCast, zpow_natCast, show (10 : ℚ) = 2 * 5 by norm_num, mul_pow]
      ring
    have hv' : (mant : ℚ) * 2 ^ (n : ℤ) * (m' * 2 ^ e') = mant * (2 ^ n * 5 ^ n) := by
      rw [h3, zpow_natCast]
      ring
    obtain ⟨m, e, h4, -, h6⟩ := mul_ok (prec := 53) (e := (n : ℤ)) (e' := e') (by norm_num) hm h2 (by
      rw [hv']
      refine one_ge_min.trans ?_
      exact one_le_mul_of_one_le_of_one_le hm1 (one_le_mul_of_one_le_of_one_le (one_le_pow₀ (by norm_num)) (h5 n).1)) (by
      rw [hv']
      refine lt_max (n := bits mant + (n + 3 * n)) ?_ (by omega)
      rw [pow_add, pow_add]
      have := (h5 n).2
      gcongr)
    rw [hv] at h6
    exact ⟨m, e, by rw [h4], h6⟩

/-- All literals: the error. -/
theorem near_bounds {n : Nat} {p : ℚ} (hn : n ≤ 2 ^ 28) (h : Near 117 n n p) :
    (1 - 1 / 2 ^ 89) * 5 ^ n ≤ p ∧ p ≤ (1 + 1 / 2 ^ 88) * 5 ^ n := by
  have h1 : (1 : ℚ) - 1 / 2 ^ 89 ≤ (1 - 1 / 2 ^ 117) ^ n := by
    have h := one_add_mul_le_pow (a := (-(1 / 2 ^ 117) : ℚ)) (by norm_num) n
    have h' : (n : ℚ) ≤ 2 ^ 28 := by exact_mod_cast hn
    have h'' : (n : ℚ) * (1 / 2 ^ 117) ≤ 2 ^ 28 * (1 / 2 ^ 117) := by gcongr
    have e1 : (2 : ℚ) ^ 28 * (1 / 2 ^ 117) = 1 / 2 ^ 89 := by norm_num
    rw [e1] at h''
    have e2 : (1 : ℚ) + -(1 / 2 ^ 117) = 1 - 1 / 2 ^ 117 := by ring
    rw [e2] at h
    linarith
  have h2 : ((1 : ℚ) + 1 / 2 ^ 117) ^ n ≤ 1 + 1 / 2 ^ 88 := by
    have h3 : ((1 : ℚ) + 1 / 2 ^ 117) ^ n * (1 - 1 / 2 ^ 117) ^ n ≤ 1 := by
      rw [← mul_pow]
      exact pow_le_one₀ (by norm_num) (by norm_num)
    have h4 : (0 : ℚ) < (1 + 1 / 2 ^ 117) ^ n := by positivity
    have h5 : ((1 : ℚ) + 1 / 2 ^ 117) ^ n * (1 - 1 / 2 ^ 89) ≤ 1 := le_trans (by gcongr) h3
    have h6 : (1 : ℚ) ≤ (1 + 1 / 2 ^ 88) * (1 - 1 / 2 ^ 89) := by norm_num
    have h7 : (0 : ℚ) < 1 - 1 / 2 ^ 89 := by norm_num
    exact le_of_mul_le_mul_right (h5.trans h6) h7
  constructor
  · refine le_trans ?_ h.1
    gcongr
  · refine le_trans h.2 ?_
    gcongr

theorem scanValue_close {mant frac : Nat} {ex : Option (Int × Nat)} {x : ℤ} (hb : ∀ p ∈ ex, p.2 = 10) (hm : mant ≠ 0)
    (hbits : bits mant ≤ 2 ^ 29) (hx : x = (ex.map (·.1)).getD 0 - frac) (hlo : -2 ^ 28 ≤ x) (hhi : x ≤ 2 ^ 28) :
    ∃ m e, scanValue 53 mant 10 frac ex = some (.fin m e) ∧ Floating 53 (m * 2 ^ e) ∧
      |(m : ℚ) * 2 ^ e - mant * 10 ^ x| ≤ (1 / 2 ^ 53 + 1 / 2 ^ 80) * (mant * 10 ^ x) := by
  have heb : (ex.map (·.2)).getD 10 = 10 := by
    cases ex with
    | none => rfl
    | some p => exact hb p rfl
  have hm1 : (1 : ℚ) ≤ mant := by exact_mod_cast Nat.pos_of_ne_zero hm
  have hmlt := mant_lt mant
  simp only [scanValue, heb, if_true, digitBits]
  rw [show -(frac : ℤ) + (ex.map (·.1)).getD 0 = x by rw [hx]; ring]
  rw [show (ex.map (·.1)).getD 0 - (((if 10 = 8 then 3 else if 10 = 16 then 4 else 1) * frac : Nat) : ℤ) = x by
    rw [hx]; simp]
  rw [if_pos ⟨by unfold minExp; omega, by unfold maxExp; omega⟩]
  have pow5 : ∀ n : Nat, n ≤ 2 ^ 28 → ∃ m e, Fl.pow5 (53 + 64) n = .fin m e ∧ m ≠ 0 ∧ Near 117 n n (m * 2 ^ e : ℚ) :=
    fun n hn => pow5_near (by norm_num) hn
  -- from an error of `y` to one of `N`
  have close : ∀ {y N v : ℚ}, 0 < N → 0 < y → |y - N| ≤ 1 / 2 ^ 87 * N → Rounded 53 y v →
      |v - N| ≤ (1 / 2 ^ 53 + 1 / 2 ^ 80) * N := by
    intro y N v hN hy h1 h2
    have h3 := h2.error (by norm_num) hy
    have h4 : y ≤ (1 + 1 / 2 ^ 87) * N := by linarith [le_abs_self (y - N)]
    have h5 : |v - N| ≤ |v - y| + |y - N| := abs_sub_le v y N
    have h6 : y / 2 ^ 53 ≤ (1 + 1 / 2 ^ 87) * N / 2 ^ 53 := by gcongr
    have h7 : (1 + 1 / 2 ^ 87) * N / 2 ^ 53 + 1 / 2 ^ 87 * N ≤ (1 / 2 ^ 53 + 1 / 2 ^ 80) * N := by
      rw [show (1 + 1 / 2 ^ 87) * N / 2 ^ 53 + 1 / 2 ^ 87 * N = ((1 + 1 / 2 ^ 87) / 2 ^ 53 + 1 / 2 ^ 87) * N by ring]
      gcongr ?_ * N
      norm_num
    linarith
  split
  · rename_i h0
    obtain ⟨m, e, h1, h2⟩ := round_fin (prec := 53) (sticky := false) (e := x) (by omega) hm (by unfold maxExp; omega)
    have h3 := round_rounded (δ := 0) (by norm_num) le_rfl (by norm_num) (by simp) (by simp) h1
    refine ⟨m, e, by rw [h1], h3.floating, ?_⟩
    rw [h0] at h3 ⊢
    rw [zpow_zero, mul_one]
    rw [zpow_zero, mul_one, add_zero] at h3
    exact close (by linarith) (by linarith) (by simp) h3
  split
  · obtain ⟨n, rfl⟩ : ∃ n : Nat, x = -(n : ℤ) := ⟨(-x).toNat, by omega⟩
    rw [show (-(-(n : ℤ))).toNat = n by omega]
    obtain ⟨m', e', h1, h2, h3⟩ := pow5 n (by omega)
    rw [h1]
    obtain ⟨h4, h5⟩ := near_bounds (by omega) h3
    obtain ⟨hp1, hp2⟩ := h3.range (by norm_num) le_rfl
    set p : ℚ := m' * 2 ^ e' with hp
    have hN : (mant : ℚ) * 10 ^ (-(n : ℤ)) = mant / (2 ^ n * 5 ^ n) := by
      rw [zpow_neg, zpow_natCast, show (10 : ℚ) = 2 * 5 by norm_num, mul_pow]
      field_simp
    have hv' : (mant : ℚ) * 2 ^ (-(n : ℤ)) / p = mant / (2 ^ n * p) := by
      rw [zpow_neg, zpow_natCast]
      field_simp
    obtain ⟨m, e, h6, -, h7⟩ := quo_ok (prec := 53) (e := -(n : ℤ)) (e' := e') (by norm_num) hm h2 (by
      rw [← hp, hv']
      refine ge_min (n := 4 * n) (by omega) ?_
      calc (1 : ℚ) / 2 ^ (4 * n) = 1 / (2 ^ n * 2 ^ (3 * n)) := by rw [← pow_add]; congr 2; omega
        _ ≤ mant / (2 ^ n * p) := by gcongr) (by
      rw [← hp, hv']
      refine lt_max (n := bits mant) ?_ (by omega)
      refine le_trans (div_le_self (by positivity) ?_) hmlt
      exact one_le_mul_of_one_le_of_one_le (one_le_pow₀ (by norm_num)) hp1)
    refine ⟨m, e, by rw [h6], h7.floating, ?_⟩
    rw [← hp] at h7
    refine close (by positivity) (by positivity) ?_ h7
    rw [hN, hv']
    have hpos : (0 : ℚ) < 5 ^ n := by positivity
    have e1 : (mant : ℚ) / (2 ^ n * p) - mant / (2 ^ n * 5 ^ n) = mant / (2 ^ n * 5 ^ n) * ((5 ^ n - p) / p) := by
      field_simp
    rw [e1, abs_mul, abs_of_pos (by positivity : (0 : ℚ) < mant / (2 ^ n * 5 ^ n)), mul_comm]
    gcongr
    rw [abs_div, abs_of_pos (by linarith : (0 : ℚ) < p), div_le_iff₀ (by linarith)]
    rw [abs_le]
    have h8 : (1 : ℚ) / 2 ^ 87 * ((1 - 1 / 2 ^ 89) * 5 ^ n) ≤ 1 / 2 ^ 87 * p := by gcongr
    have h9 : (1 : ℚ) / 2 ^ 88 * 5 ^ n ≤ 1 / 2 ^ 87 * ((1 - 1 / 2 ^ 89) * 5 ^ n) := by
      rw [← mul_assoc]
      gcongr
      norm_num
    have h10 : (1 : ℚ) / 2 ^ 89 * 5 ^ n ≤ 1 / 2 ^ 88 * 5 ^ n := by gcongr <;> norm_num
    constructor <;> linarith
  · obtain ⟨n, rfl⟩ : ∃ n : Nat, x = (n : ℤ) := ⟨x.toNat, by omega⟩
    rw [show ((n : ℤ)).toNat = n by omega]
    obtain ⟨m', e', h1, h2, h3⟩ := pow5 n (by omega)
    rw [h1]
    obtain ⟨h4, h5⟩ := near_bounds (by omega) h3
    obtain ⟨hp1, hp2⟩ := h3.range (by norm_num) le_rfl
    set p : ℚ := m' * 2 ^ e' with hp
    have hN : (mant : ℚ) * 10 ^ (n : ℤ) = mant * 2 ^ n * 5 ^ n := by
      rw [zpow_natCast, show (10 : ℚ) = 2 * 5 by norm_num, mul_pow]
      ring
    have hv' : (mant : ℚ) * 2 ^ (n : ℤ) * p = mant * 2 ^ n * p := by rw [zpow_natCast]
    obtain ⟨m, e, h6, -, h7⟩ := mul_ok (prec := 53) (e := (n : ℤ)) (e' := e') (by norm_num) hm h2 (by
      rw [← hp, hv']
      refine one_ge_min.trans ?_
      exact one_le_mul_of_one_le_of_one_le (one_le_mul_of_one_le_of_one_le hm1 (one_le_pow₀ (by norm_num))) hp1) (by
      rw [← hp, hv']
      refine lt_max (n := bits mant + n + 3 * n) ?_ (by omega)
      rw [pow_add, pow_add]
      gcongr)
    refine ⟨m, e, by rw [h6], h7.floating, ?_⟩
    rw [← hp] at h7
    refine close (by positivity) (by positivity) ?_ h7
    rw [hN, hv', ← mul_sub, abs_mul, abs_of_pos (by positivity : (0 : ℚ) < mant * 2 ^ n)]
    have h8 : |p - 5 ^ n| ≤ 1 / 2 ^ 87 * 5 ^ n := by
      have h10 : (1 : ℚ) / 2 ^ 89 * 5 ^ n ≤ 1 / 2 ^ 87 * 5 ^ n := by gcongr <;> norm_num
      have h11 : (1 : ℚ) / 2 ^ 88 * 5 ^ n ≤ 1 / 2 ^ 87 * 5 ^ n := by gcongr <;> norm_num
      rw [abs_le]
      constructor <;> linarith
    calc (mant : ℚ) * 2 ^ n * |p - 5 ^ n| ≤ mant * 2 ^ n * (1 / 2 ^ 87 * 5 ^ n) := by gcongr
      _ = _ := by ring

end Verif.Etx
