import Verif.Etx.FloatJson
import Verif.Props.Decimal

/-!
# The JSON text of a number can be read
-/

namespace Verif.Etx

namespace Dec

/-- All digits are below 10. -/
def Low (l : List Nat) : Prop := ∀ d ∈ l, d < 10

theorem low_nil : Low [] := by simp [Low]

theorem digits_low (fuel n : Nat) (l : List Nat) (h : Low l) : Low (digits fuel n l) := by
  induction fuel generalizing n l with
  | zero => exact h
  | succ fuel ih =>
    unfold digits
    split
    · exact h
    · refine ih _ _ ?_
      intro d hd
      rcases List.mem_cons.1 hd with rfl | hd
      · omega
      · exact h d hd

theorem digits_length (fuel n : Nat) (l : List Nat) : (digits fuel n l).length ≤ fuel + l.length := by
  induction fuel generalizing n l with
  | zero => simp [digits]
  | succ fuel ih =>
    unfold digits
    split
    · omega
    · have := ih (n / 10) (n % 10 :: l)
      simp only [List.length_cons] at this
      omega

theorem utoa_low (n : Nat) : Low (utoa n) := digits_low _ _ _ low_nil

theorem utoa_length (n : Nat) : (utoa n).length ≤ n.log2 + 1 := digits_length _ _ _

theorem trimEnd_sub (l : List Nat) : ∀ d ∈ trimEnd l, d ∈ l := by
  intro d hd
  unfold trimEnd at hd
  rw [List.mem_reverse] at hd
  exact List.mem_reverse.1 ((List.dropWhile_sublist _).mem hd)

theorem trimEnd_length (l : List Nat) : (trimEnd l).length ≤ l.length := by
  unfold trimEnd
  rw [List.length_reverse]
  have := (List.dropWhile_sublist (l := l.reverse) (fun x => decide (x = 0))).length_le
  simpa using this

/-- What is needed of a decimal: its digits, their number, its exponent. -/
structure Ok (d : Dec) (n : Nat) : Prop where
  low : Low d.mant
  length : d.mant.length ≤ n
  lo : -(n : Int) ≤ d.exp
  hi : d.exp ≤ n

theorem init_ok (m : Nat) (e : Int) (n b : Nat) (hm : m < 2 ^ b) (he : -(n : Int) ≤ e ∧ e ≤ n) : (init m e).Ok (b + 3 * n) := by
  unfold init
  split
  · exact ⟨low_nil, by simp, by simp only; omega, by simp only; omega⟩
  · rename_i h0
    have log : ∀ k : Nat, (m * 2 ^ k ≠ 0) → (m * 2 ^ k).log2 + 1 ≤ b + k := by
      intro k hk
      have : m * 2 ^ k < 2 ^ (b + k) := by
        rw [Nat.pow_add]
        exact Nat.mul_lt_mul_of_pos_right hm (by positivity)
      have := (Nat.log2_lt hk).2 this
      omega
    split
    · have hk : m * 2 ^ e.toNat ≠ 0 := by positivity
      have h1 := utoa_length (m * 2 ^ e.toNat)
      have h2 := log _ hk
      have h3 := trimEnd_length (utoa (m * 2 ^ e.toNat))
      refine ⟨fun d hd => utoa_low _ d (trimEnd_sub _ d hd), ?_, ?_, ?_⟩ <;> simp only <;> omega
    · have hk : m * 5 ^ (-e).toNat ≠ 0 := by positivity
      have h1 := utoa_length (m * 5 ^ (-e).toNat)
      have h2 : (m * 5 ^ (-e).toNat).log2 + 1 ≤ b + 3 * (-e).toNat := by
        have h5 : (5 : Nat) ^ (-e).toNat ≤ 2 ^ (3 * (-e).toNat) := by
          rw [Nat.pow_mul]
          exact Nat.pow_le_pow_left (by norm_num) _
        have : m * 5 ^ (-e).toNat < 2 ^ (b + 3 * (-e).toNat) := by
          rw [Nat.pow_add]
          exact Nat.mul_lt_mul_of_lt_of_le hm h5 (by positivity)
        have := (Nat.log2_lt hk).2 this
        omega
      have h3 := trimEnd_length (utoa (m * 5 ^ (-e).toNat))
      refine ⟨fun d hd => utoa_low _ d (trimEnd_sub _ d hd), ?_, ?_, ?_⟩ <;> simp only <;> omega

variable {d : Dec} {n : Nat}

theorem Ok.roundDown (h : d.Ok n) (i : Nat) : (d.roundDown i).Ok n := by
  unfold Dec.roundDown
  split
  · exact h
  · unfold trim
    simp only
    split
    · exact ⟨low_nil, by simp, by simp only; omega, by simp only; omega⟩
    · have h1 := trimEnd_length (d.mant.take i)
      have h2 := List.length_take_le i d.mant
      have h3 := h.length
      exact ⟨fun x hx => h.low x (List.mem_of_mem_take (trimEnd_sub _ x hx)), by simp only; omega, h.lo, h.hi⟩

theorem upTo_spec (l : List Nat) (i j : Nat) (h : upTo l i = j + 1) : l.getD j 0 < 9 ∧ j < i := by
  induction i with
  | zero => cases h
  | succ i ih =>
    unfold upTo at h
    split at h
    · have := ih h
      exact ⟨this.1, by omega⟩
    · simp only [Nat.add_right_cancel_iff] at h
      subst h
      exact ⟨by omega, by omega⟩

theorem Ok.roundUp (h : d.Ok n) (i : Nat) : (d.roundUp i).Ok (n + 1) := by
  have h3 := h.length
  have h4 := h.lo
  have h5 := h.hi
  unfold Dec.roundUp
  split
  · exact ⟨h.low, by omega, by push_cast; omega, by push_cast; omega⟩
  · split
    · refine ⟨?_, ?_, ?_, ?_⟩
      · intro x hx
        simp only [List.mem_singleton] at hx
        omega
      · simp
      · push_cast; omega
      · push_cast; omega
    · rename_i j hj
      obtain ⟨h1, h2⟩ := upTo_spec _ _ _ hj
      refine ⟨?_, ?_, ?_, ?_⟩
      · intro x hx
        rcases List.mem_append.1 hx with hx | hx
        · exact h.low x (List.mem_of_mem_take hx)
        · simp only [List.mem_singleton] at hx
          omega
      · simp only [List.length_append, List.length_take, List.length_singleton]
        omega
      · push_cast; omega
      · push_cast; omega

theorem Ok.mono (h : d.Ok n) {n' : Nat} (hn : n ≤ n') : d.Ok n' := by
  have h3 := h.length
  have h4 := h.lo
  have h5 := h.hi
  exact ⟨h.low, by omega, by omega, by omega⟩

theorem Ok.round (h : d.Ok n) (i : Nat) : (d.round i).Ok (n + 1) := by
  unfold Dec.round
  split
  · exact h.mono (by omega)
  · split
    · exact h.roundUp i
    · exact (h.roundDown i).mono (by omega)

theorem Ok.shortestLoop (h : d.Ok n) (lower upper : Dec) (inc : Bool) (i : Nat) (l : List Nat) :
    (shortestLoop d lower upper inc i l).Ok (n + 1) := by
  induction l generalizing i with
  | nil => exact h.mono (by omega)
  | cons m l ih =>
    unfold Dec.shortestLoop
    simp only
    split
    · exact h.round _
    · split
      · exact (h.roundDown _).mono (by omega)
      · split
        · exact h.roundUp _
        · exact ih _

theorem Ok.roundShortest (h : d.Ok n) (prec m : Nat) (e : Int) : (d.roundShortest prec m e).Ok (n + 1) := by
  unfold Dec.roundShortest
  split
  · exact h.mono (by omega)
  · exact h.shortestLoop _ _ _ _ _

theorem char_digit {i : Nat} (h : i < 10) : specIsDigit 10 (char i) := by
  have : ∀ i : Fin 10, specIsDigit 10 (char i) := by
    intro i
    left
    revert i
    decide +kernel
  exact this ⟨i, h⟩

/-- Characters that are digits are a sequence of digits. -/
theorem digits_of {ds : Str} (h : ∀ c ∈ ds, specIsDigit 10 c) (hne : ds ≠ []) : Digits ds := by
  have hu : ∀ c, specIsDigit 10 c → c ≠ '_' := by
    rintro c h rfl
    have := decimal_char h
    revert this; decide
  obtain ⟨c, ds', rfl⟩ := List.exists_cons_of_ne_nil hne
  refine ⟨⟨fun c hc => .inr (h c hc), ⟨c, by simp, hu c (h c (by simp))⟩, ?_, ?_⟩, ?_⟩
  · intro hi
    exact hu '_' (h '_' (hi.subset (by simp))) rfl
  · intro hi
    exact hu '_' (h '_' (hi.subset (by simp))) rfl
  · simp only [List.head?_cons, ne_eq, Option.some.injEq]
    exact hu c (h c (by simp))

theorem map_char {l : List Nat} (h : Low l) : ∀ c ∈ l.map char, specIsDigit 10 c := by
  intro c hc
  obtain ⟨i, hi, rfl⟩ := List.mem_map.1 hc
  exact char_digit (h i hi)

theorem at_low (h : Low d.mant) (i : Nat) : d.at' i < 10 := by
  unfold at'
  rw [List.getD]
  cases e : d.mant[i]? with
  | none => simp
  | some x => exact h x (List.mem_of_getElem? e)

/-- A text made of digits. -/
theorem natText_digits (n : Nat) : ∀ c ∈ natText n, specIsDigit 10 c := by
  unfold natText
  split
  · intro c hc
    simp only [List.mem_singleton] at hc
    subst hc
    exact char_digit (i := 0) (by omega)
  · exact map_char (utoa_low n)

theorem zeros_digits (n : Nat) : ∀ c ∈ List.replicate n '0', specIsDigit 10 c := by
  intro c hc
  rw [List.eq_of_mem_replicate hc]
  exact char_digit (i := 0) (by omega)

theorem digits_ne (fuel n : Nat) (l : List Nat) (h : l ≠ [] ∨ (n ≠ 0 ∧ fuel ≠ 0)) : digits fuel n l ≠ [] := by
  induction fuel generalizing n l with
  | zero => simpa [digits] using h
  | succ fuel ih =>
    unfold digits
    split
    · rcases h with h | h
      · exact h
      · omega
    · exact ih _ _ (.inl (by simp))

theorem natText_ne (n : Nat) : natText n ≠ [] := by
  unfold natText
  split
  · simp
  · rename_i h
    rw [ne_eq, List.map_eq_nil_iff]
    exact digits_ne _ _ _ (.inr ⟨h, by omega⟩)

theorem natText_length (n : Nat) : (natText n).length ≤ n.log2 + 1 := by
  unfold natText
  split
  · simp
  · rw [List.length_map]
    exact utoa_length n

theorem natValue_char {i : Nat} (h : i < 10) (n : Nat) (l : Str) : natValue 10 n (char i :: l) = natValue 10 (n * 10 + i) l := by
  have : ∀ i : Fin 10, char i ≠ '_' ∧ digitVal (char i) = i := by decide +kernel
  obtain ⟨h1, h2⟩ := this ⟨i, h⟩
  simp only at h1 h2
  simp [natValue, h1, h2]

theorem natValue_digits (fuel n : Nat) (l : List Nat) (h : n < 2 ^ fuel) :
    natValue 10 0 ((digits fuel n l).map char) = natValue 10 n (l.map char) := by
  induction fuel generalizing n l with
  | zero =>
    have : n = 0 := by simpa using h
    subst this
    rfl
  | succ fuel ih =>
    unfold digits
    split
    · rename_i h0
      rw [h0]
    · rw [ih _ _ (by rw [Nat.pow_succ] at h; omega), List.map_cons, natValue_char (Nat.mod_lt _ (by omega))]
      congr 1
      omega

/-- The digits of a number have its value. -/
theorem natText_value (n : Nat) : specValue 10 (natText n) = n := by
  rw [← natValue_eq 10 _ fun c hc => .inr (natText_digits n c hc)]
  unfold natText
  split
  · rename_i h
    subst h
    decide
  · unfold utoa
    rw [natValue_digits _ _ _ Nat.lt_log2_self]
    rfl

theorem natText_zero (n : Nat) : specValue 10 ('0' :: natText n) = n := by
  have h0 : specIsDigit 10 '0' := char_digit (i := 0) (by omega)
  rw [← natValue_eq 10 _ (by
    intro c hc
    rcases List.mem_cons.1 hc with rfl | hc
    · exact .inr h0
    · exact .inr (natText_digits n c hc))]
  have := natValue_char (i := 0) (by omega) 0 (natText n)
  rw [show char 0 = '0' from rfl] at this
  rw [this, Nat.zero_mul, Nat.zero_add, natValue_eq 10 _ fun c hc => .inr (natText_digits n c hc), natText_value]

/-- `fmtE` writes a decimal literal. -/
theorem fmtE_literal (h : d.Ok n) :
    ∃ m t ds k e, d.fmtE = m ++ t ∧ Mantissa m ds k ∧ Exponent t e ∧ m.length ≤ n + 2 ∧ e.natAbs ≤ n + 1 := by
  obtain ⟨hl, hlen, hlo, hhi⟩ := h
  have c0 : specIsDigit 10 (char (d.at' 0)) := char_digit (at_low hl 0)
  have d0 : Digits [char (d.at' 0)] := digits_of (by
    intro c hc
    simp only [List.mem_singleton] at hc
    exact hc ▸ c0) (by simp)
  have hm : ∃ ds k, Mantissa (char (d.at' 0) :: (if 1 < d.mant.length then '.' :: (d.mant.drop 1).map char else [])) ds k := by
    split
    · have : Digits ((d.mant.drop 1).map char) := digits_of (map_char fun x hx => hl x (List.mem_of_mem_drop hx)) (by
        rw [ne_eq, List.map_eq_nil_iff, List.drop_eq_nil_iff]
        omega)
      exact ⟨_, _, .point _ _ d0 this⟩
    · exact ⟨_, _, .int _ d0⟩
  obtain ⟨ds, k, hm⟩ := hm
  have he : ∀ e : Int, ∃ x : Int, Exponent ('e' :: (if e < 0 then '-' else '+') :: ((if e.natAbs < 10 then c!"0" else []) ++ natText e.natAbs)) x ∧
      x.natAbs = e.natAbs := by
    intro e
    have h1 : Digits ((if e.natAbs < 10 then c!"0" else []) ++ natText e.natAbs) := by
      refine digits_of (fun c hc => ?_) (by simp [natText_ne])
      rcases List.mem_append.1 hc with hc | hc
      · split at hc
        · simp only [List.mem_singleton] at hc
          exact hc ▸ char_digit (i := 0) (by omega)
        · cases hc
      · exact natText_digits _ c hc
    have h2 : specValue 10 ((if e.natAbs < 10 then c!"0" else []) ++ natText e.natAbs) = e.natAbs := by
      split
      · exact natText_zero _
      · exact natText_value _
    split
    · have := Exponent.minus 'e' _ (.inl rfl) h1
      exact ⟨_, this, by rw [h2]; omega⟩
    · have := Exponent.plus 'e' _ (.inl rfl) h1
      exact ⟨_, this, by rw [h2]; omega⟩
  obtain ⟨x, hx, hx'⟩ := he (if d.mant = [] then 0 else d.exp - 1)
  refine ⟨_, _, ds, k, x, ?_, hm, hx, ?_, ?_⟩
  · simp [fmtE]
  · simp only [List.length_cons]
    split
    · simp only [List.length_cons, List.length_map, List.length_drop]
      omega
    · simp
  · rw [hx']
    split <;> omega

/-- `fmtF` writes a decimal literal. -/
theorem fmtF_literal (h : d.Ok n) (p : Nat) :
    ∃ ds k, Mantissa (d.fmtF p) ds k ∧ (d.fmtF p).length ≤ 2 * n + 2 + p := by
  obtain ⟨hl, hlen, hlo, hhi⟩ := h
  have z : specIsDigit 10 '0' := char_digit (i := 0) (by omega)
  have hi : Digits (if 0 < d.exp then (d.mant.take d.exp.toNat).map char ++ List.replicate (d.exp.toNat - d.mant.length) '0' else c!"0") := by
    split
    · refine digits_of (fun c hc => ?_) ?_
      · rcases List.mem_append.1 hc with hc | hc
        · exact map_char (fun x hx => hl x (List.mem_of_mem_take hx)) c hc
        · exact zeros_digits _ c hc
      · intro e
        have := congrArg List.length e
        simp only [List.length_append, List.length_map, List.length_take, List.length_replicate, List.length_nil] at this
        omega
    · refine digits_of (fun c hc => ?_) (by simp)
      simp only [List.mem_singleton] at hc
      exact hc ▸ z
  have hlen' : (if 0 < d.exp then (d.mant.take d.exp.toNat).map char ++ List.replicate (d.exp.toNat - d.mant.length) '0' else c!"0").length ≤ 2 * n + 1 := by
    split
    · simp only [List.length_append, List.length_map, List.length_take, List.length_replicate]
      omega
    · simp
  unfold fmtF
  generalize (if 0 < d.exp then (d.mant.take d.exp.toNat).map char ++ List.replicate (d.exp.toNat - d.mant.length) '0' else c!"0") = i at hi hlen' ⊢
  split
  · rename_i hp
    refine ⟨_, _, .point _ _ hi (digits_of (fun c hc => ?_) (by simp; omega)), ?_⟩
    · obtain ⟨i, _, rfl⟩ := List.mem_map.1 hc
      split
      · exact char_digit (at_low hl _)
      · exact z
    · rw [List.length_append, List.length_cons, List.length_map, List.length_range]
      omega
  · rw [List.append_nil]
    exact ⟨_, _, .int _ hi, by omega⟩

end Dec

theorem some_if {α : Type} (p q : Prop) [Decidable p] [Decidable q] (a b c : α) :
    (if p then some a else if q then some b else some c).isSome = true := by
  split
  · rfl
  · split <;> rfl

/-- Every decimal literal whose exponent is not too large can be read. -/
theorem parseAt_some (prec : Nat) {m t ds : Str} {k : Nat} {e : Int} (hm : Mantissa m ds k) (ht : Exponent t e)
    (hlen : m.length ≤ 2 ^ 27) (he : e.natAbs ≤ 2 ^ 30) : (BigFloat.parseAt prec (m ++ t)).isSome = true := by
  obtain ⟨hds, hne, hle, hk, hmne⟩ := hm.facts
  obtain ⟨hst, hex, he0⟩ := scanExponent_spec ht (by omega)
  obtain ⟨fr, dp, c, h1, h2, h3, h4⟩ := scanMant_mantissa hm hst
  obtain ⟨st, r, h5, h6⟩ := scanPrefix_decimal (m ++ t) (decimal_second hm ht)
  have hbits := specValue_bits hds hne
  have hbits' : Fl.bits (specValue 10 ds) ≤ 2 ^ 29 := by omega
  unfold BigFloat.parseAt
  rw [h5]
  simp only [h6, h1, hex, Option.bind_eq_bind, Option.bind_some]
  rw [if_neg (by simp; omega)]
  simp only [ne_eq, not_true_eq_false, if_false]
  split
  · rfl
  split
  · rw [if_pos (by simp [Fl.bits] at hbits'; omega)]
    rfl
  · rw [h3, Option.isSome_map]
    unfold Fl.scanValue
    simp only
    have hx : ((if t = [] then (none : Option (Int × Nat)) else some (e, 10)).map (·.1)).getD 0 = e := by
      split
      · rename_i h; simp [he0 h]
      · rfl
    rw [hx, if_pos]
    · exact some_if _ _ _ _ _
    · have : Fl.digitBits 10 = 1 := by decide
      rw [this, Nat.one_mul]
      unfold Fl.minExp Fl.maxExp
      constructor <;> omega

/-- The text of a number that is infinite or not too large or small can be read. -/
theorem unmarshal_marshal (f : BigFloat) (h : f.inf = true ∨ (f.mant ≤ 2 ^ 53 ∧ f.exp.natAbs ≤ 2 ^ 23)) :
    (BigFloat.unmarshal f.marshal).isSome = true := by
  unfold BigFloat.unmarshal
  split
  · rfl
  · rename_i hinf
    rcases h with h | ⟨hm, he⟩
    · exact absurd (.inl (by simp [BigFloat.marshal, h])) hinf
    · by_cases h : f.inf = true
      · exact absurd (.inl (by simp [BigFloat.marshal, h])) hinf
      · have h1 := Dec.init_ok f.mant f.exp (2 ^ 23) 54 (by omega) (by omega)
        have h2 := h1.roundShortest f.prec f.mant f.exp
        unfold BigFloat.marshal
        rw [if_neg h]
        simp only
        split
        · obtain ⟨m, t, ds, k, e, heq, hm', ht, hl, he'⟩ := Dec.fmtE_literal h2
          rw [heq]
          exact parseAt_some 64 hm' ht (by omega) (by omega)
        · have h3 := h2.length
          have h4 := h2.lo
          have h5 := h2.hi
          obtain ⟨ds, k, hm', hl⟩ := Dec.fmtF_literal h2
            (((Dec.init f.mant f.exp).roundShortest f.prec f.mant f.exp).mant.length - ((Dec.init f.mant f.exp).roundShortest f.prec f.mant f.exp).exp).toNat
          have := parseAt_some 64 hm' .none (by omega) (by simp)
          simpa using this

/-! ## The size of the mantissa -/

/-- At most 53 bits, or 2^53. -/
def BigFloat.Small (v : BigFloat) : Prop := v.inf = true ∨ v.mant ≤ 2 ^ 53

theorem quotient_small {m : Nat} (hm : ¬ m < 2 ^ 53) : m / 2 ^ (m.log2 + 1 - 53) + 1 ≤ 2 ^ 53 := by
  have h1 : m < 2 ^ (m.log2 + 1) := Nat.lt_log2_self
  have h2 : 53 ≤ m.log2 + 1 := by
    by_contra hc
    exact hm (h1.trans_le (Nat.pow_le_pow_right (by omega) (by omega)))
  have h3 : m / 2 ^ (m.log2 + 1 - 53) < 2 ^ 53 := by
    rw [Nat.div_lt_iff_lt_mul (by positivity), ← Nat.pow_add, Nat.add_sub_cancel' h2]
    exact h1
  omega

theorem ite_le {p : Prop} [Decidable p] {a b : Nat} (h : a + 1 ≤ b) : (if p then a + 1 else a) ≤ b := by
  split <;> omega

theorem roundNat_small (n : Nat) : (roundNat 53 n).Small := by
  unfold roundNat
  by_cases h : n < 2 ^ 53
  · rw [if_pos h]
    exact .inr (by show n ≤ 2 ^ 53; omega)
  · rw [if_neg h]
    exact .inr (ite_le (quotient_small h))

theorem round_small (m : Nat) (e : Int) (st : Bool) : (Fl.toBig 53 (Fl.round 53 m e st)).Small := by
  unfold Fl.round
  by_cases h : m < 2 ^ 53
  · rw [if_pos h]
    exact .inr (by show m ≤ 2 ^ 53; omega)
  · rw [if_neg h]
    have key : ∀ (p : Prop) [Decidable p] (q : Nat) (x : Int), q ≤ 2 ^ 53 → (Fl.toBig 53 (if p then .inf else .fin q x)).Small := by
      intro p _ q x hq
      split
      · exact .inl rfl
      · exact .inr hq
    exact key _ _ _ (ite_le (quotient_small h))

theorem setExpAndRound_small (m : Nat) (e : Int) (st : Bool) : (Fl.toBig 53 (Fl.setExpAndRound 53 m e st)).Small := by
  unfold Fl.setExpAndRound
  split
  · exact .inr (Nat.zero_le _)
  · split
    · exact .inl rfl
    · exact round_small _ _ _

theorem scanValue_small {m b fr : Nat} {e : Option (Int × Nat)} {f : Fl} (h : Fl.scanValue 53 m b fr e = some f) :
    (Fl.toBig 53 f).Small := by
  unfold Fl.scanValue at h
  extract_lets exp ebase exp5 exp2 at h
  by_cases h1 : Fl.minExp ≤ exp2 + Fl.bits m ∧ exp2 + Fl.bits m ≤ Fl.maxExp
  · rw [if_pos h1] at h
    by_cases h2 : exp5 = 0
    · rw [if_pos h2] at h
      cases h
      exact round_small _ _ _
    · rw [if_neg h2] at h
      by_cases h3 : exp5 < 0
      · rw [if_pos h3] at h
        simp only [Option.some.injEq] at h
        subst h
        cases Fl.pow5 (53 + 64) (-exp5).toNat with
        | zero => exact .inl rfl
        | inf => exact .inr (Nat.zero_le _)
        | fin _ _ => exact setExpAndRound_small _ _ _
      · rw [if_neg h3] at h
        simp only [Option.some.injEq] at h
        subst h
        cases Fl.pow5 (53 + 64) exp5.toNat with
        | zero => exact .inr (Nat.zero_le _)
        | inf => exact .inl rfl
        | fin _ _ => exact setExpAndRound_small _ _ _
  · rw [if_neg h1] at h
    cases h

/-- The values of literals have at most 53 bits, or are 2^53. -/
theorem parseFloat_small {s : Str} {v : BigFloat} (h : @parseFloat goFloat s = some v) : v.Small := by
  unfold parseFloat at h
  generalize scanPrefix s = p at h
  obtain ⟨b, st, s'⟩ := p
  simp only [Option.bind_eq_bind] at h
  generalize scanMant b st s' = q at h
  obtain ⟨st', s''⟩ := q
  simp only at h
  split at h
  · cases h
  rw [Option.bind_eq_some_iff] at h
  obtain ⟨⟨e, r⟩, _, h⟩ := h
  simp only at h
  split at h
  · cases h
  split at h
  · cases h
    exact .inr (Nat.zero_le _)
  split at h
  · split at h
    · simp only [Option.some.injEq] at h
      subst h
      exact roundNat_small _
    · cases h
  · simp only [FloatValue.value, Option.map_eq_some_iff] at h
    obtain ⟨f, hf, rfl⟩ := h
    exact scanValue_small hf

end Verif.Etx
