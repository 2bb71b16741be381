import Verif.Etx.FloatLemmas
import Verif.Props.Number

/-!
# Numbers with a fraction or an exponent (C61)
-/

namespace Verif.Etx

open Fl

/-! ## Specification -/

/-- Decimal digits with single underscores between them. -/
structure Digits (ds : Str) : Prop extends SpecDigits 10 ds where
  first : ds.head? ≠ Option.some '_'

/-- The part of a literal before the exponent, its digits, and how many of them are after the point. -/
inductive Mantissa : Str → Str → Nat → Prop where
  | int (i : Str) : Digits i → Mantissa i i 0
  | point (i f : Str) : Digits i → Digits f → Mantissa (i ++ '.' :: f) (i ++ f) (f.filter (· ≠ '_')).length
  | dot (f : Str) : Digits f → Mantissa ('.' :: f) f (f.filter (· ≠ '_')).length

/-- The exponent of a literal. -/
inductive Exponent : Str → Int → Prop where
  | none : Exponent [] 0
  | unsigned (e : Char) (ds : Str) : e = 'e' ∨ e = 'E' → Digits ds → Exponent (e :: ds) (specValue 10 ds)
  | plus (e : Char) (ds : Str) : e = 'e' ∨ e = 'E' → Digits ds → Exponent (e :: '+' :: ds) (specValue 10 ds)
  | minus (e : Char) (ds : Str) : e = 'e' ∨ e = 'E' → Digits ds → Exponent (e :: '-' :: ds) (-(specValue 10 ds : Int))

/-- A decimal literal: its digits, and the power of ten they are to be multiplied with.  (An integer that begins with 0 is
octal.) -/
def Decimal (s ds : Str) (x : Int) : Prop :=
  ∃ m t k e, Mantissa m ds k ∧ Exponent t e ∧ s = m ++ t ∧ x = e - k ∧
    ((s.head? = some '0' → s = c!"0" ∨ k ≠ 0 ∨ t ≠ []))

/-- The number a decimal literal denotes. -/
def decimalValue (ds : Str) (x : Int) : ℚ := specValue 10 ds * 10 ^ x

/-- The number in the AST. -/
def BigFloat.Is (v : BigFloat) (x : ℚ) : Prop := v.inf = false ∧ (v.mant : ℚ) * 2 ^ v.exp = x

/-- **C61.**  The claim in full: the value of a decimal literal is the number of 53 bits that is nearest to what it denotes. -/
def C61_full : Prop := ∀ (s ds : Str) (x : Int), Decimal s ds x →
  ∃ v src y, @captureNumber goFloat s = some (v, src) ∧ v.Is y ∧ Rounded 53 (decimalValue ds x) y

/-! ## Scanning -/

theorem scanMant_append (b : Nat) : ∀ (ds : Str) (st : Scan) (rest : Str),
    (∀ c ∈ ds, c = '_' ∨ (c ≠ '.' ∧ digitVal c < b)) →
    scanMant b st (ds ++ rest) = scanMant b { st with
      prev := endPrev st.prev ds, bad := st.bad || clash st.prev ds, count := st.count + digitCount ds
      mant := natValue b st.mant ds } rest := by
  intro ds
  induction ds with
  | nil => intro st rest _; simp [endPrev, clash, digitCount, natValue]
  | cons c ds ih =>
    intro st rest h
    have h' := fun c hc => h c (List.mem_cons_of_mem _ hc)
    rw [List.cons_append]
    by_cases hu : c = '_'
    · subst hu
      rw [scanMant, if_neg (by simp), if_pos rfl, ih _ _ h']
      simp [endPrev, clash, digitCount, natValue, Bool.or_assoc]
    · obtain ⟨hc, hd⟩ := (h c (by simp)).resolve_left hu
      rw [scanMant, if_neg (by simp [hc]), if_neg hu, if_pos hd, ih _ _ h']
      have hcount : st.count + 1 + digitCount ds = st.count + digitCount (c :: ds) := by simp [digitCount, hu]; omega
      simp [endPrev, clash, natValue, hu, hcount]

theorem Digits.chars {ds : Str} (h : Digits ds) : ∀ c ∈ ds, c = '_' ∨ (c ≠ '.' ∧ digitVal c < 10) := by
  intro c hc
  rcases h.digits c hc with h | h
  · exact .inl h
  · exact .inr ⟨(digit_other h).1, digitVal_lt (by simp) h⟩

theorem Digits.noClash {ds : Str} (h : Digits ds) (prev : Prev) : clash prev ds = false := by
  rw [clash_false_iff]
  refine ⟨?_, h.single⟩
  rintro _ s rfl
  exact h.first rfl

theorem Digits.ne {ds : Str} (h : Digits ds) : ds ≠ [] := by
  rintro rfl
  simpa using h.some

theorem Digits.endDigit {ds : Str} (h : Digits ds) (prev : Prev) : endPrev prev ds = .digit := by
  have hne := h.ne
  have hlast := h.last
  have key : ∀ (ds : Str) (prev : Prev), ds ≠ [] → ¬ c!"_" <:+ ds → endPrev prev ds = .digit := by
    intro ds
    induction ds with
    | nil => intro _ h; exact absurd rfl h
    | cons c ds ih =>
      intro prev _ hl
      by_cases hd : ds = []
      · subst hd
        have : c ≠ '_' := by rintro rfl; exact hl (List.suffix_refl _)
        simp [endPrev, this]
      · exact ih _ hd fun h => hl (h.trans (List.suffix_cons _ _))
  exact key ds prev hne hlast

theorem natValue_from (b n : Nat) (ds : Str) (h : ∀ c ∈ ds, c = '_' ∨ specIsDigit b c) (pre : Str)
    (hpre : ∀ c ∈ pre, c = '_' ∨ specIsDigit b c) (hn : n = natValue b 0 pre) :
    natValue b n ds = specValue b (pre ++ ds) := by
  rw [← natValue_eq b (pre ++ ds) (by
    intro c hc
    rcases List.mem_append.1 hc with hc | hc
    · exact hpre c hc
    · exact h c hc), hn]
  simp [natValue]

/-- The state before the first digit. -/
def scan0 : Scan := ⟨true, .other, false, 0, none, 0⟩

/-- The scanner of `Parse` on a text without a prefix. -/
theorem scanPrefix_decimal (s : Str) (h : ∀ c s', s = '0' :: c :: s' → isDigit c = true ∨ c ∈ c!"_.eE") :
    ∃ st t, scanPrefix s = (10, st, t) ∧ scanMant 10 st t = scanMant 10 scan0 s := by
  have h0 : ∀ t, scanMant 10 scan0 ('0' :: t) = scanMant 10 ⟨true, .digit, false, 1, none, 0⟩ t := by
    intro t
    rw [scanMant, if_neg (by simp), if_neg (by simp), if_pos (by decide)]
    rfl
  unfold scanPrefix
  split
  · rename_i c s'
    have hc := h c s' rfl
    have hn : ¬ (c = 'b' ∨ c = 'B') ∧ ¬ (c = 'o' ∨ c = 'O') ∧ ¬ (c = 'x' ∨ c = 'X') := by
      refine ⟨?_, ?_, ?_⟩ <;> (rintro (rfl | rfl) <;> revert hc <;> decide)
    rw [if_neg hn.1, if_neg hn.2.1, if_neg hn.2.2]
    exact ⟨_, _, rfl, (h0 _).symm⟩
  · exact ⟨_, _, rfl, (h0 _).symm⟩
  · exact ⟨_, _, rfl, rfl⟩

/-- What stops the scanner. -/
def Stops (t : Str) : Prop := t = [] ∨ ∃ c t', t = c :: t' ∧ (c = 'e' ∨ c = 'E')

theorem scanMant_stops {t : Str} (h : Stops t) (st : Scan) : scanMant 10 st t = (st, t) := by
  rcases h with rfl | ⟨c, t', rfl, rfl | rfl⟩
  · rfl
  · rw [scanMant, if_neg (by simp), if_neg (by simp), if_neg (by decide)]
  · rw [scanMant, if_neg (by simp), if_neg (by simp), if_neg (by decide)]

/-- Scanning the part before the exponent. -/
theorem scanMant_mantissa {m ds t : Str} {k : Nat} (h : Mantissa m ds k) (ht : Stops t) :
    ∃ fr dp c, scanMant 10 scan0 (m ++ t) = (⟨fr, .digit, false, c, dp, specValue 10 ds⟩, t) ∧ 0 < c ∧
      c - dp.getD c = k ∧ (dp = none ↔ '.' ∉ m) := by
  have nodot : ∀ {ds}, Digits ds → '.' ∉ ds := by
    intro ds h hc
    rcases h.chars _ hc with h | h
    · revert h; decide
    · exact h.1 rfl
  have pos : ∀ {ds}, Digits ds → 0 < digitCount ds := fun h => digitCount_pos h.toSpecDigits
  cases h with
  | int _ h =>
    rw [scanMant_append 10 _ _ _ h.chars, scanMant_stops ht]
    refine ⟨true, none, digitCount m, ?_, pos h, by simp, by simp [nodot h]⟩
    simp [scan0, h.endDigit, h.noClash, natValue_eq 10 m h.digits]
  | point i f hi hf =>
    rw [List.append_assoc, scanMant_append 10 _ _ _ hi.chars, List.cons_append, scanMant, if_pos ⟨rfl, rfl⟩]
    rw [scanMant_append 10 _ _ _ hf.chars, scanMant_stops ht]
    refine ⟨false, some (digitCount i), digitCount i + digitCount f, ?_, by have := pos hi; omega, ?_, by simp⟩
    · simp [scan0, hi.endDigit, hi.noClash, hf.endDigit, hf.noClash]
      exact natValue_from 10 _ f hf.digits i hi.digits rfl
    · simp [digitCount]
  | dot f hf =>
    rw [List.cons_append, scanMant, if_pos ⟨rfl, rfl⟩, scanMant_append 10 _ _ _ hf.chars, scanMant_stops ht]
    refine ⟨false, some 0, digitCount ds, ?_, pos hf, ?_, by simp⟩
    · simp [scan0, hf.endDigit, hf.noClash, natValue_eq 10 ds hf.digits]
    · simp [digitCount]

theorem scanExp_digits : ∀ (t : Str) (prev : Prev) (bad : Bool) (acc : List Nat),
    (∀ c ∈ t, c = '_' ∨ ('0' ≤ c ∧ c ≤ '9')) →
    scanExp prev bad acc t = (endPrev prev t, bad || clash prev t, acc ++ (t.filter (· ≠ '_')).map digitVal, []) := by
  intro t
  induction t with
  | nil => intro prev bad acc _; simp [scanExp, endPrev, clash]
  | cons c t ih =>
    intro prev bad acc h
    have h' := fun c hc => h c (List.mem_cons_of_mem _ hc)
    by_cases hu : c = '_'
    · subst hu
      rw [scanExp, if_neg (by decide), if_pos rfl, ih _ _ _ h']
      simp [endPrev, clash, Bool.or_assoc]
    · rw [scanExp, if_pos ((h c (by simp)).resolve_left hu), ih _ _ _ h']
      simp [endPrev, clash, hu]

theorem decimal_char {c : Char} (h : specIsDigit 10 c) : '0' ≤ c ∧ c ≤ '9' := by
  have h' : c ∈ lowerDigits.take 10 ++ upperDigits.take 10 := List.mem_append.2 h
  clear h
  revert c
  decide +kernel

theorem foldl_digits (l : Str) (n : Nat) :
    ((l.filter (· ≠ '_')).map digitVal).foldl (fun n d => n * 10 + d) n = natValue 10 n l := by
  induction l generalizing n with
  | nil => rfl
  | cons c l ih =>
    by_cases hc : c = '_'
    · subst hc
      simpa [natValue] using ih n
    · simpa [natValue, hc] using ih (n * 10 + digitVal c)

/-- Scanning the exponent. -/
theorem scanExponent_spec {t : Str} {e : Int} (h : Exponent t e) (he : -2 ^ 62 ≤ e ∧ e ≤ 2 ^ 62) :
    Stops t ∧ scanExponent t = some (if t = [] then none else some (e, 10), []) ∧ (t = [] → e = 0) := by
  have digits : ∀ {ds : Str}, Digits ds → scanExp .other false [] ds =
      (.digit, false, (ds.filter (· ≠ '_')).map digitVal, []) ∧ (ds.filter (· ≠ '_')).map digitVal ≠ [] ∧
      ((ds.filter (· ≠ '_')).map digitVal).foldl (fun n d => n * 10 + d) 0 = specValue 10 ds := by
    intro ds hd
    refine ⟨?_, ?_, ?_⟩
    · rw [scanExp_digits ds _ _ _ fun c hc => (hd.digits c hc).imp_right decimal_char, hd.endDigit, hd.noClash]
      rfl
    · have := digitCount_pos hd.toSpecDigits
      intro h
      simp only [digitCount] at this
      rw [List.map_eq_nil_iff] at h
      rw [h] at this
      simp at this
    · rw [foldl_digits, natValue_eq 10 ds hd.digits]
  have nosign : ∀ {ds : Str}, Digits ds → (∀ r, ds ≠ '+' :: r) ∧ ∀ r, ds ≠ '-' :: r := by
    intro ds hd
    constructor
    · rintro r rfl
      rcases hd.digits '+' (by simp) with h | h
      · revert h; decide
      · have := decimal_char h; revert this; decide
    · rintro r rfl
      rcases hd.digits '-' (by simp) with h | h
      · revert h; decide
      · have := decimal_char h; revert this; decide
  cases h with
  | none => exact ⟨.inl rfl, rfl, fun _ => rfl⟩
  | unsigned c ds hc hd =>
    refine ⟨.inr ⟨c, ds, rfl, hc⟩, ?_, by simp⟩
    obtain ⟨h1, h2, h3⟩ := digits hd
    obtain ⟨h4, h5⟩ := nosign hd
    rw [scanExponent, if_pos (by rcases hc with rfl | rfl <;> simp)]
    simp only [h1, h3]
    rw [if_neg (by rintro (h | h | h) <;> [exact h2 h; cases h; cases h]), if_neg (by simp; omega)]
    · rcases hc with rfl | rfl <;> simp
    · exact fun s h => h4 s h
    · exact fun s h => h5 s h
  | plus c ds hc hd =>
    refine ⟨.inr ⟨c, _, rfl, hc⟩, ?_, by simp⟩
    obtain ⟨h1, h2, h3⟩ := digits hd
    rw [scanExponent, if_pos (by rcases hc with rfl | rfl <;> simp)]
    simp only [h1, h3]
    rw [if_neg (by rintro (h | h | h) <;> [exact h2 h; cases h; cases h]), if_neg (by simp; omega)]
    rcases hc with rfl | rfl <;> simp
  | minus c ds hc hd =>
    refine ⟨.inr ⟨c, _, rfl, hc⟩, ?_, by simp⟩
    obtain ⟨h1, h2, h3⟩ := digits hd
    rw [scanExponent, if_pos (by rcases hc with rfl | rfl <;> simp)]
    simp only [h1, h3]
    rw [if_neg (by rintro (h | h | h) <;> [exact h2 h; cases h; cases h]), if_neg (by simp; omega)]
    rcases hc with rfl | rfl <;> simp

theorem bits_le {n b : Nat} (h : n < 2 ^ b) (hb : 0 < b) : bits n ≤ b := by
  by_cases hn : n = 0
  · subst hn; simp [bits]; omega
  · have := (Nat.log2_lt hn).2 h
    simp [bits]; omega

/-- The digits give a number that is not too long. -/
theorem specValue_bits {ds : Str} (h : ∀ c ∈ ds, c = '_' ∨ specIsDigit 10 c) (hne : ds ≠ []) :
    bits (specValue 10 ds) ≤ 4 * ds.length := by
  have hlen : 0 < ds.length := List.length_pos_of_ne_nil hne
  refine bits_le ?_ (by omega)
  have h1 : specValue 10 ds < 10 ^ ds.length := by
    rw [← natValue_eq 10 ds h]
    clear hne hlen
    have key : ∀ (ds : Str) (n : Nat), (∀ c ∈ ds, c = '_' ∨ specIsDigit 10 c) → natValue 10 n ds < (n + 1) * 10 ^ ds.length := by
      intro ds
      induction ds with
      | nil => intro n _; simp [natValue]
      | cons c ds ih =>
        intro n h
        have h' := fun c hc => h c (List.mem_cons_of_mem _ hc)
        have e1 : natValue 10 n (c :: ds) = natValue 10 (if c = '_' then n else n * 10 + digitVal c) ds := by
          simp only [natValue, List.foldl_cons]
        rw [e1]
        have h2 := ih (if c = '_' then n else n * 10 + digitVal c) h'
        refine lt_of_lt_of_le h2 ?_
        rw [List.length_cons, Nat.pow_succ, Nat.mul_comm (10 ^ _), ← Nat.mul_assoc]
        refine Nat.mul_le_mul_right _ ?_
        split
        · omega
        · rename_i hc
          have := digitVal_lt (by simp : (10 : Nat) = 2 ∨ 10 = 8 ∨ 10 = 10 ∨ 10 = 16) ((h c (by simp)).resolve_left hc)
          omega
    simpa using key ds 0 h
  refine lt_of_lt_of_le h1 ?_
  rw [Nat.pow_mul]
  exact Nat.pow_le_pow_left (by norm_num) _

theorem roundNat_eq {n : Nat} (h : (bits n : Int) < maxExp) : roundNat 53 n = (Fl.round 53 n 0 false).toBig 53 := by
  have hif : ∀ (q : Nat) (e : Int), (if q = 2 ^ 53 ∧ (bits n : Int) ≥ maxExp then Fl.inf else .fin q e) = .fin q e :=
    fun q e => if_neg (by omega)
  unfold roundNat Fl.round
  by_cases hn : n < 2 ^ 53
  · rw [if_pos hn, if_pos hn]
    rfl
  · rw [if_neg hn, if_neg hn]
    simp only [hif, Bool.false_eq_true, false_or, toBig, zero_add]
    rfl

theorem Mantissa.facts {m ds : Str} {k : Nat} (h : Mantissa m ds k) : (∀ c ∈ ds, c = '_' ∨ specIsDigit 10 c) ∧ ds ≠ [] ∧
    ds.length ≤ m.length ∧ k ≤ m.length ∧ m ≠ [] := by
  cases h with
  | int _ h => exact ⟨h.digits, h.ne, le_rfl, Nat.zero_le _, h.ne⟩
  | point i f hi hf =>
    refine ⟨?_, ?_, by simp, ?_, by simp⟩
    · intro c hc
      rcases List.mem_append.1 hc with hc | hc
      · exact hi.digits c hc
      · exact hf.digits c hc
    · simp [hi.ne]
    · have := List.length_filter_le (fun c => decide (c ≠ '_')) f
      simp only [List.length_append, List.length_cons]
      omega
  | dot f hf =>
    refine ⟨hf.digits, hf.ne, by simp, ?_, by simp⟩
    have := List.length_filter_le (fun c => decide (c ≠ '_')) ds
    simp only [List.length_cons]
    omega

theorem isDigit_spec {c : Char} (h : specIsDigit 10 c) : isDigit c = true := by
  have h' : c ∈ lowerDigits.take 10 ++ upperDigits.take 10 := List.mem_append.2 h
  clear h
  revert c
  decide +kernel

/-- What follows a leading 0. -/
theorem decimal_second {m t ds : Str} {k : Nat} {e : Int} (hm : Mantissa m ds k) (ht : Exponent t e) :
    ∀ c s', m ++ t = '0' :: c :: s' → isDigit c = true ∨ c ∈ c!"_.eE" := by
  have hd : ∀ {c : Char} {ds : Str}, Digits ds → c ∈ ds → isDigit c = true ∨ c ∈ c!"_.eE" := by
    intro c ds h hc
    rcases h.digits c hc with rfl | h
    · right; decide
    · exact .inl (isDigit_spec h)
  have he : ∀ {c : Char} {s' : Str}, t = c :: s' → isDigit c = true ∨ c ∈ c!"_.eE" := by
    intro c s' h
    cases ht with
    | none => cases h
    | unsigned _ _ hc _ => cases h; right; rcases hc with rfl | rfl <;> decide
    | plus _ _ hc _ => cases h; right; rcases hc with rfl | rfl <;> decide
    | minus _ _ hc _ => cases h; right; rcases hc with rfl | rfl <;> decide
  intro c s' h
  have take : ∀ (i r : Str), Digits i → i ++ r = '0' :: c :: s' → (∀ r', r = c :: r' → isDigit c = true ∨ c ∈ c!"_.eE") →
      isDigit c = true ∨ c ∈ c!"_.eE" := by
    intro i r hi h hr
    rcases i with _ | ⟨a, _ | ⟨b, i⟩⟩
    · exact absurd rfl hi.ne
    · simp at h
      exact hr s' h.2
    · simp at h
      refine hd hi ?_
      rw [← h.2.1]
      simp
  cases hm with
  | int _ hi => exact take _ _ hi h fun r' hr => he hr
  | point i f hi hf =>
    rw [List.append_assoc] at h
    refine take _ _ hi h fun r' hr => ?_
    simp at hr
    rw [← hr.1]
    right; decide
  | dot f hf => simp at h

/-- What `Parse` computes from a decimal literal. -/
theorem capture_decimal {s ds : Str} {x : Int} (h : Decimal s ds x) (hlen : s.length ≤ 2 ^ 27) (hx : -2 ^ 61 ≤ x ∧ x ≤ 2 ^ 61) :
    ∃ (frac : Nat) (ex : Option (Int × Nat)), (∀ p ∈ ex, p.2 = 10) ∧ x = (ex.map (·.1)).getD 0 - (frac : Int) ∧ bits (specValue 10 ds) ≤ 2 ^ 29 ∧
      @captureNumber goFloat s = (if specValue 10 ds = 0 then some ⟨53, 0, 0, false⟩
        else (scanValue 53 (specValue 10 ds) 10 frac ex).map (toBig 53)).map (·, s) := by
  obtain ⟨m, t, k, e, hm, ht, rfl, rfl, h0⟩ := h
  obtain ⟨hds, hne, hle, hk, hmne⟩ := hm.facts
  rw [List.length_append] at hlen
  obtain ⟨hst, hex, he0⟩ := scanExponent_spec ht (by omega)
  obtain ⟨fr, dp, c, h1, h2, h3, h4⟩ := scanMant_mantissa hm hst
  obtain ⟨st, r, h5, h6⟩ := scanPrefix_decimal (m ++ t) (decimal_second hm ht)
  have hbits := specValue_bits hds hne
  have hbits' : bits (specValue 10 ds) ≤ 2 ^ 29 := by omega
  refine ⟨k, if t = [] then none else some (e, 10), ?_, ?_, hbits', ?_⟩
  · intro p hp
    split at hp
    · cases hp
    · cases hp; rfl
  · split
    · rename_i h; simp [he0 h]
    · rfl
  have hsrc : numberSource (m ++ t) = m ++ t := by
    apply C33_other
    rintro ⟨d, hd, hd0, hc⟩
    have hall : ∀ c ∈ m ++ t, isDigit c = true ∨ c = '_' := by
      intro c hc'
      rw [hd] at hc'
      rcases List.mem_cons.1 hc' with rfl | h
      · left; decide
      · exact hc c h
    have ht0 : t = [] := by
      rcases hst with h | ⟨c, t', rfl, h⟩
      · exact h
      · have := hall c (by simp)
        rcases h with rfl | rfl <;> exact absurd this (by decide)
    rcases h0 (by rw [hd]; rfl) with h | h | h
    · rw [hd] at h
      simp at h
      exact hd0 h
    · apply h
      cases hm with
      | int _ _ => rfl
      | point i f _ _ => exact absurd (hall '.' (by simp)) (by decide)
      | dot f _ => exact absurd (hall '.' (by simp)) (by decide)
    · exact h ht0
  unfold captureNumber
  rw [hsrc]
  unfold parseFloat
  rw [h5]
  simp only [h6, h1, hex, Option.bind_eq_bind, Option.bind_some]
  rw [if_neg (by simp; omega)]
  simp only [ne_eq, not_true_eq_false, if_false, numberPrec]
  split
  · rfl
  rename_i hmant
  congr 1
  split
  · rename_i hdp hnone
    have ht0 : t = [] := by
      by_contra hne
      simp [hne] at hnone
    have hk0 : k = 0 := by rw [← h3]; simp
    rw [if_pos (by simp [bits] at hbits'; omega), roundNat_eq (by unfold maxExp; omega)]
    subst hk0
    simp only [scanValue, ht0, if_true, Option.map_none, Option.getD_none, Nat.mul_zero, Nat.cast_zero, neg_zero, add_zero,
      sub_zero, zero_add]
    rw [if_pos ⟨by unfold minExp; omega, by unfold maxExp; omega⟩]
    rfl
  · rw [h3]
    rfl

/-! ## C61 -/

/-- C61, the part that holds exactly: literals of at most 2^27 characters whose last digit is at most 50 places before or after
the point.  Missing: other literals, which may be rounded twice (`C61_full_false`); for these see `C61_close`. -/
theorem C61_nearest_partial (s ds : Str) (x : Int) (h : Decimal s ds x) (hlen : s.length ≤ 2 ^ 27) (hlo : -50 ≤ x)
    (hhi : x ≤ 50) :
    ∃ v y, @captureNumber goFloat s = some (v, s) ∧ v.Is y ∧ Rounded 53 (decimalValue ds x) y := by
  obtain ⟨frac, ex, h1, h2, h3, h4⟩ := capture_decimal h hlen (by omega)
  rw [h4]
  unfold decimalValue
  by_cases h0 : specValue 10 ds = 0
  · rw [if_pos h0]
    refine ⟨_, 0, rfl, ⟨rfl, by simp⟩, ?_⟩
    rw [h0, Nat.cast_zero, zero_mul]
    exact Rounded.self ⟨0, 0, by norm_num, by simp⟩
  · rw [if_neg h0]
    obtain ⟨m, e, h5, h6⟩ := scanValue_rounded h1 h0 h3 h2 hlo hhi
    rw [h5]
    exact ⟨_, _, rfl, ⟨rfl, rfl⟩, h6⟩

/-- C61: every decimal literal of at most 2^27 characters and 2^28 places has a value of 53 bits whose relative error is
`2^-53` (that of rounding to nearest) up to `2^-80`. -/
theorem C61_close (s ds : Str) (x : Int) (h : Decimal s ds x) (hlen : s.length ≤ 2 ^ 27) (hlo : -2 ^ 28 ≤ x)
    (hhi : x ≤ 2 ^ 28) :
    ∃ v y, @captureNumber goFloat s = some (v, s) ∧ v.Is y ∧ Floating 53 y ∧
      |y - decimalValue ds x| ≤ (1 / 2 ^ 53 + 1 / 2 ^ 80) * decimalValue ds x := by
  obtain ⟨frac, ex, h1, h2, h3, h4⟩ := capture_decimal h hlen (by omega)
  rw [h4]
  unfold decimalValue
  by_cases h0 : specValue 10 ds = 0
  · rw [if_pos h0]
    refine ⟨_, 0, rfl, ⟨rfl, by simp⟩, ⟨0, 0, by norm_num, by simp⟩, ?_⟩
    rw [h0, Nat.cast_zero, zero_mul]
    norm_num
  · rw [if_neg h0]
    obtain ⟨m, e, h5, h6, h7⟩ := scanValue_close h1 h0 h3 h2 hlo hhi
    rw [h5]
    exact ⟨_, _, rfl, ⟨rfl, rfl⟩, h6, h7⟩

/-- The rounded number is unique, so the claim determines the value. -/
theorem Rounded.unique {p : Nat} {x v v' : ℚ} (hp : 1 < p) (h : Rounded p x v) (h' : Rounded p x v') : v = v' := by
  have hd : |v - x| = |v' - x| := le_antisymm (h.near v' h'.floating) (h'.near v h.floating)
  by_contra hne
  have f := (h.even v' h'.floating hd.symm).resolve_left (Ne.symm hne)
  have f' := (h'.even v h.floating hd).resolve_left hne
  have hmid : ∀ {a b : ℚ}, a < b → |a - x| = |b - x| → x - a = b - x := by
    intro a b hab habs
    rcases abs_eq_abs.1 habs with h | h <;> linarith
  have key : ∀ {a b : ℚ}, a < b → Floating (p - 1) a → Floating (p - 1) b → |a - x| = |b - x| →
      (∀ y, Floating p y → |a - x| ≤ |y - x|) → False := by
    intro a b hab ha hb habs hnear
    obtain ⟨p, rfl⟩ : ∃ q, p = q + 1 := ⟨p - 1, by omega⟩
    rw [Nat.add_sub_cancel] at ha hb
    have hx := hmid hab habs
    have inside : ∀ y, Floating (p + 1) y → a < y → y < b → False := by
      intro y hy h1 h2
      have h3 := hnear y hy
      rw [abs_sub_comm a x, abs_of_pos (by linarith : 0 < x - a)] at h3
      have h4 : |y - x| < x - a := abs_lt.2 ⟨by linarith, by linarith⟩
      linarith
    obtain ⟨m, e, hm, rfl⟩ := ha
    obtain ⟨m', e', hm', rfl⟩ := hb
    have hpow : 2 ^ (p + 1) = 2 * 2 ^ p := by rw [Nat.pow_succ]; omega
    have half : ∀ e : ℤ, (2 : ℚ) ^ e = 2 * 2 ^ (e - 1) := fun e => by
      rw [zpow_sub_one₀ (by norm_num)]; field_simp
    rcases le_total e e' with hle | hle
    · obtain ⟨d, rfl⟩ : ∃ d : Nat, e' = e + d := ⟨(e' - e).toNat, by omega⟩
      have he := two_zpow_pos (e - 1)
      rw [zpow_add₀ (by norm_num), zpow_natCast] at hab
      have h1 : m < m' * 2 ^ d := by
        have : (m : ℚ) * 2 ^ e < ((m' * 2 ^ d : Nat) : ℚ) * 2 ^ e := by push_cast; linarith
        exact_mod_cast lt_of_mul_lt_mul_right this (two_zpow_pos e).le
      have h2 : (m : ℚ) + 1 ≤ m' * 2 ^ d := by exact_mod_cast h1
      have h3 : ((m : ℚ) + 1) * 2 ^ e ≤ m' * 2 ^ d * 2 ^ e := by gcongr
      refine inside ((2 * m + 1 : Nat) * 2 ^ (e - 1)) ⟨_, _, by omega, rfl⟩ ?_ ?_
      · rw [half e]; push_cast; linarith
      · rw [zpow_add₀ (by norm_num), zpow_natCast]
        rw [half e] at h3 ⊢
        push_cast
        linarith
    · obtain ⟨d, rfl⟩ : ∃ d : Nat, e = e' + d := ⟨(e - e').toNat, by omega⟩
      have he := two_zpow_pos (e' - 1)
      rw [zpow_add₀ (by norm_num), zpow_natCast] at hab
      have h1 : m * 2 ^ d < m' := by
        have : ((m * 2 ^ d : Nat) : ℚ) * 2 ^ e' < (m' : ℚ) * 2 ^ e' := by push_cast; linarith
        exact_mod_cast lt_of_mul_lt_mul_right this (two_zpow_pos e').le
      have h2 : (m : ℚ) * 2 ^ d + 1 ≤ m' := by exact_mod_cast h1
      have h3 : ((m : ℚ) * 2 ^ d + 1) * 2 ^ e' ≤ m' * 2 ^ e' := by gcongr
      have hm1 : 1 ≤ 2 * m' := by omega
      refine inside ((2 * m' - 1 : Nat) * 2 ^ (e' - 1)) ⟨_, _, by omega, rfl⟩ ?_ ?_
      · rw [zpow_add₀ (by norm_num), zpow_natCast]
        rw [half e'] at h3 ⊢
        push_cast [Nat.cast_sub hm1]
        linarith
      · rw [half e']; push_cast [Nat.cast_sub hm1]; linarith
  rcases lt_or_gt_of_ne hne with hlt | hlt
  · exact key hlt f f' hd h.near
  · exact key hlt f' f hd.symm h'.near

/-- C34 once more: integer literals in any base are rounded to the nearest number of 53 bits, and between two that are equally
near to the even one.  Missing: literals with more significant bits have another value (`C34_rounds`). -/
theorem C34_even_partial [FloatValue] (s ds : Str) (b : Nat) (h : Literal s b ds) (hs : bits (specValue b ds) < 2 ^ 31 - 1) :
    ∃ v src y, captureNumber s = some (v, src) ∧ v.Is y ∧ Rounded 53 (specValue b ds) y := by
  have hc := capture_literal h (by unfold Small; simp [bits] at hs; omega)
  rw [roundNat_eq (by unfold maxExp; omega)] at hc
  cases hv : captureNumber s with
  | none => rw [hv] at hc; cases hc
  | some p =>
    obtain ⟨v, src⟩ := p
    rw [hv] at hc
    simp only [Option.map_some, Option.some.injEq] at hc
    subst hc
    by_cases h0 : specValue b ds = 0
    · rw [h0]
      exact ⟨_, src, 0, rfl, ⟨rfl, by simp [toBig, Fl.round]⟩, by simpa using Rounded.self (p := 53) ⟨0, 0, by norm_num, by simp⟩⟩
    · obtain ⟨m, e, h1, h2⟩ := round_fin (prec := 53) (sticky := false) (e := 0) (by omega) h0 (by unfold maxExp; omega)
      have h3 := round_rounded (δ := 0) (by norm_num) le_rfl (by norm_num) (by simp) (by simp) h1
      rw [h1]
      refine ⟨_, src, _, rfl, ⟨rfl, rfl⟩, ?_⟩
      simpa [toBig] using h3

/-! ### What goes wrong -/

/-- A literal that is rounded to the wrong side. -/
def misrounded : Str := c!"25462949704181084559221482041362009e55"

theorem misrounded_decimal : Decimal misrounded c!"25462949704181084559221482041362009" 55 := by
  have d1 : Digits c!"25462949704181084559221482041362009" :=
    ⟨⟨by simp [specIsDigit, lowerDigits, upperDigits], ⟨'2', by simp⟩, by decide, by decide⟩, by decide⟩
  have d2 : Digits c!"55" := ⟨⟨by simp [specIsDigit, lowerDigits, upperDigits], ⟨'5', by simp⟩, by decide, by decide⟩, by decide⟩
  have := Exponent.unsigned 'e' c!"55" (by simp) d2
  rw [show specValue 10 c!"55" = 55 by decide +kernel] at this
  exact ⟨_, _, 0, 55, .int _ d1, this, by decide, rfl, by decide⟩

/-- C61 is false: there is a nearer number. -/
theorem C61_full_false : ¬ C61_full := by
  intro h
  obtain ⟨v, src, y, h1, ⟨-, h2⟩, h3⟩ := h _ _ _ misrounded_decimal
  have h4 : @captureNumber goFloat misrounded = some (⟨53, 4503599627370498, 245, false⟩, misrounded) := by decide +kernel
  rw [h4] at h1
  cases h1
  have h5 := h3.near (4503599627370497 * 2 ^ (245 : ℤ)) ⟨4503599627370497, 245, by norm_num, by norm_num⟩
  rw [decimalValue, show specValue 10 c!"25462949704181084559221482041362009" = 25462949704181084559221482041362009 by
    decide +kernel, ← h2] at h5
  norm_num at h5

/-- Beyond the range of C61_close: a literal with a large exponent is infinite, or zero, without an error. -/
theorem C61_infinite : @captureNumber goFloat c!"1e1000000000" = some (⟨53, 0, 0, true⟩, c!"1e1000000000") ∧
    @captureNumber goFloat c!"1e-1000000000" = some (⟨53, 0, 0, false⟩, c!"1e-1000000000") ∧
    @captureNumber goFloat c!"1e2147483648" = none := by
  decide +kernel

/-! ### Examples -/

/-- One tenth. -/
example : @captureNumber goFloat c!"0.1" = some (⟨53, 7205759403792794, -56, false⟩, c!"0.1") := by decide +kernel

example : @captureNumber goFloat c!"1_000.5e-3" = some (⟨53, 4505851427184181, -52, false⟩, c!"1_000.5e-3") := by decide +kernel

example : Decimal c!"1_000.5e-3" c!"1_0005" (-4) := by
  have d1 : Digits c!"1_000" :=
    ⟨⟨by simp [specIsDigit, lowerDigits, upperDigits], ⟨'1', by simp⟩, by decide, by decide⟩, by decide⟩
  have d2 : Digits c!"5" := ⟨⟨by simp [specIsDigit, lowerDigits, upperDigits], ⟨'5', by simp⟩, by decide, by decide⟩, by decide⟩
  have d3 : Digits c!"3" := ⟨⟨by simp [specIsDigit, lowerDigits, upperDigits], ⟨'3', by simp⟩, by decide, by decide⟩, by decide⟩
  have := Exponent.minus 'e' c!"3" (by simp) d3
  rw [show specValue 10 c!"3" = 3 by decide +kernel] at this
  exact ⟨_, _, 1, -3, .point _ _ d1 d2, this, by decide, by decide, by decide⟩

end Verif.Etx
