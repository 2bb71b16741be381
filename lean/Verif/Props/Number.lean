import Verif.Etx.NumberLemmas
import Verif.Etx.LexerLemmas
import Verif.Etx.Format
import Mathlib.Data.Nat.Digits.Defs
import Mathlib.Data.List.Induction

/-!
# Captured tokens (C33–C36)
-/

namespace Verif.Etx

open Re

/-! ## Specification of integer literals -/

/-- The digits, in lower and upper case. -/
def lowerDigits : Str := c!"0123456789abcdef"
@[inherit_doc lowerDigits]
def upperDigits : Str := c!"0123456789ABCDEF"

/-- The value of a digit. -/
def specDigit (c : Char) : Nat := min (lowerDigits.idxOf c) (upperDigits.idxOf c)

/-- The value of a text of digits and underscores in base `b`. -/
def specValue (b : Nat) (ds : Str) : Nat := Nat.ofDigits b ((ds.filter (· ≠ '_')).reverse.map specDigit)

/-- A digit of base `b`. -/
def specIsDigit (b : Nat) (c : Char) : Prop := c ∈ lowerDigits.take b ∨ c ∈ upperDigits.take b

/-- Digits of base `b`, at least one, with single underscores between them and possibly one in front. -/
structure SpecDigits (b : Nat) (ds : Str) : Prop where
  digits : ∀ c ∈ ds, c = '_' ∨ specIsDigit b c
  some : ∃ c ∈ ds, c ≠ '_'
  single : ¬ c!"__" <:+: ds
  last : ¬ c!"_" <:+ ds

/-- The forms of integer literals: prefix, base. -/
inductive Literal : Str → Nat → Str → Prop where
  | hex (x : Char) (ds : Str) : x = 'x' ∨ x = 'X' → SpecDigits 16 ds → Literal ('0' :: x :: ds) 16 ds
  | oct (o : Char) (ds : Str) : o = 'o' ∨ o = 'O' → SpecDigits 8 ds → Literal ('0' :: o :: ds) 8 ds
  | bin (b : Char) (ds : Str) : b = 'b' ∨ b = 'B' → SpecDigits 2 ds → Literal ('0' :: b :: ds) 2 ds
  | legacy (ds : Str) : SpecDigits 8 ds → Literal ('0' :: ds) 8 ds
  | dec (ds : Str) : SpecDigits 10 ds → ds.head? ≠ some '0' → ds.head? ≠ some '_' → Literal ds 10 ds
  | zero : Literal c!"0" 10 c!"0"


/-! ## Lemmas -/

theorem mem_digits {b : Nat} {c : Char} (h : specIsDigit b c) : c ∈ lowerDigits ++ upperDigits := by
  rcases h with h | h
  · exact List.mem_append_left _ (List.mem_of_mem_take h)
  · exact List.mem_append_right _ (List.mem_of_mem_take h)

theorem specDigit_eq {b : Nat} {c : Char} (h : specIsDigit b c) : specDigit c = digitVal c :=
  (by decide +kernel : ∀ c ∈ lowerDigits ++ upperDigits, specDigit c = digitVal c) c (mem_digits h)

theorem digit_other {b : Nat} {c : Char} (h : specIsDigit b c) : c ≠ '.' ∧ c ≠ '_' :=
  (by decide +kernel : ∀ c ∈ lowerDigits ++ upperDigits, c ≠ '.' ∧ c ≠ '_') c (mem_digits h)

theorem digitVal_lt {b : Nat} (hb : b = 2 ∨ b = 8 ∨ b = 10 ∨ b = 16) {c : Char} (h : specIsDigit b c) :
    digitVal c < b := by
  have h' : c ∈ lowerDigits.take b ++ upperDigits.take b := List.mem_append.2 h
  clear h
  rcases hb with rfl | rfl | rfl | rfl <;> revert c <;> decide +kernel

theorem natValue_append (b n : Nat) (ds : Str) (c : Char) :
    natValue b n (ds ++ [c]) = if c = '_' then natValue b n ds else natValue b n ds * b + digitVal c := by
  simp [natValue]

theorem natValue_eq (b : Nat) (ds : Str) (h : ∀ c ∈ ds, c = '_' ∨ specIsDigit b c) :
    natValue b 0 ds = specValue b ds := by
  induction ds using List.reverseRecOn with
  | nil => simp [natValue, specValue]
  | append_singleton ds c ih =>
    rw [natValue_append, ih fun c hc => h c (by simp [hc])]
    by_cases hc : c = '_'
    · subst hc; simp [specValue]
    · rcases h c (by simp) with h | h
      · exact absurd h hc
      · rw [if_neg hc, ← specDigit_eq h]
        simp [specValue, List.filter_append, hc, Nat.ofDigits_cons]
        rw [Nat.mul_comm, Nat.add_comm]

theorem digitCount_pos {b : Nat} {ds : Str} (h : SpecDigits b ds) : 0 < digitCount ds := by
  obtain ⟨c, hc, hne⟩ := h.some
  exact List.length_pos_of_mem (List.mem_filter.2 ⟨hc, by simp [hne]⟩)

/-- Scanning a well-formed sequence of digits to the end. -/
theorem scanMant_spec {b : Nat} (hb : b = 2 ∨ b = 8 ∨ b = 10 ∨ b = 16) {ds : Str} (h : SpecDigits b ds) (prev : Prev)
    (hp : prev ≠ .sep) (hfirst : prev ≠ .digit → ds.head? ≠ some '_') (count : Nat) :
    scanMant b ⟨true, prev, false, count, none, 0⟩ ds =
      (⟨true, endPrev prev ds, false, count + digitCount ds, none, specValue b ds⟩, []) ∧ endPrev prev ds ≠ .sep := by
  constructor
  · rw [scanMant_digits]
    · rw [(clash_false_iff ds prev).2 ⟨?_, h.single⟩]
      · simp [natValue_eq b ds h.digits]
      · rintro hd s rfl
        exact hfirst hd rfl
    · intro c hc
      rcases h.digits c hc with h | h
      · exact .inl h
      · exact .inr ⟨(digit_other h).1, digitVal_lt hb h⟩
  · rw [Ne, endPrev_sep_iff ds prev hp]
    exact h.last

/-- A number of a size that fits in memory. -/
def Small (n : Nat) : Prop := n.log2 + 1 ≤ 2 ^ 31 - 1

theorem parseFloat_int [FloatValue] {s ds : Str} {b : Nat} {st st' : Scan} (hp : scanPrefix s = (b, st, ds))
    (hs : scanMant b st ds = (st', [])) (hc : 0 < st'.count) (hb : st'.bad = false) (he : st'.prev ≠ .sep)
    (hd : st'.dp = none) (hm : Small st'.mant) : parseFloat s = some (roundNat numberPrec st'.mant) := by
  simp only [parseFloat, hp, hs]
  rw [if_neg (by simp [hb, he]; omega)]
  simp only [scanExponent, Option.bind_eq_bind, Option.bind_some, hd]
  simp only [ne_eq, not_true_eq_false, if_false]
  split
  · rename_i h0
    rw [h0]; rfl
  · exact if_pos hm

/-! ## C33 -/

/-- C33: a literal `0d…d` is rewritten to `0od…d` … -/
theorem C33_octal (d : Str) (hd : d ≠ []) (h : ∀ c ∈ d, isDigit c = true ∨ c = '_') :
    numberSource ('0' :: d) = c!"0o" ++ d := by
  rw [numberSource, first_octalPrefix d hd (by simpa [isOctalPart] using h)]
  rfl

/-- … and every other text is unchanged … -/
theorem C33_other (s : Str) (h : ¬ ∃ d, s = '0' :: d ∧ d ≠ [] ∧ ∀ c ∈ d, isDigit c = true ∨ c = '_') :
    numberSource s = s := by
  rw [numberSource]
  split
  · rename_i m hm
    obtain ⟨d, rfl, hd, hc⟩ := first_octalPrefix_some hm
    exact absurd ⟨d, rfl, hd, by simpa [isOctalPart] using hc⟩ h
  · rfl

/-- … so that the stored source is stable. -/
theorem C33_stable (s : Str) : numberSource (numberSource s) = numberSource s := by
  by_cases h : ∃ d, s = '0' :: d ∧ d ≠ [] ∧ ∀ c ∈ d, isDigit c = true ∨ c = '_'
  · obtain ⟨d, rfl, hd, hc⟩ := h
    rw [C33_octal d hd hc]
    apply C33_other
    rintro ⟨e, he, -, hc'⟩
    simp at he
    subst he
    have := hc' 'o' (by simp)
    revert this; decide
  · rw [C33_other s h, C33_other s h]

example : numberSource c!"0_17" = c!"0o_17" ∧ numberSource c!"0x1" = c!"0x1" ∧ numberSource c!"0" = c!"0" ∧
    numberSource c!"017.5" = c!"017.5" := by decide +kernel

theorem octal_part {d : Str} (h : SpecDigits 8 d) : d ≠ [] ∧ ∀ c ∈ d, isDigit c = true ∨ c = '_' := by
  constructor
  · rintro rfl; simpa using h.some
  · intro c hc
    rcases h.digits c hc with h | h
    · exact .inr h
    · left
      have h' : c ∈ lowerDigits.take 8 ++ upperDigits.take 8 := List.mem_append.2 h
      clear h hc
      revert c; decide +kernel

/-- C33: a legacy octal literal denotes the value of its digits in base 8 (rounded to the precision of `Value`) … -/
theorem C33_octal_value [FloatValue] (d : Str) (h : SpecDigits 8 d) (hs : Small (specValue 8 d)) :
    captureNumber ('0' :: d) = some (roundNat 53 (specValue 8 d), c!"0o" ++ d) := by
  obtain ⟨hne, hc⟩ := octal_part h
  rw [captureNumber, C33_octal d hne hc]
  obtain ⟨h1, h2⟩ := scanMant_spec (by simp) h .digit (by simp) (by simp) 0
  rw [parseFloat_int (ds := d) (b := 8) (st := ⟨true, .digit, false, 0, none, 0⟩) (by simp [scanPrefix]) h1
    (by simpa using digitCount_pos h) rfl h2 rfl hs]
  rfl

/-- … and capturing it fails when it contains 8 or 9. -/
theorem C33_not_octal [FloatValue] (d : Str) (h : ∀ c ∈ d, isDigit c = true ∨ c = '_') (h8 : '8' ∈ d ∨ '9' ∈ d) :
    captureNumber ('0' :: d) = none := by
  have hne : d ≠ [] := by rintro rfl; simp at h8
  have hdot : ∀ c ∈ d, c ≠ '.' := by
    rintro c hc rfl
    have := h '.' hc
    revert this; decide
  rw [captureNumber, C33_octal d hne h]
  obtain ⟨c, s, h1, h2⟩ := scanMant_stop 8 d ⟨true, .digit, false, 0, none, 0⟩ hdot (by
    rcases h8 with h8 | h8
    · exact ⟨_, h8, by decide⟩
    · exact ⟨_, h8, by decide⟩)
  have hp : scanPrefix (c!"0o" ++ d) = (8, ⟨true, .digit, false, 0, none, 0⟩, d) := by simp [scanPrefix]
  have hexp : scanExponent (c :: s) = some (none, c :: s) := by
    simp only [scanExponent]
    rw [if_neg]
    rintro (rfl | rfl | rfl | rfl) <;> (have := h _ h2; revert this; decide)
  simp only [parseFloat, hp]
  generalize scanMant 8 _ d = x at h1
  obtain ⟨st, rest⟩ := x
  simp only at h1
  subst h1
  simp only [hexp]
  split <;> rfl

example [FloatValue] : captureNumber c!"0_17" = some (⟨53, 15, 0, false⟩, c!"0o_17") ∧ captureNumber c!"018" = none :=
  ⟨C33_octal_value c!"_17" ⟨by simp [specIsDigit, lowerDigits, upperDigits], ⟨'1', by simp⟩, by decide, by decide⟩
    (by rw [show specValue 8 c!"_17" = 15 by decide +kernel]; unfold Small; decide +kernel),
   C33_not_octal c!"18" (by decide) (by decide)⟩

/-! ## C34 -/

/-- Capturing any integer literal. -/
theorem capture_literal [FloatValue] {s ds : Str} {b : Nat} (h : Literal s b ds) (hs : Small (specValue b ds)) :
    (captureNumber s).map Prod.fst = some (roundNat 53 (specValue b ds)) := by
  have other : ∀ (x : Char) (ds : Str), ¬ (isDigit x = true ∨ x = '_') → numberSource ('0' :: x :: ds) = '0' :: x :: ds := by
    intro x ds hx
    apply C33_other
    rintro ⟨d, hd, -, hc⟩
    simp at hd
    subst hd
    exact hx (hc x (by simp))
  have pre : ∀ (x : Char) (b : Nat) (ds : Str), ¬ (isDigit x = true ∨ x = '_') → (b = 2 ∨ b = 8 ∨ b = 10 ∨ b = 16) →
      scanPrefix ('0' :: x :: ds) = (b, ⟨true, .digit, false, 0, none, 0⟩, ds) → SpecDigits b ds →
      Small (specValue b ds) →
      (captureNumber ('0' :: x :: ds)).map Prod.fst = some (roundNat 53 (specValue b ds)) := by
    intro x b ds hx hb hp h hs
    rw [captureNumber, other x ds hx]
    obtain ⟨h1, h2⟩ := scanMant_spec hb h .digit (by simp) (by simp) 0
    rw [parseFloat_int hp h1 (by simpa using digitCount_pos h) rfl h2 rfl hs]
    rfl
  cases h with
  | hex x ds hx h => exact pre x 16 ds (by rcases hx with rfl | rfl <;> decide) (by simp) (by
      rcases hx with rfl | rfl <;> simp [scanPrefix]) h hs
  | oct x ds hx h => exact pre x 8 ds (by rcases hx with rfl | rfl <;> decide) (by simp) (by
      rcases hx with rfl | rfl <;> simp [scanPrefix]) h hs
  | bin x ds hx h => exact pre x 2 ds (by rcases hx with rfl | rfl <;> decide) (by simp) (by
      rcases hx with rfl | rfl <;> simp [scanPrefix]) h hs
  | legacy ds h => rw [C33_octal_value ds h hs]; rfl
  | zero => rfl
  | dec _ h h0 hu =>
    have h0' : ∀ d, s ≠ '0' :: d := by rintro d rfl; exact h0 rfl
    rw [captureNumber, C33_other s (by rintro ⟨d, hd, -⟩; exact h0' d hd)]
    obtain ⟨h1, h2⟩ := scanMant_spec (by simp) h .other (by simp) (fun _ => hu) 0
    have hp : scanPrefix s = (10, ⟨true, .other, false, 0, none, 0⟩, s) := by
      unfold scanPrefix
      split
      · exact absurd rfl (h0' _)
      · exact absurd rfl (h0' _)
      · rfl
    rw [parseFloat_int hp h1 (by simpa using digitCount_pos h) rfl h2 rfl hs]
    rfl

/-- The full claim: the value of an integer literal is the number it denotes. -/
def C34_full : Prop := ∀ [FloatValue] (s ds : Str) (b : Nat), Literal s b ds → Small (specValue b ds) →
  ∃ v src, captureNumber s = some (v, src) ∧ v.IsNat (specValue b ds)

/-- It is false: `9007199254740993` is read as `9007199254740992`. -/
theorem C34_rounds : ¬ C34_full := by
  intro h
  have hd : SpecDigits 10 c!"9007199254740993" :=
    ⟨by simp [specIsDigit, lowerDigits, upperDigits], ⟨'9', by simp⟩, by decide, by decide⟩
  let _ : FloatValue := ⟨fun _ _ _ _ => none⟩
  obtain ⟨v, src, h1, h2⟩ := h _ _ _ (.dec c!"9007199254740993" hd (by decide) (by decide)) (by
    rw [show specValue 10 c!"9007199254740993" = 9007199254740993 by decide +kernel]; unfold Small; decide +kernel)
  rw [show specValue 10 c!"9007199254740993" = 9007199254740993 by decide +kernel] at h2
  have h3 : captureNumber c!"9007199254740993" = some (⟨53, 4503599627370496, 1, false⟩, c!"9007199254740993") := by
    decide +kernel
  rw [h3] at h1
  simp at h1
  rw [← h1.1] at h2
  have h4 : BigFloat.IsNat ⟨53, 4503599627370496, 1, false⟩ 9007199254740992 := ⟨rfl, .inl ⟨1, rfl, rfl⟩⟩
  exact absurd (IsNat_unique h4 h2) (by decide)

/-- The distance of two numbers. -/
def dist (a b : Nat) : Nat := (a - b) + (b - a)

/-- C34, the part that holds: capturing an integer literal succeeds; the value is the number it denotes if and only
if that has at most 53 significant bits, and otherwise it is one of the nearest numbers with 53 bits.
Missing: literals with more significant bits, whose value is rounded (`C34_rounds`). -/
theorem C34_value_partial [FloatValue] (s ds : Str) (b : Nat) (h : Literal s b ds) (hs : Small (specValue b ds)) :
    ∃ v src n, captureNumber s = some (v, src) ∧ v.IsNat n ∧ Representable 53 n ∧
      (n = specValue b ds ↔ Representable 53 (specValue b ds)) ∧
      ∀ x, Representable 53 x → dist n (specValue b ds) ≤ dist x (specValue b ds) := by
  have hc := capture_literal h hs
  generalize specValue b ds = N at *
  cases hv : captureNumber s with
  | none => rw [hv] at hc; cases hc
  | some p =>
    obtain ⟨v, src⟩ := p
    rw [hv] at hc
    simp at hc
    subst hc
    by_cases hN : N < 2 ^ 53
    · refine ⟨_, src, N, rfl, ?_, ⟨N, 0, hN, by simp⟩, ⟨fun _ => ⟨N, 0, hN, by simp⟩, fun _ => rfl⟩, ?_⟩
      · refine ⟨by rw [roundNat, if_pos hN], .inl ⟨0, ?_, ?_⟩⟩ <;> rw [roundNat, if_pos hN] <;> simp
      · intro x _; simp [dist]
    · obtain ⟨k, q, r, hk, rfl, hr, hq, hq', hv⟩ := roundNat_large (prec := 53) (by simp) (Nat.le_of_not_lt hN)
      have gap := fun x => @representable_gap 53 k q x (by simp) hk hq
      have hmul : (q + 1) * 2 ^ k = q * 2 ^ k + 2 ^ k := by rw [Nat.add_mul]; simp
      have key : ∀ n, (n = q * 2 ^ k ∧ 2 * r ≤ 2 ^ k ∨ n = (q + 1) * 2 ^ k ∧ 2 ^ k ≤ 2 * r) → Representable 53 n →
          (n = q * 2 ^ k + r ↔ Representable 53 (q * 2 ^ k + r)) ∧
          ∀ x, Representable 53 x → dist n (q * 2 ^ k + r) ≤ dist x (q * 2 ^ k + r) := by
        intro n hn hrep
        refine ⟨⟨fun h => h ▸ hrep, fun h => ?_⟩, fun x hx => ?_⟩
        · have := gap _ h
          rcases hn with ⟨rfl, hn⟩ | ⟨rfl, hn⟩ <;> omega
        · have := gap _ hx
          unfold dist
          rcases hn with ⟨rfl, hn⟩ | ⟨rfl, hn⟩ <;> omega
      rcases hv with ⟨hv, h2⟩ | ⟨hv, h2⟩
      · have hrep : Representable 53 (q * 2 ^ k) := ⟨q, k, hq', rfl⟩
        exact ⟨_, src, q * 2 ^ k, rfl, ⟨by rw [hv], .inl ⟨k, by rw [hv], by rw [hv]⟩⟩, hrep, key _ (.inl ⟨rfl, h2⟩) hrep⟩
      · have hrep : Representable 53 ((q + 1) * 2 ^ k) := by
          by_cases hlast : q + 1 < 2 ^ 53
          · exact ⟨q + 1, k, hlast, rfl⟩
          · refine ⟨1, 53 + k, by simp, ?_⟩
            have : q + 1 = 2 ^ 53 := by omega
            rw [this, Nat.pow_add]; simp
        exact ⟨_, src, (q + 1) * 2 ^ k, rfl, ⟨by rw [hv], .inl ⟨k, by rw [hv], by rw [hv]⟩⟩, hrep, key _ (.inr ⟨rfl, h2⟩) hrep⟩

/-- A literal with a prefix, both cases and an underscore. -/
example : Literal c!"0x1_fF" 16 c!"1_fF" :=
  .hex 'x' _ (by simp) ⟨by simp [specIsDigit, lowerDigits, upperDigits], ⟨'1', by simp⟩, by decide, by decide⟩

example : specValue 16 c!"1_fF" = 511 := by decide +kernel

/-! ## C35 -/

theorem captureNumber_nil [FloatValue] : captureNumber [] = none := rfl

/-- C35: a captured number is formatted as its source, and capturing this text gives the same number again. -/
theorem C35_number_format [FloatValue] [FloatText] (s src : Str) (v : BigFloat) (m : Meta) (a : Nat)
    (h : captureNumber s = some (v, src)) :
    (Node.valueNumber m (some (a, v)) src).fmt = some src ∧ captureNumber src = some (v, src) ∧
      src = numberSource s := by
  have hsrc : src = numberSource s := by
    simp only [captureNumber, Option.map_eq_some_iff] at h
    obtain ⟨_, _, h⟩ := h
    simp at h
    exact h.2.symm
  have hne : src ≠ [] := by
    rintro rfl
    have hs : s = [] := by
      by_cases hs : ∃ d, s = '0' :: d ∧ d ≠ [] ∧ ∀ c ∈ d, isDigit c = true ∨ c = '_'
      · obtain ⟨d, rfl, hd, hc⟩ := hs
        rw [C33_octal d hd hc] at hsrc
        simp at hsrc
      · rw [C33_other s hs] at hsrc; exact hsrc.symm
    subst hs
    rw [captureNumber_nil] at h
    cases h
  refine ⟨?_, ?_, hsrc⟩
  · rw [Node.fmt, fmtNumber, if_neg hne]
  · subst hsrc
    rw [captureNumber, C33_stable]
    exact h

example [FloatValue] : captureNumber c!"017" = some (⟨53, 15, 0, false⟩, c!"0o17") := rfl

/-! ## C36 -/

/-- The opening of a heredoc. -/
def heredocToken (tabs : Bool) (d : Str) : Str := c!"<<" ++ (if tabs then c!"-" else []) ++ d ++ c!"\n"

/-- Every opening token has this form, and its group is the delimiter. -/
theorem heredoc_match {prev : Option Char} {s : Str} {m : Match} (h : m ∈ reHeredoc.run prev s) :
    ∃ tabs d, d ≠ [] ∧ (∀ c ∈ d, isWord c = true) ∧ m.txt = heredocToken tabs d ∧ m.cap = some d := by
  simp only [reHeredoc, run, List.mem_flatMap, List.mem_map] at h
  obtain ⟨m1, h1, m2, ⟨m3, h3, m4, ⟨m5, ⟨m6, h6, rfl⟩, m7, h7, rfl⟩, rfl⟩, rfl⟩ := h
  have lit_eq : ∀ (w : Str) prev s (m : Match), m ∈ (lit w).run prev s → m.txt = w ∧ m.cap = none := by
    intro w prev s m hm
    by_cases hp : w <+: s
    · obtain ⟨t, rfl⟩ := hp
      rw [run_lit] at hm
      simp at hm
      simp [hm]
    · rw [run_lit_fail _ _ _ hp] at hm
      simp at hm
  have e1 := lit_eq _ _ _ _ h1
  have e7 := lit_eq _ _ _ _ h7
  have hc := run_chars _ _ _ _ h6
  have hn := (run_start _ _ _ _ h6).1
  have e3 : m3.txt = [] ∧ m3.cap = none ∨ m3.txt = c!"-" ∧ m3.cap = none := by
    simp only [opt, run, List.mem_append, List.mem_singleton] at h3
    rcases h3 with h3 | h3
    · right
      cases hr : m1.rest with
      | nil => simp [hr, run] at h3
      | cons c t =>
        rw [hr, run_cls_cons] at h3
        split at h3
        · simp at h3; simp_all
        · simp at h3
    · left; simp [h3]
  refine ⟨decide (m3.txt = c!"-"), m6.txt, ?_, ?_, ?_, ?_⟩
  · intro h; have := hn h; simp [nullable, plus] at this
  · intro c hcc; have := hc c hcc; simpa [chars, plus] using this
  · rcases e3 with e3 | e3 <;> simp [heredocToken, e1, e3, e7]
  · simp [e7]

theorem word_not_dash {c : Char} (h : isWord c = true) : c ≠ '-' ∧ c ≠ '\n' := by
  constructor <;> rintro rfl <;> revert h <;> decide

/-- What the rest of the pattern matches at an opening. -/
theorem head_heredoc (tabs : Bool) (d : Str) (hd : d ≠ []) (hw : ∀ c ∈ d, isWord c = true) (y : Str) (prev : Option Char)
    (e : Re) (he : ∀ p, ((e.run p ('\n' :: y)).head?) = some ⟨c!"\n", none, y⟩) :
    ((seq (lit c!"<<") (seq (opt (cls (· = '-'))) (seq (grp (plus (cls isWord))) e))).run prev
      (heredocToken tabs d ++ y)).head? = some ⟨heredocToken tabs d, some d, y⟩ := by
  obtain ⟨c, d, rfl⟩ := List.exists_cons_of_ne_nil hd
  have htw := takeWhile_stop (p := isWord) (l := d) (r := '\n' :: y) (fun c hc => hw c (by simp [hc])) (by
    intro a ha; simp at ha; subst ha; decide)
  have hg : ∀ p, ((grp (plus (cls isWord))).run p (c :: d ++ '\n' :: y)).head? =
      some ⟨c :: d, some (c :: d), '\n' :: y⟩ := by
    intro p
    rw [List.cons_append, head_grp (head_plus_cls isWord c _ (hw c (by simp)) p), htw.1, htw.2]
  have hll : ∀ z, ((lit c!"<<").run prev (c!"<<" ++ z)).head? = some ⟨c!"<<", none, z⟩ := by
    intro z; rw [run_lit]; rfl
  cases tabs with
  | true =>
    have ho : ∀ p, ((opt (cls (· = '-'))).run p ('-' :: (c :: d ++ '\n' :: y))).head? =
        some ⟨c!"-", none, c :: d ++ '\n' :: y⟩ := by
      intro p; apply head_alt_left; simp [run_cls_cons]
    have := head_seq (hll ('-' :: (c :: d ++ '\n' :: y))) (head_seq (ho _) (head_seq (hg _) (he _)))
    simp [Match.andThen, heredocToken] at this ⊢
    exact this
  | false =>
    have ho : ∀ p, ((opt (cls (· = '-'))).run p (c :: d ++ '\n' :: y)).head? =
        some (.nothing (c :: d ++ '\n' :: y)) := by
      intro p
      rw [opt, head_alt_right]
      · simp [run]
      · simp [run_cls_cons, (word_not_dash (hw c (by simp))).1]
    have := head_seq (hll (c :: d ++ '\n' :: y)) (head_seq (ho _) (head_seq (hg _) (he _)))
    simp [Match.andThen, Match.nothing, heredocToken] at this ⊢
    exact this

theorem head_newline (y : Str) (p : Option Char) : ((lit c!"\n").run p ('\n' :: y)).head? = some ⟨c!"\n", none, y⟩ := by
  have := run_lit c!"\n" p y; simp at this; simp [this]

theorem captureDelimiter_token (tabs : Bool) (d : Str) (hd : d ≠ []) (hw : ∀ c ∈ d, isWord c = true) :
    captureDelimiter (heredocToken tabs d) = some (tabs, d) := by
  have h := head_heredoc tabs d hd hw [] none (seq (lit c!"\n") eot) (by
    intro p
    rw [head_seq (head_newline [] p) (n := .nothing []) (by simp [run])]
    rfl)
  have hb : (bot.run none (heredocToken tabs d)).head? = some (.nothing (heredocToken tabs d)) := by simp [run]
  have := head_seq (b := seq (lit c!"<<") (seq (opt (cls (· = '-'))) (seq (grp (plus (cls isWord))) (seq (lit c!"\n") eot))))
    hb (n := ⟨heredocToken tabs d, some d, []⟩) (by simpa using h)
  simp only [captureDelimiter, first, heredocDelimiter, this]
  cases tabs <;> simp [heredocToken, Match.andThen, Match.nothing]

/-- C36: every opening token that the lexer produces, in any text, is captured without a panic; its group, which ends
the heredoc, is the captured delimiter; the flag is set iff there is a dash; and `<<`, the formatted delimiter and a
newline make up the token … -/
theorem C36_capture (s : Str) (m : Match) (h : reHeredoc.first s = some m) :
    ∃ tabs d f, captureDelimiter m.txt = some (tabs, d) ∧ m.cap = some d ∧ (tabs = true ↔ c!"<<-" <+: m.txt) ∧
      fmtDelimiter tabs d = some f ∧ m.txt = c!"<<" ++ f ++ c!"\n" := by
  obtain ⟨tabs, d, hd, hw, ht, hc⟩ := heredoc_match (List.mem_of_head? h)
  refine ⟨tabs, d, (if tabs then c!"-" else []) ++ d, ?_, hc, ?_, ?_, ?_⟩
  · rw [ht, captureDelimiter_token tabs d hd hw]
  · rw [ht]
    obtain ⟨c, d, rfl⟩ := List.exists_cons_of_ne_nil hd
    cases tabs <;> simp [heredocToken]
    intro h
    exact (word_not_dash (hw c (by simp))).1 h.symm
  · cases tabs <;> simp [fmtDelimiter, hd]
  · rw [ht]; simp [heredocToken]

/-- … which is what the lexer finds in that text again, outside strings and heredocs, whatever follows. -/
theorem C36_format (tabs : Bool) (d f y : Str) (st : Stack) (state : LexState) (g : Str)
    (hst : state = .root ∨ state = .stringExpr) (hd : d ≠ []) (hw : ∀ c ∈ d, isWord c = true)
    (hf : fmtDelimiter tabs d = some f) :
    lexStep ((state, g) :: st) (c!"<<" ++ f ++ c!"\n" ++ y) =
      some (rule .heredoc reHeredoc (.push .heredoc), ⟨c!"<<" ++ f ++ c!"\n", some d, y⟩,
        (.heredoc, d) :: (state, g) :: st) := by
  have hf' : c!"<<" ++ f ++ c!"\n" = heredocToken tabs d := by
    cases tabs <;> simp [fmtDelimiter, hd] at hf <;> simp [heredocToken, ← hf]
  rw [hf']
  have hm : reHeredoc.first (heredocToken tabs d ++ y) = some ⟨heredocToken tabs d, some d, y⟩ := by
    exact head_heredoc tabs d hd hw y none _ (head_newline y)
  have hl : heredocToken tabs d ++ y = '<' :: ('<' :: (if tabs then c!"-" else []) ++ d ++ c!"\n" ++ y) := by
    simp [heredocToken]
  rw [lexStep_of (r := rule .heredoc reHeredoc (.push .heredoc)) (m := ⟨heredocToken tabs d, some d, y⟩) ?_
    (by simp [heredocToken])]
  · rfl
  · rw [hl, firstRule_filter, ← hl]
    have : (rulesOf state).filter (Rule.can g '<') = rule .heredoc reHeredoc (.push .heredoc) ::
        [rule .opBitwiseShiftLeft (lit c!"<<"), rule .opLessOrEqual (lit c!"<="), rule .opLess (lit c!"<")] := by
      rcases hst with rfl | rfl <;> rfl
    rw [this, firstRule_hit hm]

/-- Both forms. -/
example : captureDelimiter c!"<<-EOF\n" = some (true, c!"EOF") ∧ fmtDelimiter true c!"EOF" = some c!"-EOF" ∧
    captureDelimiter c!"<<E_1\n" = some (false, c!"E_1") := by decide +kernel

end Verif.Etx
