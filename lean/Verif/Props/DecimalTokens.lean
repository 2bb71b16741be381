import Verif.Props.LiteralTokens
import Verif.Props.Decimal

/-! # The decimal literals of C61 are tokens of their own -/

set_option linter.unusedSimpArgs false

namespace Verif.Etx
open Re

/-- `([eE][-+]?[0-9_]+)?` -/
def decExp : Re := opt (seq (cls fun c => c = 'e' || c = 'E') (seq (opt (cls fun c => c = '-' || c = '+')) (plus (cls isDigitSep))))

/-- What may follow a number. -/
def NumEnd (y : Str) : Prop := ∀ c ∈ y.head?, isWord c = false ∧ c ≠ '.'

theorem NumEnd.digit {y : Str} (h : NumEnd y) : ∀ c ∈ y.head?, isDigitSep c = false := fun c hc => by
  by_contra hd
  rw [Bool.not_eq_false] at hd
  exact absurd (digitSep_word hd) (by simp [(h c hc).1])

theorem Digits.seps {ds : Str} (h : Digits ds) : ∀ c ∈ ds, isDigitSep c = true := h.toSpecDigits.chars (by decide)

theorem head_plus_digits {ds y : Str} (h : Digits ds) (hy : ∀ c ∈ y.head?, isDigitSep c = false) (q : Option Char) :
    ((plus (cls isDigitSep)).run q (ds ++ y)).head? = some ⟨ds, none, y⟩ := by
  obtain ⟨c, ds', rfl⟩ := List.exists_cons_of_ne_nil h.toSpecDigits.ne
  have h1 := head_plus_cls isDigitSep c (ds' ++ y) (h.seps c (by simp)) q
  have h2 := takeWhile_stop (p := isDigitSep) (l := ds') (r := y) (fun d hd => h.seps d (by simp [hd])) hy
  rw [h2.1, h2.2] at h1
  exact h1

/-- The exponent in front of other text. -/
theorem exp_before {t : Str} {x : Int} (h : Exponent t x) {y : Str} (hy : NumEnd y) (q : Option Char) :
    (decExp.run q (t ++ y)).head? = some ⟨t, none, y⟩ := by
  have noE : ∀ c ∈ y.head?, (decide (c = 'e') || decide (c = 'E')) = false := fun c hc => by
    by_contra he
    simp only [Bool.not_eq_false, Bool.or_eq_true, decide_eq_true_eq] at he
    have := (hy c hc).1
    rcases he with rfl | rfl <;> exact absurd this (by decide)
  have hit : ∀ (e : Char) (g ds : Str), e = 'e' ∨ e = 'E' → Digits ds → (∀ q, ((opt (cls fun c => c = '-' || c = '+')).run q (g ++ (ds ++ y))).head? =
      some ⟨g, none, ds ++ y⟩) → (decExp.run q (e :: (g ++ ds) ++ y)).head? = some ⟨e :: (g ++ ds), none, y⟩ := by
    intro e g ds he hd hg
    have h1 : ((cls fun c => c = 'e' || c = 'E').run q (e :: (g ++ (ds ++ y)))).head? = some ⟨[e], none, g ++ (ds ++ y)⟩ := by
      have : (decide (e = 'e') || decide (e = 'E')) = true := by simpa using he
      simp [run_cls_cons, this]
    have h2 := head_seq h1 (head_seq (hg _) (head_plus_digits hd hy.digit _))
    have h3 := head_alt_left (b := eps) h2
    have e1 : e :: (g ++ ds) ++ y = e :: (g ++ (ds ++ y)) := by simp
    rw [e1]
    refine h3.trans ?_
    simp [Match.andThen]
  cases h with
  | none =>
    cases y with
    | nil => rfl
    | cons d y =>
      have := noE d rfl
      simp only [decExp, opt, run, List.nil_append]
      simp [this, Match.nothing, run]
  | unsigned e ds he hd =>
    refine hit e [] ds he hd fun q => ?_
    obtain ⟨c, ds', rfl⟩ := List.exists_cons_of_ne_nil hd.toSpecDigits.ne
    have hc := hd.seps c (by simp)
    have : (decide (c = '-') || decide (c = '+')) = false := by
      by_contra h
      simp only [Bool.not_eq_false, Bool.or_eq_true, decide_eq_true_eq] at h
      rcases h with rfl | rfl <;> exact absurd hc (by decide)
    simp only [opt, run, List.nil_append, List.cons_append]
    simp [this, Match.nothing]
  | plus e ds he hd =>
    have := hit e c!"+" ds he hd fun q => by simp [opt, run]
    simpa using this
  | minus e ds he hd =>
    have := hit e c!"-" ds he hd fun q => by simp [opt, run]
    simpa using this

theorem Exponent.head {t : Str} {x : Int} (h : Exponent t x) {y : Str} (hy : NumEnd y) : ∀ c ∈ (t ++ y).head?, isDigitSep c = false ∧ c ≠ '.' ∧ c ∉ c!"xXbBoO" := by
  intro c hc
  have e : ∀ e : Char, e = 'e' ∨ e = 'E' → isDigitSep e = false ∧ e ≠ '.' ∧ e ∉ c!"xXbBoO" := by rintro e (rfl | rfl) <;> decide
  cases h with
  | none =>
    refine ⟨hy.digit c hc, (hy c hc).2, fun hm => ?_⟩
    have hw : ∀ c ∈ c!"xXbBoO", isWord c = true := by decide
    have := (hy c hc).1
    rw [hw c hm] at this
    cases this
  | unsigned f ds he hd => simp at hc; exact hc ▸ e _ he
  | plus f ds he hd => simp at hc; exact hc ▸ e _ he
  | minus f ds he hd => simp at hc; exact hc ▸ e _ he

/-- Digits in front of an exponent: the first part of the expression gives one digit back. -/
theorem int_before {ds : Str} (hne : ds ≠ []) (h : ∀ c ∈ ds, isDigitSep c = true) {t : Str} {x : Int} (ht : Exponent t x) {y : Str} (hy : NumEnd y)
    (p : Option Char) : (reDec.run p (ds ++ (t ++ y))).head? = some ⟨ds ++ t, none, y⟩ := by
  show ((seq (star (cls isDigitSep)) decTail).run p (ds ++ (t ++ y))).head? = _
  have hz := ht.head hy
  have hs : ∀ q, (cls isDigitSep).run q (t ++ y) = [] := fun q => by
    cases hty : t ++ y with
    | nil => rfl
    | cons d z =>
      rw [hty] at hz
      rw [run_cls_cons, if_neg]
      simp [(hz d rfl).1]
  have fail : ∀ q, decTail.run q (t ++ y) = [] := fun q => by
    cases hty : t ++ y with
    | nil => exact decTail_nil q
    | cons d z =>
      rw [hty] at hz
      have := hz d rfl
      simp [decTail, run, opt, plus, lit, this.1, this.2.1, Match.nothing]
  have last : ∀ c q, isDigitSep c = true → (decTail.run q (c :: (t ++ y))).head? = some ⟨c :: t, none, y⟩ := by
    intro c q hc
    have hd : c ≠ '.' := by rintro rfl; exact absurd hc (by decide)
    have h1 : ((opt (lit c!".")).run q (c :: (t ++ y))).head? = some ⟨[], none, c :: (t ++ y)⟩ := by
      simp [opt, run, lit, hd, Match.nothing]
    have h2 := head_plus_cls isDigitSep c (t ++ y) hc q
    have h3 := takeWhile_stop (p := isDigitSep) (l := []) (r := t ++ y) (by simp) fun d hd => (hz d hd).1
    simp only [List.nil_append] at h3
    rw [h3.1, h3.2] at h2
    have := head_seq h1 (head_seq (by simpa [Match.last] using h2) (exp_before ht hy _))
    simpa [decTail, decExp, Match.andThen] using this
  induction ds generalizing p with
  | nil => exact absurd rfl hne
  | cons c ds ih =>
    rw [List.cons_append, run_star_seq]
    simp only [run_cls_cons, h c (by simp)]
    cases ds with
    | nil =>
      have : (seq (star (cls isDigitSep)) decTail).run (some c) (t ++ y) = [] := by
        rw [run_star_seq_nil (hs _), fail]
      simp [this, Match.last, last c p (h c (by simp))]
    | cons d ds =>
      have := ih (by simp) (fun c hc => h c (by simp [hc])) (some c)
      simp at this
      simp [this, Match.last, Match.andThen]

/-- Digits and a point. -/
theorem point_before {i f t : Str} {x : Int} (hi : ∀ c ∈ i, isDigitSep c = true) (hf : Digits f) (ht : Exponent t x) {y : Str} (hy : NumEnd y)
    (p : Option Char) : (reDec.run p (i ++ '.' :: (f ++ (t ++ y)))).head? = some ⟨i ++ '.' :: (f ++ t), none, y⟩ := by
  have h1 := head_star_cls isDigitSep (i ++ '.' :: (f ++ (t ++ y))) p
  have h2 := takeWhile_stop (p := isDigitSep) (l := i) (r := '.' :: (f ++ (t ++ y))) hi (by simp; decide)
  rw [h2.1, h2.2] at h1
  have h3 : ∀ q, ((opt (lit c!".")).run q ('.' :: (f ++ (t ++ y)))).head? = some ⟨c!".", none, f ++ (t ++ y)⟩ := fun q => by
    simp [opt, run, lit]
  have h4 := head_seq h1 (head_seq (h3 _) (head_seq (head_plus_digits hf (fun c hc => (ht.head hy c hc).1) _) (exp_before ht hy _)))
  refine (show (reDec.run p (i ++ '.' :: (f ++ (t ++ y)))).head? = _ from h4).trans ?_
  simp [Match.andThen]

/-- A decimal literal is read as a whole. -/
theorem Decimal.first {s ds : Str} {x : Int} (h : Decimal s ds x) {y : Str} (hy : NumEnd y) : reNumber.first (s ++ y) = some ⟨s, some s, y⟩ := by
  obtain ⟨m, t, k, e, hm, ht, rfl, -, -⟩ := h
  have zero : ∀ c u, m ++ t ++ y = '0' :: c :: u → c ∉ c!"xXbBoO" := by
    intro c u hz hc
    have nd : ∀ c ∈ c!"xXbBoO", isDigitSep c = false ∧ c ≠ '.' := by decide
    have key : ∀ (i z : Str), Digits i → (∀ c ∈ z.head?, c ∉ c!"xXbBoO") → i ++ z = '0' :: c :: u → False := by
      intro i z hi hz e
      match i, hi.toSpecDigits.ne, hi.seps, e with
      | [_], _, _, e =>
        simp only [List.cons_append, List.nil_append, List.cons.injEq] at e
        exact hz c (by rw [e.2]; rfl) hc
      | _ :: d :: i, _, hi, e =>
        simp only [List.cons_append, List.cons.injEq] at e
        have := hi d (by simp)
        rw [e.2.1, (nd c hc).1] at this
        cases this
    cases hm with
    | int i hi => exact key _ (t ++ y) hi (fun c hc => (ht.head hy c hc).2.2) (by simpa using hz)
    | point i f hi hf => exact key i ('.' :: f ++ t ++ y) hi (by simp) (by simpa using hz)
    | dot f hf => simp at hz
  have h1 := hex_fail (s := m ++ t ++ y) fun c u hc => by constructor <;> (rintro rfl; exact zero _ _ hc (by decide))
  have h2 := bin_fail (s := m ++ t ++ y) fun c u hc => by constructor <;> (rintro rfl; exact zero _ _ hc (by decide))
  have h3 := oct_fail (s := m ++ t ++ y) fun c u hc => by constructor <;> (rintro rfl; exact zero _ _ hc (by decide))
  rw [Re.first, reNumber, head_grp (m := ⟨m ++ t, none, y⟩)]
  rw [head_alt_right h1, head_alt_right h2, head_alt_right h3]
  cases hm with
  | int i hi => simpa using int_before hi.toSpecDigits.ne hi.seps ht hy none
  | point i f hi hf => simpa using point_before hi.seps hf ht hy none
  | dot f hf => simpa using point_before (i := []) (by simp) hf ht hy none

theorem Mantissa.chars {m ds : Str} {k : Nat} (h : Mantissa m ds k) : m ≠ [] ∧ ∀ c ∈ m, isDigitSep c = true ∨ c = '.' := by
  cases h with
  | int i hi => exact ⟨hi.toSpecDigits.ne, fun c hc => .inl (hi.seps c hc)⟩
  | point i f hi hf =>
    refine ⟨by simp, fun c hc => ?_⟩
    rcases List.mem_append.1 hc with hc | hc
    · exact .inl (hi.seps c hc)
    · rcases List.mem_cons.1 hc with hc | hc
      · exact .inr hc
      · exact .inl (hf.seps c hc)
  | dot f hf =>
    refine ⟨by simp, fun c hc => ?_⟩
    rcases List.mem_cons.1 hc with hc | hc
    · exact .inr hc
    · exact .inl (hf.seps c hc)

theorem Exponent.chars {t : Str} {x : Int} (h : Exponent t x) : ∀ c ∈ t, isWord c = true ∨ c = '+' ∨ c = '-' := by
  have e : ∀ e : Char, e = 'e' ∨ e = 'E' → isWord e = true := by rintro e (rfl | rfl) <;> decide
  cases h with
  | none => simp
  | unsigned f ds he hd =>
    intro c hc
    rcases List.mem_cons.1 hc with rfl | hc
    · exact .inl (e _ he)
    · exact .inl (digitSep_word (hd.seps c hc))
  | plus f ds he hd =>
    intro c hc
    rcases List.mem_cons.1 hc with rfl | hc
    · exact .inl (e _ he)
    · rcases List.mem_cons.1 hc with rfl | hc
      · exact .inr (.inl rfl)
      · exact .inl (digitSep_word (hd.seps c hc))
  | minus f ds he hd =>
    intro c hc
    rcases List.mem_cons.1 hc with rfl | hc
    · exact .inl (e _ he)
    · rcases List.mem_cons.1 hc with rfl | hc
      · exact .inr (.inr rfl)
      · exact .inl (digitSep_word (hd.seps c hc))

theorem Decimal.chars {s ds : Str} {x : Int} (h : Decimal s ds x) : ∀ c ∈ s, isWord c = true ∨ c ∈ c!".+-" := by
  obtain ⟨m, t, k, e, hm, ht, rfl, -, -⟩ := h
  intro c hc
  rcases List.mem_append.1 hc with hc | hc
  · exact (hm.chars.2 c hc).imp digitSep_word (by rintro rfl; simp)
  · exact (ht.chars c hc).imp id (by rintro (rfl | rfl) <;> simp)

theorem Decimal.start {s ds : Str} {x : Int} (h : Decimal s ds x) : ∃ c w, s = c :: w ∧ (isDigitSep c = true ∨ c = '.') := by
  obtain ⟨m, t, k, e, hm, ht, rfl, -, -⟩ := h
  obtain ⟨c, w, rfl⟩ := List.exists_cons_of_ne_nil hm.chars.1
  exact ⟨c, _, rfl, hm.chars.2 c (by simp)⟩

/-- A decimal literal is a token in front of what does not continue a word and is no dot. -/
theorem Decimal.token {s ds : Str} {x : Int} (h : Decimal s ds x) {y : Str} (hy : NumEnd y) : TokenOf [(.root, [])] (s ++ y) .number s y := by
  have hf := h.first hy
  obtain ⟨c, w, rfl, h1⟩ := h.start
  refine TokenOf.of_firstRule (r := rule .number reNumber) (m := ⟨c :: w, some (c :: w), y⟩) ?_ (by simp) rfl
  rw [List.cons_append, firstRule_filter]
  have hc : c ∈ c!"0123456789_." := by
    simp only [isDigitSep, Bool.or_eq_true, decide_eq_true_eq] at h1
    rcases h1 with (h1 | rfl) | rfl
    · exact List.mem_append_left (bs := c!"_.") (digit_cases h1)
    · decide
    · decide
  have key : ∀ c ∈ c!"0123456789_.", ((rulesOf .root).filter (Rule.can [] c)).head? = some (rule .number reNumber) := by
    intro c hc
    simp only [List.mem_cons, List.not_mem_nil, or_false] at hc
    rcases hc with rfl | rfl | rfl | rfl | rfl | rfl | rfl | rfl | rfl | rfl | rfl | rfl <;> rfl
  obtain ⟨rs, this⟩ := List.head?_eq_some_iff.mp (key c hc)
  rw [this]
  exact firstRule_hit hf

end Verif.Etx
