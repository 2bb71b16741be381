import Verif.Etx.LayoutTokens
import Verif.Props.Number

/-! # The integer literals of C34 are tokens of their own -/

set_option linter.unusedSimpArgs false

namespace Verif.Etx
open Re

/-- What comes after the first digits of a decimal number. -/
def decTail : Re := seq (opt (lit c!".")) (seq (plus (cls isDigitSep))
    (opt (seq (cls fun c => c = 'e' || c = 'E') (seq (opt (cls fun c => c = '-' || c = '+')) (plus (cls isDigitSep))))))

theorem decTail_nil (p : Option Char) : decTail.run p [] = [] := by
  simp [decTail, run, opt, plus, lit]

theorem decTail_one {c : Char} (hc : isDigitSep c = true) (p : Option Char) : (decTail.run p [c]).head? = some ⟨[c], none, []⟩ := by
  have hd : c ≠ '.' := by rintro rfl; exact absurd hc (by decide)
  simp [decTail, run, opt, plus, lit, hd, hc, starRun, Match.andThen, Match.nothing]

theorem dec_head {ds : Str} (hne : ds ≠ []) (h : ∀ c ∈ ds, isDigitSep c = true) (p : Option Char) :
    (reDec.run p ds).head? = some ⟨ds, none, []⟩ := by
  show ((seq (star (cls isDigitSep)) decTail).run p ds).head? = _
  induction ds generalizing p with
  | nil => exact absurd rfl hne
  | cons c ds ih =>
    rw [run_star_seq]
    simp only [run_cls_cons, h c (by simp)]
    cases ds with
    | nil => 
      simp [starRun, Match.nothing, decTail_nil, decTail_one (h c (by simp)), run]
    | cons d ds =>
      have := ih (by simp) (fun c hc => h c (by simp [hc])) (some c)
      simp [this, Match.last, Match.andThen]

theorem hex_fail {s : Str} (h : ∀ c u, s = '0' :: c :: u → c ≠ 'x' ∧ c ≠ 'X') : reHex.run none s = [] := by
  match s, h with
  | [], _ => rfl
  | [d], _ => by_cases hd : d = '0' <;> simp [reHex, lit, run, hd]
  | d :: c :: u, h =>
    by_cases hd : d = '0'
    · subst hd
      have := h c u rfl
      simp [reHex, lit, run, this]
    · simp [reHex, lit, run, hd]

theorem bin_fail {s : Str} (h : ∀ c u, s = '0' :: c :: u → c ≠ 'b' ∧ c ≠ 'B') : reBin.run none s = [] := by
  match s, h with
  | [], _ => rfl
  | [d], _ => by_cases hd : d = '0' <;> simp [reBin, lit, run, hd]
  | d :: c :: u, h =>
    by_cases hd : d = '0'
    · subst hd
      have := h c u rfl
      simp [reBin, lit, run, this]
    · simp [reBin, lit, run, hd]

theorem oct_fail {s : Str} (h : ∀ c u, s = '0' :: c :: u → c ≠ 'o' ∧ c ≠ 'O') : reOct.run none s = [] := by
  match s, h with
  | [], _ => rfl
  | [d], _ => by_cases hd : d = '0' <;> simp [reOct, lit, run, hd]
  | d :: c :: u, h =>
    by_cases hd : d = '0'
    · subst hd
      have := h c u rfl
      simp [reOct, lit, run, this]
    · simp [reOct, lit, run, hd]

theorem takeWhile_all' {p : Char → Bool} {s : Str} (h : ∀ c ∈ s, p c = true) : s.takeWhile p = s := by
  induction s with
  | nil => rfl
  | cons c s ih => simp [h c (by simp), ih fun d hd => h d (by simp [hd])]

theorem dropWhile_all' {p : Char → Bool} {s : Str} (h : ∀ c ∈ s, p c = true) : s.dropWhile p = [] := by
  induction s with
  | nil => rfl
  | cons c s ih => simp [h c (by simp), ih fun d hd => h d (by simp [hd])]

theorem prefixed_head {x : Char} {p q : Char → Bool} (hx : p x = true) {ds : Str} (hd : ∀ c ∈ ds, q c = true) :
    ((seq (lit c!"0") (seq (cls p) (star (cls q)))).run none ('0' :: x :: ds)).head? = some ⟨'0' :: x :: ds, none, []⟩ := by
  have h1 : ((lit c!"0").run none ('0' :: x :: ds)).head? = some ⟨c!"0", none, x :: ds⟩ := by
    have := run_lit c!"0" none (x :: ds)
    simp at this
    simp [this]
  have h2 : ((cls p).run (Match.last ⟨c!"0", none, x :: ds⟩ none) (x :: ds)).head? = some ⟨[x], none, ds⟩ := by simp [run_cls_cons, hx]
  rw [head_seq h1 (head_seq h2 (head_star_cls q ds _))]
  have h3 : ds.takeWhile q = ds := takeWhile_all' hd
  have h4 : ds.dropWhile q = [] := dropWhile_all' hd
  simp [Match.andThen, h3, h4]

theorem prefixed_head' {x : Char} {p q : Char → Bool} (hx : p x = true) {ds : Str} (hne : ds ≠ []) (hd : ∀ c ∈ ds, q c = true) :
    ((seq (lit c!"0") (seq (cls p) (plus (cls q)))).run none ('0' :: x :: ds)).head? = some ⟨'0' :: x :: ds, none, []⟩ := by
  have h1 : ((lit c!"0").run none ('0' :: x :: ds)).head? = some ⟨c!"0", none, x :: ds⟩ := by
    have := run_lit c!"0" none (x :: ds)
    simp at this
    simp [this]
  have h2 : ((cls p).run (Match.last ⟨c!"0", none, x :: ds⟩ none) (x :: ds)).head? = some ⟨[x], none, ds⟩ := by simp [run_cls_cons, hx]
  obtain ⟨d, ds, rfl⟩ := List.exists_cons_of_ne_nil hne
  rw [head_seq h1 (head_seq h2 (head_plus_cls q d ds (hd d (by simp)) _))]
  have h3 : ds.takeWhile q = ds := takeWhile_all' (fun c hc => hd c (by simp [hc]))
  have h4 : ds.dropWhile q = [] := dropWhile_all' (fun c hc => hd c (by simp [hc]))
  simp [Match.andThen, h3, h4]

theorem SpecDigits.ne {b : Nat} {ds : Str} (h : SpecDigits b ds) : ds ≠ [] := by
  obtain ⟨c, hc, -⟩ := h.some
  exact List.ne_nil_of_mem hc

theorem SpecDigits.chars {b : Nat} {ds : Str} (h : SpecDigits b ds) {p : Char → Bool}
    (hp : ∀ c ∈ '_' :: (lowerDigits.take b ++ upperDigits.take b), p c = true) : ∀ c ∈ ds, p c = true := by
  intro c hc
  rcases h.digits c hc with rfl | h | h
  · exact hp _ (by simp)
  · exact hp _ (by simp [h])
  · exact hp _ (by simp [h])

/-- The integer literals are numbers for the lexer. -/
theorem Literal.numberOk {s ds : Str} {b : Nat} (h : Literal s b ds) : numberOk s = true := by
  have dec : ∀ s : Str, s ≠ [] → (∀ c ∈ s, isDigitSep c = true) → Verif.Etx.numberOk s = true := by
    intro s hne hs
    have e : ∀ c u, s = '0' :: c :: u → isDigitSep c = true := by rintro c u rfl; exact hs c (by simp)
    have h1 := hex_fail (s := s) fun c u hc => by constructor <;> (rintro rfl; exact absurd (e _ _ hc) (by decide))
    have h2 := bin_fail (s := s) fun c u hc => by constructor <;> (rintro rfl; exact absurd (e _ _ hc) (by decide))
    have h3 := oct_fail (s := s) fun c u hc => by constructor <;> (rintro rfl; exact absurd (e _ _ hc) (by decide))
    simp only [Verif.Etx.numberOk, Bool.and_eq_true, decide_eq_true_eq]
    refine ⟨?_, ?_⟩
    · obtain ⟨c, u, rfl⟩ := List.exists_cons_of_ne_nil hne
      simp [hs c (by simp)]
    · rw [first, reNumber, head_grp (m := ⟨s, none, []⟩)]
      rw [head_alt_right h1, head_alt_right h2, head_alt_right h3]
      exact dec_head hne hs none
  cases h with
  | hex x ds hx h =>
    have h1 : (reHex.run none ('0' :: x :: ds)).head? = _ := prefixed_head' (p := fun c => c = 'x' || c = 'X') (q := fun c => isHex c || c = '_') (by simpa using hx) h.ne (h.chars (by decide))
    simp only [Verif.Etx.numberOk, Bool.and_eq_true, decide_eq_true_eq]
    exact ⟨by simp; decide, by rw [first, reNumber, head_grp (head_alt_left h1)]⟩
  | oct x ds hx h =>
    have h1 : (reOct.run none ('0' :: x :: ds)).head? = _ := prefixed_head (p := fun c => c = 'o' || c = 'O') (q := fun c => ('0' ≤ c && c ≤ '7') || c = '_') (by simpa using hx) (h.chars (by decide))
    simp only [Verif.Etx.numberOk, Bool.and_eq_true, decide_eq_true_eq]
    refine ⟨by simp; decide, ?_⟩
    rw [first, reNumber, head_grp (m := ⟨'0' :: x :: ds, none, []⟩)]
    rw [head_alt_right, head_alt_right, head_alt_left h1]
    · exact bin_fail fun c u hc => by rcases hx with rfl | rfl <;> (simp at hc; simp [← hc.1])
    · exact hex_fail fun c u hc => by rcases hx with rfl | rfl <;> (simp at hc; simp [← hc.1])
  | bin x ds hx h =>
    have h1 : (reBin.run none ('0' :: x :: ds)).head? = _ := prefixed_head (p := fun c => c = 'b' || c = 'B') (q := fun c => c = '0' || c = '1' || c = '_') (by simpa using hx) (h.chars (by decide))
    simp only [Verif.Etx.numberOk, Bool.and_eq_true, decide_eq_true_eq]
    refine ⟨by simp; decide, ?_⟩
    rw [first, reNumber, head_grp (m := ⟨'0' :: x :: ds, none, []⟩)]
    rw [head_alt_right, head_alt_left h1]
    · exact hex_fail fun c u hc => by rcases hx with rfl | rfl <;> (simp at hc; simp [← hc.1])
  | legacy ds h => exact dec _ (by simp) (by simpa using ⟨by decide, h.chars (p := isDigitSep) (by decide)⟩)
  | dec _ h _ _ => exact dec _ h.ne (h.chars (by decide))
  | zero => exact dec _ (by simp) (by decide)

/-! ## In front of other text -/

theorem decTail_stop {y : Str} (hy : ∀ c ∈ y.head?, isWord c = false ∧ c ≠ '.') (p : Option Char) : decTail.run p y = [] := by
  cases y with
  | nil => exact decTail_nil p
  | cons c y =>
    have h := hy c rfl
    have h1 : isDigitSep c = false := by
      by_contra hc
      rw [Bool.not_eq_false] at hc
      have : isWord c = true := by
        simp only [isDigitSep, isDigit, isWord, Bool.or_eq_true, Bool.and_eq_true, decide_eq_true_eq] at hc ⊢
        tauto
      rw [h.1] at this
      cases this
    simp [decTail, run, opt, plus, lit, h.2, h1, Match.nothing]

theorem digitSep_word {c : Char} (h : isDigitSep c = true) : isWord c = true := by
  simp only [isDigitSep, isDigit, isWord, Bool.or_eq_true, Bool.and_eq_true, decide_eq_true_eq] at h ⊢
  tauto

theorem decTail_last {c : Char} (hc : isDigitSep c = true) {y : Str} (hy : ∀ c ∈ y.head?, isWord c = false ∧ c ≠ '.') (p : Option Char) :
    (decTail.run p (c :: y)).head? = some ⟨[c], none, y⟩ := by
  have hd : c ≠ '.' := by rintro rfl; exact absurd hc (by decide)
  have hs : ∀ d ∈ y.head?, isDigitSep d = false := fun d hd => by
    by_contra h
    rw [Bool.not_eq_false] at h
    exact absurd (digitSep_word h) (by simp [(hy d hd).1])
  have h1 : ((opt (lit c!".")).run p (c :: y)).head? = some ⟨[], none, c :: y⟩ := by
    simp [opt, run, lit, hd, Match.nothing]
  have h2 := head_plus_cls isDigitSep c y hc p
  have e1 : y.takeWhile isDigitSep = [] := by
    cases y with
    | nil => rfl
    | cons d y => simp [hs d rfl]
  have e2 : y.dropWhile isDigitSep = y := by
    cases y with
    | nil => rfl
    | cons d y => simp [hs d rfl]
  rw [e1, e2] at h2
  have h3 : ∀ q, ((opt (seq (cls fun c => c = 'e' || c = 'E') (seq (opt (cls fun c => c = '-' || c = '+')) (plus (cls isDigitSep))))).run q y).head? =
      some ⟨[], none, y⟩ := by
    intro q
    cases y with
    | nil => rfl
    | cons d y =>
      have := (hy d rfl).1
      have he : (decide (d = 'e') || decide (d = 'E')) = false := by
        by_contra h
        simp only [Bool.not_eq_false, Bool.or_eq_true, decide_eq_true_eq] at h
        rcases h with rfl | rfl <;> exact absurd this (by decide)
      simp only [opt, run]
      simp [he, Match.nothing, run]
  have := head_seq h1 (head_seq (n := ⟨[], none, y⟩) (by simpa [Match.last] using h2) (h3 _))
  simpa [decTail, Match.andThen] using this

theorem dec_before {ds : Str} (hne : ds ≠ []) (h : ∀ c ∈ ds, isDigitSep c = true) {y : Str} (hy : ∀ c ∈ y.head?, isWord c = false ∧ c ≠ '.')
    (p : Option Char) : (reDec.run p (ds ++ y)).head? = some ⟨ds, none, y⟩ := by
  show ((seq (star (cls isDigitSep)) decTail).run p (ds ++ y)).head? = _
  have hs : ∀ q, (cls isDigitSep).run q y = [] := fun q => by
    cases y with
    | nil => rfl
    | cons d y =>
      rw [run_cls_cons, if_neg]
      intro hd
      exact absurd (digitSep_word hd) (by simp [(hy d rfl).1])
  induction ds generalizing p with
  | nil => exact absurd rfl hne
  | cons c ds ih =>
    rw [List.cons_append, run_star_seq]
    simp only [run_cls_cons, h c (by simp)]
    cases ds with
    | nil =>
      have : (seq (star (cls isDigitSep)) decTail).run (some c) y = [] := by
        rw [run_star_seq_nil (hs _), decTail_stop hy]
      simp [this, Match.last, decTail_last (h c (by simp)) hy]
    | cons d ds =>
      have := ih (by simp) (fun c hc => h c (by simp [hc])) (some c)
      simp at this
      simp [this, Match.last, Match.andThen]

theorem prefixed_before {x : Char} {p q : Char → Bool} (hx : p x = true) {ds : Str} (hd : ∀ c ∈ ds, q c = true) {y : Str}
    (hy : ∀ c ∈ y.head?, q c = false) :
    ((seq (lit c!"0") (seq (cls p) (star (cls q)))).run none ('0' :: x :: ds ++ y)).head? = some ⟨'0' :: x :: ds, none, y⟩ := by
  have h1 : ((lit c!"0").run none ('0' :: x :: (ds ++ y))).head? = some ⟨c!"0", none, x :: (ds ++ y)⟩ := by
    have := run_lit c!"0" none (x :: (ds ++ y))
    simp at this
    simp [this]
  have h2 : ((cls p).run (Match.last ⟨c!"0", none, x :: (ds ++ y)⟩ none) (x :: (ds ++ y))).head? = some ⟨[x], none, ds ++ y⟩ := by simp [run_cls_cons, hx]
  have h3 := takeWhile_stop (p := q) hd hy
  simp only [List.cons_append]
  rw [head_seq h1 (head_seq h2 (head_star_cls q (ds ++ y) _)), h3.1, h3.2]
  simp [Match.andThen]

theorem prefixed_before' {x : Char} {p q : Char → Bool} (hx : p x = true) {ds : Str} (hne : ds ≠ []) (hd : ∀ c ∈ ds, q c = true) {y : Str}
    (hy : ∀ c ∈ y.head?, q c = false) :
    ((seq (lit c!"0") (seq (cls p) (plus (cls q)))).run none ('0' :: x :: ds ++ y)).head? = some ⟨'0' :: x :: ds, none, y⟩ := by
  have h1 : ((lit c!"0").run none ('0' :: x :: (ds ++ y))).head? = some ⟨c!"0", none, x :: (ds ++ y)⟩ := by
    have := run_lit c!"0" none (x :: (ds ++ y))
    simp at this
    simp [this]
  have h2 : ((cls p).run (Match.last ⟨c!"0", none, x :: (ds ++ y)⟩ none) (x :: (ds ++ y))).head? = some ⟨[x], none, ds ++ y⟩ := by simp [run_cls_cons, hx]
  obtain ⟨d, ds, rfl⟩ := List.exists_cons_of_ne_nil hne
  have h3 := takeWhile_stop (p := q) (l := ds) (fun c hc => hd c (by simp [hc])) hy
  simp only [List.cons_append] at h1 h2 ⊢
  rw [head_seq h1 (head_seq h2 (head_plus_cls q d (ds ++ y) (hd d (by simp)) _)), h3.1, h3.2]
  simp [Match.andThen]

/-- The integer literals are read as a whole in front of what does not continue a word and is no dot. -/
theorem Literal.first {s ds : Str} {b : Nat} (h : Literal s b ds) {y : Str} (hy : ∀ c ∈ y.head?, isWord c = false ∧ c ≠ '.') :
    reNumber.first (s ++ y) = some ⟨s, some s, y⟩ := by
  have sub : ∀ {q : Char → Bool}, (∀ c, q c = true → isWord c = true) → ∀ c ∈ y.head?, q c = false := fun hq c hc => by
    by_contra h
    rw [Bool.not_eq_false] at h
    exact absurd (hq c h) (by simp [(hy c hc).1])
  have dec : ∀ s : Str, s ≠ [] → (∀ c ∈ s, isDigitSep c = true) → reNumber.first (s ++ y) = some ⟨s, some s, y⟩ := by
    intro s hne hs
    have e : ∀ c u, s ++ y = '0' :: c :: u → c ∉ c!"xXbBoO" := by
      intro c u e hm
      have hw : ∀ c ∈ c!"xXbBoO", isWord c = true ∧ isDigitSep c = false := by decide
      match s, hne, hs, e with
      | [_], _, _, e =>
        simp only [List.cons_append, List.nil_append, List.cons.injEq] at e
        have := (hy c (by rw [e.2]; rfl)).1
        rw [(hw c hm).1] at this
        cases this
      | _ :: d :: s, _, hs, e =>
        simp only [List.cons_append, List.cons.injEq] at e
        have := hs d (by simp)
        rw [e.2.1, (hw c hm).2] at this
        cases this
    have h1 := hex_fail (s := s ++ y) fun c u hc => by constructor <;> (rintro rfl; exact e _ _ hc (by decide))
    have h2 := bin_fail (s := s ++ y) fun c u hc => by constructor <;> (rintro rfl; exact e _ _ hc (by decide))
    have h3 := oct_fail (s := s ++ y) fun c u hc => by constructor <;> (rintro rfl; exact e _ _ hc (by decide))
    rw [Re.first, reNumber, head_grp (m := ⟨s, none, y⟩)]
    rw [head_alt_right h1, head_alt_right h2, head_alt_right h3]
    exact dec_before hne hs hy none
  cases h with
  | hex x ds hx h =>
    have h1 : (reHex.run none ('0' :: x :: ds ++ y)).head? = _ := prefixed_before' (p := fun c => c = 'x' || c = 'X') (q := fun c => isHex c || c = '_')
      (by simpa using hx) h.ne (h.chars (by decide)) (sub fun c hc => by
        simp only [isHex, isDigit, isWord, Bool.or_eq_true, Bool.and_eq_true, decide_eq_true_eq] at hc ⊢
        rcases hc with ((hc | hc) | hc) | hc
        · tauto
        · exact .inl (.inr ⟨hc.1, Char.le_trans hc.2 (show 'f' ≤ 'z' by decide)⟩)
        · exact .inl (.inl (.inr ⟨hc.1, Char.le_trans hc.2 (show 'F' ≤ 'Z' by decide)⟩))
        · tauto)
    rw [Re.first, reNumber, head_grp (head_alt_left h1)]
  | oct x ds hx h =>
    have h1 : (reOct.run none ('0' :: x :: ds ++ y)).head? = _ := prefixed_before (p := fun c => c = 'o' || c = 'O') (q := fun c => ('0' ≤ c && c ≤ '7') || c = '_')
      (by simpa using hx) (h.chars (by decide)) (sub fun c hc => by
        simp only [isWord, Bool.or_eq_true, Bool.and_eq_true, decide_eq_true_eq] at hc ⊢
        rcases hc with hc | hc
        · exact .inl (.inl (.inl ⟨hc.1, Char.le_trans hc.2 (show '7' ≤ '9' by decide)⟩))
        · tauto)
    rw [Re.first, reNumber, head_grp (m := ⟨'0' :: x :: ds, none, y⟩)]
    rw [head_alt_right, head_alt_right, head_alt_left h1]
    · exact bin_fail fun c u hc => by rcases hx with rfl | rfl <;> (simp at hc; simp [← hc.1])
    · exact hex_fail fun c u hc => by rcases hx with rfl | rfl <;> (simp at hc; simp [← hc.1])
  | bin x ds hx h =>
    have h1 : (reBin.run none ('0' :: x :: ds ++ y)).head? = _ := prefixed_before (p := fun c => c = 'b' || c = 'B') (q := fun c => c = '0' || c = '1' || c = '_')
      (by simpa using hx) (h.chars (by decide)) (sub fun c hc => by
        simp only [Bool.or_eq_true, decide_eq_true_eq] at hc
        rcases hc with (rfl | rfl) | rfl <;> decide)
    rw [Re.first, reNumber, head_grp (m := ⟨'0' :: x :: ds, none, y⟩)]
    rw [head_alt_right, head_alt_left h1]
    · exact hex_fail fun c u hc => by rcases hx with rfl | rfl <;> (simp at hc; simp [← hc.1])
  | legacy ds h => exact dec _ (by simp) (by simpa using ⟨by decide, h.chars (p := isDigitSep) (by decide)⟩)
  | dec _ h _ _ => exact dec _ h.ne (h.chars (by decide))
  | zero => exact dec _ (by simp) (by decide)

/-- They are tokens there. -/
theorem Literal.token {s ds : Str} {b : Nat} (h : Literal s b ds) {y : Str} (hy : ∀ c ∈ y.head?, isWord c = false ∧ c ≠ '.') :
    TokenOf [(.root, [])] (s ++ y) .number s y := by
  have hf := h.first hy
  have h1 := h.numberOk
  simp only [Verif.Etx.numberOk, Bool.and_eq_true] at h1
  have h1 := h1.1
  cases s with
  | nil => simp at h1
  | cons c w =>
    simp only [List.head?_cons, Option.any_some] at h1
    refine TokenOf.of_firstRule (r := rule .number reNumber) (m := ⟨c :: w, some (c :: w), y⟩) ?_ (by simp) rfl
    rw [List.cons_append, firstRule_filter]
    have hc : c ∈ c!"0123456789_." := by
      simp only [isDigitSep, Bool.or_eq_true, decide_eq_true_eq] at h1
      rcases h1 with (h1 | rfl) | rfl
      · exact List.mem_append_left (bs := c!"_.") (digit_cases h1)
      · decide
      · decide
    have key : ∀ c ∈ c!"0123456789_.", ((rulesOf .root).filter (Rule.can [] c)).head? = some (rule .number reNumber) := by
      intro c hc
      simp only [List.mem_cons, List.not_mem_nil, or_false] at hc
      rcases hc with rfl | rfl | rfl | rfl | rfl | rfl | rfl | rfl | rfl | rfl | rfl | rfl <;> rfl
    obtain ⟨rs, this⟩ := List.head?_eq_some_iff.mp (key c hc)
    rw [this]
    exact firstRule_hit hf

end Verif.Etx
