import Verif.Etx.Number
import Verif.Etx.RegexLemmas

/-!
# Facts about captured tokens
-/

namespace Verif.Etx

open Re

/-! ## The characters of a match -/

/-- The characters that can occur in a match. -/
def Re.chars : Re → Char → Bool
  | eps, _ => false
  | cls p, c => p c
  | seq a b, c => a.chars c || b.chars c
  | alt a b, c => a.chars c || b.chars c
  | star a, c => a.chars c
  | lazyStar a, c => a.chars c
  | bot, _ => false
  | eot, _ => false
  | wordB, _ => false
  | grp a, c => a.chars c

theorem Re.run_chars (r : Re) : ∀ prev s, ∀ m ∈ r.run prev s, ∀ c ∈ m.txt, r.chars c = true := by
  have hstar : ∀ a : Re, (∀ prev s, ∀ m ∈ a.run prev s, ∀ c ∈ m.txt, a.chars c = true) →
      ∀ n prev s, ∀ m ∈ starRun a.run n prev s, ∀ c ∈ m.txt, a.chars c = true := by
    intro a ih n
    induction n with
    | zero => intro prev s m hm; simp [starRun] at hm; simp [hm]
    | succ n ihn =>
      intro prev s m hm c hc
      simp only [starRun, List.mem_append, List.mem_flatMap, List.mem_filter, List.mem_map, List.mem_singleton] at hm
      rcases hm with ⟨m1, ⟨h1, -⟩, m2, h2, rfl⟩ | rfl
      · simp at hc
        exact hc.elim (ih _ _ _ h1 c) (ihn _ _ _ h2 c)
      · simp at hc
  have hlazy : ∀ a : Re, (∀ prev s, ∀ m ∈ a.run prev s, ∀ c ∈ m.txt, a.chars c = true) →
      ∀ n prev s, ∀ m ∈ lazyRun a.run n prev s, ∀ c ∈ m.txt, a.chars c = true := by
    intro a ih n
    induction n with
    | zero => intro prev s m hm; simp [lazyRun] at hm; simp [hm]
    | succ n ihn =>
      intro prev s m hm c hc
      simp only [lazyRun, List.mem_cons, List.mem_flatMap, List.mem_filter, List.mem_map] at hm
      rcases hm with rfl | ⟨m1, ⟨h1, -⟩, m2, h2, rfl⟩
      · simp at hc
      · simp at hc
        exact hc.elim (ih _ _ _ h1 c) (ihn _ _ _ h2 c)
  induction r with
  | eps => intro prev s m hm; simp [run] at hm; simp [hm]
  | cls p =>
    intro prev s m hm c hc
    cases s with
    | nil => simp [run] at hm
    | cons d s =>
      simp only [run] at hm
      split at hm
      · simp at hm; subst hm; simp at hc; subst hc; assumption
      · simp at hm
  | seq a b iha ihb =>
    intro prev s m hm c hc
    simp only [run, List.mem_flatMap, List.mem_map] at hm
    obtain ⟨m1, h1, m2, h2, rfl⟩ := hm
    simp at hc
    rcases hc with hc | hc
    · simp [chars, iha _ _ _ h1 c hc]
    · simp [chars, ihb _ _ _ h2 c hc]
  | alt a b iha ihb =>
    intro prev s m hm c hc
    simp only [run, List.mem_append] at hm
    rcases hm with hm | hm
    · simp [chars, iha _ _ _ hm c hc]
    · simp [chars, ihb _ _ _ hm c hc]
  | star a ih => intro prev s; exact hstar a ih _ _ _
  | lazyStar a ih => intro prev s; exact hlazy a ih _ _ _
  | bot => intro prev s m hm; simp only [run] at hm; split at hm <;> simp at hm; simp [hm]
  | eot => intro prev s m hm; simp only [run] at hm; split at hm <;> simp at hm; simp [hm]
  | wordB => intro prev s m hm; simp only [run] at hm; split at hm <;> simp at hm; simp [hm]
  | grp a ih =>
    intro prev s m hm
    simp only [run, List.mem_map] at hm
    obtain ⟨m1, h1, rfl⟩ := hm
    exact ih _ _ m1 h1

theorem takeWhile_all {α : Type} {p : α → Bool} {l : List α} (h : ∀ a ∈ l, p a = true) :
    l.takeWhile p = l ∧ l.dropWhile p = [] := by
  induction l with
  | nil => simp
  | cons a l ih =>
    have := ih fun b hb => h b (by simp [hb])
    simp [h a (by simp), this]

/-- A run of a class that is followed by nothing of the class. -/
theorem takeWhile_stop {α : Type} {p : α → Bool} {l r : List α} (h : ∀ a ∈ l, p a = true)
    (hr : ∀ a ∈ r.head?, p a = false) : (l ++ r).takeWhile p = l ∧ (l ++ r).dropWhile p = r := by
  induction l with
  | nil =>
    cases r with
    | nil => simp
    | cons a r => simp [hr a rfl]
  | cons a l ih =>
    have := ih fun b hb => h b (by simp [hb])
    simp [h a (by simp), this]

/-! ## Legacy octal numbers -/

/-- A digit or an underscore. -/
def isOctalPart (c : Char) : Bool := isDigit c || c = '_'

theorem first_octalPrefix (d : Str) (hd : d ≠ []) (h : ∀ c ∈ d, isOctalPart c = true) :
    needsOctalPrefix.first ('0' :: d) = some ⟨'0' :: d, some d, []⟩ := by
  obtain ⟨c, d, rfl⟩ := List.exists_cons_of_ne_nil hd
  have hp : ((plus (cls fun c => isDigit c || c = '_')).run (some '0') (c :: d)).head?
      = some ⟨c :: d, none, []⟩ := by
    rw [head_plus_cls _ c d (by simpa [isOctalPart] using h c (by simp))]
    have := takeWhile_all (p := fun c => isDigit c || c = '_') (l := d) fun c hc => h c (by simp [hc])
    simp [this]
  have hlit : ((lit c!"0").run none ('0' :: c :: d)).head? = some ⟨c!"0", none, c :: d⟩ := by
    have := run_lit c!"0" none (c :: d)
    simp at this
    simp [this]
  have hbot : (bot.run none ('0' :: c :: d)).head? = some (.nothing ('0' :: c :: d)) := by simp [run]
  rw [first, needsOctalPrefix, head_seq hbot (head_seq hlit (head_seq (head_grp hp) (n := .nothing []) (by simp [run])))]
  simp [Match.andThen, Match.nothing]

theorem first_octalPrefix_some {s : Str} {m : Match} (h : needsOctalPrefix.first s = some m) :
    ∃ d, s = '0' :: d ∧ d ≠ [] ∧ ∀ c ∈ d, isOctalPart c = true := by
  have hm : m ∈ needsOctalPrefix.run none s := List.mem_of_head? h
  simp only [needsOctalPrefix, run, List.mem_flatMap, List.mem_map, if_true, List.mem_singleton] at hm
  obtain ⟨m1, rfl, m2, ⟨m3, h3, m4, ⟨m5, ⟨m6, h6, rfl⟩, m7, h7, rfl⟩, rfl⟩, rfl⟩ := hm
  simp only [Match.nothing_rest, Match.nothing_last] at *
  have hs := run_split _ _ _ _ h3
  have hc := run_chars _ _ _ _ h6
  have hn := (run_start _ _ _ _ h6).1
  have hs6 := run_split _ _ _ _ h6
  have h3' : m3.txt = c!"0" := by
    cases s with
    | nil => simp [lit, run] at h3
    | cons c s =>
      simp only [lit, run] at h3
      split at h3 <;> simp_all
  split at h7
  case isFalse => simp at h7
  case isTrue h0 =>
    rw [h0, List.append_nil] at hs6
    refine ⟨m3.rest, ?_, ?_, ?_⟩
    · rw [← hs, h3']; rfl
    · intro h; rw [← hs6] at h; simp [nullable, plus] at hn; exact absurd h hn
    · intro c h
      rw [← hs6] at h
      have := hc c h
      simpa [chars, plus, isOctalPart] using this

/-! ## Scanning digits -/

theorem Char.le_toNat (a b : Char) : a ≤ b ↔ a.toNat ≤ b.toNat := by
  simp only [Char.le_def, Char.toNat, UInt32.le_iff_toNat_le]

/-- The digits of a text without underscores, most significant first. -/
def natValue (b : Nat) (n : Nat) (ds : Str) : Nat := ds.foldl (fun n c => if c = '_' then n else n * b + digitVal c) n

/-- An underscore after something other than a digit. -/
def clash : Prev → Str → Bool
  | _, [] => false
  | prev, c :: s => (c = '_' && prev ≠ .digit) || clash (if c = '_' then .sep else .digit) s

/-- The last character. -/
def endPrev : Prev → Str → Prev
  | prev, [] => prev
  | _, c :: s => endPrev (if c = '_' then .sep else .digit) s

/-- The number of digits. -/
def digitCount (ds : Str) : Nat := (ds.filter (· ≠ '_')).length

theorem scanMant_digits (b : Nat) : ∀ (ds : Str) (st : Scan),
    (∀ c ∈ ds, c = '_' ∨ (c ≠ '.' ∧ digitVal c < b)) →
    scanMant b st ds = ({ st with
      prev := endPrev st.prev ds, bad := st.bad || clash st.prev ds, count := st.count + digitCount ds
      mant := natValue b st.mant ds }, []) := by
  intro ds
  induction ds with
  | nil => intro st _; simp [scanMant, endPrev, clash, digitCount, natValue]
  | cons c ds ih =>
    intro st h
    have h' := fun c hc => h c (List.mem_cons_of_mem _ hc)
    rcases h c (by simp) with rfl | ⟨hc, hd⟩
    · rw [scanMant, if_neg (by simp), if_pos rfl, ih _ h']
      simp [endPrev, clash, digitCount, natValue, Bool.or_assoc]
    · by_cases hu : c = '_'
      · subst hu
        rw [scanMant, if_neg (by simp), if_pos rfl, ih _ h']
        simp [endPrev, clash, digitCount, natValue, Bool.or_assoc]
      · rw [scanMant, if_neg (by simp [hc]), if_neg hu, if_pos hd, ih _ h']
        simp [endPrev, clash, digitCount, natValue, hu]
        omega

/-- A digit that is too large stops the loop. -/
theorem scanMant_stop (b : Nat) : ∀ (ds : Str) (st : Scan), (∀ c ∈ ds, c ≠ '.') →
    (∃ c ∈ ds, c ≠ '_' ∧ b ≤ digitVal c) →
    ∃ c s, (scanMant b st ds).2 = c :: s ∧ c ∈ ds := by
  intro ds
  induction ds with
  | nil => intro st _ h; simp at h
  | cons c ds ih =>
    intro st hdot h
    have hdot' := fun c hc => hdot c (List.mem_cons_of_mem _ hc)
    rw [scanMant, if_neg (by simp [hdot c (by simp)])]
    have step : (¬ (c ≠ '_' ∧ b ≤ digitVal c)) → ∃ c ∈ ds, c ≠ '_' ∧ b ≤ digitVal c := by
      intro hn
      obtain ⟨e, he, hh⟩ := h
      rcases List.mem_cons.1 he with rfl | he
      · exact absurd hh hn
      · exact ⟨e, he, hh⟩
    split
    · rename_i hu
      obtain ⟨e, s, h1, h2⟩ := ih _ hdot' (step (by simp [hu]))
      exact ⟨e, s, h1, by simp [h2]⟩
    · split
      · rename_i hd
        obtain ⟨e, s, h1, h2⟩ := ih _ hdot' (step (by omega))
        exact ⟨e, s, h1, by simp [h2]⟩
      · exact ⟨c, ds, rfl, by simp⟩

theorem clash_false_iff : ∀ (ds : Str) (prev : Prev), clash prev ds = false ↔
    (prev ≠ .digit → ∀ s, ds ≠ '_' :: s) ∧ ¬ c!"__" <:+: ds := by
  intro ds
  induction ds with
  | nil => intro prev; simp [clash]
  | cons c ds ih =>
    intro prev
    rw [clash, Bool.or_eq_false_iff, ih, List.infix_cons_iff]
    by_cases hc : c = '_'
    · subst hc
      cases ds with
      | nil => cases prev <;> simp
      | cons d ds =>
        by_cases hd : d = '_'
        · subst hd; cases prev <;> simp
        · cases prev <;> simp [hd, Ne.symm hd]
    · cases prev <;> simp [hc, Ne.symm hc]

theorem endPrev_sep_iff : ∀ (ds : Str) (prev : Prev), prev ≠ .sep → (endPrev prev ds = .sep ↔ c!"_" <:+ ds) := by
  have snoc : ∀ (ds : Str) (c : Char) (prev : Prev),
      endPrev prev (ds ++ [c]) = if c = '_' then .sep else .digit := by
    intro ds
    induction ds with
    | nil => intro c prev; rfl
    | cons d ds ih => intro c prev; simp [endPrev, ih]
  intro ds prev hp
  cases hds : ds.reverse with
  | nil =>
    simp at hds
    subst hds
    simp [endPrev, hp]
  | cons c r =>
    have : ds = r.reverse ++ [c] := by rw [← List.reverse_reverse ds, hds]; simp
    subst this
    rw [snoc]
    by_cases hc : c = '_'
    · subst hc
      simp
    · simp only [hc, if_false, reduceCtorEq, false_iff]
      rintro ⟨t, ht⟩
      have := (List.append_inj' ht (by simp)).2
      simp [Ne.symm hc] at this

/-! ## Rounding -/

/-- The value is the natural number `n`. -/
def BigFloat.IsNat (v : BigFloat) (n : Nat) : Prop :=
  v.inf = false ∧
    ((∃ k : Nat, v.exp = k ∧ v.mant * 2 ^ k = n) ∨ (∃ k : Nat, v.exp = -(k : Int) ∧ v.mant = n * 2 ^ k))

/-- `n` has at most `prec` significant bits. -/
def Representable (prec n : Nat) : Prop := ∃ m e, m < 2 ^ prec ∧ n = m * 2 ^ e

theorem roundNat_large {prec n : Nat} (hp : 0 < prec) (h : 2 ^ prec ≤ n) :
    ∃ k q r : Nat, 0 < k ∧ n = q * 2 ^ k + r ∧ r < 2 ^ k ∧ 2 ^ (prec - 1) ≤ q ∧ q < 2 ^ prec ∧
      (roundNat prec n = ⟨prec, q, k, false⟩ ∧ 2 * r ≤ 2 ^ k ∨ roundNat prec n = ⟨prec, q + 1, k, false⟩ ∧ 2 ^ k ≤ 2 * r) := by
  have hn : n ≠ 0 := by have := Nat.two_pow_pos prec; omega
  have h1 : 2 ^ n.log2 ≤ n := Nat.log2_self_le hn
  have h2 : n < 2 ^ (n.log2 + 1) := Nat.lt_log2_self
  have h3 : prec < n.log2 + 1 := (Nat.pow_lt_pow_iff_right (by omega : 1 < 2)).1 (by omega)
  refine ⟨n.log2 + 1 - prec, n / 2 ^ (n.log2 + 1 - prec), n % 2 ^ (n.log2 + 1 - prec), by omega, ?_, ?_, ?_, ?_, ?_⟩
  · rw [Nat.mul_comm]; exact (Nat.div_add_mod _ _).symm
  · exact Nat.mod_lt _ (Nat.two_pow_pos _)
  · rw [Nat.le_div_iff_mul_le (Nat.two_pow_pos _), ← Nat.pow_add,
      show prec - 1 + (n.log2 + 1 - prec) = n.log2 by omega]
    exact h1
  · rw [Nat.div_lt_iff_lt_mul (Nat.two_pow_pos _), ← Nat.pow_add,
      show prec + (n.log2 + 1 - prec) = n.log2 + 1 by omega]
    exact h2
  · rw [roundNat, if_neg (by omega)]
    simp only
    split
    · right; exact ⟨rfl, by omega⟩
    · left; exact ⟨rfl, by omega⟩

theorem IsNat_unique {v : BigFloat} {n n' : Nat} (h : v.IsNat n) (h' : v.IsNat n') : n = n' := by
  rcases h with ⟨-, ⟨k, hk, rfl⟩ | ⟨k, hk, h1⟩⟩ <;> rcases h' with ⟨-, ⟨k', hk', rfl⟩ | ⟨k', hk', h2⟩⟩
  · have : k = k' := by omega
    subst this; rfl
  · have : k = 0 := by omega
    have : k' = 0 := by omega
    subst k; subst k'; simp at h2; simp [h2]
  · have : k = 0 := by omega
    have : k' = 0 := by omega
    subst k; subst k'; simp at h1; simp [h1]
  · have : k = k' := by omega
    subst this
    rw [h1] at h2
    exact Nat.eq_of_mul_eq_mul_right (Nat.two_pow_pos _) h2

/-- A representable number below or above `q * 2^k + r` is not strictly between the two neighbours. -/
theorem representable_gap {prec k q x : Nat} (hp : 0 < prec) (hk : 0 < k) (hq : 2 ^ (prec - 1) ≤ q)
    (hx : Representable prec x) : x ≤ q * 2 ^ k ∨ (q + 1) * 2 ^ k ≤ x := by
  obtain ⟨m, e, hm, rfl⟩ := hx
  by_cases he : k ≤ e
  · obtain ⟨d, rfl⟩ := Nat.exists_eq_add_of_le he
    rw [Nat.pow_add, Nat.mul_comm (2 ^ k), ← Nat.mul_assoc]
    rcases Nat.lt_or_ge (m * 2 ^ d) (q + 1) with h | h
    · left; exact Nat.mul_le_mul_right _ (by omega)
    · right; exact Nat.mul_le_mul_right _ h
  · left
    have h1 : m * 2 ^ e ≤ 2 ^ prec * 2 ^ (k - 1) :=
      Nat.mul_le_mul (Nat.le_of_lt hm) (Nat.pow_le_pow_right (by omega) (by omega))
    have h2 : 2 ^ prec * 2 ^ (k - 1) = 2 ^ (prec - 1) * 2 ^ k := by
      rw [← Nat.pow_add, ← Nat.pow_add]; congr 1; omega
    have h3 : 2 ^ (prec - 1) * 2 ^ k ≤ q * 2 ^ k := Nat.mul_le_mul_right _ hq
    omega

end Verif.Etx
