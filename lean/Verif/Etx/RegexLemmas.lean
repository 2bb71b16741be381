import Verif.Etx.Regex

/-!
# Facts about regular expressions
-/

namespace Verif.Etx

open Re

namespace Match

@[simp] theorem nothing_txt (s : Str) : (nothing s).txt = [] := rfl
@[simp] theorem nothing_rest (s : Str) : (nothing s).rest = s := rfl
@[simp] theorem nothing_cap (s : Str) : (nothing s).cap = none := rfl
@[simp] theorem andThen_txt (m n : Match) : (m.andThen n).txt = m.txt ++ n.txt := rfl
@[simp] theorem andThen_rest (m n : Match) : (m.andThen n).rest = n.rest := rfl
@[simp] theorem andThen_cap (m n : Match) : (m.andThen n).cap = n.cap.or m.cap := rfl
@[simp] theorem nothing_last (s : Str) (prev : Option Char) : (nothing s).last prev = prev := by simp [last, nothing]

theorem nothing_andThen (s : Str) (n : Match) : (nothing s).andThen n = n := by
  cases n; simp [andThen, nothing]

theorem andThen_nothing (m : Match) : m.andThen (nothing m.rest) = m := by
  cases m; simp [andThen, nothing]

theorem andThen_assoc (l m n : Match) : (l.andThen m).andThen n = l.andThen (m.andThen n) := by
  cases hn : n.cap <;> simp [andThen, hn]

theorem andThen_last (m n : Match) (prev : Option Char) : (m.andThen n).last prev = n.last (m.last prev) := by
  simp only [last, andThen_txt]
  cases hn : n.txt.getLast? with
  | none => rw [List.getLast?_eq_none_iff] at hn; simp [hn]
  | some c => simp [List.getLast?_append, hn]

theorem last_snoc (m : Match) (prev : Option Char) (h : m.txt ≠ []) : m.last prev = some (m.txt.getLast h) := by
  simp [last, List.getLast?_eq_some_getLast h]

end Match

theorem flatMap_congr' {α β : Type} {l : List α} {f g : α → List β} (h : ∀ a ∈ l, f a = g a) :
    l.flatMap f = l.flatMap g := by
  induction l with
  | nil => rfl
  | cons a l ih => simp [h a (by simp), ih fun b hb => h b (by simp [hb])]

/-! ## A match is a prefix of the text -/

theorem starRun_split (f : Option Char → Str → List Match)
    (hf : ∀ prev s, ∀ m ∈ f prev s, m.txt ++ m.rest = s) :
    ∀ n prev s, ∀ m ∈ starRun f n prev s, m.txt ++ m.rest = s := by
  intro n
  induction n with
  | zero => intro prev s m hm; simp [starRun] at hm; simp [hm]
  | succ n ih =>
    intro prev s m hm
    simp only [starRun, List.mem_append, List.mem_flatMap, List.mem_filter, List.mem_map, List.mem_singleton] at hm
    rcases hm with ⟨m1, ⟨h1, -⟩, m2, h2, rfl⟩ | rfl
    · have := ih _ _ _ h2
      simp [this, hf _ _ _ h1]
    · simp

theorem lazyRun_split (f : Option Char → Str → List Match)
    (hf : ∀ prev s, ∀ m ∈ f prev s, m.txt ++ m.rest = s) :
    ∀ n prev s, ∀ m ∈ lazyRun f n prev s, m.txt ++ m.rest = s := by
  intro n
  induction n with
  | zero => intro prev s m hm; simp [lazyRun] at hm; simp [hm]
  | succ n ih =>
    intro prev s m hm
    simp only [lazyRun, List.mem_cons, List.mem_flatMap, List.mem_filter, List.mem_map] at hm
    rcases hm with rfl | ⟨m1, ⟨h1, -⟩, m2, h2, rfl⟩
    · simp
    · have := ih _ _ _ h2
      simp [this, hf _ _ _ h1]

theorem Re.run_split (r : Re) : ∀ prev s, ∀ m ∈ r.run prev s, m.txt ++ m.rest = s := by
  induction r with
  | eps => intro prev s m hm; simp [run] at hm; simp [hm]
  | cls p =>
    intro prev s m hm
    cases s with
    | nil => simp [run] at hm
    | cons c s =>
      simp only [run] at hm
      split at hm
      · simp at hm; simp [hm]
      · simp at hm
  | seq a b iha ihb =>
    intro prev s m hm
    simp only [run, List.mem_flatMap, List.mem_map] at hm
    obtain ⟨m1, h1, m2, h2, rfl⟩ := hm
    have := ihb _ _ _ h2
    simp [this, iha _ _ _ h1]
  | alt a b iha ihb =>
    intro prev s m hm
    simp only [run, List.mem_append] at hm
    exact hm.elim (iha _ _ _) (ihb _ _ _)
  | star a ih => intro prev s; exact starRun_split _ ih _ _ _
  | lazyStar a ih => intro prev s; exact lazyRun_split _ ih _ _ _
  | bot =>
    intro prev s m hm
    simp only [run] at hm
    split at hm <;> simp at hm
    simp [hm]
  | eot =>
    intro prev s m hm
    simp only [run] at hm
    split at hm <;> simp at hm
    simp [hm]
  | wordB =>
    intro prev s m hm
    simp only [run] at hm
    split at hm <;> simp at hm
    simp [hm]
  | grp a ih =>
    intro prev s m hm
    simp only [run, List.mem_map] at hm
    obtain ⟨m1, h1, rfl⟩ := hm
    exact ih _ _ m1 h1

theorem Re.run_rest_le {r : Re} {prev : Option Char} {s : Str} {m : Match} (h : m ∈ r.run prev s) :
    m.rest.length ≤ s.length := by
  have := r.run_split prev s m h
  rw [← this]; simp

theorem Re.run_rest_lt {r : Re} {prev : Option Char} {s : Str} {m : Match} (h : m ∈ r.run prev s)
    (hne : m.txt ≠ []) : m.rest.length < s.length := by
  have := r.run_split prev s m h
  rw [← this]
  have : 0 < m.txt.length := List.length_pos_iff.2 hne
  simp; omega

/-! ## Repetition unfolds -/

theorem starRun_fuel (a : Re) : ∀ n n' prev s, s.length ≤ n → s.length ≤ n' →
    starRun a.run n prev s = starRun a.run n' prev s := by
  intro n
  induction n with
  | zero =>
    intro n' prev s h _
    have : s = [] := List.length_eq_zero_iff.1 (by omega)
    subst this
    cases n' with
    | zero => rfl
    | succ n' =>
      simp only [starRun]
      rw [List.filter_eq_nil_iff.2]
      · simp
      · intro m hm
        have := a.run_split _ _ m hm
        simp only [List.append_eq_nil_iff] at this
        simp [this]
  | succ n ih =>
    intro n' prev s h h'
    cases n' with
    | zero =>
      have : s = [] := List.length_eq_zero_iff.1 (by omega)
      subst this
      simp only [starRun]
      rw [List.filter_eq_nil_iff.2]
      · simp
      · intro m hm
        have := a.run_split _ _ m hm
        simp only [List.append_eq_nil_iff] at this
        simp [this]
    | succ n' =>
      simp only [starRun]
      congr 1
      apply flatMap_congr'
      intro m hm
      simp only [List.mem_filter, decide_eq_true_eq] at hm
      have := run_rest_lt hm.1 hm.2
      rw [ih n' _ _ (by omega) (by omega)]

theorem lazyRun_fuel (a : Re) : ∀ n n' prev s, s.length ≤ n → s.length ≤ n' →
    lazyRun a.run n prev s = lazyRun a.run n' prev s := by
  intro n
  induction n with
  | zero =>
    intro n' prev s h _
    have : s = [] := List.length_eq_zero_iff.1 (by omega)
    subst this
    cases n' with
    | zero => rfl
    | succ n' =>
      simp only [lazyRun]
      rw [List.filter_eq_nil_iff.2]
      · simp
      · intro m hm
        have := a.run_split _ _ m hm
        simp only [List.append_eq_nil_iff] at this
        simp [this]
  | succ n ih =>
    intro n' prev s h h'
    cases n' with
    | zero =>
      have : s = [] := List.length_eq_zero_iff.1 (by omega)
      subst this
      simp only [lazyRun]
      rw [List.filter_eq_nil_iff.2]
      · simp
      · intro m hm
        have := a.run_split _ _ m hm
        simp only [List.append_eq_nil_iff] at this
        simp [this]
    | succ n' =>
      simp only [lazyRun]
      congr 1
      apply flatMap_congr'
      intro m hm
      simp only [List.mem_filter, decide_eq_true_eq] at hm
      have := run_rest_lt hm.1 hm.2
      rw [ih n' _ _ (by omega) (by omega)]

theorem Re.run_star (a : Re) (prev : Option Char) (s : Str) :
    (star a).run prev s = ((a.run prev s).filter (fun m => m.txt ≠ [])).flatMap
      (fun m => ((star a).run (m.last prev) m.rest).map m.andThen) ++ [.nothing s] := by
  conv => lhs; rw [run, starRun_fuel a s.length (s.length + 1) prev s (by omega) (by omega), starRun]
  congr 1
  apply flatMap_congr'
  intro m hm
  simp only [List.mem_filter, decide_eq_true_eq] at hm
  have := run_rest_lt hm.1 hm.2
  rw [run, starRun_fuel a s.length m.rest.length _ _ (by omega) (by omega)]

theorem Re.run_lazyStar (a : Re) (prev : Option Char) (s : Str) :
    (lazyStar a).run prev s = .nothing s :: ((a.run prev s).filter (fun m => m.txt ≠ [])).flatMap
      (fun m => ((lazyStar a).run (m.last prev) m.rest).map m.andThen) := by
  conv => lhs; rw [run, lazyRun_fuel a s.length (s.length + 1) prev s (by omega) (by omega), lazyRun]
  congr 1
  apply flatMap_congr'
  intro m hm
  simp only [List.mem_filter, decide_eq_true_eq] at hm
  have := run_rest_lt hm.1 hm.2
  rw [run, lazyRun_fuel a s.length m.rest.length _ _ (by omega) (by omega)]

theorem flatMap_then (l : List Match) (m : Match) (prev : Option Char) (b : Re) :
    (l.map m.andThen).flatMap (fun n => (b.run (n.last prev) n.rest).map n.andThen) =
      (l.flatMap (fun n => (b.run (n.last (m.last prev)) n.rest).map n.andThen)).map m.andThen := by
  induction l with
  | nil => rfl
  | cons n l ih =>
    simp only [List.map_cons, List.flatMap_cons, ih, List.map_append, Match.andThen_last, Match.andThen_rest,
      List.map_map]
    congr 1
    apply List.map_congr_left
    intro k _
    simp [Match.andThen_assoc]

theorem Re.run_seq_flatMap (l : List Match) (f : Match → List Match) (prev : Option Char) (b : Re) :
    ((l.flatMap fun m => (f m).map m.andThen).flatMap fun n => (b.run (n.last prev) n.rest).map n.andThen) =
      l.flatMap fun m => ((f m).flatMap fun n => (b.run (n.last (m.last prev)) n.rest).map n.andThen).map m.andThen := by
  induction l with
  | nil => rfl
  | cons m l ih =>
    simp only [List.flatMap_cons, List.flatMap_append, flatMap_then]
    rw [ih]

/-- `a*b` -/
theorem Re.run_star_seq (a b : Re) (prev : Option Char) (s : Str) :
    (seq (star a) b).run prev s = ((a.run prev s).filter (fun m => m.txt ≠ [])).flatMap
      (fun m => ((seq (star a) b).run (m.last prev) m.rest).map m.andThen) ++ b.run prev s := by
  conv => lhs; rw [run, run_star]
  rw [List.flatMap_append, run_seq_flatMap]
  congr 1
  rw [List.flatMap_singleton, Match.nothing_last, Match.nothing_rest]
  conv => rhs; rw [← List.map_id (b.run prev s)]
  apply List.map_congr_left
  intro k _
  simp [Match.nothing_andThen]

/-- `a*?b` -/
theorem Re.run_lazyStar_seq (a b : Re) (prev : Option Char) (s : Str) :
    (seq (lazyStar a) b).run prev s = b.run prev s ++ ((a.run prev s).filter (fun m => m.txt ≠ [])).flatMap
      (fun m => ((seq (lazyStar a) b).run (m.last prev) m.rest).map m.andThen) := by
  conv => lhs; rw [run, run_lazyStar]
  rw [List.flatMap_cons, run_seq_flatMap]
  congr 1
  rw [Match.nothing_last, Match.nothing_rest]
  conv => rhs; rw [← List.map_id (b.run prev s)]
  apply List.map_congr_left
  intro k _
  simp [Match.nothing_andThen]

/-! ## First matches -/

theorem Re.head_seq {a b : Re} {prev : Option Char} {s : Str} {m n : Match}
    (ha : (a.run prev s).head? = some m) (hb : (b.run (m.last prev) m.rest).head? = some n) :
    ((seq a b).run prev s).head? = some (m.andThen n) := by
  rw [run]
  cases h : a.run prev s with
  | nil => simp [h] at ha
  | cons x l =>
    simp [h] at ha
    subst ha
    simp [hb]

theorem Re.run_seq_nil {a b : Re} {prev : Option Char} {s : Str} (ha : a.run prev s = []) :
    (seq a b).run prev s = [] := by simp [run, ha]

theorem Re.head_alt_left {a b : Re} {prev : Option Char} {s : Str} {m : Match}
    (ha : (a.run prev s).head? = some m) : ((alt a b).run prev s).head? = some m := by
  simp [run, List.head?_append, ha]

theorem Re.head_alt_right {a b : Re} {prev : Option Char} {s : Str}
    (ha : a.run prev s = []) : ((alt a b).run prev s).head? = (b.run prev s).head? := by
  simp [run, ha]

theorem Re.head_grp {a : Re} {prev : Option Char} {s : Str} {m : Match}
    (ha : (a.run prev s).head? = some m) : ((grp a).run prev s).head? = some { m with cap := some m.txt } := by
  simp [run, ha]

theorem Re.head_star {a : Re} {prev : Option Char} {s : Str} {m n : Match}
    (ha : (a.run prev s).head? = some m) (hne : m.txt ≠ [])
    (hb : ((star a).run (m.last prev) m.rest).head? = some n) :
    ((star a).run prev s).head? = some (m.andThen n) := by
  rw [run_star]
  cases h : a.run prev s with
  | nil => simp [h] at ha
  | cons x l =>
    simp [h] at ha
    subst ha
    simp [hne, List.head?_append, hb]

theorem Re.run_star_nil {a : Re} {prev : Option Char} {s : Str} (ha : a.run prev s = []) :
    (star a).run prev s = [.nothing s] := by
  rw [run_star]; simp [ha]

theorem Re.run_cls_cons (p : Char → Bool) (prev : Option Char) (c : Char) (s : Str) :
    (cls p).run prev (c :: s) = if p c then [⟨[c], none, s⟩] else [] := rfl

theorem Re.run_cls_nil (p : Char → Bool) (prev : Option Char) : (cls p).run prev [] = [] := rfl

/-- A class matches the first character or nothing. -/
theorem Re.run_cls (p : Char → Bool) (prev : Option Char) (s : Str) :
    (cls p).run prev s = match s with
      | [] => []
      | c :: s => if p c then [⟨[c], none, s⟩] else [] := by cases s <;> rfl

theorem Re.run_cls_fail {p : Char → Bool} {prev : Option Char} {s : Str} (h : ∀ c ∈ s.head?, p c = false) :
    (cls p).run prev s = [] := by
  cases s with
  | nil => rfl
  | cons c s => simp [run_cls_cons, h c rfl]

/-- A fixed text. -/
theorem Re.run_lit (w : Str) : ∀ (prev : Option Char) (s : Str),
    (lit w).run prev (w ++ s) = [⟨w, none, s⟩] := by
  induction w with
  | nil => intro prev s; rfl
  | cons c w ih =>
    intro prev s
    cases w with
    | nil => simp [lit, run]
    | cons d w =>
      have := ih (some c) s
      simp only [List.cons_append] at this
      simp [lit, run, this, Match.last, Match.andThen]

theorem Re.run_lit_fail (w : Str) : ∀ (prev : Option Char) (s : Str), ¬ w <+: s → (lit w).run prev s = [] := by
  induction w with
  | nil => intro prev s h; simp at h
  | cons c w ih =>
    intro prev s h
    cases s with
    | nil => cases w <;> rfl
    | cons e s =>
      cases w with
      | nil =>
        simp only [List.cons_prefix_cons, List.nil_prefix, and_true] at h
        simp [lit, run, Ne.symm h]
      | cons d w =>
        simp only [lit, run]
        by_cases hc : e = c
        · subst hc
          simp only [List.cons_prefix_cons, true_and] at h
          simp [ih (some e) s (by simpa [List.cons_prefix_cons] using h), Match.last]
        · simp [hc]

/-- `p*` takes the longest prefix in the class. -/
theorem Re.head_star_cls (p : Char → Bool) (s : Str) : ∀ prev : Option Char,
    ((star (cls p)).run prev s).head? = some ⟨s.takeWhile p, none, s.dropWhile p⟩ := by
  induction s with
  | nil => intro prev; simp [run_star_nil (run_cls_nil p prev), Match.nothing]
  | cons c s ih =>
    intro prev
    by_cases hc : p c = true
    · have h1 : ((cls p).run prev (c :: s)).head? = some ⟨[c], none, s⟩ := by simp [run_cls_cons, hc]
      rw [head_star h1 (by simp) (ih _)]
      simp [Match.andThen, hc]
    · have h1 : (cls p).run prev (c :: s) = [] := by simp [run_cls_cons, hc]
      rw [run_star_nil h1]
      simp [Match.nothing, hc]

/-- `p+` -/
theorem Re.head_plus_cls (p : Char → Bool) (c : Char) (s : Str) (hc : p c = true) (prev : Option Char) :
    ((plus (cls p)).run prev (c :: s)).head? = some ⟨c :: s.takeWhile p, none, s.dropWhile p⟩ := by
  have h1 : ((cls p).run prev (c :: s)).head? = some ⟨[c], none, s⟩ := by simp [run_cls_cons, hc]
  rw [plus, head_seq h1 (head_star_cls p s _)]
  simp [Match.andThen]

theorem Re.run_plus_cls_fail {p : Char → Bool} {prev : Option Char} {s : Str} (h : ∀ c ∈ s.head?, p c = false) :
    (plus (cls p)).run prev s = [] := run_seq_nil (run_cls_fail h)

/-! ## What an expression can begin with -/

/-- May match the empty text. -/
def Re.nullable : Re → Bool
  | eps => true
  | cls _ => false
  | seq a b => a.nullable && b.nullable
  | alt a b => a.nullable || b.nullable
  | star _ => true
  | lazyStar _ => true
  | bot => true
  | eot => true
  | wordB => true
  | grp a => a.nullable

/-- May match a text that begins with `c`. -/
def Re.starts : Re → Char → Bool
  | eps, _ => false
  | cls p, c => p c
  | seq a b, c => a.starts c || (a.nullable && b.starts c)
  | alt a b, c => a.starts c || b.starts c
  | star a, c => a.starts c
  | lazyStar a, c => a.starts c
  | bot, _ => false
  | eot, _ => false
  | wordB, _ => false
  | grp a, c => a.starts c

theorem starRun_nonempty (a : Re) : ∀ n prev s, ∀ m ∈ starRun a.run n prev s, m.txt ≠ [] →
    ∃ m1 ∈ a.run prev s, m1.txt ≠ [] ∧ ∃ u, m.txt = m1.txt ++ u := by
  intro n prev s m hm hne
  cases n with
  | zero => simp [starRun] at hm; subst hm; simp at hne
  | succ n =>
    simp only [starRun, List.mem_append, List.mem_flatMap, List.mem_filter, List.mem_map, List.mem_singleton,
      decide_eq_true_eq] at hm
    rcases hm with ⟨m1, h1, m2, h2, rfl⟩ | rfl
    · exact ⟨m1, h1.1, h1.2, _, rfl⟩
    · simp at hne

theorem lazyRun_nonempty (a : Re) : ∀ n prev s, ∀ m ∈ lazyRun a.run n prev s, m.txt ≠ [] →
    ∃ m1 ∈ a.run prev s, m1.txt ≠ [] ∧ ∃ u, m.txt = m1.txt ++ u := by
  intro n prev s m hm hne
  cases n with
  | zero => simp [lazyRun] at hm; subst hm; simp at hne
  | succ n =>
    simp only [lazyRun, List.mem_cons, List.mem_flatMap, List.mem_filter, List.mem_map,
      decide_eq_true_eq] at hm
    rcases hm with rfl | ⟨m1, h1, m2, h2, rfl⟩
    · simp at hne
    · exact ⟨m1, h1.1, h1.2, _, rfl⟩

/-- A match is empty only if the expression is nullable, and begins with a possible character. -/
theorem Re.run_start (r : Re) : ∀ prev s, ∀ m ∈ r.run prev s,
    (m.txt = [] → r.nullable = true) ∧ ∀ c u, m.txt = c :: u → r.starts c = true := by
  induction r with
  | eps => intro prev s m hm; simp [run] at hm; simp [hm, nullable]
  | cls p =>
    intro prev s m hm
    cases s with
    | nil => simp [run] at hm
    | cons d s =>
      simp only [run] at hm
      split at hm
      · simp at hm; subst hm; simp_all [starts]
      · simp at hm
  | seq a b iha ihb =>
    intro prev s m hm
    simp only [run, List.mem_flatMap, List.mem_map] at hm
    obtain ⟨m1, h1, m2, h2, rfl⟩ := hm
    have ha := iha _ _ _ h1
    have hb := ihb _ _ _ h2
    constructor
    · intro h
      simp at h
      simp [nullable, ha.1 h.1, hb.1 h.2]
    · intro c u h
      simp at h
      cases ht : m1.txt with
      | nil =>
        rw [ht] at h
        simp [starts, ha.1 ht, hb.2 c u (by simpa using h)]
      | cons d v =>
        rw [ht] at h
        simp at h
        obtain ⟨rfl, -⟩ := h
        simp [starts, ha.2 _ _ ht]
  | alt a b iha ihb =>
    intro prev s m hm
    simp only [run, List.mem_append] at hm
    rcases hm with hm | hm
    · have := iha _ _ _ hm
      exact ⟨fun h => by simp [nullable, this.1 h], fun c u h => by simp [starts, this.2 c u h]⟩
    · have := ihb _ _ _ hm
      exact ⟨fun h => by simp [nullable, this.1 h], fun c u h => by simp [starts, this.2 c u h]⟩
  | star a ih =>
    intro prev s m hm
    refine ⟨fun _ => rfl, fun c u h => ?_⟩
    obtain ⟨m1, h1, hne, v, hv⟩ := starRun_nonempty a _ _ _ m hm (by simp [h])
    cases ht : m1.txt with
    | nil => exact absurd ht hne
    | cons d w =>
      rw [ht, h] at hv
      simp at hv
      obtain ⟨rfl, -⟩ := hv
      simp [starts, (ih _ _ _ h1).2 _ _ ht]
  | lazyStar a ih =>
    intro prev s m hm
    refine ⟨fun _ => rfl, fun c u h => ?_⟩
    obtain ⟨m1, h1, hne, v, hv⟩ := lazyRun_nonempty a _ _ _ m hm (by simp [h])
    cases ht : m1.txt with
    | nil => exact absurd ht hne
    | cons d w =>
      rw [ht, h] at hv
      simp at hv
      obtain ⟨rfl, -⟩ := hv
      simp [starts, (ih _ _ _ h1).2 _ _ ht]
  | bot =>
    intro prev s m hm
    simp only [run] at hm
    split at hm <;> simp at hm
    simp [hm, nullable]
  | eot =>
    intro prev s m hm
    simp only [run] at hm
    split at hm <;> simp at hm
    simp [hm, nullable]
  | wordB =>
    intro prev s m hm
    simp only [run] at hm
    split at hm <;> simp at hm
    simp [hm, nullable]
  | grp a ih =>
    intro prev s m hm
    simp only [run, List.mem_map] at hm
    obtain ⟨m1, h1, rfl⟩ := hm
    exact ih _ _ m1 h1

/-- An expression does not match a text that begins with another character. -/
theorem Re.run_fail {r : Re} {c : Char} (hn : r.nullable = false) (hs : r.starts c = false) (prev : Option Char)
    (s : Str) : r.run prev (c :: s) = [] := by
  rw [List.eq_nil_iff_forall_not_mem]
  intro m hm
  have h := r.run_start _ _ m hm
  have hp := r.run_split _ _ m hm
  cases ht : m.txt with
  | nil => rw [h.1 ht] at hn; cases hn
  | cons d u =>
    rw [ht] at hp
    simp at hp
    obtain ⟨rfl, -⟩ := hp
    rw [h.2 _ _ ht] at hs
    cases hs

end Verif.Etx
