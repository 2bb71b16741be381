import Verif.Etx.Lexer
import Verif.Etx.RegexLemmas

/-!
# Facts about the lexer
-/

namespace Verif.Etx

open Re

/-! ## Choosing a rule -/

theorem firstRule_some {g s : Str} {rs : List Rule} {r : Rule} {m : Match} (h : firstRule g s rs = some (r, m)) :
    r ∈ rs ∧ (r.pat g).first s = some m := by
  induction rs with
  | nil => simp [firstRule] at h
  | cons r' rs ih =>
    simp only [firstRule] at h
    split at h
    · simp at h
      obtain ⟨rfl, rfl⟩ := h
      exact ⟨by simp, by assumption⟩
    · exact ⟨List.mem_cons_of_mem _ (ih h).1, (ih h).2⟩

theorem firstRule_hit {g s : Str} {r : Rule} {m : Match} {rs : List Rule} (h : (r.pat g).first s = some m) :
    firstRule g s (r :: rs) = some (r, m) := by simp [firstRule, h]

theorem firstRule_miss {g s : Str} {r : Rule} {rs : List Rule} (h : (r.pat g).first s = none) :
    firstRule g s (r :: rs) = firstRule g s rs := by simp [firstRule, h]

theorem Re.first_none {r : Re} {s : Str} : r.first s = none ↔ r.run none s = [] := by simp [first]

/-- A rule can match a text that begins with `c`. -/
def Rule.can (g : Str) (c : Char) (r : Rule) : Bool := (r.pat g).nullable || (r.pat g).starts c

/-- Rules that cannot match may be left out. -/
theorem firstRule_filter (g : Str) (c : Char) (s : Str) (rs : List Rule) :
    firstRule g (c :: s) rs = firstRule g (c :: s) (rs.filter (Rule.can g c)) := by
  induction rs with
  | nil => rfl
  | cons r rs ih =>
    by_cases h : r.can g c = true
    · rw [List.filter_cons_of_pos h]
      simp only [firstRule]
      split <;> simp_all
    · rw [List.filter_cons_of_neg h, firstRule_miss, ih]
      rw [Re.first_none]
      simp [Rule.can] at h
      exact run_fail h.1 h.2 _ _

/-- Rules that cannot match may be left out, checked on one rule at a time. -/
theorem firstRule_cons_fail {g : Str} {c : Char} {s : Str} {r : Rule} {rs : List Rule}
    (hn : (r.pat g).nullable = false) (hs : (r.pat g).starts c = false) :
    firstRule g (c :: s) (r :: rs) = firstRule g (c :: s) rs :=
  firstRule_miss (Re.first_none.2 (run_fail hn hs _ _))

/-! ## Steps -/

theorem lexStep_some {st : Stack} {s : Str} {r : Rule} {m : Match} {st' : Stack} (h : lexStep st s = some (r, m, st')) :
    ∃ state g below, st = (state, g) :: below ∧ firstRule g s (rulesOf state) = some (r, m) ∧ m.txt ≠ [] ∧
      st' = match r.action with
        | .none => st
        | .push new => (new, m.cap.getD []) :: st
        | .pop => below := by
  cases st with
  | nil => simp [lexStep] at h
  | cons x below =>
    obtain ⟨state, g⟩ := x
    simp only [lexStep, Option.bind_eq_bind, Option.bind_eq_some_iff] at h
    obtain ⟨⟨r1, m1⟩, h1, h2⟩ := h
    simp only at h2
    split at h2
    · simp at h2
    · rename_i hne
      refine ⟨state, g, below, rfl, ?_⟩
      cases ha : r1.action <;> simp [ha] at h2 <;> obtain ⟨rfl, rfl, rfl⟩ := h2 <;> exact ⟨h1, hne, by simp [ha]⟩

theorem lexStep_of {state : LexState} {g s : Str} {below : Stack} {r : Rule} {m : Match}
    (h : firstRule g s (rulesOf state) = some (r, m)) (hne : m.txt ≠ []) :
    lexStep ((state, g) :: below) s = some (r, m, match r.action with
        | .none => (state, g) :: below
        | .push new => (new, m.cap.getD []) :: (state, g) :: below
        | .pop => below) := by
  simp only [lexStep, h, Option.bind_eq_bind, Option.bind_some, hne, if_false]
  cases r.action <;> rfl

theorem lexStep_split {st : Stack} {s : Str} {r : Rule} {m : Match} {st' : Stack} (h : lexStep st s = some (r, m, st')) :
    m.txt ++ m.rest = s ∧ m.txt ≠ [] ∧ m.rest.length < s.length := by
  obtain ⟨state, g, below, -, h1, hne, -⟩ := lexStep_some h
  have := (firstRule_some h1).2
  have hm : m ∈ (r.pat g).run none s := List.mem_of_head? this
  exact ⟨run_split _ _ _ _ hm, hne, run_rest_lt hm hne⟩

/-- Enough fuel is enough fuel. -/
theorem lexFrom_fuel : ∀ (n n' : Nat) (st : Stack) (pos : Position) (s : Str), s.length ≤ n → s.length ≤ n' →
    lexFrom n st pos s = lexFrom n' st pos s := by
  intro n
  induction n with
  | zero =>
    intro n' st pos s h _
    have : s = [] := List.length_eq_zero_iff.1 (by omega)
    subst this
    cases n' <;> rfl
  | succ n ih =>
    intro n' st pos s h h'
    cases s with
    | nil => cases n' <;> rfl
    | cons c s =>
      cases n' with
      | zero => simp at h'
      | succ n' =>
        simp only [lexFrom]
        cases hs : lexStep st (c :: s) with
        | none => rfl
        | some x =>
          obtain ⟨r, m, st'⟩ := x
          have := (lexStep_split hs).2.2
          simp only [List.length_cons] at this h h'
          simp [ih n' st' (pos.advance m.txt) m.rest (by omega) (by omega)]

/-- The lexer on a configuration. -/
def lexAll (st : Stack) (pos : Position) (s : Str) : Option (List Token) := lexFrom s.length st pos s

theorem lexAll_nil (st : Stack) (pos : Position) : lexAll st pos [] = some [] := rfl

theorem lexAll_step {st : Stack} {pos : Position} {s : Str} (hs : s ≠ []) :
    lexAll st pos s = (lexStep st s).bind fun (r, m, st') =>
      (lexAll st' (pos.advance m.txt) m.rest).map fun ts =>
        if r.sym = .whitespace then ts else ⟨r.sym, m.txt, pos⟩ :: ts := by
  cases s with
  | nil => exact absurd rfl hs
  | cons c s =>
    simp only [lexAll, List.length_cons, lexFrom]
    cases h : lexStep st (c :: s) with
    | none => rfl
    | some x =>
      obtain ⟨r, m, st'⟩ := x
      have := (lexStep_split h).2.2
      simp only [List.length_cons] at this
      simp only [Option.bind_eq_bind, Option.bind_some]
      rw [lexFrom_fuel s.length m.rest.length _ _ _ (by omega) (by omega)]
      cases lexFrom m.rest.length st' (pos.advance m.txt) m.rest <;> rfl

theorem lex_eq (s : Str) : lex s = lexAll [(.root, [])] .start s := rfl

end Verif.Etx
