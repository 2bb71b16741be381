import Verif.Dag.SetModel

/-! # Property C20: set algebra -/

namespace Verif.Dag
open SetModel

variable {K : Type} [DecidableEq K]

/-- **C20.** Every program of `make`, nil, `Add`, `Delete`, `Intersection`, `Difference`, `Filter` and `Copy` calls
on any number of set variables denotes what set algebra (`specSets`) says, whatever the iteration orders and
the relative sizes: it panics exactly when the specification does (`Add` to nil); otherwise `Includes` reports
exactly the elements, `List` lists them without repetition (the nil slice exactly for nil), and neither `List`
nor `Includes` modifies anything.  Because a variable changes only when it is the receiver of `Add` or `Delete`,
results share no storage with their operands. -/
theorem C20_set_algebra (ω : Oracle) (ops : List (SOp K)) :
    match specSets ops [] with
    | none => runSets ω ops ⟨[], ⟨[], 0⟩⟩ = none
    | some d => ∃ p, runSets ω ops ⟨[], ⟨[], 0⟩⟩ = some p ∧ p.vars.length = d.length ∧
        (∀ i x, includes (p.var i) x p.st = true ↔ d.elem i x) ∧
        (∀ i, ((list ω (p.var i) p.st).1 = none ↔ ∀ S, d[i]? ≠ some (some S)) ∧
          ((list ω (p.var i) p.st).1.getD []).Nodup ∧
          (∀ x, x ∈ (list ω (p.var i) p.st).1.getD [] ↔ d.elem i x) ∧
          (list ω (p.var i) p.st).2.heap = p.st.heap) := by
  have h := run_rep ω ops (rep_empty (K := K))
  cases hs : specSets ops [] with
  | none => rw [hs] at h; exact h
  | some d =>
    rw [hs] at h
    obtain ⟨p, hp, hr⟩ := h
    refine ⟨p, hp, hr.len, hr.elem, fun i => ?_⟩
    obtain ⟨h1, h2, h3, h4⟩ := list_spec ω (p.var i) p.st (hr.valid i)
    refine ⟨?_, h3, fun x => (h4 x).trans (hr.elem i x), h1⟩
    rw [h2]
    unfold Prog.var
    constructor
    · intro hn S hS
      obtain ⟨a, ha⟩ := hr.of_some hS
      rw [ha] at hn; cases hn
    · intro hn
      cases hv : p.vars[i]? with
      | none => rfl
      | some o =>
        cases o with
        | none => rfl
        | some a =>
          obtain ⟨S, hS⟩ := hr.some_of hv
          exact absurd hS (hn S)

/-- **C20**, commutativity: in every reachable state `s.Intersection(t)` and `t.Intersection(s)` have the same
elements and leave `s` and `t` alone. -/
theorem C20_intersection_comm (ω : Oracle) (ops : List (SOp K)) (p : Prog K)
    (h : runSets ω ops ⟨[], ⟨[], 0⟩⟩ = some p) (i j : Nat) :
    let r := intersection ω (p.var i) (p.var j) p.st
    let r' := intersection ω (p.var j) (p.var i) p.st
    ∀ x, includes r.1 x r.2 = includes r'.1 x r'.2 ∧
      ∀ k, includes (p.var k) x r.2 = includes (p.var k) x p.st := by
  intro r r' x
  have hr : ∃ d, Rep p d := by
    have h0 := run_rep ω ops (rep_empty (K := K))
    cases hs : specSets ops [] with
    | none => rw [hs] at h0; rw [h] at h0; cases h0
    | some d =>
      rw [hs] at h0
      obtain ⟨p', h1, h2⟩ := h0
      rw [h] at h1; cases h1
      exact ⟨d, h2⟩
  obtain ⟨d, hr⟩ := hr
  have f1 := intersection_fresh ω _ _ p.st (hr.valid i) (hr.valid j)
  have f2 := intersection_fresh ω _ _ p.st (hr.valid j) (hr.valid i)
  refine ⟨?_, fun k => includes_frame (hr.valid k) f1.same x⟩
  rw [Bool.eq_iff_iff]
  have e1 := f1.mem x
  have e2 := f2.mem x
  show includes (intersection ω (p.var i) (p.var j) p.st).1 x _ = true ↔
    includes (intersection ω (p.var j) (p.var i) p.st).1 x _ = true
  rw [f1.new, f2.new]
  exact e1.trans (and_comm.trans e2.symm)

section Example

/-- Two sets of different size and a nil set. -/
def demoSets : List (SOp Nat) :=
  [.make, .add 0 1, .add 0 2, .add 0 3, .make, .add 1 3, .add 1 4, .nilSet,
   .intersection 0 1, .intersection 1 0, .difference 0 1, .difference 0 2, .filter (fun x => x % 2 == 1) 0,
   .copy 0, .delete 0 3, .intersection 2 0]

/-- Iterate maps in stored order. -/
def idOracle : Oracle := ⟨fun _ _ l => l, fun _ _ _ => List.Perm.refl _⟩

example : (runSets idOracle demoSets ⟨[], ⟨[], 0⟩⟩).map
    (fun p => (List.range 10).map (fun i => (list idOracle (p.var i) p.st).1)) =
  some [some [2, 1], some [4, 3], none, some [3], some [3], some [1, 2], some [1, 2, 3], some [1, 3], some [1, 2, 3],
    some []] := by decide +kernel

/-- `Add` to a nil set panics. -/
example : (runSets idOracle [.nilSet, .add 0 (7 : Nat)] ⟨[], ⟨[], 0⟩⟩).isNone = true := by decide +kernel

end Example
end Verif.Dag
