import Verif.Dag.Cost
import Verif.Props.DagMeta

/-! # C64: how much work a call does -/

set_option linter.unusedSectionVars false

namespace Verif.Dag
open M Relation

variable {K T : Type} [DecidableEq K] [GoZero K] [GoZero T]

/-! ## Specification

The work of a stretch of execution is the number of `range` loops it runs, `σ'.n - σ.n`.  Each of these loops goes over the
vertices, the edges of a vertex, or a set of vertices. -/

/-- `GetOrder` and `GetSize` would return `v` and `e`. -/
def Sized (ω : Oracle) (σ : St K T) (v e : Nat) : Prop :=
  (∃ σ', exec ω .getOrder σ = some (.count v, σ')) ∧ ∃ σ', exec ω .getSize σ = some (.count e, σ')

/-- The calls that follow all paths. -/
def Op.isClosure : Op K T → Bool
  | .getAncestors _ | .getDescendants _ => true
  | _ => false

/-! ## Proofs -/

theorem Sized.eq {ω : Oracle} {σ : St K T} {v e : Nat} (hi : Inv σ.g) (h : Sized ω σ v e) :
    v = σ.g.vertices.length ∧ e = sizeOf σ.g := by
  obtain ⟨⟨σ1, h1⟩, σ2, h2⟩ := h
  constructor
  · have : exec ω .getOrder σ = some (.count σ.g.vertices.length, σ) := rfl
    rw [this] at h1
    cases h1; rfl
  · have hs : Tot (exec ω .getSize) σ (fun r _ => r = .count (sizeOf σ.g)) := by
      refine Tot.bind (Tot.mono (getSize_spec ω σ hi) ?_)
      rintro r σ' ⟨-, l, hl, hm, rfl⟩
      refine Tot.pure ?_
      have hp : l.Perm (edgeList σ.g.outb) := by
        rw [List.perm_ext_iff_of_nodup hl (nodup_edgeList hi.base.ond
          (fun p hp => (outb_wf_perm hi.base (.refl _) p hp).nodup))]
        rintro ⟨a, b⟩
        rw [hm, mem_edgeList hi.base (.refl _)]
      rw [hp.length_eq]; rfl
    have := hs.elim h2
    injection this

theorem run_rows (ω : Oracle) (ops : List (Op K T)) (σ : St K T) (hi : Inv σ.g) (hr : Rows σ.g) {rs : List (Res K T)} {σ' : St K T}
    (h : run ω ops σ = some (rs, σ')) : Inv σ'.g ∧ Rows σ'.g := by
  induction ops generalizing σ rs with
  | nil => cases h; exact ⟨hi, hr⟩
  | cons op ops ih =>
    obtain ⟨r, σ1, h1, ⟨h2, -⟩, -, h3⟩ := (exec_refines ω op σ hi).and (exec_cost ω op σ hi hr)
    unfold run at h
    simp only [h1] at h
    cases hrun : run ω ops σ1 with
    | none => simp [hrun] at h
    | some x =>
      obtain ⟨rs1, σ2⟩ := x
      simp only [hrun, Option.some.injEq, Prod.mk.injEq] at h
      obtain ⟨-, rfl⟩ := h
      exact ih σ1 h2 h3 hrun

theorem rows_new : Rows (Graph.new : Graph K T) := by
  intro k hk; cases hk

theorem pot_congr {d : Dir} {g g' : Graph K T} (h : Same g g')
    (hc : ∀ x, GoMap.has (d.cache g') x = true ↔ GoMap.has (d.cache g) x = true) : pot d g' = pot d g := by
  unfold pot
  have e1 : ∀ x, GoMap.has (d.cache g') x = GoMap.has (d.cache g) x := fun x => Bool.eq_iff_iff.mpr (hc x)
  have e2 : price d g' = price d g := by
    funext v
    unfold price
    cases d
    · simp only [Dir.edges, h.o]
    · simp only [Dir.edges, h.i]
  rw [h.v, e2]
  simp only [e1]

theorem closure_calls (ω : Oracle) (op : Op K T) (hq : op.isClosure = true) (σ : St K T) (hi : Inv σ.g) :
    Tot (exec ω op) σ (fun _ σ' => Inv σ'.g ∧
      σ'.n + pot .down σ'.g + pot .up σ'.g ≤ σ.n + pot .down σ.g + pot .up σ.g + 1) := by
  cases op <;> try cases hq
  case getAncestors id =>
    refine Tot.bind (Tot.mono ((getAncestors_spec ω id σ hi).and (getAncestors_cost ω id σ hi)) ?_)
    rintro r σ' ⟨⟨h1, h2, -, -, h3, h4⟩, h5⟩
    refine Tot.pure ⟨h1, ?_⟩
    have : pot .down σ'.g = pot .down σ.g := by
      by_cases hck : checkVertexID σ.g id = none
      · refine pot_congr h2 fun x => ?_
        rw [h4 hck .down x]; simp
      · rw [h3 hck]
    omega
  case getDescendants id =>
    refine Tot.bind (Tot.mono ((getDescendants_spec ω id σ hi).and (getDescendants_cost ω id σ hi)) ?_)
    rintro r σ' ⟨⟨h1, h2, -, -, h3, h4⟩, h5⟩
    refine Tot.pure ⟨h1, ?_⟩
    have : pot .up σ'.g = pot .up σ.g := by
      by_cases hck : checkVertexID σ.g id = none
      · refine pot_congr h2 fun x => ?_
        rw [h4 hck .up x]; simp
      · rw [h3 hck]
    omega

theorem closure_runs (ω : Oracle) (qs : List (Op K T)) (hq : ∀ op ∈ qs, op.isClosure = true) (σ : St K T) (hi : Inv σ.g) :
    ∃ rs σ', run ω qs σ = some (rs, σ') ∧
      σ'.n + pot .down σ'.g + pot .up σ'.g ≤ σ.n + pot .down σ.g + pot .up σ.g + qs.length := by
  induction qs generalizing σ with
  | nil => exact ⟨[], σ, rfl, Nat.le_refl _⟩
  | cons op qs ih =>
    obtain ⟨r, σ1, h1, h2, h3⟩ := closure_calls ω op (hq op List.mem_cons_self) σ hi
    obtain ⟨rs, σ2, k1, k2⟩ := ih (fun o ho => hq o (List.mem_cons_of_mem _ ho)) σ1 h2
    refine ⟨r :: rs, σ2, ?_, ?_⟩
    · unfold run; simp only [h1, k1]
    · rw [List.length_cons]; omega

/-! ## C64 -/

/-- **C64, one call.** After any history, any call runs at most `3 (v + e) + 4` loops, `v` and `e` being what `GetOrder` and
`GetSize` return. -/
theorem C64_call (ω : Oracle) (ops : List (Op K T)) {rs : List (Res K T)} {σ : St K T} (h : run ω ops St.init = some (rs, σ))
    {v e : Nat} (hs : Sized ω σ v e) (op : Op K T) :
    ∃ r σ', exec ω op σ = some (r, σ') ∧ σ'.n ≤ σ.n + (3 * (v + e) + 4) := by
  obtain ⟨hi, hr⟩ := run_rows ω ops St.init inv_new rows_new h
  obtain ⟨rfl, rfl⟩ := hs.eq hi
  obtain ⟨r, σ', h1, h2, -⟩ := exec_cost ω op σ hi hr
  exact ⟨r, σ', h1, by omega⟩

/-- **C64, many queries.** However many questions about ancestors and descendants are asked in a row, and whatever was
remembered before, the edges are followed only once in each direction: apart from one loop a question for copying its answer,
all of them together run at most `2 (v + e)` loops. -/
theorem C64_queries (ω : Oracle) (ops : List (Op K T)) {rs : List (Res K T)} {σ : St K T} (h : run ω ops St.init = some (rs, σ))
    {v e : Nat} (hs : Sized ω σ v e) (qs : List (Op K T)) (hq : ∀ op ∈ qs, op.isClosure = true) :
    ∃ rs' σ', run ω qs σ = some (rs', σ') ∧ σ'.n ≤ σ.n + (2 * (v + e) + qs.length) := by
  obtain ⟨hi, hr⟩ := run_rows ω ops St.init inv_new rows_new h
  obtain ⟨rfl, rfl⟩ := hs.eq hi
  obtain ⟨rs', σ', h1, h2⟩ := closure_runs ω qs hq σ hi
  have p1 := pot_le .down hi.base
  have p2 := pot_le .up hi.base
  exact ⟨rs', σ', h1, by omega⟩

/-- **C64, a question alone.** -/
theorem C64_query (ω : Oracle) (ops : List (Op K T)) {rs : List (Res K T)} {σ : St K T} (h : run ω ops St.init = some (rs, σ))
    {v e : Nat} (hs : Sized ω σ v e) (op : Op K T) (hq : op.isClosure = true) :
    ∃ r σ', exec ω op σ = some (r, σ') ∧ σ'.n ≤ σ.n + (v + e + 1) := by
  obtain ⟨hi, hr⟩ := run_rows ω ops St.init inv_new rows_new h
  obtain ⟨rfl, rfl⟩ := hs.eq hi
  have p1 := pot_le .down hi.base
  have p2 := pot_le .up hi.base
  cases op <;> try cases hq
  case getAncestors id =>
    obtain ⟨r, σ', h1, h2⟩ := getAncestors_cost ω id σ hi
    exact ⟨.entriesE r, σ', by simp only [exec, Bind.bind, M.bind, h1]; rfl, by omega⟩
  case getDescendants id =>
    obtain ⟨r, σ', h1, h2⟩ := getDescendants_cost ω id σ hi
    exact ⟨.entriesE r, σ', by simp only [exec, Bind.bind, M.bind, h1]; rfl, by omega⟩

/-! ## Cases -/

/-- `k` diamonds in a row: `3 k + 1` vertices, `4 k` edges, `2 ^ k` paths from the first vertex to the last. -/
def diamonds : Nat → List (Op Nat Nat)
  | 0 => [.addVertex 1 0]
  | k + 1 => diamonds k ++ [.addVertex (3 * k + 2) 0, .addVertex (3 * k + 3) 0, .addVertex (3 * k + 4) 0,
      .addEdge (3 * k + 1) (3 * k + 2), .addEdge (3 * k + 1) (3 * k + 3), .addEdge (3 * k + 2) (3 * k + 4),
      .addEdge (3 * k + 3) (3 * k + 4)]

/-- Five diamonds: 16 vertices, 20 edges, 32 paths.  The first question runs 36 loops (the bound of `C64_query` is 37), the
second only one; following every path would take far more. -/
example : (run Oracle.forward (diamonds 5) (St.init : St Nat Nat)).map (fun x =>
    ((exec Oracle.forward .getOrder x.2).map (·.1), (exec Oracle.forward .getSize x.2).map (·.1),
      (exec Oracle.forward (.getDescendants 1) x.2).map (fun y => y.2.n - x.2.n),
      (run Oracle.forward [.getDescendants 1, .getDescendants 1] x.2).map (fun y => y.2.n - x.2.n))) =
    some (some (.count 16), some (.count 20), some 36, some 37) := by decide +kernel

/-- The dearest call on the same graph. -/
example : (run Oracle.forward (diamonds 5) (St.init : St Nat Nat)).map (fun x =>
    ((exec Oracle.forward .reduceTransitively x.2).map (fun y => y.2.n - x.2.n),
     (exec Oracle.forward (.deleteVertex 7) x.2).map (fun y => y.2.n - x.2.n))) = some (some 90, some 25) := by decide +kernel

end Verif.Dag
