import Verif.Dag.Run

/-!
# What the graph remembers

The graph keeps answers it has computed (`ancestorsCache`, `descendantsCache`).  Which ones it has at a given time
decides whether a query writes to memory.  A specification of this in terms of the calls alone, and its proof.
-/

set_option linter.unusedSectionVars false

namespace Verif.Dag
open M Relation

/-- The vertices whose ancestors, and those whose descendants, are remembered. -/
structure Memo (K : Type) where
  anc : K → Prop
  desc : K → Prop

namespace Spec
variable {K T : Type} [DecidableEq K] [GoZero K] [GoZero T]

/-- Nothing is remembered. -/
def Memo.none : Memo K := ⟨fun _ => False, fun _ => False⟩

/-- `x` is `v` or an ancestor of it. -/
def UpTo (a : Abs K T) (v x : K) : Prop := x = v ∨ TransGen a.E x v

/-- `x` is `v` or a descendant of it. -/
def DownFrom (a : Abs K T) (v x : K) : Prop := x = v ∨ TransGen a.E v x

/-- Some edge is implied by others. -/
def Redundant (a : Abs K T) : Prop := ∃ x y, a.E x y ∧ Implied a.E x y

/-- What is remembered after a call on the graph `a`.  A question about `v` has all the questions on the way answered
as well.  Calls that change edges first ask about both ends; then they forget every answer the change may affect. -/
def remember (a : Abs K T) (m : Memo K) : Op K T → Memo K
  | .getAncestors id => { m with anc := fun x => m.anc x ∨ (vertexErr a id = .none ∧ UpTo a id x) }
  | .getDescendants id => { m with desc := fun x => m.desc x ∨ (vertexErr a id = .none ∧ DownFrom a id x) }
  | .addEdge s t =>
    { anc := fun x => (m.anc x ∨ (edgeErr a s t = .none ∧ ¬ a.E s t ∧ UpTo a s x)) ∧ ¬ (CanAdd a s t ∧ DownFrom a t x)
      desc := fun x => (m.desc x ∨ (edgeErr a s t = .none ∧ ¬ a.E s t ∧ DownFrom a t x)) ∧ ¬ (CanAdd a s t ∧ UpTo a s x) }
  | .deleteEdge s t =>
    { anc := fun x => (m.anc x ∨ (a.E s t ∧ UpTo a t x)) ∧ ¬ (a.E s t ∧ DownFrom a s x)
      desc := fun x => (m.desc x ∨ (a.E s t ∧ DownFrom a s x)) ∧ ¬ (a.E s t ∧ UpTo a t x) }
  | .deleteVertex id =>
    { anc := fun x => (m.anc x ∨ (vertexErr a id = .none ∧ UpTo a id x)) ∧ ¬ (vertexErr a id = .none ∧ DownFrom a id x)
      desc := fun x => (m.desc x ∨ (vertexErr a id = .none ∧ DownFrom a id x)) ∧ ¬ (vertexErr a id = .none ∧ UpTo a id x) }
  | .reduceTransitively =>
    { anc := fun x => m.anc x ∧ ¬ Redundant a
      desc := fun x => (a.V x).isSome = true ∧ ¬ Redundant a }
  | _ => m

/-- What is remembered after a history. -/
def remembered (a : Abs K T) (m : Memo K) : List (Op K T) → Memo K
  | [] => m
  | op :: ops => remembered (next a op) (remember a m op) ops

end Spec

variable {K T : Type} [DecidableEq K] [GoZero K] [GoZero T]

/-- What a graph has cached. -/
def memo (g : Graph K T) : Memo K := ⟨fun x => GoMap.has g.ancC x = true, fun x => GoMap.has g.descC x = true⟩

theorem Memo.ext' {m m' : Memo K} (h1 : ∀ x, m.anc x ↔ m'.anc x) (h2 : ∀ x, m.desc x ↔ m'.desc x) : m = m' := by
  obtain ⟨a, d⟩ := m
  obtain ⟨a', d'⟩ := m'
  have : a = a' := funext fun x => propext (h1 x)
  have : d = d' := funext fun x => propext (h2 x)
  subst_vars; rfl

theorem memo_new : memo (Graph.new : Graph K T) = Spec.Memo.none :=
  Memo.ext' (fun x => by simp [memo, Graph.new, GoMap.has, Spec.Memo.none])
    (fun x => by simp [memo, Graph.new, GoMap.has, Spec.Memo.none])

/-- A call leaves cached what the specification says. -/
theorem exec_memo (ω : Oracle) (op : Op K T) (σ : St K T) (hi : Inv σ.g) :
    Tot (exec ω op) σ (fun _ σ' => memo σ'.g = Spec.remember (abs σ.g) (memo σ.g) op) := by
  have same : ∀ {r : Res K T} {σ' : St K T}, σ'.g = σ.g →
      Tot (Pure.pure r : M K T (Res K T)) σ' (fun _ σ' => memo σ'.g = memo σ.g) :=
    fun h => Tot.pure (by rw [h])
  cases op with
  | addVertex id v =>
    refine Tot.bind (Tot.mono (addVertex_spec id v σ hi) ?_)
    rintro r σ' ⟨_, _, h3, h4⟩
    refine Tot.pure ?_
    cases hr : r with
    | some e => rw [h3 (by rw [hr]; simp)]; rfl
    | none => rw [h4 hr]; rfl
  | getVertex id =>
    refine Tot.bind ?_
    unfold getVertex
    refine Tot.bind (Tot.getG ?_)
    cases checkVertexID σ.g id with
    | some e => exact Tot.pure (same rfl)
    | none => exact Tot.pure (same rfl)
  | deleteVertex id =>
    refine Tot.bind (Tot.mono (deleteVertex_spec ω id σ hi) ?_)
    rintro r σ' ⟨_, h2, h3, h4⟩
    refine Tot.pure ?_
    rw [checkVertexID_eq] at h2
    cases hr : r with
    | some e =>
      rw [h3 (by rw [hr]; simp)]
      rw [hr] at h2
      refine Memo.ext' (fun x => ?_) (fun x => ?_) <;> simp [Spec.remember, ← h2]
    | none =>
      obtain ⟨_, _, ha, hd⟩ := h4 hr
      rw [hr] at h2
      refine Memo.ext' (fun x => ?_) (fun x => ?_)
      · simp only [Spec.remember, ← h2, true_and]; exact ha x
      · simp only [Spec.remember, ← h2, true_and]; exact hd x
  | addEdge s t =>
    refine Tot.bind (Tot.mono (addEdge_spec ω s t σ hi) ?_)
    rintro r σ' ⟨_, h2, h3, _, _, h6, h7⟩
    refine Tot.pure ?_
    rw [checkEdgeIDs_eq] at h2 h3 h6 h7
    cases hck : Spec.edgeErr (abs σ.g) s t with
    | some e =>
      rw [(h2 e hck).2]
      refine Memo.ext' (fun x => ?_) (fun x => ?_) <;> simp [Spec.remember, Spec.CanAdd, hck]
    | none =>
      by_cases hE : σ.g.E s t
      · rw [h6 hck hE]
        have hE' : (abs σ.g).E s t := hE
        refine Memo.ext' (fun x => ?_) (fun x => ?_) <;> simp [Spec.remember, Spec.CanAdd, hE']
      · obtain ⟨ha, hd⟩ := h7 hck hE
        obtain ⟨_, k2, k3⟩ := h3 hck
        have hE' : ¬ (abs σ.g).E s t := hE
        have hr : r = none ↔ Spec.CanAdd (abs σ.g) s t := by
          constructor
          · intro h
            exact ⟨hck, hE', fun h' => by rw [k2 hE h'] at h; cases h⟩
          · rintro ⟨_, _, h⟩; exact k3 hE h
        refine Memo.ext' (fun x => ?_) (fun x => ?_)
        · simp only [Spec.remember, hck, true_and, hE', not_false_eq_true, ← hr]; exact ha x
        · simp only [Spec.remember, hck, true_and, hE', not_false_eq_true, ← hr]; exact hd x
  | isEdge s t =>
    refine Tot.bind ?_
    unfold isEdge
    exact Tot.bind (Tot.getG (Tot.pure (same rfl)))
  | deleteEdge s t =>
    refine Tot.bind (Tot.mono (deleteEdge_spec ω s t σ hi) ?_)
    rintro r σ' ⟨_, _, _, _, _, h6, h7⟩
    refine Tot.pure ?_
    by_cases hE : σ.g.E s t
    · obtain ⟨ha, hd⟩ := h7 hE
      have hE' : (abs σ.g).E s t := hE
      refine Memo.ext' (fun x => ?_) (fun x => ?_)
      · simp only [Spec.remember, hE', true_and]; exact ha x
      · simp only [Spec.remember, hE', true_and]; exact hd x
    · rw [h6 hE]
      have hE' : ¬ (abs σ.g).E s t := hE
      refine Memo.ext' (fun x => ?_) (fun x => ?_) <;> simp [Spec.remember, hE']
  | getOrder =>
    refine Tot.bind (Tot.mono (getOrder_spec σ hi) ?_)
    rintro r _ ⟨rfl, _⟩
    exact same rfl
  | getSize =>
    refine Tot.bind (Tot.mono (getSize_spec ω σ hi) ?_)
    rintro r σ' ⟨h0, _⟩
    exact same h0
  | getLeaves =>
    refine Tot.bind (Tot.mono (getLeaves_spec ω σ hi) ?_)
    rintro r σ' ⟨h0, _⟩
    exact same h0
  | getRoots =>
    refine Tot.bind (Tot.mono (getRoots_spec ω σ hi) ?_)
    rintro r σ' ⟨h0, _⟩
    exact same h0
  | getVertices =>
    refine Tot.bind (Tot.mono (getVertices_spec ω σ hi) ?_)
    rintro r σ' ⟨h0, _⟩
    exact same h0
  | getParents id =>
    refine Tot.bind (Tot.mono (getParents_spec ω id σ hi) ?_)
    rintro r σ' ⟨h0, _⟩
    exact same h0
  | getChildren id =>
    refine Tot.bind (Tot.mono (getChildren_spec ω id σ hi) ?_)
    rintro r σ' ⟨h0, _⟩
    exact same h0
  | getAncestors id =>
    refine Tot.bind (Tot.mono (getAncestors_spec ω id σ hi) ?_)
    rintro r σ' ⟨_, _, _, _, h1, h2⟩
    refine Tot.pure ?_
    rw [checkVertexID_eq] at h1 h2
    by_cases hck : Spec.vertexErr (abs σ.g) id = none
    · have hf := h2 hck
      refine Memo.ext' (fun x => (hf .up x).trans ?_) (fun x => (hf .down x).trans ?_)
      · simp only [Spec.remember, hck, true_and, Spec.UpTo]
        rw [hi.base.upTG]; exact Iff.rfl
      · simp only [reduceCtorEq, false_and, or_false]; exact Iff.rfl
    · rw [h1 hck]
      refine Memo.ext' (fun x => ?_) (fun x => ?_) <;> simp [Spec.remember, hck]
  | getDescendants id =>
    refine Tot.bind (Tot.mono (getDescendants_spec ω id σ hi) ?_)
    rintro r σ' ⟨_, _, _, _, h1, h2⟩
    refine Tot.pure ?_
    rw [checkVertexID_eq] at h1 h2
    by_cases hck : Spec.vertexErr (abs σ.g) id = none
    · have hf := h2 hck
      refine Memo.ext' (fun x => (hf .up x).trans ?_) (fun x => (hf .down x).trans ?_)
      · simp only [reduceCtorEq, false_and, or_false]; exact Iff.rfl
      · simp only [Spec.remember, hck, true_and, Spec.DownFrom]; exact Iff.rfl
    · rw [h1 hck]
      refine Memo.ext' (fun x => ?_) (fun x => ?_) <;> simp [Spec.remember, hck]
  | getOrderedAncestors id =>
    refine Tot.bind (Tot.mono (getOrderedAncestors_spec ω id σ hi) ?_)
    rintro r σ' ⟨h0, _⟩
    exact same h0
  | getOrderedDescendants id =>
    refine Tot.bind (Tot.mono (getOrderedDescendants_spec ω id σ hi) ?_)
    rintro r σ' ⟨h0, _⟩
    exact same h0
  | reduceTransitively =>
    refine Tot.bind (Tot.mono (reduce_spec ω σ hi) ?_)
    rintro r σ' ⟨_, _, _, h3, h4⟩
    refine Tot.pure ?_
    by_cases hR : Spec.Redundant (abs σ.g)
    · obtain ⟨ea, ed⟩ := h3 hR
      refine Memo.ext' (fun x => ?_) (fun x => ?_) <;> simp [Spec.remember, hR, memo, ea, ed, GoMap.has]
    · obtain ⟨ea, ed⟩ := h4 hR
      refine Memo.ext' (fun x => ?_) (fun x => ?_)
      · simp [Spec.remember, hR, memo, ea]
      · simp only [Spec.remember, hR, memo, ed, not_false_eq_true, and_true]; exact Iff.rfl
  | string =>
    refine Tot.bind (Tot.mono (stringListing_spec ω σ hi) ?_)
    rintro r σ' ⟨h0, _⟩
    exact same h0

/-- A history leaves cached what the specification says. -/
theorem run_memo {ω : Oracle} {ops : List (Op K T)} {σ σ' : St K T} {rs : List (Res K T)} (hi : Inv σ.g)
    (h : run ω ops σ = some (rs, σ')) :
    memo σ'.g = Spec.remembered (abs σ.g) (memo σ.g) ops := by
  induction ops generalizing σ rs with
  | nil => cases h; rfl
  | cons op ops ih =>
    obtain ⟨r, σ1, e, hi1, ha, -⟩ := exec_refines ω op σ hi
    obtain ⟨r', σ1', e', hm⟩ := exec_memo ω op σ hi
    rw [e] at e'; cases e'
    simp only [run, e] at h
    cases h2 : run ω ops σ1 with
    | none => rw [h2] at h; cases h
    | some p =>
      obtain ⟨rs2, σ2⟩ := p
      rw [h2] at h; cases h
      rw [ih hi1 h2, ha, hm]; rfl

end Verif.Dag
