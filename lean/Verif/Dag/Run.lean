import Verif.Dag.Reduce
import Verif.Dag.Bfs

/-!
# Histories of API calls, and refinement of the specification

`exec` dispatches an API call to the model of the Go method; `run` executes a history.
-/

set_option linter.unusedSectionVars false

namespace Verif.Dag
open M Relation

variable {K T : Type} [DecidableEq K] [GoZero K] [GoZero T]

/-- One API call. -/
def exec (ω : Oracle) : Op K T → M K T (Res K T)
  | .addVertex id v => do return .err (← addVertex id v)
  | .getVertex id => do return .payload (← getVertex id)
  | .deleteVertex id => do return .err (← deleteVertex ω id)
  | .addEdge s t => do return .err (← addEdge ω s t)
  | .isEdge s t => do return .flag (← isEdge s t)
  | .deleteEdge s t => do return .err (← deleteEdge ω s t)
  | .getOrder => do return .count (← getOrder)
  | .getSize => do return .count (← getSize ω)
  | .getLeaves => do return .entries (← getLeaves ω)
  | .getRoots => do return .entries (← getRoots ω)
  | .getVertices => do return .entries (← getVertices ω)
  | .getParents id => do return .entriesE (← getParents ω id)
  | .getChildren id => do return .entriesE (← getChildren ω id)
  | .getAncestors id => do return .entriesE (← getAncestors ω id)
  | .getOrderedAncestors id => do return .idsE (← getOrderedAncestors ω id)
  | .getDescendants id => do return .entriesE (← getDescendants ω id)
  | .getOrderedDescendants id => do return .idsE (← getOrderedDescendants ω id)
  | .reduceTransitively => do reduceTransitively ω; return .unit
  | .string => do
    let l ← stringListing ω
    return .listing l.order l.size l.vertices l.edges

/-- A history of calls. -/
def run (ω : Oracle) : List (Op K T) → St K T → Option (List (Res K T) × St K T)
  | [], σ => some ([], σ)
  | op :: ops, σ =>
    match exec ω op σ with
    | none => none
    | some (r, σ1) =>
      match run ω ops σ1 with
      | none => none
      | some (rs, σ2) => some (r :: rs, σ2)

/-- A fresh graph (`NewAcyclicGraph`, `dag.go:19-27`). -/
def St.init : St K T := ⟨Graph.new, 0⟩

/-- The abstract graph represented by a concrete one. -/
def abs (g : Graph K T) : Abs K T := ⟨fun k => GoMap.get? g.vertices k, g.E⟩

theorem inv_new : Inv (Graph.new : Graph K T) := by
  have hE : ∀ a b, ¬ (Graph.new : Graph K T).E a b := by
    intro a b h; unfold Graph.E setAt Graph.new at h; simp at h
  refine ⟨⟨GoMap.NodupKeys.nil, GoMap.NodupKeys.nil, GoMap.NodupKeys.nil, ?_, ?_, rfl, ?_, ?_, ?_⟩,
    CInv.nil _ _ rfl, CInv.nil _ _ rfl⟩
  · intro k S h; cases h
  · intro k S h; cases h
  · intro a b; exact ⟨fun h => by (unfold Dir.E setAt Dir.edges Graph.new at h; simp at h), fun h => absurd h (hE a b)⟩
  · intro a b h; exact absurd h (hE a b)
  · intro v h
    obtain ⟨c, h1, _⟩ := TransGen.head'_iff.mp h
    exact hE _ _ h1

theorem abs_new : abs (Graph.new : Graph K T) = Spec.empty := by
  unfold abs Spec.empty
  congr 1
  funext a b
  exact propext ⟨fun h => by (unfold Graph.E setAt Graph.new at h; simp at h), False.elim⟩

theorem checkVertexID_eq (g : Graph K T) (id : K) : checkVertexID g id = Spec.vertexErr (abs g) id := by
  unfold checkVertexID Spec.vertexErr isZero abs GoMap.has
  by_cases h : id = zero
  · simp [h]
  · cases h2 : GoMap.get? g.vertices id <;> simp [h, h2]

theorem checkEdgeIDs_eq (g : Graph K T) (s t : K) : checkEdgeIDs g s t = Spec.edgeErr (abs g) s t := by
  unfold checkEdgeIDs Spec.edgeErr isZero abs GoMap.has
  by_cases h1 : s = zero
  · simp [h1]
  by_cases h2 : t = zero
  · simp [h1, h2]
  by_cases h3 : s = t
  · simp [h2, h3]
  cases h4 : GoMap.get? g.vertices s <;> cases h5 : GoMap.get? g.vertices t <;> simp [h1, h2, h3, h4, h5]

theorem Same.abs {g g' : Graph K T} (h : Same g g') : abs g' = abs g := by
  unfold Dag.abs; rw [h.v, h.E]

theorem exactly_of {m : GoMap K T} {P : K → T → Prop} (hnd : GoMap.NodupKeys m)
    (h : ∀ k v, GoMap.get? m k = some v ↔ P k v) : Spec.Exactly m P :=
  ⟨hnd, fun k v => (GoMap.mem_iff_get? hnd k v).trans (h k v)⟩

theorem orErr_of {α : Type} {g : Graph K T} {id : K} {r : Except Err α} {P : α → Prop}
    (h1 : ∀ e, checkVertexID g id = some e → r = .error e)
    (h2 : checkVertexID g id = none → ∃ m, r = .ok m ∧ P m) :
    Spec.OrErr (Spec.vertexErr (abs g) id) r P := by
  rw [← checkVertexID_eq]
  unfold Spec.OrErr
  cases h : checkVertexID g id with
  | some e => exact h1 e h
  | none => exact h2 h

theorem abs_ext {a b : Abs K T} (h1 : ∀ k, a.V k = b.V k) (h2 : ∀ x y, a.E x y ↔ b.E x y) : a = b := by
  obtain ⟨V, E⟩ := a
  obtain ⟨V', E'⟩ := b
  have : V = V' := funext h1
  have : E = E' := funext fun x => funext fun y => propext (h2 x y)
  subst_vars; rfl

/-- Each call refines the specification and preserves the invariant. -/
theorem exec_refines (ω : Oracle) (op : Op K T) (σ : St K T) (hi : Inv σ.g) :
    Tot (exec ω op) σ (fun r σ' => Inv σ'.g ∧ abs σ'.g = Spec.next (abs σ.g) op ∧
      Spec.ok (abs σ.g) op r) := by
  cases op with
  | addVertex id v =>
    refine Tot.bind (Tot.mono (addVertex_spec id v σ hi) ?_)
    rintro r σ' ⟨h1, h2, h3, h4⟩
    have hr : r = Spec.addVertexErr (abs σ.g) id := by
      rw [h2]; unfold Spec.addVertexErr abs GoMap.has; rfl
    refine Tot.pure ⟨h1, ?_, hr⟩
    cases hrn : r with
    | some e =>
      rw [h3 (by rw [hrn]; simp)]
      rw [hr] at hrn
      refine abs_ext (fun k => ?_) (fun x y => Iff.rfl)
      simp [Spec.next, hrn]
    | none =>
      rw [h4 hrn]
      rw [hr] at hrn
      refine abs_ext (fun k => ?_) (fun x y => Iff.rfl)
      simp only [Spec.next, hrn, and_true]
      exact GoMap.get?_set _ _ _ _
  | getVertex id =>
    refine Tot.bind ?_
    unfold getVertex
    refine Tot.bind (Tot.getG ?_)
    cases hck : checkVertexID σ.g id with
    | some e =>
      refine Tot.pure (Tot.pure ⟨hi, rfl, ?_⟩)
      exact orErr_of (fun e' h => by rw [hck] at h; cases h; rfl) (fun h => by rw [hck] at h; cases h)
    | none =>
      refine Tot.pure (Tot.pure ⟨hi, rfl, ?_⟩)
      refine orErr_of (fun e' h => by rw [hck] at h; cases h) (fun _ => ⟨_, rfl, ?_⟩)
      exact (vertexAt_iff ((checkVertexID_none hi.base id).mp hck) _).mp rfl
  | deleteVertex id =>
    refine Tot.bind (Tot.mono (deleteVertex_spec ω id σ hi) ?_)
    rintro r σ' ⟨h1, h2, h3, h4⟩
    refine Tot.pure ⟨h1, ?_, by rw [h2]; exact checkVertexID_eq _ _⟩
    cases hrn : r with
    | some e =>
      rw [h3 (by rw [hrn]; simp)]
      -- the vertex does not exist, so removing it changes nothing
      have hno : GoMap.has σ.g.vertices id = false := by
        cases hb : GoMap.has σ.g.vertices id with
        | false => rfl
        | true => rw [h2, (checkVertexID_none hi.base id).mpr hb] at hrn; cases hrn
      refine abs_ext (fun k => ?_) (fun x y => ?_)
      · show GoMap.get? _ _ = if k = id then none else GoMap.get? _ _
        by_cases hk : k = id
        · subst hk; simp [(GoMap.has_eq_false _ _).mp hno]
        · simp [hk]
      · refine ⟨fun h => ⟨h, ?_, ?_⟩, fun h => h.1⟩
        · rintro rfl; have := (hi.base.ends _ _ h).1; rw [hno] at this; cases this
        · rintro rfl; have := (hi.base.ends _ _ h).2; rw [hno] at this; cases this
    | none =>
      obtain ⟨h5, h6, -⟩ := h4 hrn
      refine abs_ext (fun k => ?_) h6
      show GoMap.get? _ _ = if k = id then none else GoMap.get? _ _
      rw [h5, GoMap.get?_del]
  | addEdge s t =>
    refine Tot.bind (Tot.mono (addEdge_spec ω s t σ hi) ?_)
    rintro r σ' ⟨h1, h2, h3, h4, h5, -⟩
    rw [checkEdgeIDs_eq] at h2 h3
    refine Tot.pure ⟨h1, ?_, ?_⟩
    · refine abs_ext (fun k => by show GoMap.get? _ _ = GoMap.get? _ _; rw [h4]) (fun x y => (h5 x y).trans ?_)
      refine or_congr Iff.rfl (and_congr_left (fun _ => ?_))
      unfold Spec.CanAdd
      cases hck : Spec.edgeErr (abs σ.g) s t with
      | some e => rw [(h2 e hck).1]; simp
      | none =>
        obtain ⟨k1, k2, k3⟩ := h3 hck
        constructor
        · intro hr
          refine ⟨rfl, fun h => ?_, fun h => ?_⟩
          · rw [k1 h] at hr; cases hr
          · by_cases he : σ.g.E s t
            · rw [k1 he] at hr; cases hr
            · rw [k2 he h] at hr; cases hr
        · rintro ⟨_, h, h'⟩; exact k3 h h'
    · show match Spec.edgeErr (abs σ.g) s t with | some e => r = some e | none => _
      cases hck : Spec.edgeErr (abs σ.g) s t with
      | some e => exact (h2 e hck).1
      | none => exact h3 hck
  | isEdge s t =>
    refine Tot.bind ?_
    unfold isEdge
    refine Tot.bind (Tot.getG (Tot.pure (Tot.pure ⟨hi, rfl, ?_⟩)))
    show Spec.OrErr (Spec.edgeErr (abs σ.g) s t) _ _
    rw [← checkEdgeIDs_eq]
    cases hck : checkEdgeIDs σ.g s t with
    | some e => unfold isEdgeIn; simp only [hck]; rfl
    | none =>
      have := isEdgeFlag_iff (s := s) (t := t) hck
      unfold isEdgeFlag at this
      cases hr : isEdgeIn σ.g s t with
      | error e =>
        exfalso; unfold isEdgeIn at hr; simp only [hck] at hr
        split at hr <;> first | cases hr | (split at hr <;> cases hr)
      | ok b => rw [hr] at this; exact ⟨b, rfl, this⟩
  | deleteEdge s t =>
    refine Tot.bind (Tot.mono (deleteEdge_spec ω s t σ hi) ?_)
    rintro r σ' ⟨h1, h2, h3, h4, h5, -⟩
    rw [checkEdgeIDs_eq] at h2 h3
    refine Tot.pure ⟨h1, ?_, ?_⟩
    · refine abs_ext (fun k => by show GoMap.get? _ _ = GoMap.get? _ _; rw [h4]) (fun x y => (h5 x y).trans ?_)
      refine and_congr_right (fun hxy => not_congr ⟨fun h => h.2, ?_⟩)
      rintro ⟨rfl, rfl⟩
      refine ⟨?_, rfl, rfl⟩
      refine (h3 ?_).2 hxy
      rw [← checkEdgeIDs_eq, checkEdgeIDs_none hi.base]
      refine ⟨?_, hi.base.ends _ _ hxy⟩
      rintro rfl; exact hi.base.acyc _ (.single hxy)
    · show match Spec.edgeErr (abs σ.g) s t with | some e => r = some e | none => _
      cases hck : Spec.edgeErr (abs σ.g) s t with
      | some e => exact (h2 e hck).1
      | none => exact ⟨(h3 hck).2, (h3 hck).1⟩
  | getOrder =>
    refine Tot.bind (Tot.mono (getOrder_spec σ hi) ?_)
    rintro r _ ⟨rfl, l, h1, h2, h3⟩
    exact Tot.pure ⟨hi, rfl, l, h1, h2, h3⟩
  | getSize =>
    refine Tot.bind (Tot.mono (getSize_spec ω σ hi) ?_)
    rintro r σ' ⟨h0, l, h1, h2, h3⟩
    exact Tot.pure ⟨by rw [h0]; exact hi, by rw [h0]; rfl, l, h1, fun e => h2 e.1 e.2, h3⟩
  | getLeaves =>
    refine Tot.bind (Tot.mono (getLeaves_spec ω σ hi) ?_)
    rintro r σ' ⟨h0, h1, h2⟩
    exact Tot.pure ⟨by rw [h0]; exact hi, by rw [h0]; rfl, exactly_of h1 h2⟩
  | getRoots =>
    refine Tot.bind (Tot.mono (getRoots_spec ω σ hi) ?_)
    rintro r σ' ⟨h0, h1, h2⟩
    exact Tot.pure ⟨by rw [h0]; exact hi, by rw [h0]; rfl, exactly_of h1 h2⟩
  | getVertices =>
    refine Tot.bind (Tot.mono (getVertices_spec ω σ hi) ?_)
    rintro r σ' ⟨h0, h1, h2⟩
    exact Tot.pure ⟨by rw [h0]; exact hi, by rw [h0]; rfl, exactly_of h1 h2⟩
  | getParents id =>
    refine Tot.bind (Tot.mono (getParents_spec ω id σ hi) ?_)
    rintro r σ' ⟨h0, h1, h2⟩
    refine Tot.pure ⟨by rw [h0]; exact hi, by rw [h0]; rfl, orErr_of h1 (fun h => ?_)⟩
    obtain ⟨m, h3, h4, h5⟩ := h2 h
    exact ⟨m, h3, exactly_of h4 (fun k v => (h5 k v).trans and_comm)⟩
  | getChildren id =>
    refine Tot.bind (Tot.mono (getChildren_spec ω id σ hi) ?_)
    rintro r σ' ⟨h0, h1, h2⟩
    refine Tot.pure ⟨by rw [h0]; exact hi, by rw [h0]; rfl, orErr_of h1 (fun h => ?_)⟩
    obtain ⟨m, h3, h4, h5⟩ := h2 h
    exact ⟨m, h3, exactly_of h4 (fun k v => (h5 k v).trans and_comm)⟩
  | getAncestors id =>
    refine Tot.bind (Tot.mono (getAncestors_spec ω id σ hi) ?_)
    rintro r σ' ⟨hi', sm, h1, h2, -⟩
    refine Tot.pure ⟨hi', sm.abs, orErr_of h1 (fun h => ?_)⟩
    obtain ⟨m, h3, h4, h5⟩ := h2 h
    exact ⟨m, h3, exactly_of h4 (fun k v => (h5 k v).trans and_comm)⟩
  | getDescendants id =>
    refine Tot.bind (Tot.mono (getDescendants_spec ω id σ hi) ?_)
    rintro r σ' ⟨hi', sm, h1, h2, -⟩
    refine Tot.pure ⟨hi', sm.abs, orErr_of h1 (fun h => ?_)⟩
    obtain ⟨m, h3, h4, h5⟩ := h2 h
    exact ⟨m, h3, exactly_of h4 (fun k v => (h5 k v).trans and_comm)⟩
  | getOrderedAncestors id =>
    refine Tot.bind (Tot.mono (getOrderedAncestors_spec ω id σ hi) ?_)
    rintro r σ' ⟨h0, h1, h2⟩
    exact Tot.pure ⟨by rw [h0]; exact hi, by rw [h0]; rfl, orErr_of h1 h2⟩
  | getOrderedDescendants id =>
    refine Tot.bind (Tot.mono (getOrderedDescendants_spec ω id σ hi) ?_)
    rintro r σ' ⟨h0, h1, h2⟩
    exact Tot.pure ⟨by rw [h0]; exact hi, by rw [h0]; rfl, orErr_of h1 h2⟩
  | reduceTransitively =>
    refine Tot.bind (Tot.mono (reduce_spec ω σ hi) ?_)
    rintro r σ' ⟨h0, h1, h2, -⟩
    exact Tot.pure ⟨h0, abs_ext (fun k => by show GoMap.get? _ _ = GoMap.get? _ _; rw [h1]) h2, trivial⟩
  | string =>
    refine Tot.bind (Tot.mono (stringListing_spec ω σ hi) ?_)
    rintro r σ' ⟨h0, h1, h2, h3, h4, h5, h6⟩
    exact Tot.pure ⟨by rw [h0]; exact hi, by rw [h0]; rfl, h1, h2, h3, h4, h5, h6⟩

/-- Every history terminates, keeps the invariant, and refines the specification. -/
theorem run_refines_from (ω : Oracle) (ops : List (Op K T)) (σ : St K T) (hi : Inv σ.g) :
    ∃ rs σ', run ω ops σ = some (rs, σ') ∧ Inv σ'.g ∧ abs σ'.g = Spec.after (abs σ.g) ops ∧
      Spec.okAll (abs σ.g) ops rs := by
  induction ops generalizing σ with
  | nil => exact ⟨[], σ, rfl, hi, rfl, trivial⟩
  | cons op ops ih =>
    obtain ⟨r, σ1, h1, h2, h3, h4⟩ := exec_refines ω op σ hi
    obtain ⟨rs, σ2, k1, k2, k3, k4⟩ := ih σ1 h2
    rw [h3] at k3 k4
    exact ⟨r :: rs, σ2, by simp [run, h1, k1], k2, k3, h4, k4⟩

theorem run_refines (ω : Oracle) (ops : List (Op K T)) :
    ∃ rs σ', run ω ops St.init = some (rs, σ') ∧ Inv σ'.g ∧ abs σ'.g = Spec.after Spec.empty ops ∧
      Spec.okAll Spec.empty ops rs := by
  have := run_refines_from ω ops (St.init : St K T) inv_new
  rw [show abs (St.init : St K T).g = Spec.empty from abs_new] at this
  exact this

end Verif.Dag
