import Verif.Props.Restore

/-! # C89: deletions can be done in any order -/

set_option linter.unusedSectionVars false

namespace Verif.Dag
open M Relation

variable {K T : Type} [DecidableEq K] [GoZero K] [GoZero T]

/-! ## Specification -/

/-- The call deletes something. -/
def Op.isDelete : Op K T → Bool
  | .deleteVertex .. | .deleteEdge .. => true
  | _ => false

/-- The call deletes an edge. -/
def Op.isDeleteEdge : Op K T → Bool
  | .deleteEdge .. => true
  | _ => false

/-- What the call is to delete is there. -/
def Op.Present (σ : St K T) : Op K T → Prop
  | .deleteVertex k => Known σ k
  | .deleteEdge s t => Edge σ s t
  | _ => False

/-- The call has succeeded, or it was to delete an edge one of whose ends is gone already. -/
def Res.doneOrGone (op : Op K T) (r : Res K T) : Prop :=
  r = .err none ∨ (op.isDeleteEdge = true ∧ (r = .err (some .edgeSourceIDNotFound) ∨ r = .err (some .edgeTargetIDNotFound)))

/-- Edges are deleted before vertices. -/
def EdgesFirst (p : List (Op K T)) : Prop := p.Pairwise fun x y => y.isDeleteEdge = true → x.isDeleteEdge = true

/-! ## Proof -/

theorem after_deletes {p : List (Op K T)} (ha : ∀ op ∈ p, op.isDelete = true) (a : Abs K T) :
    (∀ k v, (Spec.after a p).V k = some v ↔ a.V k = some v ∧ .deleteVertex k ∉ p) ∧
    ∀ x y, (Spec.after a p).E x y ↔ a.E x y ∧ .deleteEdge x y ∉ p ∧ .deleteVertex x ∉ p ∧ .deleteVertex y ∉ p := by
  induction p generalizing a with
  | nil => simp [Spec.after]
  | cons op p ih =>
    obtain ⟨h1, h2⟩ := ih (fun o h => ha o (.tail _ h)) (Spec.next a op)
    have e : Spec.after a (op :: p) = Spec.after (Spec.next a op) p := rfl
    rw [e]
    cases op with
    | deleteVertex id =>
      refine ⟨fun k v => ?_, fun x y => ?_⟩
      · rw [h1]
        simp only [Spec.next, List.mem_cons, Op.deleteVertex.injEq, not_or]
        by_cases hk : k = id <;> simp [hk]
      · rw [h2]
        simp only [Spec.next, List.mem_cons, Op.deleteVertex.injEq, not_or, reduceCtorEq, false_or, not_false_eq_true, true_and]
        tauto
    | deleteEdge s t =>
      refine ⟨fun k v => ?_, fun x y => ?_⟩
      · rw [h1]
        simp only [Spec.next, List.mem_cons, reduceCtorEq, false_or]
      · rw [h2]
        simp only [Spec.next, List.mem_cons, Op.deleteEdge.injEq, not_or, reduceCtorEq, false_or]
        tauto
    | _ => exact absurd (ha _ (.head _)) Bool.false_ne_true

theorem deletes_results {p : List (Op K T)} {a : Abs K T} {rs : List (Res K T)} (ha : ∀ op ∈ p, op.isDelete = true) (hn : p.Nodup)
    (hv : ∀ k, .deleteVertex k ∈ p → k ≠ zero ∧ a.V k ≠ none)
    (he : ∀ s t, .deleteEdge s t ∈ p → s ≠ zero ∧ t ≠ zero ∧ s ≠ t ∧ (a.V s = none ∨ a.V t = none ∨ a.E s t)) (hok : Spec.okAll a p rs) :
    List.Forall₂ Res.doneOrGone p rs := by
  induction p generalizing a rs with
  | nil =>
    cases rs with
    | nil => exact .nil
    | cons => exact hok.elim
  | cons op p ih =>
    cases rs with
    | nil => exact hok.elim
    | cons r rs =>
      obtain ⟨h1, h2⟩ := hok
      obtain ⟨hn1, hn2⟩ := List.nodup_cons.1 hn
      have ha' : ∀ o ∈ p, o.isDelete = true := fun o h => ha o (.tail _ h)
      cases op with
      | deleteVertex id =>
        refine .cons ?_ (ih ha' hn2 (fun k hk => ?_) (fun s t hst => ?_) h2)
        · cases r <;> first | exact h1.elim | skip
          obtain ⟨h3, h4⟩ := hv id (.head _)
          refine .inl (congrArg _ (h1.trans ?_))
          simp [Spec.vertexErr, h3, h4]
        · obtain ⟨h3, h4⟩ := hv k (.tail _ hk)
          refine ⟨h3, ?_⟩
          have : k ≠ id := fun e => hn1 (e ▸ hk)
          simpa [Spec.next, this] using h4
        · obtain ⟨h3, h4, h5, h6⟩ := he s t (.tail _ hst)
          refine ⟨h3, h4, h5, ?_⟩
          simp only [Spec.next]
          by_cases e1 : s = id
          · exact .inl (if_pos e1)
          by_cases e2 : t = id
          · exact .inr (.inl (if_pos e2))
          rw [if_neg e1, if_neg e2]
          exact h6.imp (fun h => h) (Or.imp (fun h => h) fun h => ⟨h, e1, e2⟩)
      | deleteEdge s t =>
        refine .cons ?_ (ih (a := Spec.next a (.deleteEdge s t)) ha' hn2 (fun k hk => hv k (.tail _ hk)) (fun x y hst => ?_) h2)
        · cases r <;> first | exact h1.elim | skip
          obtain ⟨h3, h4, h5, h6⟩ := he s t (.head _)
          unfold Spec.ok at h1
          simp only [Spec.edgeErr, h3, h4, h5, if_false] at h1
          cases hs : a.V s with
          | none =>
            simp only [hs, Option.isNone_none, if_true] at h1
            exact .inr ⟨rfl, .inl (congrArg _ h1)⟩
          | some u =>
            cases ht : a.V t with
            | none =>
              simp [hs, ht] at h1
              exact .inr ⟨rfl, .inr (congrArg _ h1)⟩
            | some w =>
              simp [hs, ht] at h1 h6
              exact .inl (congrArg _ (h1.1 h6))
        · obtain ⟨h3, h4, h5, h6⟩ := he x y (.tail _ hst)
          refine ⟨h3, h4, h5, h6.imp id (Or.imp id fun h => ⟨h, ?_⟩)⟩
          rintro ⟨rfl, rfl⟩
          exact hn1 hst
      | _ => exact absurd (ha _ (.head _)) Bool.false_ne_true

theorem deletes_done {p : List (Op K T)} {a : Abs K T} {rs : List (Res K T)} (ha : ∀ op ∈ p, op.isDelete = true) (hn : p.Nodup) (hf : EdgesFirst p)
    (hv : ∀ k, .deleteVertex k ∈ p → k ≠ zero ∧ a.V k ≠ none)
    (he : ∀ s t, .deleteEdge s t ∈ p → s ≠ zero ∧ t ≠ zero ∧ s ≠ t ∧ a.V s ≠ none ∧ a.V t ≠ none ∧ a.E s t) (hok : Spec.okAll a p rs) :
    ∀ r ∈ rs, r.done := by
  induction p generalizing a rs with
  | nil =>
    cases rs with
    | nil => exact fun r h => nomatch h
    | cons => exact hok.elim
  | cons op p ih =>
    cases rs with
    | nil => exact hok.elim
    | cons r rs =>
      obtain ⟨h1, h2⟩ := hok
      obtain ⟨hn1, hn2⟩ := List.nodup_cons.1 hn
      obtain ⟨hf1, hf2⟩ := List.pairwise_cons.1 hf
      have ha' : ∀ o ∈ p, o.isDelete = true := fun o h => ha o (.tail _ h)
      rw [List.forall_mem_cons]
      cases op with
      | deleteVertex id =>
        refine ⟨?_, ih ha' hn2 hf2 (fun k hk => ?_) (fun s t hst => absurd (hf1 _ hst rfl) Bool.false_ne_true) h2⟩
        · cases r <;> first | exact h1.elim | skip
          obtain ⟨h3, h4⟩ := hv id (.head _)
          refine congrArg _ (h1.trans ?_)
          simp [Spec.vertexErr, h3, h4]
        · obtain ⟨h3, h4⟩ := hv k (.tail _ hk)
          refine ⟨h3, ?_⟩
          have : k ≠ id := fun e => hn1 (e ▸ hk)
          simpa [Spec.next, this] using h4
      | deleteEdge s t =>
        refine ⟨?_, ih (a := Spec.next a (.deleteEdge s t)) ha' hn2 hf2 (fun k hk => hv k (.tail _ hk)) (fun x y hst => ?_) h2⟩
        · cases r <;> first | exact h1.elim | skip
          obtain ⟨h3, h4, h5, h6, h7, h8⟩ := he s t (.head _)
          unfold Spec.ok at h1
          simp [Spec.edgeErr, h3, h4, h5, h6, h7] at h1
          exact congrArg _ (h1.1 h8)
        · obtain ⟨h3, h4, h5, h6, h7, h8⟩ := he x y (.tail _ hst)
          refine ⟨h3, h4, h5, h6, h7, h8, ?_⟩
          rintro ⟨rfl, rfl⟩
          exact hn1 hst
      | _ => exact absurd (ha _ (.head _)) Bool.false_ne_true

/-! ## C89 -/

/-- **C89** (first part).  What is left after deletions depends on what was to be deleted only, not on the order, nor on which calls were made
twice or for things that were not there. -/
theorem C89_same (ω ω₁ ω₂ : Oracle) (ops : List (Op K T)) (σ : St K T) (h : After ω ops σ) (p p' : List (Op K T))
    (ha : ∀ op ∈ p, op.isDelete = true) (hp : ∀ op, op ∈ p ↔ op ∈ p') :
    ∃ rs rs' τ τ', run ω₁ p σ = some (rs, τ) ∧ run ω₂ p' σ = some (rs', τ') ∧ SameGraph τ τ' := by
  have hi := h.inv
  obtain ⟨rs, τ, h1, h2, h3, -⟩ := run_refines_from ω₁ p σ hi
  obtain ⟨rs', τ', h1', h2', h3', -⟩ := run_refines_from ω₂ p' σ hi
  obtain ⟨hV, hE⟩ := after_deletes ha (abs σ.g)
  obtain ⟨hV', hE'⟩ := after_deletes (fun op h => ha op ((hp op).2 h)) (abs σ.g)
  refine ⟨rs, rs', τ, τ', h1, h1', fun k v => ?_, fun x y => ?_⟩
  · rw [bound_iff h2, bound_iff h2', h3, h3', hV, hV', hp]
  · rw [edge_iff h2, edge_iff h2', h3, h3', hE, hE', hp, hp, hp]

/-- **C89** (second part).  Deleting things that are there, each once and in whatever order: every call succeeds, except that an edge may be gone
already together with one of its ends; if edges come first, every call succeeds. -/
theorem C89_results (ω ω₁ : Oracle) (ops : List (Op K T)) (σ : St K T) (h : After ω ops σ) (p : List (Op K T)) (ha : ∀ op ∈ p, op.isDelete = true)
    (hn : p.Nodup) (hp : ∀ op ∈ p, op.Present σ) :
    ∃ rs τ, run ω₁ p σ = some (rs, τ) ∧ List.Forall₂ Res.doneOrGone p rs ∧ (EdgesFirst p → ∀ r ∈ rs, r.done) := by
  have hi := h.inv
  obtain ⟨rs, τ, h1, -, -, h4⟩ := run_refines_from ω₁ p σ hi
  have hv : ∀ k, .deleteVertex k ∈ p → k ≠ zero ∧ (abs σ.g).V k ≠ none := fun k hk => by
    have h5 := Option.ne_none_iff_exists'.2 ((known_iff hi k).1 (hp _ hk))
    exact ⟨nonzero hi h5, h5⟩
  have he : ∀ s t, .deleteEdge s t ∈ p → s ≠ zero ∧ t ≠ zero ∧ s ≠ t ∧ (abs σ.g).V s ≠ none ∧ (abs σ.g).V t ≠ none ∧ (abs σ.g).E s t := fun s t hst => by
    have h5 := (edge_iff hi s t).1 (hp _ hst)
    obtain ⟨h6, h7⟩ := edge_ends hi h5
    exact ⟨nonzero hi h6, nonzero hi h7, fun e => hi.base.acyc s (.single (e ▸ h5)), h6, h7, h5⟩
  refine ⟨rs, τ, h1, deletes_results ha hn hv (fun s t hst => ?_) h4, fun hf => deletes_done ha hn hf hv he h4⟩
  obtain ⟨h5, h6, h7, -, -, h8⟩ := he s t hst
  exact ⟨h5, h6, h7, .inr (.inr h8)⟩

/-- **C89** (third part).  `DeleteVertex` leaves what deleting its edges first, and then the vertex, leaves. -/
theorem C89_vertex (ω ω₁ ω₂ : Oracle) (ops : List (Op K T)) (σ : St K T) (h : After ω ops σ) (k : K) (p : List (Op K T))
    (hp : ∀ op ∈ p, ∃ x, op = .deleteEdge k x ∨ op = .deleteEdge x k) :
    ∃ rs rs' τ τ', run ω₁ (p ++ [.deleteVertex k]) σ = some (rs, τ) ∧ run ω₂ [.deleteVertex k] σ = some (rs', τ') ∧ SameGraph τ τ' := by
  have hi := h.inv
  obtain ⟨rs, τ, h1, h2, h3, -⟩ := run_refines_from ω₁ (p ++ [.deleteVertex k]) σ hi
  obtain ⟨rs', τ', h1', h2', h3', -⟩ := run_refines_from ω₂ [.deleteVertex k] σ hi
  have ha : ∀ op ∈ p ++ [Op.deleteVertex k], op.isDelete = true := by
    intro op hop
    rcases List.mem_append.1 hop with h | h
    · obtain ⟨x, rfl | rfl⟩ := hp op h <;> rfl
    · rw [List.mem_singleton.1 h]; rfl
  have hno : ∀ j, Op.deleteVertex j ∉ p := fun j hj => by obtain ⟨x, h | h⟩ := hp _ hj <;> cases h
  have hed : ∀ x y, Op.deleteEdge x y ∈ p → x = k ∨ y = k := fun x y hxy => by
    obtain ⟨z, h | h⟩ := hp _ hxy <;> cases h <;> simp
  obtain ⟨hV, hE⟩ := after_deletes ha (abs σ.g)
  obtain ⟨hV', hE'⟩ := after_deletes (p := [Op.deleteVertex k]) (fun op h => ha op (List.mem_append_right _ h)) (abs σ.g)
  refine ⟨rs, rs', τ, τ', h1, h1', fun j v => ?_, fun x y => ?_⟩
  · rw [bound_iff h2, bound_iff h2', h3, h3', hV, hV']
    simp [hno]
  · rw [edge_iff h2, edge_iff h2', h3, h3', hE, hE']
    simp only [List.mem_append, List.mem_singleton, hno, false_or, Op.deleteVertex.injEq, reduceCtorEq, or_false, not_false_eq_true, true_and]
    refine and_congr_right fun _ => ⟨And.right, fun h => ⟨fun hxy => ?_, h⟩⟩
    exact (hed x y hxy).elim h.1 h.2

/-- Vertex 2 and two edges of the diamond, in two orders. -/
def deletions : List (Op Nat Nat) := [.deleteEdge 1 2, .deleteEdge 3 4, .deleteVertex 2]

example : (run Oracle.forward (demoOps ++ deletions) St.init).map (fun x => x.1.drop demoOps.length) = some [.err none, .err none, .err none] ∧
    (run Oracle.forward (demoOps ++ deletions.reverse) St.init).map (fun x => x.1.drop demoOps.length) =
      some [.err none, .err none, .err (some .edgeTargetIDNotFound)] := by
  decide +kernel

/-- The hypotheses of the theorems. -/
example : (∀ op ∈ deletions, op.isDelete = true) ∧ deletions.Nodup ∧ (∀ op, op ∈ deletions ↔ op ∈ deletions.reverse) ∧ EdgesFirst deletions ∧
    ∀ op ∈ deletions, op.Present demo := by
  refine ⟨by decide +kernel, by decide +kernel, fun op => List.mem_reverse.symm, by simp [EdgesFirst, deletions, Op.isDeleteEdge], fun op hop => ?_⟩
  simp only [deletions, List.mem_cons, List.not_mem_nil, or_false] at hop
  rcases hop with rfl | rfl | rfl
  · exact (demo_edge 1 2).mpr (by simp)
  · exact (demo_edge 3 4).mpr (by simp)
  · exact ⟨20, demo_bound⟩

end Verif.Dag
