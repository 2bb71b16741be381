import Verif.Props.DagMeta

/-! # C63: the order in which a graph is built -/

set_option linter.unusedSectionVars false

namespace Verif.Dag
open M Relation

variable {K T : Type} [DecidableEq K] [GoZero K] [GoZero T]

/-! ## Specification -/

/-- Nobody can tell the graphs apart by their vertices and edges. -/
def SameGraph (σ σ' : St K T) : Prop := (∀ k v, Bound σ k v ↔ Bound σ' k v) ∧ ∀ x y, Edge σ x y ↔ Edge σ' x y

/-- The call adds something. -/
def Op.isAdd : Op K T → Bool
  | .addVertex .. | .addEdge .. => true
  | _ => false

/-- The call adds a vertex. -/
def Op.isAddVertex : Op K T → Bool
  | .addVertex .. => true
  | _ => false

/-- Vertices are added before edges. -/
def VerticesFirst (p : List (Op K T)) : Prop := p.Pairwise fun x y => y.isAddVertex = true → x.isAddVertex = true

/-- The call has succeeded. -/
def Res.done (r : Res K T) : Prop := r = .err none

/-- The call has succeeded, or an end of the edge is not there yet. -/
def Res.doneOrEarly (r : Res K T) : Prop :=
  r = .err none ∨ r = .err (some .edgeSourceIDNotFound) ∨ r = .err (some .edgeTargetIDNotFound)

/-! ## What a list of calls adds -/

/-- The vertices of the calls. -/
def addedV : List (Op K T) → List (K × T)
  | [] => []
  | .addVertex k v :: p => (k, v) :: addedV p
  | _ :: p => addedV p

/-- The edges of the calls. -/
def addedE : List (Op K T) → List (K × K)
  | [] => []
  | .addEdge s t :: p => (s, t) :: addedE p
  | _ :: p => addedE p

theorem addedV_perm {p p' : List (Op K T)} (h : p.Perm p') : (addedV p).Perm (addedV p') := by
  induction h with
  | nil => exact .refl _
  | cons x _ ih => cases x <;> first | exact ih | exact ih.cons _
  | swap x y l => cases x <;> cases y <;> first | exact .refl _ | exact List.Perm.swap _ _ _
  | trans _ _ ih1 ih2 => exact ih1.trans ih2

theorem addedE_perm {p p' : List (Op K T)} (h : p.Perm p') : (addedE p).Perm (addedE p') := by
  induction h with
  | nil => exact .refl _
  | cons x _ ih => cases x <;> first | exact ih | exact ih.cons _
  | swap x y l => cases x <;> cases y <;> first | exact .refl _ | exact List.Perm.swap _ _ _
  | trans _ _ ih1 ih2 => exact ih1.trans ih2

/-- The calls `p` lead from `a` to `fin`. -/
structure Adds (a fin : Abs K T) (p : List (Op K T)) : Prop where
  nodupV : ((addedV p).map Prod.fst).Nodup
  newV : ∀ k v, (k, v) ∈ addedV p → k ≠ zero ∧ a.V k = none
  nodupE : (addedE p).Nodup
  newE : ∀ s t, (s, t) ∈ addedE p → s ≠ zero ∧ t ≠ zero ∧ s ≠ t ∧ ¬ a.E s t ∧ (fin.V s).isSome = true ∧ (fin.V t).isSome = true
  V : ∀ k v, fin.V k = some v ↔ a.V k = some v ∨ (k, v) ∈ addedV p
  E : ∀ x y, (a.E x y ∨ (x, y) ∈ addedE p) → fin.E x y

theorem adds_of_done {p : List (Op K T)} {a : Abs K T} {rs : List (Res K T)} (ha : ∀ op ∈ p, op.isAdd = true)
    (hok : Spec.okAll a p rs) (hd : ∀ r ∈ rs, r.done) :
    Adds a (Spec.after a p) p ∧ ∀ x y, (Spec.after a p).E x y → a.E x y ∨ (x, y) ∈ addedE p := by
  induction p generalizing a rs with
  | nil => exact ⟨⟨by simp [addedV], by simp [addedV], by simp [addedE], by simp [addedE], by simp [addedV, Spec.after], by simp [addedE, Spec.after]⟩,
      by simp [Spec.after, addedE]⟩
  | cons op p ih =>
    cases rs with
    | nil => exact hok.elim
    | cons r rs =>
      obtain ⟨h1, h2⟩ := hok
      obtain rfl : r = .err none := hd r (by simp)
      obtain ⟨ih, ih'⟩ := ih (fun o ho => ha o (by simp [ho])) h2 (fun r hr => hd r (by simp [hr]))
      have hop := ha op (by simp)
      show Adds a (Spec.after (Spec.next a op) p) _ ∧ ∀ x y, (Spec.after (Spec.next a op) p).E x y → _
      cases op with
      | addVertex k v =>
        have he : Spec.addVertexErr a k = none := h1.symm
        have hk : k ≠ zero ∧ a.V k = none := by
          unfold Spec.addVertexErr at he
          split at he
          · cases he
          · rename_i hz
            split at he
            · cases he
            · rename_i hv; exact ⟨hz, by simpa using hv⟩
        have hV : ∀ x, (Spec.next a (.addVertex k v)).V x = if x = k then some v else a.V x := by
          intro x
          simp only [Spec.next, he, and_true]
        refine ⟨⟨?_, ?_, ih.nodupE, ih.newE, ?_, ih.E⟩, ih'⟩
        · simp only [addedV, List.map_cons, List.nodup_cons]
          refine ⟨fun hm => ?_, ih.nodupV⟩
          obtain ⟨⟨k', v'⟩, hm', rfl⟩ := List.mem_map.mp hm
          have := (ih.newV _ _ hm').2
          rw [hV] at this
          simp at this
        · intro k' v' hm
          rcases List.mem_cons.mp hm with e | hm
          · cases e; exact hk
          · obtain ⟨h3, h4⟩ := ih.newV _ _ hm
            refine ⟨h3, ?_⟩
            rw [hV] at h4
            split at h4
            · cases h4
            · exact h4
        · intro x w
          rw [ih.V, hV]
          simp only [addedV, List.mem_cons, Prod.mk.injEq]
          by_cases hx : x = k
          · subst hx
            rw [if_pos rfl, hk.2]
            simp only [Option.some.injEq, true_and, reduceCtorEq, false_or]
            exact ⟨Or.imp Eq.symm id, Or.imp Eq.symm id⟩
          · simp [hx]
      | addEdge s t =>
        have hc : Spec.CanAdd a s t := by
          unfold Spec.ok at h1
          simp only at h1
          cases he : Spec.edgeErr a s t with
          | some e => rw [he] at h1; cases h1
          | none =>
            rw [he] at h1
            refine ⟨he, fun h => (by cases h1.1 h), fun h => ?_⟩
            by_cases hE : a.E s t
            · cases h1.1 hE
            · cases h1.2.1 hE h
        have hE : ∀ x y, (Spec.next a (.addEdge s t)).E x y ↔ a.E x y ∨ (x = s ∧ y = t) := by
          intro x y; simp [Spec.next, hc]
        have hs : s ≠ zero ∧ t ≠ zero ∧ s ≠ t ∧ (a.V s).isSome = true ∧ (a.V t).isSome = true := by
          have he := hc.1
          unfold Spec.edgeErr at he
          repeat' split at he
          all_goals try cases he
          rename_i h1 h2 h3 h4 h5
          exact ⟨h1, h2, h3, by simpa [Option.isSome_iff_ne_none] using h4, by simpa [Option.isSome_iff_ne_none] using h5⟩
        have hfin : ∀ k, (a.V k).isSome = true → ((Spec.after (Spec.next a (.addEdge s t)) p).V k).isSome = true := by
          intro k hk
          obtain ⟨v, hv⟩ := Option.isSome_iff_exists.mp hk
          exact Option.isSome_iff_exists.mpr ⟨v, (ih.V k v).mpr (.inl hv)⟩
        refine ⟨⟨ih.nodupV, ih.newV, ?_, ?_, ih.V, ?_⟩, ?_⟩
        · simp only [addedE, List.nodup_cons]
          refine ⟨fun hm => ?_, ih.nodupE⟩
          exact (ih.newE _ _ hm).2.2.2.1 ((hE s t).mpr (.inr ⟨rfl, rfl⟩))
        · intro x y hm
          rcases List.mem_cons.mp hm with e | hm
          · cases e
            exact ⟨hs.1, hs.2.1, hs.2.2.1, hc.2.1, hfin _ hs.2.2.2.1, hfin _ hs.2.2.2.2⟩
          · obtain ⟨h3, h4, h5, h6, h7⟩ := ih.newE _ _ hm
            exact ⟨h3, h4, h5, fun h => h6 ((hE x y).mpr (.inl h)), h7⟩
        · intro x y h
          refine ih.E x y ?_
          rw [hE]
          simp only [addedE, List.mem_cons, Prod.mk.injEq] at h
          tauto
        · intro x y h
          have := ih' x y h
          rw [hE] at this
          simp only [addedE, List.mem_cons, Prod.mk.injEq]
          tauto
      | _ => cases hop

/-- The same calls in another order. -/
theorem Adds.perm {a fin : Abs K T} {p p' : List (Op K T)} (h : Adds a fin p) (hp : p.Perm p') : Adds a fin p' := by
  have h1 := addedV_perm hp
  have h2 := addedE_perm hp
  exact ⟨(h1.map _).nodup_iff.mp h.nodupV, fun k v hm => h.newV k v (h1.mem_iff.mpr hm), h2.nodup_iff.mp h.nodupE,
    fun s t hm => h.newE s t (h2.mem_iff.mpr hm), fun k v => (h.V k v).trans (or_congr Iff.rfl h1.mem_iff),
    fun x y hm => h.E x y (hm.imp id h2.mem_iff.mpr)⟩

/-- Only missing ends are in the way. -/
theorem done_of_adds {p : List (Op K T)} {a fin : Abs K T} {rs : List (Res K T)} (ha : ∀ op ∈ p, op.isAdd = true)
    (hfin : ∀ x, ¬ TransGen fin.E x x) (h : Adds a fin p) (hok : Spec.okAll a p rs) :
    (∀ r ∈ rs, r.doneOrEarly) ∧ (VerticesFirst p → ∀ r ∈ rs, r.done) := by
  induction p generalizing a rs with
  | nil =>
    cases rs with
    | nil => simp
    | cons => exact hok.elim
  | cons op p ih =>
    cases rs with
    | nil => exact hok.elim
    | cons r rs =>
      obtain ⟨h1, h2⟩ := hok
      have hop := ha op (by simp)
      cases op with
      | addVertex k v =>
        have hk := h.newV k v (by simp [addedV])
        have he : Spec.addVertexErr a k = none := by simp [Spec.addVertexErr, hk]
        have hV : ∀ x, (Spec.next a (.addVertex k v)).V x = if x = k then some v else a.V x := by
          intro x
          simp only [Spec.next, he, and_true]
        have hnd := h.nodupV
        simp only [addedV, List.map_cons, List.nodup_cons] at hnd
        have hstep : Adds (Spec.next a (.addVertex k v)) fin p := by
          refine ⟨hnd.2, fun k' v' hm => ?_, h.nodupE, h.newE, fun x w => ?_, h.E⟩
          · obtain ⟨h3, h4⟩ := h.newV k' v' (by simp [addedV, hm])
            refine ⟨h3, ?_⟩
            rw [hV, if_neg, h4]
            rintro rfl
            exact hnd.1 (List.mem_map.mpr ⟨_, hm, rfl⟩)
          · rw [h.V, hV]
            simp only [addedV, List.mem_cons, Prod.mk.injEq]
            by_cases hx : x = k
            · subst hx
              rw [if_pos rfl, hk.2]
              simp only [Option.some.injEq, true_and, reduceCtorEq, false_or]
              exact ⟨Or.imp Eq.symm id, Or.imp Eq.symm id⟩
            · simp [hx]
        obtain ⟨ih1, ih2⟩ := ih (fun o ho => ha o (by simp [ho])) hstep h2
        have hr : r.done := by
          cases r <;> first | exact h1.elim | skip
          have : _ = _ := h1
          rw [he] at this
          exact congrArg Res.err this
        refine ⟨fun r' hr' => ?_, fun hf r' hr' => ?_⟩
        · rcases List.mem_cons.mp hr' with rfl | hr'
          · exact .inl hr
          · exact ih1 _ hr'
        · rcases List.mem_cons.mp hr' with rfl | hr'
          · exact hr
          · exact ih2 (List.pairwise_cons.mp hf).2 _ hr'
      | addEdge s t =>
        obtain ⟨h3, h4, h5, h6, h7, h8⟩ := h.newE s t (by simp [addedE])
        have hsub : ∀ x y, a.E x y → fin.E x y := fun x y hE => h.E x y (.inl hE)
        have hst : fin.E s t := h.E s t (.inr (by simp [addedE]))
        have hcyc : ¬ TransGen a.E t s := fun hc => hfin s (TransGen.head hst (TransGen.mono hsub _ _ hc))
        have hnd := h.nodupE
        simp only [addedE, List.nodup_cons] at hnd
        have hE : ∀ x y, (Spec.next a (.addEdge s t)).E x y → a.E x y ∨ (x = s ∧ y = t) := by
          intro x y hxy
          simp only [Spec.next] at hxy
          tauto
        have hstep : Adds (Spec.next a (.addEdge s t)) fin p := by
          refine ⟨h.nodupV, h.newV, hnd.2, fun x y hm => ?_, h.V, fun x y hm => ?_⟩
          · obtain ⟨k3, k4, k5, k6, k7⟩ := h.newE x y (by simp [addedE, hm])
            refine ⟨k3, k4, k5, fun hxy => ?_, k7⟩
            rcases hE x y hxy with h' | ⟨rfl, rfl⟩
            · exact k6 h'
            · exact hnd.1 hm
          · rcases hm with hm | hm
            · rcases hE x y hm with h' | ⟨rfl, rfl⟩
              · exact hsub _ _ h'
              · exact hst
            · exact h.E x y (.inr (by simp [addedE, hm]))
        obtain ⟨ih1, ih2⟩ := ih (fun o ho => ha o (by simp [ho])) hstep h2
        cases r <;> first | exact h1.elim | skip
        rename_i r
        have hr : (Res.err r : Res K T).doneOrEarly ∧ ((a.V s).isSome = true → (a.V t).isSome = true → (Res.err r : Res K T).done) := by
          unfold Spec.ok at h1
          simp only [Spec.edgeErr, if_neg h3, if_neg h4, if_neg h5] at h1
          by_cases hs : (a.V s).isNone = true
          · rw [if_pos hs] at h1
            simp only at h1
            refine ⟨.inr (.inl (congrArg _ h1)), fun h => ?_⟩
            rw [Option.isNone_iff_eq_none] at hs
            rw [hs] at h; cases h
          · by_cases ht : (a.V t).isNone = true
            · rw [if_neg hs, if_pos ht] at h1
              simp only at h1
              refine ⟨.inr (.inr (congrArg _ h1)), fun _ h => ?_⟩
              rw [Option.isNone_iff_eq_none] at ht
              rw [ht] at h; cases h
            · rw [if_neg hs, if_neg ht] at h1
              simp only at h1
              have := congrArg (Res.err (K := K) (T := T)) (h1.2.2 h6 hcyc)
              exact ⟨.inl this, fun _ _ => this⟩
        refine ⟨fun r' hr' => ?_, fun hf r' hr' => ?_⟩
        · rcases List.mem_cons.mp hr' with rfl | hr'
          · exact hr.1
          · exact ih1 _ hr'
        · obtain ⟨hf1, hf2⟩ := List.pairwise_cons.mp hf
          have hnone : ∀ k v, (k, v) ∉ addedV p := by
            intro k v hm
            have : ∃ op ∈ p, op.isAddVertex = true := by
              clear * - hm
              induction p with
              | nil => simp [addedV] at hm
              | cons o p ih =>
                cases o <;> first
                  | exact ⟨_, List.mem_cons_self, rfl⟩
                  | (obtain ⟨o', h1, h2⟩ := ih (by simpa [addedV] using hm); exact ⟨o', List.mem_cons_of_mem _ h1, h2⟩)
            obtain ⟨o, h9, h10⟩ := this
            exact absurd (hf1 o h9 h10) (by simp [Op.isAddVertex])
          have hV : ∀ k, (fin.V k).isSome = true → (a.V k).isSome = true := by
            intro k hk
            obtain ⟨v, hv⟩ := Option.isSome_iff_exists.mp hk
            rcases (h.V k v).mp hv with h' | h'
            · rw [h']; rfl
            · exact absurd h' (hnone k v)
          rcases List.mem_cons.mp hr' with rfl | hr'
          · exact hr.2 (hV _ h7) (hV _ h8)
          · exact ih2 hf2 _ hr'
      | _ => cases hop

/-! ## C63 -/

/-- **C63** (first part).  A graph has no memory: if two histories lead to the same vertices and edges, then everything that
happens afterwards is the same, whatever the caches contain. -/
theorem C63_no_memory (ω₁ ω₂ ω ω' : Oracle) (h₁ h₂ : List (Op K T)) (σ₁ σ₂ : St K T) (a₁ : After ω₁ h₁ σ₁) (a₂ : After ω₂ h₂ σ₂)
    (hs : SameGraph σ₁ σ₂) (p : List (Op K T)) :
    ∃ rs rs' σ₁' σ₂', run ω p σ₁ = some (rs, σ₁') ∧ run ω' p σ₂ = some (rs', σ₂') ∧ SameAll rs rs' ∧ SameGraph σ₁' σ₂' := by
  have i₁ := a₁.inv
  have i₂ := a₂.inv
  have e : abs σ₁.g = abs σ₂.g := by
    refine abs_ext (fun k => ?_) (fun x y => ?_)
    · refine Option.ext fun v => ?_
      have := hs.1 k v
      rwa [bound_iff i₁, bound_iff i₂] at this
    · have := hs.2 x y
      rwa [edge_iff i₁, edge_iff i₂] at this
  obtain ⟨rs, σ₁', h1, h2, h3, h4⟩ := run_refines_from ω p σ₁ i₁
  obtain ⟨rs', σ₂', h1', h2', h3', h4'⟩ := run_refines_from ω' p σ₂ i₂
  rw [e] at h3 h4
  refine ⟨rs, rs', σ₁', σ₂', h1, h1', okAll_same h4 h4', fun k v => ?_, fun x y => ?_⟩
  · rw [bound_iff h2, bound_iff h2', h3, h3']
  · rw [edge_iff h2, edge_iff h2', h3, h3']

/-- **C63** (second part).  If adding vertices and edges to a graph succeeds in one order, then in any other order nothing can go
wrong, except that an edge is added before its ends; and if that does not happen, for instance because vertices are added
first, the same graph is built. -/
theorem C63_any_order (ω ω₁ ω₂ : Oracle) (ops : List (Op K T)) (σ : St K T) (h : After ω ops σ) (p p' : List (Op K T)) (hp : p.Perm p')
    (ha : ∀ op ∈ p, op.isAdd = true) (rs : List (Res K T)) (σ₁ : St K T) (hr : run ω₁ p σ = some (rs, σ₁)) (hd : ∀ r ∈ rs, r.done) :
    ∃ rs' σ₂, run ω₂ p' σ = some (rs', σ₂) ∧ (∀ r ∈ rs', r.doneOrEarly) ∧ (VerticesFirst p' → ∀ r ∈ rs', r.done) ∧
      ((∀ r ∈ rs', r.done) → SameGraph σ₁ σ₂) := by
  have hi := h.inv
  obtain ⟨rs0, σ0, h1, h2, h3, h4⟩ := run_refines_from ω₁ p σ hi
  rw [hr] at h1
  obtain ⟨rfl, rfl⟩ : rs = rs0 ∧ σ₁ = σ0 := by simpa using h1
  obtain ⟨rs', σ₂, h1', h2', h3', h4'⟩ := run_refines_from ω₂ p' σ hi
  obtain ⟨hA, hE⟩ := adds_of_done ha h4 hd
  have hacyc : ∀ x, ¬ TransGen (Spec.after (abs σ.g) p).E x x := by
    rw [← h3]; exact h2.base.acyc
  have ha' : ∀ op ∈ p', op.isAdd = true := fun o ho => ha o (hp.mem_iff.mpr ho)
  obtain ⟨h5, h6⟩ := done_of_adds ha' hacyc (hA.perm hp) h4'
  refine ⟨rs', σ₂, h1', h5, h6, fun hd' => ?_⟩
  obtain ⟨hA', hE'⟩ := adds_of_done ha' h4' hd'
  refine ⟨fun k v => ?_, fun x y => ?_⟩
  · rw [bound_iff h2, bound_iff h2', h3, h3', hA.V, hA'.V, (addedV_perm hp).mem_iff]
  · rw [edge_iff h2, edge_iff h2', h3, h3']
    constructor
    · intro hxy
      exact hA'.E x y ((hE x y hxy).imp id (addedE_perm hp).mem_iff.mp)
    · intro hxy
      exact hA.E x y ((hE' x y hxy).imp id (addedE_perm hp).mem_iff.mpr)

deriving instance DecidableEq for Op

/-- A history that builds the diamond 1 → 2, 3 → 4 in one go. -/
def diamond : List (Op Nat Nat) :=
  [.addVertex 1 10, .addVertex 2 20, .addVertex 3 30, .addVertex 4 40, .addEdge 1 2, .addEdge 1 3, .addEdge 2 4, .addEdge 3 4]

/-- The hypotheses of `C63_any_order` hold, also with vertices first in another order … -/
example : (run Oracle.forward diamond (St.init : St Nat Nat)).map (·.1) = some (List.replicate 8 (.err none)) ∧
    (∀ op ∈ diamond, op.isAdd = true) ∧
    VerticesFirst ([.addVertex 3 30, .addVertex 4 40, .addVertex 2 20, .addVertex 1 10, .addEdge 3 4, .addEdge 2 4, .addEdge 1 3, .addEdge 1 2] : List (Op Nat Nat)) ∧
    diamond.Perm [.addVertex 3 30, .addVertex 4 40, .addVertex 2 20, .addVertex 1 10, .addEdge 3 4, .addEdge 2 4, .addEdge 1 3, .addEdge 1 2] := by
  refine ⟨by decide +kernel, by decide +kernel, ?_, ?_⟩
  · simp [VerticesFirst, Op.isAddVertex]
  · decide +kernel

/-- … and an edge can come too early. -/
example : (run Oracle.forward diamond.reverse (St.init : St Nat Nat)).map (fun x => x.1.head?) = some (some (.err (some .edgeSourceIDNotFound))) := by
  decide +kernel

/-- `C63_no_memory`: two histories with the same graph but different caches. -/
example : ((run Oracle.forward (diamond ++ [.getDescendants 1]) (St.init : St Nat Nat)).map fun x => (x.2.g.descC.map Prod.fst).contains 1) = some true ∧
    ((run Oracle.forward diamond (St.init : St Nat Nat)).map fun x => (x.2.g.descC.map Prod.fst).contains 1) = some false := by
  decide +kernel

end Verif.Dag
