import Verif.Props.BuildOrder
import Mathlib.Data.List.Nodup

/-! # C88: what is missing can be put back -/

set_option linter.unusedSectionVars false

namespace Verif.Dag
open M Relation

variable {K T : Type} [DecidableEq K] [GoZero K] [GoZero T]

/-! ## Specification -/

/-- `AddVertex` for each entry of a list. -/
def addVertices (vs : List (K × T)) : List (Op K T) := vs.map fun e => .addVertex e.1 e.2

/-- `AddEdge` for each pair of a list. -/
def addEdges (es : List (K × K)) : List (Op K T) := es.map fun e => .addEdge e.1 e.2

/-- All calls succeed, and lead from `σ'` to a graph like `σ`. -/
def Rebuilds (ω : Oracle) (p : List (Op K T)) (σ' σ : St K T) : Prop :=
  ∃ rs τ, run ω p σ' = some (rs, τ) ∧ (∀ r ∈ rs, r.done) ∧ SameGraph σ τ

/-! ## Proof -/

theorem addedV_adds (vs : List (K × T)) (es : List (K × K)) : addedV (addVertices vs ++ addEdges es) = vs := by
  induction vs with
  | nil =>
    induction es with
    | nil => rfl
    | cons e es ih => exact ih
  | cons v vs ih => exact congrArg (List.cons v) ih

theorem addedE_adds (vs : List (K × T)) (es : List (K × K)) : addedE (addVertices vs ++ addEdges es) = es := by
  induction vs with
  | nil =>
    induction es with
    | nil => rfl
    | cons e es ih => exact congrArg (List.cons e) ih
  | cons v vs ih => exact ih

theorem adds_first (vs : List (K × T)) (es : List (K × K)) : VerticesFirst (addVertices vs ++ addEdges es) := by
  unfold VerticesFirst
  rw [List.pairwise_append]
  have hv : ∀ x ∈ addVertices vs, x.isAddVertex = true := by
    intro x hx
    obtain ⟨e, -, rfl⟩ := List.mem_map.1 hx
    rfl
  have he : ∀ x ∈ (addEdges es : List (Op K T)), ¬ x.isAddVertex = true := by
    intro x hx
    obtain ⟨e, -, rfl⟩ := List.mem_map.1 hx
    exact Bool.false_ne_true
  exact ⟨List.pairwise_of_forall_mem_list fun x hx _ _ _ => hv x hx, List.pairwise_of_forall_mem_list fun _ _ y hy h => absurd h (he y hy),
    fun x hx _ _ _ => hv x hx⟩

theorem nonzero {σ : St K T} (i : Inv σ.g) {k : K} (h : (abs σ.g).V k ≠ none) : k ≠ zero := by
  rintro rfl
  obtain ⟨v, hv⟩ := Option.ne_none_iff_exists'.1 h
  exact Bool.false_ne_true (i.base.nz.symm.trans ((GoMap.has_iff _ _).mpr ⟨v, hv⟩))

theorem edge_ends {σ : St K T} (i : Inv σ.g) {x y : K} (h : (abs σ.g).E x y) : (abs σ.g).V x ≠ none ∧ (abs σ.g).V y ≠ none := by
  obtain ⟨h1, h2⟩ := i.base.ends x y h
  exact ⟨Option.ne_none_iff_exists'.2 ((GoMap.has_iff _ _).mp h1), Option.ne_none_iff_exists'.2 ((GoMap.has_iff _ _).mp h2)⟩

theorem rebuilds {ω : Oracle} {σ σ' : St K T} (i : Inv σ.g) (i' : Inv σ'.g) (hV : ∀ k v, Bound σ' k v → Bound σ k v)
    (hE : ∀ x y, Edge σ' x y → Edge σ x y) {vs : List (K × T)} {es : List (K × K)}
    (nv : (vs.map Prod.fst).Nodup) (hvs : ∀ k v, (k, v) ∈ vs ↔ Bound σ k v ∧ ¬ Known σ' k)
    (ne : es.Nodup) (hes : ∀ x y, (x, y) ∈ es ↔ Edge σ x y ∧ ¬ Edge σ' x y) : Rebuilds ω (addVertices vs ++ addEdges es) σ' σ := by
  obtain ⟨rs, τ, h1, h2, h3, h4⟩ := run_refines_from ω (addVertices vs ++ addEdges es) σ' i'
  have ha : ∀ op ∈ (addVertices vs ++ addEdges es : List (Op K T)), op.isAdd = true := by
    intro op hop
    rcases List.mem_append.1 hop with h | h <;> obtain ⟨e, -, rfl⟩ := List.mem_map.1 h <;> rfl
  simp only [bound_iff i, bound_iff i', edge_iff i, edge_iff i', known_iff i'] at hV hE hvs hes
  have adds : Adds (abs σ'.g) (abs σ.g) (addVertices vs ++ addEdges es) := by
    refine ⟨?_, ?_, ?_, ?_, ?_, ?_⟩
    · rw [addedV_adds]; exact nv
    · rw [addedV_adds]
      intro k v hk
      obtain ⟨h5, h6⟩ := (hvs k v).1 hk
      refine ⟨?_, ?_⟩
      · exact nonzero i (by rw [h5]; exact Option.some_ne_none v)
      · cases h : (abs σ'.g).V k with
        | none => rfl
        | some v => exact absurd ⟨v, h⟩ h6
    · rw [addedE_adds]; exact ne
    · rw [addedE_adds]
      intro s t hst
      obtain ⟨h5, h6⟩ := (hes s t).1 hst
      obtain ⟨h7, h8⟩ := edge_ends i h5
      exact ⟨nonzero i h7, nonzero i h8, fun e => i.base.acyc s (.single (e ▸ h5)), h6, Option.isSome_iff_ne_none.2 h7, Option.isSome_iff_ne_none.2 h8⟩
    · rw [addedV_adds]
      intro k v
      rw [hvs]
      constructor
      · intro h
        by_cases hk : ∃ v, (abs σ'.g).V k = some v
        · obtain ⟨v', h'⟩ := hk
          have := hV k v' h'
          rw [h] at this
          cases this
          exact .inl h'
        · exact .inr ⟨h, hk⟩
      · exact fun h => h.elim (hV k v) And.left
    · rw [addedE_adds]
      exact fun x y h => h.elim (hE x y) fun h => ((hes x y).1 h).1
  obtain ⟨-, h6⟩ := done_of_adds ha i.base.acyc adds h4
  have hd := h6 (adds_first vs es)
  obtain ⟨hA, hE'⟩ := adds_of_done ha h4 hd
  refine ⟨rs, τ, h1, hd, fun k v => ?_, fun x y => ?_⟩
  · rw [bound_iff i, bound_iff h2, h3, hA.V, adds.V]
  · rw [edge_iff i, edge_iff h2, h3]
    refine ⟨fun h => hA.E x y ?_, fun h => adds.E x y (hE' x y h)⟩
    rw [addedE_adds, hes]
    by_cases h' : (abs σ'.g).E x y
    · exact .inl h'
    · exact .inr ⟨h, h'⟩

/-! ## C88 -/

/-- **C88.** If the graph `σ'` is a part of the graph `σ`, then adding the missing vertices and then the missing edges, in whatever order,
succeeds with every call and makes it the same graph. -/
theorem C88_restore (ω ω₁ ω₂ : Oracle) (h₁ h₂ : List (Op K T)) (σ σ' : St K T) (a₁ : After ω₁ h₁ σ) (a₂ : After ω₂ h₂ σ')
    (hV : ∀ k v, Bound σ' k v → Bound σ k v) (hE : ∀ x y, Edge σ' x y → Edge σ x y) (vs : List (K × T)) (es : List (K × K))
    (nv : (vs.map Prod.fst).Nodup) (hvs : ∀ k v, (k, v) ∈ vs ↔ Bound σ k v ∧ ¬ Known σ' k)
    (ne : es.Nodup) (hes : ∀ x y, (x, y) ∈ es ↔ Edge σ x y ∧ ¬ Edge σ' x y) : Rebuilds ω (addVertices vs ++ addEdges es) σ' σ :=
  rebuilds a₁.inv a₂.inv hV hE nv hvs ne hes

/-- **C88** for a copy: a client that asks for the vertices of a graph and for the children of each of them, and adds all this to a fresh
graph, in whatever order as long as vertices come first, has a copy. -/
theorem C88_copy (ω ω₁ ω₂ ω₃ : Oracle) (h₁ : List (Op K T)) (σ σ₁ : St K T) (a₁ : After ω₁ h₁ σ) (m : List (K × T)) (ch : K → List (K × T))
    (hm : Call ω₂ σ .getVertices (.entries m) σ₁) (hch : ∀ k, Known σ k → ∃ σ₂, Call ω₃ σ (.getChildren k) (.entriesE (.ok (ch k))) σ₂)
    (vs : List (K × T)) (es : List (K × K)) (hvs : vs.Perm m) (hes : es.Perm (m.flatMap fun e => (ch e.1).map fun c => (e.1, c.1))) :
    Rebuilds ω (addVertices vs ++ addEdges es) St.init σ := by
  have i := a₁.inv
  have i0 : Inv (St.init : St K T).g := inv_new
  obtain ⟨-, -, nm, hm⟩ := hm.spec i
  have hch : ∀ k v, (k, v) ∈ m → ((ch k).map Prod.fst).Nodup ∧ ∀ c, c ∈ (ch k).map Prod.fst ↔ (abs σ.g).E k c := by
    intro k v hk
    have hk' : Known σ k := (known_iff i k).2 ⟨v, (hm k v).1 hk⟩
    obtain ⟨σ₂, hc⟩ := hch k hk'
    obtain ⟨-, -, hok⟩ := hc.spec i
    obtain ⟨-, n, h⟩ := orErr_ok (e := Spec.vertexErr (abs σ.g) k) hok
    refine ⟨n, fun c => ⟨fun hc => ?_, fun hc => ?_⟩⟩
    · obtain ⟨⟨c, v⟩, hcv, rfl⟩ := List.mem_map.1 hc
      exact ((h c v).1 hcv).2
    · obtain ⟨v, hv⟩ := Option.ne_none_iff_exists'.1 (edge_ends i hc).2
      exact List.mem_map.2 ⟨(c, v), (h c v).2 ⟨hv, hc⟩, rfl⟩
  have none0 : ∀ k, (abs (St.init : St K T).g).V k = none := fun k => by
    rw [show (St.init : St K T).g = Graph.new from rfl, abs_new]; rfl
  have noE : ∀ x y, ¬ (abs (St.init : St K T).g).E x y := fun x y h => by
    rw [show (St.init : St K T).g = Graph.new from rfl, abs_new] at h; exact h
  refine rebuilds i i0 (fun k v h => ?_) (fun x y h => absurd ((edge_iff i0 x y).1 h) (noE x y)) ?_ (fun k v => ?_) ?_ (fun x y => ?_)
  · rw [bound_iff i0, none0] at h; cases h
  · exact (hvs.map _).nodup_iff.2 nm
  · rw [hvs.mem_iff, hm, bound_iff i]
    refine ⟨fun h => ⟨h, fun hk => ?_⟩, And.left⟩
    obtain ⟨v, hv⟩ := (known_iff i0 k).1 hk
    rw [none0] at hv; cases hv
  · rw [hes.nodup_iff]
    have nd : m.Pairwise fun a b => a.1 ≠ b.1 := List.pairwise_map.mp nm
    refine List.nodup_flatMap.2 ⟨fun e he => ?_, nd.imp fun {a b} hab => ?_⟩
    · have := (hch e.1 e.2 he).1
      have e2 : ((ch e.1).map fun c => (e.1, c.1)) = ((ch e.1).map Prod.fst).map fun c => (e.1, c) := by rw [List.map_map]; rfl
      rw [e2]
      exact this.map fun x y h => (Prod.mk.inj h).2
    · intro x hx hx'
      obtain ⟨c, -, rfl⟩ := List.mem_map.1 hx
      obtain ⟨c', -, h⟩ := List.mem_map.1 hx'
      exact hab (Prod.mk.inj h).1.symm
  · rw [hes.mem_iff, edge_iff i, edge_iff i0]
    constructor
    · intro h
      obtain ⟨⟨k, v⟩, hk, hc⟩ := List.mem_flatMap.1 h
      obtain ⟨c, hc', e⟩ := List.mem_map.1 hc
      obtain ⟨rfl, rfl⟩ := Prod.mk.inj e
      exact ⟨((hch k v hk).2 c.1).1 (List.mem_map.2 ⟨c, hc', rfl⟩), noE _ _⟩
    · rintro ⟨h, -⟩
      obtain ⟨v, hv⟩ := Option.ne_none_iff_exists'.1 (edge_ends i h).1
      have hk := (hm x v).2 hv
      obtain ⟨c, hc, e⟩ := List.mem_map.1 (((hch x v hk).2 y).2 h)
      exact List.mem_flatMap.2 ⟨(x, v), hk, List.mem_map.2 ⟨c, hc, by rw [e]⟩⟩

/-- **C88** for `DeleteVertex`: a client that has asked for the parents and the children of a vertex before can undo the deletion, adding the
edges in whatever order. -/
theorem C88_undo (ω ω₁ ω₂ ω₃ ω₄ : Oracle) (h₁ : List (Op K T)) (σ σ₁ σ₂ σ' : St K T) (a₁ : After ω₁ h₁ σ) (id : K) (v : T) (ps cs : List (K × T))
    (hv : Bound σ id v) (hp : Call ω₂ σ (.getParents id) (.entriesE (.ok ps)) σ₁) (hc : Call ω₃ σ (.getChildren id) (.entriesE (.ok cs)) σ₂)
    (hd : Call ω₄ σ (.deleteVertex id) (.err none) σ') (es : List (K × K))
    (hes : es.Perm ((ps.map fun p => (p.1, id)) ++ cs.map fun c => (id, c.1))) :
    Rebuilds ω (.addVertex id v :: addEdges es) σ' σ := by
  have i := a₁.inv
  obtain ⟨i', ha, -⟩ := hd.spec i
  obtain ⟨-, -, hok⟩ := hp.spec i
  obtain ⟨-, np, hp⟩ := orErr_ok (e := Spec.vertexErr (abs σ.g) id) hok
  obtain ⟨-, -, hok⟩ := hc.spec i
  obtain ⟨-, nc, hc⟩ := orErr_ok (e := Spec.vertexErr (abs σ.g) id) hok
  rw [bound_iff i] at hv
  have hV : ∀ k v, (abs σ'.g).V k = some v ↔ (abs σ.g).V k = some v ∧ k ≠ id := fun k v => by
    rw [ha]
    simp only [Spec.next]
    split
    · rename_i e; simp [e]
    · rename_i e; simp [e]
  have hE : ∀ x y, (abs σ'.g).E x y ↔ (abs σ.g).E x y ∧ x ≠ id ∧ y ≠ id := fun x y => by rw [ha]; rfl
  have key := rebuilds (ω := ω) (vs := [(id, v)]) (es := es) i i' (fun k v h => ?_) (fun x y h => ?_) ?_ (fun k w => ?_) ?_ (fun x y => ?_)
  · exact key
  · rw [bound_iff i'] at h; rw [bound_iff i]; exact ((hV k v).1 h).1
  · rw [edge_iff i'] at h; rw [edge_iff i]; exact ((hE x y).1 h).1
  · exact List.nodup_singleton _
  · rw [bound_iff i, known_iff i', List.mem_singleton]
    constructor
    · rintro h
      obtain ⟨rfl, rfl⟩ := Prod.mk.inj h
      exact ⟨hv, fun ⟨u, hu⟩ => ((hV _ _).1 hu).2 rfl⟩
    · rintro ⟨h1, h2⟩
      by_cases e : k = id
      · subst e; rw [hv] at h1; cases h1; rfl
      · exact absurd ⟨w, (hV k w).2 ⟨h1, e⟩⟩ h2
  · rw [hes.nodup_iff, List.nodup_append]
    have e1 : (ps.map fun p => (p.1, id)) = (ps.map Prod.fst).map fun p => (p, id) := by rw [List.map_map]; rfl
    have e2 : (cs.map fun c => (id, c.1)) = (cs.map Prod.fst).map fun c => (id, c) := by rw [List.map_map]; rfl
    refine ⟨?_, ?_, ?_⟩
    · rw [e1]; exact np.map fun x y h => (Prod.mk.inj h).1
    · rw [e2]; exact nc.map fun x y h => (Prod.mk.inj h).2
    · intro x hx y hy e
      obtain ⟨p, hp', rfl⟩ := List.mem_map.1 hx
      obtain ⟨c, hc', rfl⟩ := List.mem_map.1 hy
      have h1 := (Prod.mk.inj e).1
      have h2 := ((hp p.1 p.2).1 hp').2
      rw [h1] at h2
      exact i.base.acyc id (.single h2)
  · rw [hes.mem_iff, List.mem_append, edge_iff i, edge_iff i', hE]
    constructor
    · rintro (h | h)
      · obtain ⟨p, hp', e⟩ := List.mem_map.1 h
        obtain ⟨rfl, rfl⟩ := Prod.mk.inj e
        exact ⟨((hp p.1 p.2).1 hp').2, fun h => h.2.2 rfl⟩
      · obtain ⟨c, hc', e⟩ := List.mem_map.1 h
        obtain ⟨rfl, rfl⟩ := Prod.mk.inj e
        exact ⟨((hc c.1 c.2).1 hc').2, fun h => h.2.1 rfl⟩
    · rintro ⟨h1, h2⟩
      obtain ⟨hx, hy⟩ := edge_ends i h1
      obtain ⟨u, hu⟩ := Option.ne_none_iff_exists'.1 hx
      obtain ⟨w, hw⟩ := Option.ne_none_iff_exists'.1 hy
      by_cases e : y = id
      · subst e
        exact .inl (List.mem_map.2 ⟨(x, u), (hp x u).2 ⟨hu, h1⟩, rfl⟩)
      · by_cases e' : x = id
        · subst e'
          exact .inr (List.mem_map.2 ⟨(y, w), (hc y w).2 ⟨hw, h1⟩, rfl⟩)
        · exact absurd ⟨h1, e', e⟩ h2

theorem demo_bound : Bound demo 2 20 := by
  have h : ∃ σ', Call Oracle.forward demo (.getVertex 2) (.payload (.ok 20)) σ' := call_of_result (by decide +kernel)
  generalize demo_after = ha at *
  revert h
  generalize demo = σ at *
  rintro ⟨σ', h⟩
  exact (bound_iff ha.inv 2 20).2 (orErr_ok (e := Spec.vertexErr (abs σ.g) 2) (h.spec ha.inv).2.2).2

/-- The diamond: vertex 2 is deleted and comes back (`C88_undo`, and with it `C88_restore`). -/
example (σ₁ σ₂ σ' : St Nat Nat) (hp : Call Oracle.forward demo (.getParents 2) (.entriesE (.ok [(1, 10)])) σ₁)
    (hc : Call Oracle.forward demo (.getChildren 2) (.entriesE (.ok [(4, 40)])) σ₂)
    (hd : Call Oracle.forward demo (.deleteVertex 2) (.err none) σ') :
    Rebuilds Oracle.backward (.addVertex 2 20 :: addEdges [(2, 4), (1, 2)]) σ' demo :=
  C88_undo Oracle.backward Oracle.forward Oracle.forward Oracle.forward Oracle.forward demoOps demo σ₁ σ₂ σ' demo_after 2 20 [(1, 10)] [(4, 40)]
    demo_bound hp hc hd [(2, 4), (1, 2)] (by decide +kernel)

example : (∃ σ', Call Oracle.forward demo (.getParents 2) (.entriesE (.ok [(1, 10)])) σ') ∧
    (∃ σ', Call Oracle.forward demo (.getChildren 2) (.entriesE (.ok [(4, 40)])) σ') ∧
    ∃ σ', Call Oracle.forward demo (.deleteVertex 2) (.err none) σ' :=
  ⟨call_of_result (by decide +kernel), call_of_result (by decide +kernel), call_of_result (by decide +kernel)⟩

/-- The diamond, copied in another order. -/
example : Rebuilds Oracle.backward
    (addVertices [(2, 20), (4, 40), (1, 10), (3, 30)] ++ addEdges [(1, 4), (3, 4), (2, 4), (1, 3), (1, 2)]) St.init demo := by
  obtain ⟨σ₁, hm⟩ : ∃ σ₁, Call Oracle.forward demo .getVertices (.entries [(1, 10), (2, 20), (3, 30), (4, 40)]) σ₁ :=
    call_of_result (by decide +kernel)
  refine C88_copy Oracle.backward Oracle.forward Oracle.forward Oracle.forward demoOps demo σ₁ demo_after _
    (fun k => if k = 1 then [(2, 20), (3, 30), (4, 40)] else if k = 4 then [] else [(4, 40)]) hm (fun k hk => ?_) _ _
    (by decide +kernel) (by decide +kernel)
  rcases (demo_known k).1 hk with rfl | rfl | rfl | rfl <;> exact call_of_result (by decide +kernel)

end Verif.Dag
