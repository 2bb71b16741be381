import Verif.Props.Obs

/-! # C01–C03, C08–C15, C22: the graph API -/

set_option linter.unusedSectionVars false
set_option linter.unusedSimpArgs false

namespace Verif.Dag
open M Relation

variable {K T : Type} [DecidableEq K] [GoZero K] [GoZero T]

/-! ## C01 -/

/-- `GetChildren(a)` contains `b`. -/
def Child (σ : St K T) (a b : K) : Prop :=
  ∃ ω m σ' v, Call ω σ (.getChildren a) (.entriesE (.ok m)) σ' ∧ (b, v) ∈ m

theorem child_iff {σ : St K T} (hi : Inv σ.g) (a b : K) : Child σ a b ↔ Edge σ a b := by
  rw [edge_iff hi]
  constructor
  · rintro ⟨ω, m, σ', v, h, hm⟩
    have hok := (orErr_ok (e := Spec.vertexErr (abs σ.g) a) (h.spec hi).2.2).2
    exact ((hok.2 b v).mp hm).2
  · intro hE
    have hk := edge_known hi ((edge_iff hi a b).mpr hE)
    obtain ⟨r, σ', h⟩ := call_exists Oracle.forward hi (.getChildren a)
    have hok := (h.spec hi).2.2
    cases r with
    | entriesE r =>
      obtain ⟨m, rfl, h1, h2⟩ := orErr_none (e := Spec.vertexErr (abs σ.g) a) ((known_vertexErr hi a).mpr hk.1) hok
      obtain ⟨v, hv⟩ := (known_iff hi b).mp hk.2
      exact ⟨_, m, σ', v, h, (h2 b v).mpr ⟨hv, hE⟩⟩
    | _ => exact hok.elim

/-- **C01.** After any history, no vertex can be reached from itself along edges reported by
`IsEdge`, nor along those reported by `GetChildren`. -/
theorem C01_acyclic (ω : Oracle) (ops : List (Op K T)) (σ : St K T) (h : After ω ops σ) (v : K) :
    ¬ TransGen (Edge σ) v v ∧ ¬ TransGen (Child σ) v v := by
  have hi := h.inv
  have e : Child σ = Edge σ := by funext a b; exact propext (child_iff hi a b)
  rw [e, edge_eq hi]
  exact ⟨hi.base.acyc v, hi.base.acyc v⟩

/-- In the demo graph there are non-trivial paths to speak about. -/
example : After Oracle.forward demoOps demo ∧ TransGen (Edge demo) 1 4 ∧ Edge demo 1 2 ∧ Edge demo 2 4 :=
  ⟨demo_after, .tail (.single ((demo_edge 1 2).mpr (by simp))) ((demo_edge 2 4).mpr (by simp)),
    (demo_edge 1 2).mpr (by simp), (demo_edge 2 4).mpr (by simp)⟩

/-! ## C02 -/

open Classical in
/-- **C02.** `AddEdge` after any history: the error, in order of precedence, and the effect. -/
theorem C02_addEdge (ω ω' : Oracle) (ops : List (Op K T)) (σ : St K T) (h : After ω ops σ) (s t : K) :
    ∃ r σ', Call ω' σ (.addEdge s t) (.err r) σ' ∧
      r = (if s = zero then some .edgeSourceIDEmpty
        else if t = zero then some .edgeTargetIDEmpty
        else if s = t then some .edgeSourceTargetIdentical
        else if ¬ Known σ s then some .edgeSourceIDNotFound
        else if ¬ Known σ t then some .edgeTargetIDNotFound
        else if Edge σ s t then some .edgeDuplicate
        else if TransGen (Edge σ) t s then some .edgeLoop
        else none) ∧
      (∀ k v, Bound σ' k v ↔ Bound σ k v) ∧
      (∀ x y, Edge σ' x y ↔ Edge σ x y ∨ (r = none ∧ x = s ∧ y = t)) := by
  have hi := h.inv
  obtain ⟨r, σ', hc⟩ := call_exists ω' hi (.addEdge s t)
  obtain ⟨hi', hnext, hok⟩ := hc.spec hi
  cases r with
  | err r =>
    refine ⟨r, σ', hc, ?_, ?_, ?_⟩
    · unfold Spec.ok at hok
      simp only at hok
      unfold Spec.edgeErr at hok
      simp only [isNone_iff_not_known hi] at hok
      by_cases h1 : s = zero
      · simp only [h1, if_true] at hok ⊢; exact hok
      by_cases h2 : t = zero
      · simp only [h1, h2, if_true, if_false] at hok ⊢; exact hok
      by_cases h3 : s = t
      · simp only [h1, h2, h3, if_true, if_false] at hok ⊢; exact hok
      by_cases h4 : Known σ s
      · by_cases h5 : Known σ t
        · simp only [h1, h2, h3, h4, h5, not_true_eq_false, if_false] at hok ⊢
          rw [edge_eq hi]
          by_cases h6 : (abs σ.g).E s t
          · rw [if_pos h6]; exact hok.1 h6
          · by_cases h7 : TransGen (abs σ.g).E t s
            · rw [if_neg h6, if_pos h7]; exact hok.2.1 h6 h7
            · rw [if_neg h6, if_neg h7]; exact hok.2.2 h6 h7
        · simp only [h1, h2, h3, h4, h5, not_true_eq_false, not_false_eq_true, if_true, if_false] at hok ⊢
          exact hok
      · simp only [h1, h2, h3, h4, not_false_eq_true, if_true, if_false] at hok ⊢
        exact hok
    · intro k v
      rw [bound_iff hi', bound_iff hi, hnext]; rfl
    · intro x y
      rw [edge_iff hi', edge_iff hi, hnext]
      show _ ∨ (Spec.CanAdd _ s t ∧ _) ↔ _
      refine or_congr Iff.rfl (and_congr_left (fun _ => ?_))
      unfold Spec.CanAdd
      unfold Spec.ok at hok
      simp only at hok
      cases he : Spec.edgeErr (abs σ.g) s t with
      | some e => rw [he] at hok; rw [hok]; simp
      | none =>
        rw [he] at hok
        by_cases h6 : (abs σ.g).E s t
        · rw [hok.1 h6]; simp [h6]
        · by_cases h7 : TransGen (abs σ.g).E t s
          · rw [hok.2.1 h6 h7]; simp [h7]
          · rw [hok.2.2 h6 h7]; simp [h6, h7]
  | _ => exact hok.elim

/-- All seven outcomes occur; e.g. closing the diamond into a cycle is refused, `3 → 2` accepted. -/
example : (∃ σ', Call Oracle.backward demo (.addEdge 4 1) (.err (some .edgeLoop)) σ') ∧
    (∃ σ', Call Oracle.backward demo (.addEdge 3 2) (.err none) σ') ∧
    (∃ σ', Call Oracle.backward demo (.addEdge 1 4) (.err (some .edgeDuplicate)) σ') := by
  refine ⟨call_of_result ?_, call_of_result ?_, call_of_result ?_⟩ <;> decide +kernel

/-! ## C03 -/

/-- **C03.** `GetDescendants` and `GetAncestors` of a known vertex, at any point of any history,
return exactly the vertices reachable now, with their current payloads. -/
theorem C03_fresh (ω ω' : Oracle) (ops : List (Op K T)) (σ : St K T) (h : After ω ops σ) (id : K)
    (hk : Known σ id) :
    (∃ m σ', Call ω' σ (.getDescendants id) (.entriesE (.ok m)) σ' ∧ (m.map Prod.fst).Nodup ∧
      ∀ k v, (k, v) ∈ m ↔ Bound σ k v ∧ TransGen (Edge σ) id k) ∧
    (∃ m σ', Call ω' σ (.getAncestors id) (.entriesE (.ok m)) σ' ∧ (m.map Prod.fst).Nodup ∧
      ∀ k v, (k, v) ∈ m ↔ Bound σ k v ∧ TransGen (Edge σ) k id) := by
  have hi := h.inv
  have hne := (known_vertexErr hi id).mpr hk
  rw [edge_eq hi]
  simp only [bound_iff hi]
  constructor
  · obtain ⟨r, σ', hc⟩ := call_exists ω' hi (.getDescendants id)
    have hok := (hc.spec hi).2.2
    cases r with
    | entriesE r =>
      obtain ⟨m, rfl, h1, h2⟩ := orErr_none hne hok
      exact ⟨m, σ', hc, h1, h2⟩
    | _ => exact hok.elim
  · obtain ⟨r, σ', hc⟩ := call_exists ω' hi (.getAncestors id)
    have hok := (hc.spec hi).2.2
    cases r with
    | entriesE r =>
      obtain ⟨m, rfl, h1, h2⟩ := orErr_none hne hok
      exact ⟨m, σ', hc, h1, h2⟩
    | _ => exact hok.elim

/-- The demo history queries descendants of 1 (filling the cache) before adding `3 → 4` and
`1 → 4`; the hypotheses hold for it. -/
example : After Oracle.forward demoOps demo ∧ Known demo 1 ∧ TransGen (Edge demo) 3 4 :=
  ⟨demo_after, (demo_known 1).mpr (by simp), .single ((demo_edge 3 4).mpr (by simp))⟩

/-! ## C08 -/

/-- **C08.** `DeleteVertex` of a known vertex removes it and exactly its edges; re-adding the id
gives an isolated vertex; of an unknown or zero id it fails and changes nothing. -/
theorem C08_deleteVertex (ω ω' : Oracle) (ops : List (Op K T)) (σ : St K T) (h : After ω ops σ) (id : K) :
    ∃ r σ', Call ω' σ (.deleteVertex id) (.err r) σ' ∧ (r = none ↔ Known σ id) ∧
      (Known σ id →
        (∀ k v, Bound σ' k v ↔ Bound σ k v ∧ k ≠ id) ∧
        (∀ x y, Edge σ' x y ↔ Edge σ x y ∧ x ≠ id ∧ y ≠ id) ∧
        (∀ v, ∃ σ'', Call ω' σ' (.addVertex id v) (.err none) σ'' ∧ Bound σ'' id v ∧
          ∀ x, ¬ Edge σ'' x id ∧ ¬ Edge σ'' id x)) ∧
      (¬ Known σ id → (∀ k v, Bound σ' k v ↔ Bound σ k v) ∧ ∀ x y, Edge σ' x y ↔ Edge σ x y) := by
  have hi := h.inv
  obtain ⟨r, σ', hc⟩ := call_exists ω' hi (.deleteVertex id)
  obtain ⟨hi', hnext, hok⟩ := hc.spec hi
  cases r with
  | err r =>
    have hr : r = Spec.vertexErr (abs σ.g) id := hok
    have hB : ∀ k v, Bound σ' k v ↔ Bound σ k v ∧ k ≠ id := by
      intro k v
      rw [bound_iff hi', bound_iff hi, hnext]
      show (if k = id then none else (abs σ.g).V k) = some v ↔ _
      by_cases hk : k = id <;> simp [hk]
    have hE : ∀ x y, Edge σ' x y ↔ Edge σ x y ∧ x ≠ id ∧ y ≠ id := by
      intro x y
      rw [edge_iff hi', edge_iff hi, hnext]; rfl
    refine ⟨r, σ', hc, ?_, ?_, ?_⟩
    · rw [hr]; exact known_vertexErr hi id
    · intro hk
      refine ⟨hB, hE, ?_⟩
      intro v
      obtain ⟨r2, σ'', hc2⟩ := call_exists ω' hi' (.addVertex id v)
      obtain ⟨hi'', hnext2, hok2⟩ := hc2.spec hi'
      cases r2 with
      | err r2 =>
        have hnz : id ≠ zero := by rintro rfl; exact not_known_zero hi hk
        have hne : Spec.addVertexErr (abs σ'.g) id = none := by
          unfold Spec.addVertexErr
          rw [hnext]; simp [Spec.next, hnz]
        have hr2 : r2 = none := hok2.trans hne
        subst hr2
        refine ⟨σ'', hc2, ?_, ?_⟩
        · rw [bound_iff hi'', hnext2]
          show (if id = id ∧ _ then some v else _) = some v
          rw [if_pos ⟨rfl, hne⟩]
        · intro x
          rw [edge_iff hi'', edge_iff hi'', hnext2]
          show ¬ (abs σ'.g).E x id ∧ ¬ (abs σ'.g).E id x
          rw [← edge_iff hi', ← edge_iff hi', hE, hE]
          simp
      | _ => exact hok2.elim
    · intro hk
      refine ⟨fun k v => ?_, fun x y => ?_⟩
      · rw [hB]
        refine ⟨fun h => h.1, fun h => ⟨h, ?_⟩⟩
        rintro rfl; exact hk ⟨v, h⟩
      · rw [hE]
        refine ⟨fun h => h.1, fun h => ⟨h, ?_, ?_⟩⟩
        · rintro rfl; exact hk (edge_known hi h).1
        · rintro rfl; exact hk (edge_known hi h).2
  | _ => exact hok.elim

/-- Both cases occur in the demo graph: vertex 2 has edges in and out, 7 is unknown. -/
example : Known demo 2 ∧ ¬ Known demo 7 ∧ Edge demo 1 2 ∧ Edge demo 2 4 := by
  rw [demo_known, demo_known, demo_edge, demo_edge]; simp

/-! ## C09 -/

/-- **C09.** Parents/children and ancestors/descendants are converse to each other. -/
theorem C09_converse (ω ω' : Oracle) (ops : List (Op K T)) (σ : St K T) (h : After ω ops σ) (p c : K)
    (hp : Known σ p) (hc : Known σ c) :
    ∃ mp mc ma md σ1 σ2 σ3 σ4,
      Call ω' σ (.getParents c) (.entriesE (.ok mp)) σ1 ∧
      Call ω' σ (.getChildren p) (.entriesE (.ok mc)) σ2 ∧
      Call ω' σ (.getAncestors c) (.entriesE (.ok ma)) σ3 ∧
      Call ω' σ (.getDescendants p) (.entriesE (.ok md)) σ4 ∧
      ((∃ v, (p, v) ∈ mp) ↔ (∃ v, (c, v) ∈ mc)) ∧ ((∃ v, (c, v) ∈ mc) ↔ Edge σ p c) ∧
      ((∃ v, (p, v) ∈ ma) ↔ (∃ v, (c, v) ∈ md)) := by
  have hi := h.inv
  have hnc := (known_vertexErr hi c).mpr hc
  have hnp := (known_vertexErr hi p).mpr hp
  obtain ⟨⟨md, σ4, k4, _, h4⟩, -⟩ := C03_fresh ω ω' ops σ h p hp
  obtain ⟨-, ⟨ma, σ3, k3, _, h3⟩⟩ := C03_fresh ω ω' ops σ h c hc
  obtain ⟨r1, σ1, k1⟩ := call_exists ω' hi (.getParents c)
  obtain ⟨r2, σ2, k2⟩ := call_exists ω' hi (.getChildren p)
  have ok1 := (k1.spec hi).2.2
  have ok2 := (k2.spec hi).2.2
  cases r1 with
  | entriesE r1 =>
    cases r2 with
    | entriesE r2 =>
      obtain ⟨mp, rfl, _, h1⟩ := orErr_none hnc ok1
      obtain ⟨mc, rfl, _, h2⟩ := orErr_none hnp ok2
      refine ⟨mp, mc, ma, md, σ1, σ2, σ3, σ4, k1, k2, k3, k4, ?_, ?_, ?_⟩
      · simp only [h1, h2, exists_and_right]
        rw [← known_iff hi, ← known_iff hi]; simp [hp, hc]
      · simp only [h2, exists_and_right]
        rw [← known_iff hi, edge_iff hi]; simp [hc]
      · simp only [h3, h4, exists_and_right]
        show Known σ p ∧ _ ↔ Known σ c ∧ _
        simp [hp, hc]
    | _ => exact ok2.elim
  | _ => exact ok1.elim

example : Known demo 1 ∧ Known demo 4 ∧ TransGen (Edge demo) 1 4 :=
  ⟨(demo_known 1).mpr (by simp), (demo_known 4).mpr (by simp), .single ((demo_edge 1 4).mpr (by simp))⟩

/-! ## C10 -/

/-- **C10.** `GetRoots`/`GetLeaves` are exact; every vertex is a root (leaf) or lies below (above)
one, so a non-empty graph has both. -/
theorem C10_roots_leaves (ω ω' : Oracle) (ops : List (Op K T)) (σ : St K T) (h : After ω ops σ) :
    ∃ mr ml σ1 σ2, Call ω' σ .getRoots (.entries mr) σ1 ∧ Call ω' σ .getLeaves (.entries ml) σ2 ∧
      (mr.map Prod.fst).Nodup ∧ (ml.map Prod.fst).Nodup ∧
      (∀ k v, (k, v) ∈ mr ↔ Bound σ k v ∧ ∀ x, ¬ Edge σ x k) ∧
      (∀ k v, (k, v) ∈ ml ↔ Bound σ k v ∧ ∀ x, ¬ Edge σ k x) ∧
      (∀ k, Known σ k → ∃ r v, (r, v) ∈ mr ∧ (r = k ∨ TransGen (Edge σ) r k)) ∧
      (∀ k, Known σ k → ∃ l v, (l, v) ∈ ml ∧ (l = k ∨ TransGen (Edge σ) k l)) := by
  have hi := h.inv
  obtain ⟨r1, σ1, k1⟩ := call_exists ω' hi .getRoots
  obtain ⟨r2, σ2, k2⟩ := call_exists ω' hi .getLeaves
  have ok1 := (k1.spec hi).2.2
  have ok2 := (k2.spec hi).2.2
  rw [edge_eq hi]
  simp only [bound_iff hi, known_iff hi]
  cases r1 with
  | entries mr =>
    cases r2 with
    | entries ml =>
      refine ⟨mr, ml, σ1, σ2, k1, k2, ok1.1, ok2.1, ok1.2, ok2.2, ?_, ?_⟩
      · intro k hk
        obtain ⟨r, hr1, hr2, hr3⟩ := exists_root hi.base k ((GoMap.has_iff _ _).mpr hk)
        obtain ⟨v, hv⟩ := (GoMap.has_iff _ _).mp hr1
        exact ⟨r, v, (ok1.2 r v).mpr ⟨hv, hr2⟩, hr3⟩
      · intro k hk
        obtain ⟨r, hr1, hr2, hr3⟩ := exists_leaf hi.base k ((GoMap.has_iff _ _).mpr hk)
        obtain ⟨v, hv⟩ := (GoMap.has_iff _ _).mp hr1
        exact ⟨r, v, (ok2.2 r v).mpr ⟨hv, hr2⟩, hr3⟩
    | _ => exact ok2.elim
  | _ => exact ok1.elim

example : Known demo 2 ∧ Edge demo 1 2 ∧ Edge demo 2 4 := by
  rw [demo_known, demo_edge, demo_edge]; simp

/-! ## C11 -/

theorem length_eq_of_same {α : Type} {l l' : List α} (h : l.Nodup) (h' : l'.Nodup)
    (hm : ∀ x, x ∈ l ↔ x ∈ l') : l.length = l'.length :=
  List.Perm.length_eq ((List.perm_ext_iff_of_nodup h h').mpr hm)

theorem nodup_flatMap_pairs {α β : Type} (vs : List α) (f : α → List β) (hv : vs.Nodup)
    (hf : ∀ v ∈ vs, (f v).Nodup) : (vs.flatMap (fun v => (f v).map (fun c => (v, c)))).Nodup := by
  induction vs with
  | nil => exact List.nodup_nil
  | cons v vs ih =>
    rw [List.flatMap_cons, List.nodup_append]
    have h1 := List.nodup_cons.mp hv
    refine ⟨?_, ih h1.2 (fun w hw => hf w (List.mem_cons_of_mem _ hw)), ?_⟩
    · exact List.pairwise_map.mpr ((hf v List.mem_cons_self).imp (fun h e => h (Prod.mk.inj e).2))
    · intro x hx y hy hxy
      subst hxy
      simp only [List.mem_map, List.mem_flatMap] at hx hy
      obtain ⟨c, _, rfl⟩ := hx
      obtain ⟨w, hw, c', _, h⟩ := hy
      rw [(Prod.mk.inj h).1] at hw
      exact h1.1 hw

theorem sum_lengths {α β : Type} (vs : List α) (f : α → List β) :
    (vs.map (fun v => (f v).length)).sum = (vs.flatMap (fun v => (f v).map (fun c => (v, c)))).length := by
  induction vs with
  | nil => rfl
  | cons v vs ih => rw [List.map_cons, List.sum_cons, ih, List.flatMap_cons, List.length_append, List.length_map]

/-- **C11.** `GetSize` is the number of pairs joined by an edge, and also the sum over all vertices
(listed in any order as `vs`) of the numbers of entries returned by `GetChildren`, and by
`GetParents`. -/
theorem C11_size (ω ω' : Oracle) (ops : List (Op K T)) (σ : St K T) (h : After ω ops σ) :
    ∃ n σ', Call ω' σ .getSize (.count n) σ' ∧
      Spec.Count (fun e : K × K => Edge σ e.1 e.2) n ∧
      ∀ (vs : List K) (ch pa : K → List (K × T)), vs.Nodup → (∀ k, k ∈ vs ↔ Known σ k) →
        (∀ k ∈ vs, ∃ σ', Call ω' σ (.getChildren k) (.entriesE (.ok (ch k))) σ') →
        (∀ k ∈ vs, ∃ σ', Call ω' σ (.getParents k) (.entriesE (.ok (pa k))) σ') →
        (vs.map (fun k => (ch k).length)).sum = n ∧ (vs.map (fun k => (pa k).length)).sum = n := by
  have hi := h.inv
  obtain ⟨r, σ', hc⟩ := call_exists ω' hi .getSize
  have hok := (hc.spec hi).2.2
  cases r with
  | count n =>
    have hcount : Spec.Count (fun e : K × K => Edge σ e.1 e.2) n := by
      rw [edge_eq hi]; exact hok
    refine ⟨n, σ', hc, hcount, ?_⟩
    intro vs ch pa hvs hvk hch hpa
    obtain ⟨l, hl, hlm, rfl⟩ := hcount
    have hch' : ∀ k ∈ vs, ((ch k).map Prod.fst).Nodup ∧ ∀ c, c ∈ (ch k).map Prod.fst ↔ Edge σ k c := by
      intro k hk
      obtain ⟨σ1, h1⟩ := hch k hk
      obtain ⟨_, h2, h3⟩ := orErr_ok (e := Spec.vertexErr (abs σ.g) k) (h1.spec hi).2.2
      refine ⟨h2, fun c => ?_⟩
      rw [edge_iff hi, List.mem_map]
      constructor
      · rintro ⟨⟨c', v⟩, hm, rfl⟩; exact ((h3 c' v).mp hm).2
      · intro hE
        obtain ⟨v, hv⟩ := (known_iff hi c).mp (edge_known hi ((edge_iff hi k c).mpr hE)).2
        exact ⟨(c, v), (h3 c v).mpr ⟨hv, hE⟩, rfl⟩
    have hpa' : ∀ k ∈ vs, ((pa k).map Prod.fst).Nodup ∧ ∀ c, c ∈ (pa k).map Prod.fst ↔ Edge σ c k := by
      intro k hk
      obtain ⟨σ1, h1⟩ := hpa k hk
      obtain ⟨_, h2, h3⟩ := orErr_ok (e := Spec.vertexErr (abs σ.g) k) (h1.spec hi).2.2
      refine ⟨h2, fun c => ?_⟩
      rw [edge_iff hi, List.mem_map]
      constructor
      · rintro ⟨⟨c', v⟩, hm, rfl⟩; exact ((h3 c' v).mp hm).2
      · intro hE
        obtain ⟨v, hv⟩ := (known_iff hi c).mp (edge_known hi ((edge_iff hi c k).mpr hE)).1
        exact ⟨(c, v), (h3 c v).mpr ⟨hv, hE⟩, rfl⟩
    constructor
    · have e : (vs.map (fun k => (ch k).length)) = vs.map (fun k => ((ch k).map Prod.fst).length) := by simp
      rw [e, sum_lengths]
      refine length_eq_of_same (nodup_flatMap_pairs _ _ hvs (fun v hv => (hch' v hv).1)) hl ?_
      rintro ⟨a, b⟩
      rw [hlm]
      simp only [List.mem_flatMap]
      constructor
      · rintro ⟨k, hk, hm⟩
        obtain ⟨c, hc, hcc⟩ := List.mem_map.mp hm
        obtain ⟨rfl, rfl⟩ := Prod.mk.inj hcc
        exact ((hch' _ hk).2 _).mp hc
      · intro hE
        have hk := (hvk a).mpr (edge_known hi hE).1
        exact ⟨a, hk, List.mem_map.mpr ⟨b, ((hch' a hk).2 b).mpr hE, rfl⟩⟩
    · have e : (vs.map (fun k => (pa k).length)) = vs.map (fun k => ((pa k).map Prod.fst).length) := by simp
      rw [e, sum_lengths]
      have hl2 : (l.map Prod.swap).Nodup :=
        List.pairwise_map.mpr (hl.imp (fun h e => h (by have := congrArg Prod.swap e; rwa [Prod.swap_swap, Prod.swap_swap] at this)))
      rw [show l.length = (l.map Prod.swap).length by simp]
      refine length_eq_of_same (nodup_flatMap_pairs _ _ hvs (fun v hv => (hpa' v hv).1)) hl2 ?_
      rintro ⟨a, b⟩
      have hsw : (a, b) ∈ l.map Prod.swap ↔ Edge σ b a := by
        rw [List.mem_map]
        constructor
        · rintro ⟨⟨x, y⟩, hxy, he⟩; cases he; exact (hlm _).mp hxy
        · intro hE; exact ⟨(b, a), (hlm (b, a)).mpr hE, rfl⟩
      rw [hsw]
      simp only [List.mem_flatMap]
      constructor
      · rintro ⟨k, hk, hm⟩
        obtain ⟨c, hc, hcc⟩ := List.mem_map.mp hm
        obtain ⟨rfl, rfl⟩ := Prod.mk.inj hcc
        exact ((hpa' _ hk).2 _).mp hc
      · intro hE
        have hk := (hvk a).mpr (edge_known hi hE).2
        exact ⟨a, hk, List.mem_map.mpr ⟨b, ((hpa' a hk).2 b).mpr hE, rfl⟩⟩
  | _ => exact hok.elim

/-- The demo graph has five edges. -/
example : ∃ σ', Call Oracle.forward demo .getSize (.count 5) σ' :=
  call_of_result (by decide +kernel)

/-! ## C12, C13 -/

/-- **C12.** `ReduceTransitively` keeps the vertices, their payloads and reachability. -/
theorem C12_reduce_reachability (ω ω' : Oracle) (ops : List (Op K T)) (σ : St K T) (h : After ω ops σ) :
    ∃ σ', Call ω' σ .reduceTransitively .unit σ' ∧
      (∀ k v, Bound σ' k v ↔ Bound σ k v) ∧
      ∀ a b, TransGen (Edge σ') a b ↔ TransGen (Edge σ) a b := by
  have hi := h.inv
  obtain ⟨r, σ', hc⟩ := call_exists ω' hi .reduceTransitively
  obtain ⟨hi', hnext, hok⟩ := hc.spec hi
  cases r with
  | unit =>
    refine ⟨σ', hc, ?_, ?_⟩
    · intro k v; rw [bound_iff hi', bound_iff hi, hnext]; rfl
    · intro a b
      rw [edge_eq hi', edge_eq hi, hnext]
      refine transGen_reduced hi.base.acyc (GoMap.keys σ.g.vertices) ?_ a b
      intro a b hE
      rw [GoMap.mem_keys_iff_has]; exact (hi.base.ends a b hE).2
  | _ => exact hok.elim

/-- An edge of the reduced relation belongs to every relation with the same closure. -/
theorem reduced_minimal {E E' : K → K → Prop} (hEE : ∀ a b, TransGen E' a b ↔ TransGen E a b) {a b : K}
    (hE : E a b) (hni : ¬ Implied E a b) : E' a b := by
  obtain ⟨m, h1, h2⟩ := TransGen.head'_iff.mp ((hEE a b).mpr (.single hE))
  rcases reflTransGen_iff_eq_or_transGen.mp h2 with rfl | h2
  · exact h1
  · exfalso
    apply hni
    obtain ⟨m', h3, h4⟩ := TransGen.head'_iff.mp ((hEE a m).mp (.single h1))
    exact ⟨m', h3, TransGen.trans_right h4 ((hEE m b).mp h2)⟩

/-- **C13.** The result of `ReduceTransitively`: an edge remains iff it was present and there is no
path between its ends of length two or more; the remaining edges are contained in every relation
with the same reachability; a second call changes nothing. -/
theorem C13_reduce_minimal (ω ω' ω'' : Oracle) (ops : List (Op K T)) (σ : St K T) (h : After ω ops σ) :
    ∃ σ', Call ω' σ .reduceTransitively .unit σ' ∧
      (∀ a b, Edge σ' a b ↔ Edge σ a b ∧ ¬ ∃ n, 2 ≤ n ∧ PathLen (Edge σ) n a b) ∧
      (∀ E' : K → K → Prop, (∀ a b, TransGen E' a b ↔ TransGen (Edge σ) a b) →
        ∀ a b, Edge σ' a b → E' a b) ∧
      ∃ σ'', Call ω'' σ' .reduceTransitively .unit σ'' ∧
        (∀ k v, Bound σ'' k v ↔ Bound σ' k v) ∧ ∀ a b, Edge σ'' a b ↔ Edge σ' a b := by
  have hi := h.inv
  obtain ⟨r, σ', hc⟩ := call_exists ω' hi .reduceTransitively
  obtain ⟨hi', hnext, hok⟩ := hc.spec hi
  cases r with
  | unit =>
    obtain ⟨r2, σ'', hc2⟩ := call_exists ω'' hi' .reduceTransitively
    obtain ⟨hi'', hnext2, hok2⟩ := hc2.spec hi'
    cases r2 with
    | unit =>
      have htg : ∀ a b, TransGen (abs σ'.g).E a b ↔ TransGen (abs σ.g).E a b := by
        intro a b
        rw [hnext]
        refine transGen_reduced hi.base.acyc (GoMap.keys σ.g.vertices) ?_ a b
        intro a b hE
        rw [GoMap.mem_keys_iff_has]; exact (hi.base.ends a b hE).2
      have himp : ∀ (E : K → K → Prop) a b, Implied E a b ↔ ∃ n, 2 ≤ n ∧ PathLen E n a b := by
        intro E a b
        have tg : ∀ x y, TransGen E x y → ∃ n, 1 ≤ n ∧ PathLen E n x y := by
          intro x y h
          induction h with
          | single h => exact ⟨1, Nat.le_refl _, _, rfl, h⟩
          | tail _ h ih => obtain ⟨n, h1, h2⟩ := ih; exact ⟨n + 1, by omega, _, h2, h⟩
        have pre : ∀ n x y z, E x y → PathLen E n y z → PathLen E (n + 1) x z := by
          intro n
          induction n with
          | zero => rintro x y z hxy rfl; exact ⟨x, rfl, hxy⟩
          | succ n ih =>
            rintro x y z hxy ⟨c, h1, h2⟩
            exact ⟨c, ih x y c hxy h1, h2⟩
        have unpre : ∀ n x z, PathLen E (n + 1) x z → ∃ y, E x y ∧ PathLen E n y z := by
          intro n
          induction n with
          | zero => rintro x z ⟨c, rfl, h⟩; exact ⟨z, h, rfl⟩
          | succ n ih =>
            rintro x z ⟨c, h1, h2⟩
            obtain ⟨y, h3, h4⟩ := ih x c h1
            exact ⟨y, h3, c, h4, h2⟩
        constructor
        · rintro ⟨m, h1, h2⟩
          obtain ⟨n, h3, h4⟩ := tg m b h2
          exact ⟨n + 1, by omega, pre n a m b h1 h4⟩
        · rintro ⟨n, h1, h2⟩
          obtain ⟨k, rfl⟩ : ∃ k, n = k + 2 := ⟨n - 2, by omega⟩
          obtain ⟨y, h3, h4⟩ := unpre (k + 1) a b h2
          refine ⟨y, h3, ?_⟩
          obtain ⟨c, h5, h6⟩ := h4
          rcases PathLen.cases h5 with rfl | h7
          · exact .single h6
          · exact .tail h7 h6
      refine ⟨σ', hc, ?_, ?_, σ'', hc2, ?_, ?_⟩
      · intro a b
        rw [edge_iff hi', edge_eq hi, hnext, ← himp]; rfl
      · intro E' hE' a b hab
        rw [edge_iff hi', hnext] at hab
        rw [edge_eq hi] at hE'
        exact reduced_minimal hE' hab.1 hab.2
      · intro k v; rw [bound_iff hi'', bound_iff hi', hnext2]; rfl
      · intro a b
        rw [edge_iff hi'', edge_iff hi', hnext2]
        refine ⟨fun h => h.1, fun h => ⟨h, ?_⟩⟩
        rintro ⟨m, h1, h2⟩
        rw [hnext] at h h1
        exact h.2 ⟨m, h1.1, (htg m b).mp h2⟩
    | _ => exact hok2.elim
  | _ => exact hok.elim

/-- In the demo graph the shortcut `1 → 4` is implied, `1 → 2` is not. -/
example : Edge demo 1 4 ∧ (∃ n, 2 ≤ n ∧ PathLen (Edge demo) n 1 4) :=
  ⟨(demo_edge 1 4).mpr (by simp), 2, Nat.le_refl _, 2, ⟨1, rfl, (demo_edge 1 2).mpr (by simp)⟩,
    (demo_edge 2 4).mpr (by simp)⟩

/-! ## C14, C15 -/

/-- **C14.** The ordered traversals list exactly the descendants (ancestors), each once. -/
theorem C14_ordered_exact (ω ω' : Oracle) (ops : List (Op K T)) (σ : St K T) (h : After ω ops σ) (id : K)
    (hk : Known σ id) :
    (∃ l σ', Call ω' σ (.getOrderedDescendants id) (.idsE (.ok l)) σ' ∧ l.Nodup ∧
      ∃ m σ'', Call ω' σ (.getDescendants id) (.entriesE (.ok m)) σ'' ∧ ∀ k, k ∈ l ↔ ∃ v, (k, v) ∈ m) ∧
    (∃ l σ', Call ω' σ (.getOrderedAncestors id) (.idsE (.ok l)) σ' ∧ l.Nodup ∧
      ∃ m σ'', Call ω' σ (.getAncestors id) (.entriesE (.ok m)) σ'' ∧ ∀ k, k ∈ l ↔ ∃ v, (k, v) ∈ m) := by
  have hi := h.inv
  have hne := (known_vertexErr hi id).mpr hk
  obtain ⟨⟨md, σd, kd, _, hd⟩, ⟨ma, σa, ka, _, ha⟩⟩ := C03_fresh ω ω' ops σ h id hk
  constructor
  · obtain ⟨r, σ', hc⟩ := call_exists ω' hi (.getOrderedDescendants id)
    have hok := (hc.spec hi).2.2
    cases r with
    | idsE r =>
      obtain ⟨l, rfl, hl⟩ := orErr_none hne hok
      refine ⟨l, σ', hc, hl.nodup, md, σd, kd, fun k => ?_⟩
      rw [hl.mem]
      simp only [hd, exists_and_right]
      rw [edge_eq hi]
      refine ⟨fun hr => ⟨?_, hr⟩, fun h => h.2⟩
      exact (known_iff hi k).mpr ((GoMap.has_iff _ _).mp (hi.base.reachVertex hr).2)
    | _ => exact hok.elim
  · obtain ⟨r, σ', hc⟩ := call_exists ω' hi (.getOrderedAncestors id)
    have hok := (hc.spec hi).2.2
    cases r with
    | idsE r =>
      obtain ⟨l, rfl, hl⟩ := orErr_none hne hok
      refine ⟨l, σ', hc, hl.nodup, ma, σa, ka, fun k => ?_⟩
      rw [hl.mem, transGen_swap]
      simp only [ha, exists_and_right]
      rw [edge_eq hi]
      refine ⟨fun hr => ⟨?_, hr⟩, fun h => h.2⟩
      exact (known_iff hi k).mpr ((GoMap.has_iff _ _).mp (hi.base.reachVertex hr).1)
    | _ => exact hok.elim

/-- **C15.** The ordered traversals are breadth-first: positions respect the edge distance from
(to) `id`. -/
theorem C15_breadth_first (ω ω' : Oracle) (ops : List (Op K T)) (σ : St K T) (h : After ω ops σ) (id : K)
    (hk : Known σ id) :
    (∃ l σ', Call ω' σ (.getOrderedDescendants id) (.idsE (.ok l)) σ' ∧
      ∀ pre x mid y post, l = pre ++ x :: mid ++ y :: post →
        ∀ n m, DistIs (Edge σ) id x n → DistIs (Edge σ) id y m → n ≤ m) ∧
    (∃ l σ', Call ω' σ (.getOrderedAncestors id) (.idsE (.ok l)) σ' ∧
      ∀ pre x mid y post, l = pre ++ x :: mid ++ y :: post →
        ∀ n m, DistIs (fun a b => Edge σ b a) id x n → DistIs (fun a b => Edge σ b a) id y m → n ≤ m) := by
  have hi := h.inv
  have hne := (known_vertexErr hi id).mpr hk
  rw [edge_eq hi]
  have pw : ∀ {E : K → K → Prop} {l : List K}, BfsDone E id l →
      ∀ pre x mid y post, l = pre ++ x :: mid ++ y :: post → ∀ n m, DistIs E id x n → DistIs E id y m → n ≤ m := by
    intro E l hl pre x mid y post hsplit
    have := hl.sorted
    rw [hsplit, List.append_assoc, List.pairwise_append] at this
    have := (List.pairwise_cons.mp this.2.1).1 y (by simp)
    exact this
  constructor
  · obtain ⟨r, σ', hc⟩ := call_exists ω' hi (.getOrderedDescendants id)
    have hok := (hc.spec hi).2.2
    cases r with
    | idsE r =>
      obtain ⟨l, rfl, hl⟩ := orErr_none hne hok
      exact ⟨l, σ', hc, pw hl⟩
    | _ => exact hok.elim
  · obtain ⟨r, σ', hc⟩ := call_exists ω' hi (.getOrderedAncestors id)
    have hok := (hc.spec hi).2.2
    cases r with
    | idsE r =>
      obtain ⟨l, rfl, hl⟩ := orErr_none hne hok
      exact ⟨l, σ', hc, pw hl⟩
    | _ => exact hok.elim

/-- The two orders of the demo traversal; every vertex reachable, none twice. -/
example : (∃ σ', Call Oracle.forward demo (.getOrderedDescendants 1) (.idsE (.ok [4, 3, 2])) σ') ∧
    (∃ σ', Call Oracle.backward demo (.getOrderedDescendants 1) (.idsE (.ok [2, 3, 4])) σ') ∧ Known demo 1 :=
  ⟨call_of_result (by decide +kernel), call_of_result (by decide +kernel), (demo_known 1).mpr (by simp)⟩

/-- Distances that differ: with the edges 1→2→4, 1→3→4 only, 4 is at distance two. -/
example : DistIs (fun a b : Nat => (a, b) ∈ [((1 : Nat), (2 : Nat)), (1, 3), (2, 4), (3, 4)]) 1 4 2 := by
  refine ⟨⟨2, ⟨1, rfl, by simp⟩, by simp⟩, ?_⟩
  intro m hm
  match m, hm with
  | 0, _ => simp [PathLen]
  | 1, _ => rintro ⟨c, rfl, h⟩; simp at h

/-! ## C22 -/

/-- The error a call reports, if its result carries one. -/
def Res.error? : Res K T → Option Err
  | .err e => e
  | .payload (.error e) => some e
  | .flag (.error e) => some e
  | .entriesE (.error e) => some e
  | .idsE (.error e) => some e
  | _ => none

/-- The calls that take the id of an existing vertex. -/
def vertexCalls (id : K) : List (Op K T) :=
  [.getVertex id, .getParents id, .getChildren id, .getAncestors id, .getDescendants id,
   .getOrderedAncestors id, .getOrderedDescendants id, .deleteVertex id]

theorem orErr_error? {α : Type} {e : Option Err} {r : Except Err α} {P : α → Prop} (h : Spec.OrErr e r P) :
    (match r with | .error e => some e | .ok _ => none) = e := by
  cases e with
  | some e => cases h; rfl
  | none => obtain ⟨x, rfl, _⟩ := h; rfl

/-- **C22.** The calls taking a vertex id fail with `ErrVertexIDEmpty` exactly for the zero id, with
`ErrVertexNotFound` exactly for other unknown ids, and succeed otherwise.  (The walkers are covered
by `C22_walkers`.) -/
theorem C22_errors (ω ω' : Oracle) (ops : List (Op K T)) (σ : St K T) (h : After ω ops σ) (id : K)
    (op : Op K T) (hop : op ∈ vertexCalls id) :
    ∃ r σ', Call ω' σ op r σ' ∧
      (r.error? = some .vertexIDEmpty ↔ id = zero) ∧
      (r.error? = some .vertexNotFound ↔ id ≠ zero ∧ ¬ Known σ id) ∧
      (r.error? = none ↔ Known σ id) := by
  have hi := h.inv
  obtain ⟨r, σ', hc⟩ := call_exists ω' hi op
  have hok := (hc.spec hi).2.2
  have key : r.error? = Spec.vertexErr (abs σ.g) id := by
    simp only [vertexCalls, List.mem_cons, List.not_mem_nil, or_false] at hop
    rcases hop with rfl | rfl | rfl | rfl | rfl | rfl | rfl | rfl <;> cases r <;>
      first
        | exact hok.elim
        | (rename_i r; have := orErr_error? (e := Spec.vertexErr (abs σ.g) id) hok; cases r <;> exact this)
        | exact hok
  refine ⟨r, σ', hc, ?_, ?_, ?_⟩
  · rw [key]; unfold Spec.vertexErr
    by_cases h1 : id = zero
    · simp [h1]
    · simp only [h1, if_false, iff_false]; split <;> simp
  · rw [key, ← isNone_iff_not_known hi]; unfold Spec.vertexErr
    by_cases h1 : id = zero
    · simp [h1]
    · simp only [h1, if_false]
      cases (abs σ.g).V id <;> simp [h1]
  · rw [key]; exact known_vertexErr hi id

example : (∃ σ', Call Oracle.forward demo (.getParents 0) (.entriesE (.error .vertexIDEmpty)) σ') ∧
    (∃ σ', Call Oracle.forward demo (.getParents 9) (.entriesE (.error .vertexNotFound)) σ') :=
  ⟨call_of_result (by decide +kernel), call_of_result (by decide +kernel)⟩

end Verif.Dag
