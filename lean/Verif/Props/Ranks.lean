import Verif.Props.Together

/-! # C98: counting relatives sorts a graph topologically -/

set_option linter.unusedSectionVars false

namespace Verif.Dag
open M Relation

variable {K T : Type} [DecidableEq K] [GoZero K] [GoZero T]

/-! ## Proof -/

theorem keys_ancestors {ω : Oracle} {σ σ' : St K T} (i : Inv σ.g) {k : K} {m : List (K × T)} (h : Call ω σ (.getAncestors k) (.entriesE (.ok m)) σ') :
    (m.map Prod.fst).Nodup ∧ ∀ x, x ∈ m.map Prod.fst ↔ TransGen (abs σ.g).E x k := by
  obtain ⟨-, -, hok⟩ := h.spec i
  obtain ⟨-, n, hm⟩ := orErr_ok (e := Spec.vertexErr (abs σ.g) k) hok
  refine ⟨n, fun x => ⟨fun hx => ?_, fun hx => ?_⟩⟩
  · obtain ⟨⟨y, v⟩, h1, rfl⟩ := List.mem_map.1 hx
    exact ((hm y v).1 h1).2
  · obtain ⟨z, h1, -⟩ := TransGen.head'_iff.mp hx
    obtain ⟨v, hv⟩ := Option.ne_none_iff_exists'.1 (edge_ends i h1).1
    exact List.mem_map.2 ⟨(x, v), (hm x v).2 ⟨hv, hx⟩, rfl⟩

theorem keys_descendants {ω : Oracle} {σ σ' : St K T} (i : Inv σ.g) {k : K} {m : List (K × T)} (h : Call ω σ (.getDescendants k) (.entriesE (.ok m)) σ') :
    (m.map Prod.fst).Nodup ∧ ∀ x, x ∈ m.map Prod.fst ↔ TransGen (abs σ.g).E k x := by
  obtain ⟨-, -, hok⟩ := h.spec i
  obtain ⟨-, n, hm⟩ := orErr_ok (e := Spec.vertexErr (abs σ.g) k) hok
  refine ⟨n, fun x => ⟨fun hx => ?_, fun hx => ?_⟩⟩
  · obtain ⟨⟨y, v⟩, h1, rfl⟩ := List.mem_map.1 hx
    exact ((hm y v).1 h1).2
  · obtain ⟨z, -, h1⟩ := TransGen.tail'_iff.mp hx
    obtain ⟨v, hv⟩ := Option.ne_none_iff_exists'.1 (edge_ends i h1).2
    exact List.mem_map.2 ⟨(x, v), (hm x v).2 ⟨hv, hx⟩, rfl⟩

/-! ## C98 -/

/-- **C98.** A descendant has more ancestors. -/
theorem C98_ancestors (ω ω₁ ω₂ : Oracle) (ops : List (Op K T)) (σ σ₁ σ₂ : St K T) (h : After ω ops σ) (x y : K) (mx my : List (K × T))
    (hx : Call ω₁ σ (.getAncestors x) (.entriesE (.ok mx)) σ₁) (hy : Call ω₂ σ (.getAncestors y) (.entriesE (.ok my)) σ₂)
    (hxy : TransGen (Edge σ) x y) : mx.length < my.length := by
  have i := h.inv
  rw [edge_eq i] at hxy
  obtain ⟨n1, m1⟩ := keys_ancestors i hx
  obtain ⟨-, m2⟩ := keys_ancestors i hy
  have := length_le_of_subset (l := x :: mx.map Prod.fst) (l' := my.map Prod.fst)
    (List.nodup_cons.2 ⟨fun hm => i.base.acyc x ((m1 x).1 hm), n1⟩) fun z hz => by
      rw [m2]
      rcases List.mem_cons.1 hz with rfl | hz
      · exact hxy
      · exact ((m1 z).1 hz).trans hxy
  exact Nat.lt_of_succ_le (by simpa using this)

/-- **C98.** An ancestor has more descendants. -/
theorem C98_descendants (ω ω₁ ω₂ : Oracle) (ops : List (Op K T)) (σ σ₁ σ₂ : St K T) (h : After ω ops σ) (x y : K) (mx my : List (K × T))
    (hx : Call ω₁ σ (.getDescendants x) (.entriesE (.ok mx)) σ₁) (hy : Call ω₂ σ (.getDescendants y) (.entriesE (.ok my)) σ₂)
    (hxy : TransGen (Edge σ) x y) : my.length < mx.length := by
  have i := h.inv
  rw [edge_eq i] at hxy
  obtain ⟨-, m1⟩ := keys_descendants i hx
  obtain ⟨n2, m2⟩ := keys_descendants i hy
  have := length_le_of_subset (l := y :: my.map Prod.fst) (l' := mx.map Prod.fst)
    (List.nodup_cons.2 ⟨fun hm => i.base.acyc y ((m2 y).1 hm), n2⟩) fun z hz => by
      rw [m1]
      rcases List.mem_cons.1 hz with rfl | hz
      · exact hxy
      · exact hxy.trans ((m2 z).1 hz)
  exact Nat.lt_of_succ_le (by simpa using this)

/-- **C98.** A client that asks for the ancestors of every vertex and sorts the vertices by their numbers has a topological order: nothing comes
before one of its ancestors. -/
theorem C98_sort (ω ω' : Oracle) (ops : List (Op K T)) (σ : St K T) (h : After ω ops σ) (anc : K → List (K × T))
    (ha : ∀ k, Known σ k → ∃ σ', Call ω' σ (.getAncestors k) (.entriesE (.ok (anc k))) σ') (l : List K) (hl : ∀ k ∈ l, Known σ k)
    (hs : l.Pairwise fun x y => (anc x).length ≤ (anc y).length) : l.Pairwise fun x y => ¬ TransGen (Edge σ) y x := by
  refine hs.imp_of_mem fun {x y} hx hy hle hyx => ?_
  obtain ⟨σ₁, h1⟩ := ha x (hl x hx)
  obtain ⟨σ₂, h2⟩ := ha y (hl y hy)
  exact absurd (C98_ancestors ω ω' ω' ops σ σ₂ σ₁ h y x _ _ h2 h1 hyx) (Nat.not_lt.2 hle)

/-- The numbers of ancestors in the diamond are 0, 1, 1, 3. -/
example : (∀ k, Known demo k → ∃ σ', Call Oracle.forward demo (.getAncestors k) (.entriesE (.ok
      ((fun k : Nat => if k = 1 then [] else if k = 4 then [(3, 30), (1, 10), (2, 20)] else [(1, 10)]) k))) σ') ∧
    [(1 : Nat), 3, 2, 4].Pairwise fun x y => ((fun k : Nat => if k = 1 then ([] : List (Nat × Nat)) else if k = 4 then [(3, 30), (1, 10), (2, 20)] else
      [(1, 10)]) x).length ≤ ((fun k : Nat => if k = 1 then ([] : List (Nat × Nat)) else if k = 4 then [(3, 30), (1, 10), (2, 20)] else [(1, 10)]) y).length := by
  refine ⟨fun k hk => ?_, by decide +kernel⟩
  rcases (demo_known k).1 hk with rfl | rfl | rfl | rfl <;> exact call_of_result (by decide +kernel)

end Verif.Dag
