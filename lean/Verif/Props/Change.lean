import Verif.Props.DagCore

/-! # C69: what a change to the graph changes -/

set_option linter.unusedSectionVars false

namespace Verif.Dag
open M Relation

variable {K T : Type} [DecidableEq K] [GoZero K] [GoZero T]

/-! ## Specification -/

/-- `GetDescendants(x)` has the keys `P`, with what `GetVertex` returns for them, whatever the iteration order. -/
def Descendants (σ : St K T) (x : K) (P : K → Prop) : Prop :=
  ∀ ω, ∃ m σ', Call ω σ (.getDescendants x) (.entriesE (.ok m)) σ' ∧ (m.map Prod.fst).Nodup ∧ ∀ k v, (k, v) ∈ m ↔ Bound σ k v ∧ P k

/-- The same for `GetAncestors(x)`. -/
def Ancestors (σ : St K T) (x : K) (P : K → Prop) : Prop :=
  ∀ ω, ∃ m σ', Call ω σ (.getAncestors x) (.entriesE (.ok m)) σ' ∧ (m.map Prod.fst).Nodup ∧ ∀ k v, (k, v) ∈ m ↔ Bound σ k v ∧ P k

/-- `b` is `a` or can be reached from it. -/
def Reaches (σ : St K T) (a b : K) : Prop := a = b ∨ TransGen (Edge σ) a b

/-! ## Paths -/

/-- Paths with one edge more. -/
theorem transGen_insert {E : K → K → Prop} (s t : K) (x y : K) :
    TransGen (fun a b => E a b ∨ (a = s ∧ b = t)) x y ↔
      TransGen E x y ∨ ((x = s ∨ TransGen E x s) ∧ (t = y ∨ TransGen E t y)) := by
  constructor
  · intro h
    induction h with
    | single h =>
      rcases h with h | ⟨rfl, rfl⟩
      · exact .inl (.single h)
      · exact .inr ⟨.inl rfl, .inl rfl⟩
    | @tail b c _ h ih =>
      rcases h with h | ⟨rfl, rfl⟩
      · rcases ih with ih | ⟨h1, h2⟩
        · exact .inl (ih.tail h)
        · refine .inr ⟨h1, .inr ?_⟩
          rcases h2 with rfl | h2
          · exact .single h
          · exact h2.tail h
      · rcases ih with ih | ⟨h1, h2⟩
        · exact .inr ⟨.inr ih, .inl rfl⟩
        · exact .inr ⟨h1, .inl rfl⟩
  · have up : ∀ {x y}, TransGen E x y → TransGen (fun a b => E a b ∨ (a = s ∧ b = t)) x y :=
      fun h => TransGen.mono (fun _ _ => .inl) _ _ h
    rintro (h | ⟨h1, h2⟩)
    · exact up h
    · have h3 : TransGen (fun a b => E a b ∨ (a = s ∧ b = t)) x t := by
        rcases h1 with rfl | h1
        · exact .single (.inr ⟨rfl, rfl⟩)
        · exact (up h1).tail (.inr ⟨rfl, rfl⟩)
      rcases h2 with rfl | h2
      · exact h3
      · exact h3.trans (up h2)

/-- A path that does not come to `s` does not need the edges out of `s`. -/
theorem transGen_avoid {E : K → K → Prop} {P : K → K → Prop} (s : K) {x y : K} (hP : ∀ a b, E a b → a ≠ s → P a b)
    (hx : x ≠ s) (hxs : ¬ TransGen E x s) (h : TransGen E x y) : TransGen P x y := by
  induction h with
  | single h => exact .single (hP _ _ h hx)
  | @tail b c h1 h ih => exact ih.tail (hP _ _ h (fun e => hxs (e ▸ h1)))

/-! ## C69 -/

theorem descendants_of {σ : St K T} (hi : Inv σ.g) {x : K} (hx : Known σ x) {P : K → Prop}
    (hP : ∀ k, P k ↔ TransGen (abs σ.g).E x k) : Descendants σ x P := by
  intro ω
  obtain ⟨r, σ', hc⟩ := call_exists ω hi (.getDescendants x)
  have hok := (hc.spec hi).2.2
  cases r with
  | entriesE r =>
    obtain ⟨m, rfl, h1, h2⟩ := orErr_none ((known_vertexErr hi x).mpr hx) hok
    exact ⟨m, σ', hc, h1, fun k v => by rw [h2, bound_iff hi, hP]⟩
  | _ => exact hok.elim

theorem ancestors_of {σ : St K T} (hi : Inv σ.g) {x : K} (hx : Known σ x) {P : K → Prop}
    (hP : ∀ k, P k ↔ TransGen (abs σ.g).E k x) : Ancestors σ x P := by
  intro ω
  obtain ⟨r, σ', hc⟩ := call_exists ω hi (.getAncestors x)
  have hok := (hc.spec hi).2.2
  cases r with
  | entriesE r =>
    obtain ⟨m, rfl, h1, h2⟩ := orErr_none ((known_vertexErr hi x).mpr hx) hok
    exact ⟨m, σ', hc, h1, fun k v => by rw [h2, bound_iff hi, hP]⟩
  | _ => exact hok.elim

/-- **C69** for `AddEdge`: whatever reached the source of the edge before now reaches also what the target reached, and nothing
else changes. -/
theorem C69_addEdge (ω ω' : Oracle) (ops : List (Op K T)) (σ σ' : St K T) (h : After ω ops σ) (s t : K)
    (hc : Call ω' σ (.addEdge s t) (.err none) σ') :
    (∀ k v, Bound σ' k v ↔ Bound σ k v) ∧ ∀ x, Known σ x →
      Descendants σ' x (fun k => TransGen (Edge σ) x k ∨ (Reaches σ x s ∧ Reaches σ t k)) ∧
      Ancestors σ' x (fun k => TransGen (Edge σ) k x ∨ (Reaches σ k s ∧ Reaches σ t x)) := by
  have hi := h.inv
  obtain ⟨hi', ha, hok⟩ := hc.spec hi
  have hcan : Spec.CanAdd (abs σ.g) s t := by
    unfold Spec.ok at hok
    simp only at hok
    cases he : Spec.edgeErr (abs σ.g) s t with
    | some e => rw [he] at hok; cases hok
    | none =>
      rw [he] at hok
      refine ⟨he, fun h => (by cases hok.1 h), fun h => ?_⟩
      by_cases hE : (abs σ.g).E s t
      · cases hok.1 hE
      · cases hok.2.1 hE h
  have hE : (abs σ'.g).E = fun a b => (abs σ.g).E a b ∨ (a = s ∧ b = t) := by
    rw [ha]
    funext a b
    simp [Spec.next, hcan]
  have hV : ∀ k v, Bound σ' k v ↔ Bound σ k v := fun k v => by rw [bound_iff hi', bound_iff hi, ha]; rfl
  refine ⟨hV, fun x hx => ?_⟩
  have hx' : Known σ' x := hx.imp fun v => (hV x v).mpr
  unfold Reaches
  rw [edge_eq hi]
  refine ⟨descendants_of hi' hx' fun k => ?_, ancestors_of hi' hx' fun k => ?_⟩
  · rw [hE, transGen_insert]
  · rw [hE, transGen_insert]

/-- **C69** for `DeleteEdge`: only vertices that reach the source of the edge can lose descendants, only vertices reached by its
target can lose ancestors, and they lose those that cannot be reached in another way. -/
theorem C69_deleteEdge (ω ω' : Oracle) (ops : List (Op K T)) (σ σ' : St K T) (h : After ω ops σ) (s t : K)
    (hc : Call ω' σ (.deleteEdge s t) (.err none) σ') :
    (∀ k v, Bound σ' k v ↔ Bound σ k v) ∧ ∀ x, Known σ x →
      Descendants σ' x (TransGen (fun a b => Edge σ a b ∧ ¬ (a = s ∧ b = t)) x) ∧
      Ancestors σ' x (fun k => TransGen (fun a b => Edge σ a b ∧ ¬ (a = s ∧ b = t)) k x) ∧
      (¬ Reaches σ x s → Descendants σ' x (TransGen (Edge σ) x)) ∧
      (¬ Reaches σ t x → Ancestors σ' x (fun k => TransGen (Edge σ) k x)) := by
  have hi := h.inv
  obtain ⟨hi', ha, -⟩ := hc.spec hi
  have hE : (abs σ'.g).E = fun a b => (abs σ.g).E a b ∧ ¬ (a = s ∧ b = t) := by rw [ha]; rfl
  have hV : ∀ k v, Bound σ' k v ↔ Bound σ k v := fun k v => by rw [bound_iff hi', bound_iff hi, ha]; rfl
  refine ⟨hV, fun x hx => ?_⟩
  have hx' : Known σ' x := hx.imp fun v => (hV x v).mpr
  unfold Reaches
  rw [edge_eq hi]
  refine ⟨descendants_of hi' hx' fun k => by rw [hE], ancestors_of hi' hx' fun k => by rw [hE], fun hn => ?_, fun hn => ?_⟩
  · obtain ⟨h1, h2⟩ := not_or.mp hn
    refine descendants_of hi' hx' fun k => ?_
    rw [hE]
    exact ⟨transGen_avoid s (fun a b h hne => ⟨h, fun e => hne e.1⟩) h1 h2, fun h => TransGen.mono (fun _ _ h => h.1) _ _ h⟩
  · obtain ⟨h1, h2⟩ := not_or.mp hn
    refine ancestors_of hi' hx' fun k => ?_
    rw [hE]
    refine ⟨fun h => ?_, fun h => TransGen.mono (fun _ _ h => h.1) _ _ h⟩
    rw [← transGen_swap] at h ⊢
    exact transGen_avoid t (fun a b h hne => ⟨h, fun e => hne e.2⟩) (fun e => h1 e.symm) (fun h' => h2 (transGen_swap.mp h')) h

/-- **C69** for `DeleteVertex`: the others keep the descendants and ancestors they do not have through this vertex alone. -/
theorem C69_deleteVertex (ω ω' : Oracle) (ops : List (Op K T)) (σ σ' : St K T) (h : After ω ops σ) (id : K)
    (hc : Call ω' σ (.deleteVertex id) (.err none) σ') :
    (∀ k v, Bound σ' k v ↔ Bound σ k v ∧ k ≠ id) ∧ ∀ x, Known σ x → x ≠ id →
      Descendants σ' x (TransGen (fun a b => Edge σ a b ∧ a ≠ id ∧ b ≠ id) x) ∧
      Ancestors σ' x (fun k => TransGen (fun a b => Edge σ a b ∧ a ≠ id ∧ b ≠ id) k x) ∧
      (¬ TransGen (Edge σ) x id → Descendants σ' x (TransGen (Edge σ) x)) ∧
      (¬ TransGen (Edge σ) id x → Ancestors σ' x (fun k => TransGen (Edge σ) k x)) := by
  have hi := h.inv
  obtain ⟨hi', ha, -⟩ := hc.spec hi
  have hE : (abs σ'.g).E = fun a b => (abs σ.g).E a b ∧ a ≠ id ∧ b ≠ id := by rw [ha]; rfl
  have hV : ∀ k v, Bound σ' k v ↔ Bound σ k v ∧ k ≠ id := fun k v => by
    rw [bound_iff hi', bound_iff hi, ha]
    simp only [Spec.next]
    split
    · rename_i e; simp [e]
    · rename_i e; simp [e]
  refine ⟨hV, fun x hx hne => ?_⟩
  have hx' : Known σ' x := hx.imp fun v hv => (hV x v).mpr ⟨hv, hne⟩
  rw [edge_eq hi]
  refine ⟨descendants_of hi' hx' fun k => by rw [hE], ancestors_of hi' hx' fun k => by rw [hE], fun hn => ?_, fun hn => ?_⟩
  · refine descendants_of hi' hx' fun k => ?_
    rw [hE]
    refine ⟨fun h => ?_, fun h => TransGen.mono (fun _ _ h => h.1) _ _ h⟩
    induction h with
    | single h => exact .single ⟨h, hne, fun e => hn (e ▸ .single h)⟩
    | @tail b c h1 h ih => exact ih.tail ⟨h, fun e => hn (e ▸ h1), fun e => hn (e ▸ h1.tail h)⟩
  · refine ancestors_of hi' hx' fun k => ?_
    rw [hE]
    refine ⟨fun h => ?_, fun h => TransGen.mono (fun _ _ h => h.1) _ _ h⟩
    induction h using TransGen.head_induction_on with
    | single h => exact .single ⟨h, fun e => hn (e ▸ .single h), hne⟩
    | head h h1 ih => exact ih.head ⟨h, fun e => hn (e ▸ h1.head h), fun e => hn (e ▸ h1)⟩

/-- **C69** for `AddVertex`: the new vertex has no relatives, and the others keep theirs. -/
theorem C69_addVertex (ω ω' : Oracle) (ops : List (Op K T)) (σ σ' : St K T) (h : After ω ops σ) (id : K) (v : T)
    (hc : Call ω' σ (.addVertex id v) (.err none) σ') :
    (∀ k w, Bound σ' k w ↔ Bound σ k w ∨ (k = id ∧ w = v)) ∧
      Descendants σ' id (fun _ => False) ∧ Ancestors σ' id (fun _ => False) ∧
      ∀ x, Known σ x → Descendants σ' x (TransGen (Edge σ) x) ∧ Ancestors σ' x (fun k => TransGen (Edge σ) k x) := by
  have hi := h.inv
  obtain ⟨hi', ha, hok⟩ := hc.spec hi
  have he : Spec.addVertexErr (abs σ.g) id = none := hok.symm
  have hE : (abs σ'.g).E = (abs σ.g).E := by rw [ha]; rfl
  have hn : (abs σ.g).V id = none := by
    unfold Spec.addVertexErr at he
    split at he
    · cases he
    · split at he
      · cases he
      · rename_i hv; simpa using hv
  have hV : ∀ k w, Bound σ' k w ↔ Bound σ k w ∨ (k = id ∧ w = v) := fun k w => by
    rw [bound_iff hi', bound_iff hi, ha]
    simp only [Spec.next, he, and_true]
    split
    · rename_i e
      subst e
      rw [hn]
      simp [eq_comm]
    · rename_i e; simp [e]
  have hk : Known σ' id := ⟨v, (hV id v).mpr (.inr ⟨rfl, rfl⟩)⟩
  have hends : ∀ x, ¬ (abs σ'.g).E id x ∧ ¬ (abs σ'.g).E x id := by
    intro x
    rw [hE]
    constructor <;> intro h
    · have := (hi.base.ends _ _ h).1
      rw [GoMap.has_iff] at this
      obtain ⟨w, hw⟩ := this
      exact absurd (hn.symm.trans hw) (by simp)
    · have := (hi.base.ends _ _ h).2
      rw [GoMap.has_iff] at this
      obtain ⟨w, hw⟩ := this
      exact absurd (hn.symm.trans hw) (by simp)
  refine ⟨hV, descendants_of hi' hk fun k => ⟨False.elim, fun h => ?_⟩, ancestors_of hi' hk fun k => ⟨False.elim, fun h => ?_⟩, fun x hx => ?_⟩
  · obtain ⟨c, h1, -⟩ := TransGen.head'_iff.mp h
    exact (hends c).1 h1
  · obtain ⟨c, -, h1⟩ := TransGen.tail'_iff.mp h
    exact (hends c).2 h1
  · have hx' : Known σ' x := hx.imp fun w hw => (hV x w).mpr (.inl hw)
    rw [edge_eq hi]
    exact ⟨descendants_of hi' hx' fun k => by rw [hE], ancestors_of hi' hx' fun k => by rw [hE]⟩

/-- In the demo graph all four calls succeed, and `C69_addEdge` is about a vertex that gains descendants. -/
example : (∃ σ', Call Oracle.backward demo (.addEdge 3 2) (.err none) σ') ∧ (∃ σ', Call Oracle.backward demo (.deleteEdge 3 4) (.err none) σ') ∧
    (∃ σ', Call Oracle.backward demo (.deleteVertex 3) (.err none) σ') ∧ (∃ σ', Call Oracle.backward demo (.addVertex 9 7) (.err none) σ') ∧
    Known demo 3 := by
  refine ⟨call_of_result ?_, call_of_result ?_, call_of_result ?_, call_of_result ?_, (demo_known 3).mpr (by simp)⟩ <;> decide +kernel

end Verif.Dag
