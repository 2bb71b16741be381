import Verif.Props.NormalForm
import Verif.Props.Deletions

/-! # C91: without deletions a graph only grows -/

set_option linter.unusedSectionVars false

namespace Verif.Dag
open M Relation

variable {K T : Type} [DecidableEq K] [GoZero K] [GoZero T]

/-! ## Specification -/

/-- Everything that is known or reached in the first graph is so in the second one. -/
def Within (σ σ' : St K T) : Prop :=
  (∀ k v, Bound σ k v → Bound σ' k v) ∧ ∀ x y, TransGen (Edge σ) x y → TransGen (Edge σ') x y

/-- The call adds nothing. -/
def Op.addsNothing (op : Op K T) : Bool := !op.isAdd

/-! ## Proof -/

/-- `Within` for abstract graphs. -/
def Abs.Within (a b : Abs K T) : Prop := (∀ k v, a.V k = some v → b.V k = some v) ∧ ∀ x y, TransGen a.E x y → TransGen b.E x y

theorem within_iff {σ σ' : St K T} (hi : Inv σ.g) (hi' : Inv σ'.g) : Within σ σ' ↔ (abs σ.g).Within (abs σ'.g) := by
  unfold Within Abs.Within
  rw [edge_eq hi, edge_eq hi']
  simp only [bound_iff hi, bound_iff hi']

theorem Abs.Within.trans {a b c : Abs K T} (h : a.Within b) (h' : b.Within c) : a.Within c :=
  ⟨fun k v hk => h'.1 k v (h.1 k v hk), fun x y hx => h'.2 x y (h.2 x y hx)⟩

theorem next_grows {σ : St K T} (hi : Inv σ.g) (op : Op K T) (ho : op.isDelete = false) : (abs σ.g).Within (Spec.next (abs σ.g) op) := by
  cases op with
  | addVertex id v =>
    refine ⟨fun k w hk => ?_, fun x y h => h⟩
    show (if _ then some v else (abs σ.g).V k) = some w
    split
    · rename_i hc
      obtain ⟨rfl, hc⟩ := hc
      unfold Spec.addVertexErr at hc
      simp only [hk, Option.isSome_some, if_true] at hc
      split at hc <;> cases hc
    · exact hk
  | addEdge s t => exact ⟨fun k v hk => hk, fun x y h => (addEdge_reach _ s t x y).2 (.inl h)⟩
  | reduceTransitively => exact ⟨fun k v hk => hk, fun x y h => (reduce_reach hi x y).2 h⟩
  | _ => first | exact ⟨fun k v hk => hk, fun x y h => h⟩ | cases ho

theorem next_shrinks {σ : St K T} (hi : Inv σ.g) (op : Op K T) (ho : op.isAdd = false) : (Spec.next (abs σ.g) op).Within (abs σ.g) := by
  cases op with
  | deleteVertex id =>
    refine ⟨fun k w hk => ?_, fun x y h => TransGen.mono (fun _ _ h => h.1) _ _ h⟩
    change (if k = id then none else (abs σ.g).V k) = some w at hk
    split at hk
    · cases hk
    · exact hk
  | deleteEdge s t => exact ⟨fun k v hk => hk, fun x y h => TransGen.mono (fun _ _ h => h.1) _ _ h⟩
  | reduceTransitively => exact ⟨fun k v hk => hk, fun x y h => (reduce_reach hi x y).1 h⟩
  | _ => first | exact ⟨fun k v hk => hk, fun x y h => h⟩ | cases ho

theorem run_grows {ω : Oracle} {p : List (Op K T)} {σ σ' : St K T} {rs : List (Res K T)} (hi : Inv σ.g) (hp : ∀ op ∈ p, op.isDelete = false)
    (h : run ω p σ = some (rs, σ')) : Inv σ'.g ∧ (abs σ.g).Within (abs σ'.g) := by
  induction p generalizing σ rs with
  | nil => cases h; exact ⟨hi, fun _ _ h => h, fun _ _ h => h⟩
  | cons op p ih =>
    obtain ⟨r, rs1, σ1, hc, hr, rfl⟩ := run_cons h
    obtain ⟨hi1, ha, -⟩ := hc.spec hi
    obtain ⟨h1, h2⟩ := ih hi1 (fun op h => hp op (.tail _ h)) hr
    exact ⟨h1, (ha ▸ next_grows hi op (hp op (.head _)) : (abs σ.g).Within (abs σ1.g)).trans h2⟩

theorem run_shrinks {ω : Oracle} {p : List (Op K T)} {σ σ' : St K T} {rs : List (Res K T)} (hi : Inv σ.g) (hp : ∀ op ∈ p, op.isAdd = false)
    (h : run ω p σ = some (rs, σ')) : Inv σ'.g ∧ (abs σ'.g).Within (abs σ.g) := by
  induction p generalizing σ rs with
  | nil => cases h; exact ⟨hi, fun _ _ h => h, fun _ _ h => h⟩
  | cons op p ih =>
    obtain ⟨r, rs1, σ1, hc, hr, rfl⟩ := run_cons h
    obtain ⟨hi1, ha, -⟩ := hc.spec hi
    obtain ⟨h1, h2⟩ := ih hi1 (fun op h => hp op (.tail _ h)) hr
    exact ⟨h1, h2.trans (ha ▸ next_shrinks hi op (hp op (.head _)) : (abs σ1.g).Within (abs σ.g))⟩

/-- When `AddEdge` returns `ErrEdgeLoop`. -/
theorem loop_iff {ω : Oracle} {σ σ' : St K T} {s t : K} {r : Res K T} (hi : Inv σ.g) (hc : Call ω σ (.addEdge s t) r σ') :
    r = .err (some .edgeLoop) ↔ TransGen (abs σ.g).E t s := by
  obtain ⟨-, -, hok⟩ := hc.spec hi
  cases r <;> first | exact hok.elim | skip
  rename_i r
  unfold Spec.ok at hok
  simp only at hok
  constructor
  · intro e
    obtain rfl : r = some .edgeLoop := Res.err.inj e
    by_contra hn
    cases he : Spec.edgeErr (abs σ.g) s t with
    | some e' =>
      rw [he] at hok
      unfold Spec.edgeErr at he
      rw [← hok] at he
      repeat' split at he
      all_goals cases he
    | none =>
      rw [he] at hok
      by_cases hE : (abs σ.g).E s t
      · cases hok.1 hE
      · cases hok.2.2 hE hn
  · intro h
    have hne : ¬ (abs σ.g).E s t := fun hE => hi.base.acyc s (.head hE h)
    have he : Spec.edgeErr (abs σ.g) s t = none := by
      obtain ⟨m, h1, -⟩ := TransGen.head'_iff.mp h
      obtain ⟨m', -, h2⟩ := TransGen.tail'_iff.mp h
      refine (edgeErr_none hi s t).2 ⟨?_, ?_, ?_⟩
      · rintro rfl; exact hi.base.acyc _ h
      · exact Option.ne_none_iff_exists'.1 (edge_ends hi h2).2
      · exact Option.ne_none_iff_exists'.1 (edge_ends hi h1).1
    rw [he] at hok
    exact congrArg _ (hok.2.1 hne h)

/-! ## C91 -/

/-- **C91.** As long as nothing is deleted, vertices keep their payloads and descendants, whatever is added and reduced in between. -/
theorem C91_grows (ω ω' : Oracle) (ops : List (Op K T)) (σ σ' : St K T) (h : After ω ops σ) (p : List (Op K T)) (hp : ∀ op ∈ p, op.isDelete = false)
    (rs : List (Res K T)) (hr : run ω' p σ = some (rs, σ')) : Within σ σ' := by
  obtain ⟨h1, h2⟩ := run_grows h.inv hp hr
  exact (within_iff h.inv h1).2 h2

/-- **C91.** As long as nothing is added, no vertex and no descendant comes up that was not there. -/
theorem C91_shrinks (ω ω' : Oracle) (ops : List (Op K T)) (σ σ' : St K T) (h : After ω ops σ) (p : List (Op K T)) (hp : ∀ op ∈ p, op.addsNothing = true)
    (rs : List (Res K T)) (hr : run ω' p σ = some (rs, σ')) : Within σ' σ := by
  obtain ⟨h1, h2⟩ := run_shrinks h.inv (fun op ho => by have := hp op ho; unfold Op.addsNothing at this; simpa using this) hr
  exact (within_iff h1 h.inv).2 h2

/-- **C91.** An edge that was refused because of a loop stays refused, for the same reason, until something is deleted … -/
theorem C91_refused (ω ω₁ ω₂ ω₃ : Oracle) (ops : List (Op K T)) (σ σ₁ σ₂ σ₃ : St K T) (h : After ω ops σ) (s t : K) (p : List (Op K T))
    (hp : ∀ op ∈ p, op.isDelete = false) (rs : List (Res K T)) (r : Res K T) (hc : Call ω₁ σ (.addEdge s t) (.err (some .edgeLoop)) σ₁)
    (hr : run ω₂ p σ₁ = some (rs, σ₂)) (hc' : Call ω₃ σ₂ (.addEdge s t) r σ₃) : r = .err (some .edgeLoop) := by
  have hi := h.inv
  obtain ⟨hi1, ha, -⟩ := hc.spec hi
  obtain ⟨hi2, hw⟩ := run_grows hi1 hp hr
  have h1 : (abs σ.g).Within (abs σ₁.g) := ha ▸ next_grows hi _ rfl
  exact (loop_iff hi2 hc').2 (hw.2 _ _ (h1.2 _ _ ((loop_iff hi hc).1 rfl)))

/-- … and after an edge was added the opposite one is refused, until something is deleted. -/
theorem C91_opposite (ω ω₁ ω₂ ω₃ : Oracle) (ops : List (Op K T)) (σ σ₁ σ₂ σ₃ : St K T) (h : After ω ops σ) (s t : K) (p : List (Op K T))
    (hp : ∀ op ∈ p, op.isDelete = false) (rs : List (Res K T)) (r : Res K T) (hc : Call ω₁ σ (.addEdge s t) (.err none) σ₁)
    (hr : run ω₂ p σ₁ = some (rs, σ₂)) (hc' : Call ω₃ σ₂ (.addEdge t s) r σ₃) : r = .err (some .edgeLoop) := by
  have hi := h.inv
  obtain ⟨hi1, ha, hok⟩ := hc.spec hi
  obtain ⟨hi2, hw⟩ := run_grows hi1 hp hr
  refine (loop_iff hi2 hc').2 (hw.2 _ _ ?_)
  rw [ha]
  refine (addEdge_reach _ s t s t).2 ?_
  unfold Spec.ok at hok
  simp only at hok
  cases he : Spec.edgeErr (abs σ.g) s t with
  | some e => rw [he] at hok; cases hok
  | none =>
    rw [he] at hok
    refine .inr ⟨⟨he.symm ▸ rfl, fun hts => ?_⟩, .inl rfl, .inl rfl⟩
    by_cases hE : (abs σ.g).E s t
    · cases hok.1 hE
    · cases hok.2.1 hE hts

/-- The hypotheses hold, with a reduction in between; after a deletion the edge can be added. -/
example : (run Oracle.forward (triangle ++ [.addEdge 3 1, .reduceTransitively, .addVertex 4 40, .addEdge 4 3, .addEdge 3 1, .deleteVertex 2, .addEdge 3 1])
    St.init).map (fun x => x.1.drop 6) =
      some [.err (some .edgeLoop), .unit, .err none, .err none, .err (some .edgeLoop), .err none, .err none] := by
  decide +kernel

example : (∀ op ∈ ([.reduceTransitively, .addVertex 4 40, .addEdge 4 3] : List (Op Nat Nat)), op.isDelete = false) ∧
    ∀ op ∈ deletions ++ [.reduceTransitively], op.addsNothing = true := by
  decide +kernel

end Verif.Dag
