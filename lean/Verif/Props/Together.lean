import Verif.Props.Splice

/-! # C97: which edges can be added together -/

set_option linter.unusedSectionVars false

namespace Verif.Dag
open M Relation

variable {K T : Type} [DecidableEq K] [GoZero K] [GoZero T]

/-! ## Specification -/

/-- The edges of the graph and those of a list. -/
def EdgeOr (σ : St K T) (es : List (K × K)) (x y : K) : Prop := Edge σ x y ∨ (x, y) ∈ es

/-- The relation has no cycle. -/
def NoCycle (E : K → K → Prop) : Prop := ∀ x, ¬ TransGen E x x

/-! ## Proof -/

theorem run_edges {ω : Oracle} {es : List (K × K)} {σ τ : St K T} {rs : List (Res K T)} (hi : Inv σ.g)
    (h : ∀ e ∈ es, (abs σ.g).V e.1 ≠ none ∧ (abs σ.g).V e.2 ≠ none) (hr : run ω (addEdges es) σ = some (rs, τ)) :
    Inv τ.g ∧ (abs τ.g).V = (abs σ.g).V ∧ (∀ x y, (abs σ.g).E x y → (abs τ.g).E x y) ∧
      (∀ x y, (abs τ.g).E x y → (abs σ.g).E x y ∨ (x, y) ∈ es) ∧ ((∀ r ∈ rs, r.there) → ∀ x y, (x, y) ∈ es → (abs τ.g).E x y) ∧
      (NoCycle (fun x y => (abs σ.g).E x y ∨ (x, y) ∈ es) → ∀ r ∈ rs, r.there) := by
  induction es generalizing σ rs with
  | nil => cases hr; exact ⟨hi, rfl, fun _ _ h => h, fun _ _ h => .inl h, by simp, by simp⟩
  | cons e es ih =>
    obtain ⟨s, t⟩ := e
    obtain ⟨r, rs1, σ1, hc, hr1, rfl⟩ := run_cons (op := .addEdge s t) (p := addEdges es) hr
    obtain ⟨hi1, ha, hok⟩ := hc.spec hi
    have hV : (abs σ1.g).V = (abs σ.g).V := by rw [ha]; rfl
    have hE : ∀ x y, (abs σ1.g).E x y ↔ (abs σ.g).E x y ∨ (Spec.CanAdd (abs σ.g) s t ∧ x = s ∧ y = t) := fun x y => by rw [ha]; rfl
    obtain ⟨h1, h2, h3, h4, h5, h6⟩ := ih hi1 (fun e he => by rw [hV]; exact h e (.tail _ he)) hr1
    -- the first call
    have first : (r.there → (abs σ1.g).E s t) ∧ (s ≠ t → ¬ TransGen (abs σ.g).E t s → r.there) := by
      obtain ⟨hs, ht⟩ := h (s, t) (.head _)
      cases r <;> first | exact hok.elim | skip
      unfold Spec.ok at hok
      simp only at hok
      refine ⟨fun hth => ?_, fun hne hnl => ?_⟩
      · cases he : Spec.edgeErr (abs σ.g) s t with
        | some e =>
          rw [he] at hok
          subst hok
          unfold Spec.edgeErr at he
          rcases hth with h | h <;> cases h
          repeat' split at he
          all_goals cases he
        | none =>
          rw [he] at hok
          rw [hE]
          by_cases hE' : (abs σ.g).E s t
          · exact .inl hE'
          · refine .inr ⟨⟨he, hE', fun hl => ?_⟩, rfl, rfl⟩
            rw [hok.2.1 hE' hl] at hth
            rcases hth with h | h <;> cases h
      · have he : Spec.edgeErr (abs σ.g) s t = none :=
          (edgeErr_none hi s t).2 ⟨hne, Option.ne_none_iff_exists'.1 hs, Option.ne_none_iff_exists'.1 ht⟩
        rw [he] at hok
        by_cases hE' : (abs σ.g).E s t
        · exact .inr (congrArg _ (hok.1 hE'))
        · exact .inl (congrArg _ (hok.2.2 hE' hnl))
    refine ⟨h1, h2.trans hV, fun x y h => h3 x y ((hE x y).2 (.inl h)), fun x y h => ?_, fun hd x y hxy => ?_, fun hn => ?_⟩
    · rcases h4 x y h with h | h
      · rcases (hE x y).1 h with h | ⟨-, rfl, rfl⟩
        · exact .inl h
        · exact .inr (.head _)
      · exact .inr (.tail _ h)
    · obtain ⟨hd1, hd2⟩ := List.forall_mem_cons.1 hd
      rcases List.mem_cons.1 hxy with e | hxy
      · obtain ⟨rfl, rfl⟩ := Prod.mk.inj e
        exact h3 _ _ (first.1 hd1)
      · exact h5 hd2 x y hxy
    · refine List.forall_mem_cons.2 ⟨first.2 ?_ ?_, h6 fun x hx => hn x (TransGen.mono (fun a b hab => ?_) _ _ hx)⟩
      · rintro rfl
        exact hn s (.single (.inr (.head _)))
      · exact fun hl => hn t ((TransGen.mono (fun a b hab => .inl hab) _ _ hl).tail (.inr (.head _)))
      · rcases hab with hab | hab
        · rcases (hE a b).1 hab with h | ⟨-, rfl, rfl⟩
          · exact .inl h
          · exact .inr (.head _)
        · exact .inr (.tail _ hab)

/-! ## C97 -/

/-- **C97.** Edges between known vertices, added in whatever order, are all accepted (or there already) exactly if they and the edges of the graph
together have no cycle; then the graph has exactly these edges, and otherwise a part of them. -/
theorem C97_exact (ω ω' : Oracle) (ops : List (Op K T)) (σ : St K T) (h : After ω ops σ) (es : List (K × K))
    (hk : ∀ e ∈ es, Known σ e.1 ∧ Known σ e.2) :
    ∃ rs τ, run ω' (addEdges es) σ = some (rs, τ) ∧ ((∀ r ∈ rs, r.there) ↔ NoCycle (EdgeOr σ es)) ∧
      ((∀ r ∈ rs, r.there) → ∀ x y, Edge τ x y ↔ EdgeOr σ es x y) ∧
      (∀ x y, Edge σ x y → Edge τ x y) ∧ (∀ x y, Edge τ x y → EdgeOr σ es x y) ∧ ∀ k v, Bound τ k v ↔ Bound σ k v := by
  have i := h.inv
  obtain ⟨rs, τ, h1, -, -, -⟩ := run_refines_from ω' (addEdges es) σ i
  obtain ⟨j, h2, h3, h4, h5, h6⟩ := run_edges i (fun e he => by
    obtain ⟨ha, hb⟩ := hk e he
    exact ⟨Option.ne_none_iff_exists'.2 ((known_iff i _).1 ha), Option.ne_none_iff_exists'.2 ((known_iff i _).1 hb)⟩) h1
  have eo : EdgeOr σ es = fun x y => (abs σ.g).E x y ∨ (x, y) ∈ es := by
    funext x y
    unfold EdgeOr
    rw [edge_eq i]
  rw [eo]
  refine ⟨rs, τ, h1, ?_⟩
  rw [edge_eq i, edge_eq j]
  refine ⟨⟨fun hd x hx => ?_, h6⟩, fun hd x y => ⟨h4 x y, fun h => h.elim (h3 x y) (h5 hd x y)⟩, h3, h4, fun k v => ?_⟩
  · exact j.base.acyc x (TransGen.mono (fun a b hab => hab.elim (h3 a b) (h5 hd a b)) _ _ hx)
  · rw [bound_iff i, bound_iff j, h2]

/-- **C97.** So the order does not matter: if all edges are accepted in one order, they are in every other, also with repetitions, and the same
graph results. -/
theorem C97_order (ω ω₁ ω₂ : Oracle) (ops : List (Op K T)) (σ : St K T) (h : After ω ops σ) (es es' : List (K × K))
    (hk : ∀ e ∈ es, Known σ e.1 ∧ Known σ e.2) (he : ∀ e, e ∈ es ↔ e ∈ es') (rs : List (Res K T)) (τ : St K T)
    (hr : run ω₁ (addEdges es) σ = some (rs, τ)) (hd : ∀ r ∈ rs, r.there) :
    ∃ rs' τ', run ω₂ (addEdges es') σ = some (rs', τ') ∧ (∀ r ∈ rs', r.there) ∧ SameGraph τ τ' := by
  obtain ⟨rs0, τ0, h1, h2, h3, -, -, h4⟩ := C97_exact ω ω₁ ops σ h es hk
  rw [hr] at h1
  obtain ⟨rfl, rfl⟩ : rs = rs0 ∧ τ = τ0 := by cases h1; exact ⟨rfl, rfl⟩
  obtain ⟨rs', τ', h1', h2', h3', -, -, h4'⟩ := C97_exact ω ω₂ ops σ h es' fun e h => hk e ((he e).2 h)
  have eo : EdgeOr σ es' = EdgeOr σ es := by
    funext x y
    unfold EdgeOr
    rw [he]
  rw [eo] at h2' h3'
  have hd' := h2'.2 (h2.1 hd)
  exact ⟨rs', τ', h1', hd', fun k v => (h4 k v).trans (h4' k v).symm, fun x y => (h3 hd x y).trans (h3' hd' x y).symm⟩

/-- **C97**, why all have to be accepted: of edges that make a cycle together, the last one is refused, and which that is depends on the order. -/
theorem C97_cycle : ((run Oracle.forward ([.addVertex 1 10, .addVertex 2 20] ++ addEdges [(1, 2), (2, 1)]) (St.init : St Nat Nat)).map Prod.fst =
      some [.err none, .err none, .err none, .err (some .edgeLoop)]) ∧
    ((run Oracle.forward ([.addVertex 1 10, .addVertex 2 20] ++ addEdges [(2, 1), (1, 2)] ++ [.isEdge 1 2]) (St.init : St Nat Nat)).map Prod.fst =
      some [.err none, .err none, .err none, .err (some .edgeLoop), .flag (.ok false)]) := by
  decide +kernel

/-- The hypotheses: edges for the diamond, one of them there already. -/
example : ∀ e ∈ [((3 : Nat), (2 : Nat)), (1, 4)], Known demo e.1 ∧ Known demo e.2 := by
  intro e he
  simp only [List.mem_cons, List.not_mem_nil, or_false] at he
  rcases he with rfl | rfl
  · exact ⟨(demo_known 3).2 (by simp), (demo_known 2).2 (by simp)⟩
  · exact ⟨(demo_known 1).2 (by simp), (demo_known 4).2 (by simp)⟩

example : (run Oracle.forward (demoOps ++ addEdges [(3, 2), (1, 4)]) St.init).map (fun x => x.1.drop demoOps.length) =
    some [.err none, .err (some .edgeDuplicate)] := by
  decide +kernel

end Verif.Dag
