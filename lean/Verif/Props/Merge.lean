import Verif.Props.Ranks

/-! # C99: a graph can be put below another one -/

set_option linter.unusedSectionVars false

namespace Verif.Dag
open M Relation

variable {K T : Type} [DecidableEq K] [GoZero K] [GoZero T]

/-! ## Proof -/

theorem below_reach {A B F : K → K → Prop} {P : K → Prop} (hA : ∀ x y, A x y → ¬ P x ∧ ¬ P y) (hB : ∀ x y, B x y → P x ∧ P y)
    (hF : ∀ x y, F x y → A x y ∨ B x y ∨ (¬ P x ∧ P y)) {x y : K} (h : TransGen F x y) :
    (P x → P y ∧ TransGen B x y) ∧ (¬ P x → ¬ P y → TransGen A x y) := by
  induction h with
  | single h =>
    rcases hF _ _ h with h | h | h
    · exact ⟨fun hx => absurd hx (hA _ _ h).1, fun _ _ => .single h⟩
    · exact ⟨fun _ => ⟨(hB _ _ h).2, .single h⟩, fun hx => absurd (hB _ _ h).1 hx⟩
    · exact ⟨fun hx => absurd hx h.1, fun _ hy => absurd h.2 hy⟩
  | @tail b c _ hc ih =>
    rcases hF _ _ hc with h | h | h
    · exact ⟨fun hx => absurd (ih.1 hx).1 (hA _ _ h).1, fun hx _ => (ih.2 hx (hA _ _ h).1).tail h⟩
    · exact ⟨fun hx => ⟨(hB _ _ h).2, (ih.1 hx).2.tail h⟩, fun _ hy => absurd (hB _ _ h).2 hy⟩
    · exact ⟨fun hx => absurd (ih.1 hx).1 h.1, fun _ hy => absurd h.2 hy⟩

/-! ## C99 -/

/-- **C99.** If two graphs have no ids in common, the vertices and edges of the second one can be added to the first one, together with any edges
from vertices of the first to vertices of the second, the edges in whatever order: every call succeeds, the result has exactly the vertices and
edges of both and the new ones, and within either graph nothing is reached that was not reached before. -/
theorem C99_below (ω ω₁ ω₂ : Oracle) (h₁ h₂ : List (Op K T)) (σ σ' : St K T) (a₁ : After ω₁ h₁ σ) (a₂ : After ω₂ h₂ σ')
    (hd : ∀ k, Known σ k → ¬ Known σ' k) (vs : List (K × T)) (nv : (vs.map Prod.fst).Nodup) (hvs : ∀ k v, (k, v) ∈ vs ↔ Bound σ' k v)
    (bs es : List (K × K)) (hbs : ∀ e ∈ bs, Known σ e.1 ∧ Known σ' e.2) (ne : es.Nodup) (hes : ∀ x y, (x, y) ∈ es ↔ Edge σ' x y ∨ (x, y) ∈ bs) :
    ∃ rs τ, run ω (addVertices vs ++ addEdges es) σ = some (rs, τ) ∧ (∀ r ∈ rs, r.done) ∧
      (∀ k v, Bound τ k v ↔ Bound σ k v ∨ Bound σ' k v) ∧ (∀ x y, Edge τ x y ↔ Edge σ x y ∨ Edge σ' x y ∨ (x, y) ∈ bs) ∧
      (∀ x y, Known σ x → Known σ y → (TransGen (Edge τ) x y ↔ TransGen (Edge σ) x y)) ∧
      ∀ x y, Known σ' x → (TransGen (Edge τ) x y ↔ TransGen (Edge σ') x y) := by
  have i := a₁.inv
  have i' := a₂.inv
  simp only [bound_iff i', edge_iff i', known_iff i, known_iff i', ← Option.ne_none_iff_exists'] at hd hvs hes hbs
  have hone : ∀ k, (abs σ'.g).V k ≠ none → (abs σ.g).V k = none := fun k hk => by
    by_contra h
    exact hd k h hk
  -- both graphs
  let fin : Abs K T := ⟨fun k => ((abs σ.g).V k).or ((abs σ'.g).V k), fun x y => (abs σ.g).E x y ∨ (abs σ'.g).E x y ∨ (x, y) ∈ bs⟩
  have finV : ∀ k v, fin.V k = some v ↔ (abs σ.g).V k = some v ∨ (abs σ'.g).V k = some v := fun k v => by
    show ((abs σ.g).V k).or ((abs σ'.g).V k) = some v ↔ _
    cases h : (abs σ.g).V k with
    | none => simp
    | some u =>
      have : (abs σ'.g).V k = none := by
        by_contra h'
        rw [hone k h'] at h
        cases h
      simp [this]
  have finK : ∀ k, (abs σ.g).V k ≠ none ∨ (abs σ'.g).V k ≠ none → fin.V k ≠ none := fun k h => by
    rcases h with h | h <;> obtain ⟨v, hv⟩ := Option.ne_none_iff_exists'.1 h
    · rw [(finV k v).2 (.inl hv)]; exact Option.some_ne_none v
    · rw [(finV k v).2 (.inr hv)]; exact Option.some_ne_none v
  have hA : ∀ x y, (abs σ.g).E x y → ¬ (abs σ'.g).V x ≠ none ∧ ¬ (abs σ'.g).V y ≠ none := fun x y h =>
    ⟨hd x (edge_ends i h).1, hd y (edge_ends i h).2⟩
  have hB : ∀ x y, (abs σ'.g).E x y → (abs σ'.g).V x ≠ none ∧ (abs σ'.g).V y ≠ none := fun x y h => edge_ends i' h
  have hF : ∀ x y, fin.E x y → (abs σ.g).E x y ∨ (abs σ'.g).E x y ∨ (¬ (abs σ'.g).V x ≠ none ∧ (abs σ'.g).V y ≠ none) := fun x y h =>
    h.imp_right (Or.imp_right fun h => ⟨hd x (hbs _ h).1, (hbs _ h).2⟩)
  have acyc : ∀ x, ¬ TransGen fin.E x x := fun x h => by
    obtain ⟨h1, h2⟩ := below_reach (P := fun k => (abs σ'.g).V k ≠ none) hA hB hF h
    by_cases hx : (abs σ'.g).V x ≠ none
    · exact i'.base.acyc x (h1 hx).2
    · exact i.base.acyc x (h2 hx hx)
  have adds : Adds (abs σ.g) fin (addVertices vs ++ addEdges es) := by
    refine ⟨?_, ?_, ?_, ?_, ?_, ?_⟩
    · rw [addedV_adds]; exact nv
    · rw [addedV_adds]
      intro k v hk
      have h : (abs σ'.g).V k ≠ none := by rw [(hvs k v).1 hk]; exact Option.some_ne_none v
      exact ⟨nonzero i' h, hone k h⟩
    · rw [addedE_adds]; exact ne
    · rw [addedE_adds]
      intro s t hst
      have hf : fin.E s t := .inr ((hes s t).1 hst)
      have hk : ((abs σ.g).V s ≠ none ∨ (abs σ'.g).V s ≠ none) ∧ (abs σ'.g).V t ≠ none := by
        rcases (hes s t).1 hst with h | h
        · exact ⟨.inr (hB _ _ h).1, (hB _ _ h).2⟩
        · exact ⟨.inl (hbs _ h).1, (hbs _ h).2⟩
      refine ⟨hk.1.elim (nonzero i) (nonzero i'), nonzero i' hk.2, fun e => acyc s (.single (e ▸ hf)), fun h => (hA _ _ h).2 hk.2,
        Option.isSome_iff_ne_none.2 (finK s hk.1), Option.isSome_iff_ne_none.2 (finK t (.inr hk.2))⟩
    · rw [addedV_adds]
      intro k v
      rw [finV, hvs]
    · rw [addedE_adds]
      exact fun x y h => h.imp_right (hes x y).1
  have ha : ∀ op ∈ (addVertices vs ++ addEdges es : List (Op K T)), op.isAdd = true := by
    intro op hop
    rcases List.mem_append.1 hop with h | h <;> obtain ⟨e, -, rfl⟩ := List.mem_map.1 h <;> rfl
  obtain ⟨rs, τ, h1, j, h3, h4⟩ := run_refines_from ω (addVertices vs ++ addEdges es) σ i
  have hdone := (done_of_adds ha acyc adds h4).2 (adds_first _ _)
  obtain ⟨hA', hE'⟩ := adds_of_done ha h4 hdone
  rw [← h3] at hA' hE'
  rw [addedE_adds] at hE'
  have tE : ∀ x y, (abs τ.g).E x y ↔ fin.E x y := fun x y =>
    ⟨fun h => (hE' x y h).imp_right (hes x y).1, fun h => hA'.E x y (by rw [addedE_adds]; exact h.imp_right (hes x y).2)⟩
  have tR : TransGen (abs τ.g).E = TransGen fin.E := congrArg TransGen (funext fun x => funext fun y => propext (tE x y))
  refine ⟨rs, τ, h1, hdone, fun k v => ?_, fun x y => ?_, fun x y hx hy => ?_, fun x y hx => ?_⟩
  · rw [bound_iff j, bound_iff i, bound_iff i', hA'.V, addedV_adds, hvs]
  · rw [edge_iff j, edge_iff i, edge_iff i', tE]
  · rw [known_iff i, ← Option.ne_none_iff_exists'] at hx hy
    rw [edge_eq j, edge_eq i, tR]
    exact ⟨fun h => (below_reach (P := fun k => (abs σ'.g).V k ≠ none) hA hB hF h).2 (hd x hx) (hd y hy), TransGen.mono (fun _ _ h => .inl h) _ _⟩
  · rw [known_iff i', ← Option.ne_none_iff_exists'] at hx
    rw [edge_eq j, edge_eq i', tR]
    exact ⟨fun h => ((below_reach (P := fun k => (abs σ'.g).V k ≠ none) hA hB hF h).1 hx).2, TransGen.mono (fun _ _ h => .inr (.inl h)) _ _⟩

/-- A graph 7 → 8. -/
def lower : List (Op Nat Nat) := [.addVertex 7 70, .addVertex 8 80, .addEdge 7 8]

/-- It can be put below the diamond, with edges from 4 to 7 and from 1 to 8. -/
example : (run Oracle.forward (demoOps ++ (addVertices [(8, 80), (7, 70)] ++ addEdges [(1, 8), (4, 7), (7, 8)]) ++ [.getSize]) St.init).map
      (fun x => x.1.drop demoOps.length) =
    some [.err none, .err none, .err none, .err none, .err none, .count 8] := by
  decide +kernel

/-- The hypotheses, for any state with these two vertices and this edge. -/
example (σ' : St Nat Nat) (a : After Oracle.backward lower σ') (hb : ∀ k v, Bound σ' k v ↔ (k, v) = (7, 70) ∨ (k, v) = (8, 80))
    (he : ∀ x y, Edge σ' x y ↔ (x, y) = (7, 8)) (hk : ∀ k, Known σ' k ↔ k = 7 ∨ k = 8) :
    ∃ rs τ, run Oracle.forward (addVertices [(8, 80), (7, 70)] ++ addEdges [(1, 8), (4, 7), (7, 8)]) demo = some (rs, τ) ∧ ∀ r ∈ rs, r.done := by
  obtain ⟨rs, τ, h1, h2, -⟩ := C99_below Oracle.forward Oracle.forward Oracle.backward demoOps lower demo σ' demo_after a
    (fun k h1 h2 => by
      rcases (demo_known k).1 h1 with rfl | rfl | rfl | rfl <;> rcases (hk _).1 h2 with h | h <;> cases h)
    [(8, 80), (7, 70)] (by decide) (fun k v => by rw [hb]; simp [or_comm]) [(1, 8), (4, 7)] [(1, 8), (4, 7), (7, 8)]
    (fun e h => by
      simp only [List.mem_cons, List.not_mem_nil, or_false] at h
      rcases h with rfl | rfl
      · exact ⟨(demo_known 1).2 (by simp), (hk 8).2 (by simp)⟩
      · exact ⟨(demo_known 4).2 (by simp), (hk 7).2 (by simp)⟩)
    (by decide) (fun x y => by rw [he]; simp; tauto)
  exact ⟨rs, τ, h1, h2⟩

end Verif.Dag
