import Verif.Props.Levels

/-! # C95: a vertex can be replaced by another one -/

set_option linter.unusedSectionVars false

namespace Verif.Dag
open M Relation

variable {K T : Type} [DecidableEq K] [GoZero K] [GoZero T]

/-! ## Specification -/

/-- The id in the old graph for an id in the new one. -/
def oldId (k k' x : K) : K := if x = k' then k else x

/-- `τ` is the graph `σ` with the vertex `k'` and its payload `v'` in the place of the vertex `k`. -/
def Replaced (σ τ : St K T) (k k' : K) (v' : T) : Prop :=
  (∀ x v, Bound τ x v ↔ (x = k' ∧ v = v') ∨ (x ≠ k ∧ x ≠ k' ∧ Bound σ x v)) ∧
  ∀ x y, Edge τ x y ↔ x ≠ k ∧ y ≠ k ∧ Edge σ (oldId k k' x) (oldId k k' y)

/-! ## C95 -/

/-- **C95.** A client that adds a new vertex, gives it the parents and the children of an old one, in whatever order, and deletes the old one
succeeds with every call, and has the same graph with the new vertex in the place of the old one. -/
theorem C95_replace (ω ω₁ ω₂ ω₃ ω₄ : Oracle) (h₁ : List (Op K T)) (σ σ₁ σ₂ : St K T) (a₁ : After ω₁ h₁ σ) (k k' : K) (v' : T) (ps cs : List (K × T))
    (hk' : ¬ Known σ k') (hz : k' ≠ zero) (hp : Call ω₂ σ (.getParents k) (.entriesE (.ok ps)) σ₁)
    (hc : Call ω₃ σ (.getChildren k) (.entriesE (.ok cs)) σ₂) (es : List (K × K))
    (hes : es.Perm ((ps.map fun p => (p.1, k')) ++ cs.map fun c => (k', c.1))) :
    ∃ rs τ₁ τ, run ω (.addVertex k' v' :: addEdges es) σ = some (rs, τ₁) ∧ (∀ r ∈ rs, r.done) ∧
      Call ω₄ τ₁ (.deleteVertex k) (.err none) τ ∧ Replaced σ τ k k' v' := by
  have i := a₁.inv
  obtain ⟨-, -, hok⟩ := hp.spec i
  obtain ⟨hke, np, hp⟩ := orErr_ok (e := Spec.vertexErr (abs σ.g) k) hok
  obtain ⟨-, -, hok⟩ := hc.spec i
  obtain ⟨-, nc, hc⟩ := orErr_ok (e := Spec.vertexErr (abs σ.g) k) hok
  have hkz : k ≠ zero := by
    rintro rfl
    simp [Spec.vertexErr] at hke
  have hkV : (abs σ.g).V k ≠ none := by
    intro hk
    simp [Spec.vertexErr, hk, hkz] at hke
  have hV' : (abs σ.g).V k' = none := by
    cases h : (abs σ.g).V k' with
    | none => rfl
    | some v => exact absurd ((known_iff i k').2 ⟨v, h⟩) hk'
  have hkk : k ≠ k' := fun e => hkV (e ▸ hV')
  have hno : ∀ x y, (abs σ.g).E x y → x ≠ k' ∧ y ≠ k' := fun x y h =>
    ⟨fun e => (edge_ends i h).1 (e ▸ hV'), fun e => (edge_ends i h).2 (e ▸ hV')⟩
  have mes : ∀ x y, (x, y) ∈ es ↔ ((abs σ.g).E x k ∧ y = k') ∨ (x = k' ∧ (abs σ.g).E k y) := by
    intro x y
    rw [hes.mem_iff, List.mem_append]
    constructor
    · rintro (h | h)
      · obtain ⟨p, hp', e⟩ := List.mem_map.1 h
        obtain ⟨rfl, rfl⟩ := Prod.mk.inj e
        exact .inl ⟨((hp p.1 p.2).1 hp').2, rfl⟩
      · obtain ⟨c, hc', e⟩ := List.mem_map.1 h
        obtain ⟨rfl, rfl⟩ := Prod.mk.inj e
        exact .inr ⟨rfl, ((hc c.1 c.2).1 hc').2⟩
    · rintro (⟨h, rfl⟩ | ⟨rfl, h⟩)
      · obtain ⟨u, hu⟩ := Option.ne_none_iff_exists'.1 (edge_ends i h).1
        exact .inl (List.mem_map.2 ⟨(x, u), (hp x u).2 ⟨hu, h⟩, rfl⟩)
      · obtain ⟨u, hu⟩ := Option.ne_none_iff_exists'.1 (edge_ends i h).2
        exact .inr (List.mem_map.2 ⟨(y, u), (hc y u).2 ⟨hu, h⟩, rfl⟩)
  have ne : es.Nodup := by
    rw [hes.nodup_iff, List.nodup_append]
    have e1 : (ps.map fun p => (p.1, k')) = (ps.map Prod.fst).map fun p => (p, k') := by rw [List.map_map]; rfl
    have e2 : (cs.map fun c => (k', c.1)) = (cs.map Prod.fst).map fun c => (k', c) := by rw [List.map_map]; rfl
    refine ⟨?_, ?_, ?_⟩
    · rw [e1]; exact np.map fun x y h => (Prod.mk.inj h).1
    · rw [e2]; exact nc.map fun x y h => (Prod.mk.inj h).2
    · intro x hx y hy e
      obtain ⟨p, hp', rfl⟩ := List.mem_map.1 hx
      obtain ⟨c, hc', rfl⟩ := List.mem_map.1 hy
      have h1 := (Prod.mk.inj e).1
      exact (hno _ _ ((hp p.1 p.2).1 hp').2).1 h1
  have old : ∀ x, x ≠ k' → oldId k k' x = x := fun x h => if_neg h
  have old' : oldId k k' k' = k := if_pos rfl
  -- the graph with both vertices
  let fin : Abs K T := ⟨fun x => if x = k' then some v' else (abs σ.g).V x, fun x y => (abs σ.g).E (oldId k k' x) (oldId k k' y)⟩
  have finV : ∀ x, x ≠ k' → fin.V x = (abs σ.g).V x := fun x h => if_neg h
  have finE : ∀ x y, fin.E x y ↔ ((abs σ.g).E x y ∨ (x, y) ∈ es) := by
    intro x y
    show (abs σ.g).E (oldId k k' x) (oldId k k' y) ↔ _
    rw [mes]
    by_cases hx : x = k'
    · subst hx
      rw [old']
      by_cases hy : y = x
      · subst hy
        rw [old']
        constructor
        · exact fun h => absurd (.single h) (i.base.acyc k)
        · rintro (h | ⟨h, -⟩ | ⟨-, h⟩)
          · exact absurd rfl (hno _ _ h).1
          · exact absurd rfl (hno _ _ h).1
          · exact absurd rfl (hno _ _ h).2
      · rw [old y hy]
        constructor
        · exact fun h => .inr (.inr ⟨rfl, h⟩)
        · rintro (h | ⟨-, h⟩ | ⟨-, h⟩)
          · exact absurd rfl (hno _ _ h).1
          · exact absurd h hy
          · exact h
    · rw [old x hx]
      by_cases hy : y = k'
      · subst hy
        rw [old']
        constructor
        · exact fun h => .inr (.inl ⟨h, rfl⟩)
        · rintro (h | ⟨h, -⟩ | ⟨h, -⟩)
          · exact absurd rfl (hno _ _ h).2
          · exact h
          · exact absurd h hx
      · rw [old y hy]
        constructor
        · exact .inl
        · rintro (h | ⟨-, h⟩ | ⟨h, -⟩)
          · exact h
          · exact absurd h hy
          · exact absurd h hx
  have acyc : ∀ x, ¬ TransGen fin.E x x := fun x h => i.base.acyc _ (TransGen.lift (oldId k k') (fun _ _ h => h) _ _ h)
  have e0 : (.addVertex k' v' :: addEdges es : List (Op K T)) = addVertices [(k', v')] ++ addEdges es := rfl
  rw [e0]
  have adds : Adds (abs σ.g) fin (addVertices [(k', v')] ++ addEdges es) := by
    refine ⟨?_, ?_, ?_, ?_, ?_, ?_⟩
    · rw [addedV_adds]; exact List.nodup_singleton _
    · rw [addedV_adds]
      intro x v h
      obtain ⟨rfl, rfl⟩ := Prod.mk.inj (List.mem_singleton.1 h)
      exact ⟨hz, hV'⟩
    · rw [addedE_adds]; exact ne
    · rw [addedE_adds]
      intro s t hst
      have hf := (finE s t).2 (.inr hst)
      have hne : s ≠ t := fun e => acyc s (.single (e ▸ hf))
      have hz' : ∀ x, fin.V x ≠ none → x ≠ zero := fun x hx => by
        by_cases e : x = k'
        · exact e ▸ hz
        · rw [finV x e] at hx; exact nonzero i hx
      have hk'V : fin.V k' ≠ none := by
        show (if k' = k' then some v' else _) ≠ none
        rw [if_pos rfl]; exact Option.some_ne_none _
      have hends : fin.V s ≠ none ∧ fin.V t ≠ none := by
        rcases (mes s t).1 hst with ⟨h, rfl⟩ | ⟨rfl, h⟩
        · exact ⟨by rw [finV s (hno _ _ h).1]; exact (edge_ends i h).1, hk'V⟩
        · exact ⟨hk'V, by rw [finV t (hno _ _ h).2]; exact (edge_ends i h).2⟩
      refine ⟨hz' s hends.1, hz' t hends.2, hne, fun h => ?_, Option.isSome_iff_ne_none.2 hends.1, Option.isSome_iff_ne_none.2 hends.2⟩
      rcases (mes s t).1 hst with ⟨-, e⟩ | ⟨e, -⟩
      · exact (hno _ _ h).2 e
      · exact (hno _ _ h).1 e
    · rw [addedV_adds]
      intro x v
      by_cases e : x = k'
      · subst e
        show (if x = x then some v' else _) = some v ↔ _
        rw [if_pos rfl, hV']
        simp [eq_comm]
      · rw [finV x e]
        simp [e]
    · rw [addedE_adds]
      exact fun x y h => (finE x y).2 h
  have ha : ∀ op ∈ (addVertices [(k', v')] ++ addEdges es : List (Op K T)), op.isAdd = true := by
    intro op hop
    rcases List.mem_append.1 hop with h | h <;> obtain ⟨e, -, rfl⟩ := List.mem_map.1 h <;> rfl
  obtain ⟨rs, τ₁, h1, h2, h3, h4⟩ := run_refines_from ω (addVertices [(k', v')] ++ addEdges es) σ i
  have hd := (done_of_adds ha acyc adds h4).2 (adds_first _ _)
  obtain ⟨hA, hE'⟩ := adds_of_done ha h4 hd
  rw [← h3] at hA hE'
  rw [addedE_adds] at hE'
  have tV : ∀ x v, (abs τ₁.g).V x = some v ↔ fin.V x = some v := fun x v => by rw [hA.V, adds.V]
  have tE : ∀ x y, (abs τ₁.g).E x y ↔ fin.E x y := fun x y =>
    ⟨fun h => (finE x y).2 (hE' x y h), fun h => hA.E x y (by rw [addedE_adds]; exact (finE x y).1 h)⟩
  obtain ⟨r, τ, hcall⟩ := call_exists ω₄ h2 (.deleteVertex k)
  obtain ⟨j, hj, hr⟩ := hcall.spec h2
  have hr : r = .err none := by
    cases r <;> first | exact hr.elim | skip
    refine congrArg _ (Eq.trans hr ?_)
    obtain ⟨u, hu⟩ := Option.ne_none_iff_exists'.1 hkV
    have := (tV k u).2 ((finV k hkk).trans hu)
    simp [Spec.vertexErr, hkz, this]
  subst hr
  refine ⟨rs, τ₁, τ, h1, hd, hcall, fun x v => ?_, fun x y => ?_⟩
  · rw [bound_iff j, bound_iff i, hj]
    show (if x = k then none else (abs τ₁.g).V x) = some v ↔ _
    by_cases e : x = k
    · rw [if_pos e]
      simp [e, hkk]
    · rw [if_neg e, tV]
      by_cases e' : x = k'
      · subst e'
        show (if x = x then some v' else _) = some v ↔ _
        simp [eq_comm]
      · rw [finV x e']
        simp [e, e']
  · rw [edge_iff j, edge_iff i, hj]
    show (abs τ₁.g).E x y ∧ x ≠ k ∧ y ≠ k ↔ _
    rw [tE]
    exact ⟨fun ⟨h1, h2, h3⟩ => ⟨h2, h3, h1⟩, fun ⟨h1, h2, h3⟩ => ⟨h3, h1, h2⟩⟩

/-- **C95.** Whatever can be reached is the same up to the new name. -/
theorem C95_reach (ω : Oracle) (ops : List (Op K T)) (σ τ : St K T) (ha : After ω ops σ) (k k' : K) (v' : T) (hk : Known σ k) (hn : ¬ Known σ k')
    (h : Replaced σ τ k k' v') (x y : K) (hx : x ≠ k) (hy : y ≠ k) :
    TransGen (Edge τ) x y ↔ TransGen (Edge σ) (oldId k k' x) (oldId k k' y) := by
  have hkk : k ≠ k' := fun e => hn (e ▸ hk)
  have hk' : ∀ x, ¬ Edge σ k' x ∧ ¬ Edge σ x k' := fun x =>
    ⟨fun he => hn ((known_iff ha.inv _).2 (Option.ne_none_iff_exists'.1 (edge_ends ha.inv ((edge_iff ha.inv _ _).1 he)).1)),
      fun he => hn ((known_iff ha.inv _).2 (Option.ne_none_iff_exists'.1 (edge_ends ha.inv ((edge_iff ha.inv _ _).1 he)).2))⟩
  constructor
  · exact fun ht => TransGen.lift (oldId k k') (fun a b hab => ((h.2 a b).1 hab).2.2) _ _ ht
  · have key : ∀ a b, TransGen (Edge σ) a b → TransGen (Edge τ) (if a = k then k' else a) (if b = k then k' else b) := fun a b hab => by
      refine TransGen.lift (fun a => if a = k then k' else a) (fun a b hab => (h.2 _ _).2 ?_) _ _ hab
      have ha : a ≠ k' := fun e => (hk' b).1 (e ▸ hab)
      have hb : b ≠ k' := fun e => (hk' a).2 (e ▸ hab)
      have key : ∀ c, c ≠ k' → (if c = k then k' else c) ≠ k ∧ oldId k k' (if c = k then k' else c) = c := fun c hc => by
        unfold oldId
        by_cases e : c = k
        · rw [if_pos e, if_pos rfl]; exact ⟨hkk.symm, e.symm⟩
        · rw [if_neg e, if_neg hc]; exact ⟨e, rfl⟩
      rw [(key a ha).2, (key b hb).2]
      exact ⟨(key a ha).1, (key b hb).1, hab⟩
    intro ht
    have e : ∀ z, z ≠ k → (if oldId k k' z = k then k' else oldId k k' z) = z := fun z hz => by
      unfold oldId
      by_cases e : z = k'
      · rw [if_pos e, if_pos rfl]; exact e.symm
      · rw [if_neg e, if_neg hz]
    have := key _ _ ht
    rw [e x hx, e y hy] at this
    exact this

/-- The diamond: 7 takes the place of 2. -/
example (σ₁ σ₂ : St Nat Nat) (hp : Call Oracle.forward demo (.getParents 2) (.entriesE (.ok [(1, 10)])) σ₁)
    (hc : Call Oracle.forward demo (.getChildren 2) (.entriesE (.ok [(4, 40)])) σ₂) :
    ∃ rs τ₁ τ, run Oracle.backward (.addVertex 7 70 :: addEdges [(7, 4), (1, 7)]) demo = some (rs, τ₁) ∧ (∀ r ∈ rs, r.done) ∧
      Call Oracle.forward τ₁ (.deleteVertex 2) (.err none) τ ∧ Replaced demo τ 2 7 70 :=
  C95_replace Oracle.backward Oracle.forward Oracle.forward Oracle.forward Oracle.forward demoOps demo σ₁ σ₂ demo_after 2 7 70 [(1, 10)] [(4, 40)]
    (fun h => by rcases (demo_known 7).1 h with h | h | h | h <;> cases h) (by decide) hp hc _ (by decide +kernel)

end Verif.Dag
