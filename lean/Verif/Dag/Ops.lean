import Verif.Dag.Inv

/-! Every graph operation preserves the invariant; what each does to vertices and edges. -/

set_option linter.unusedSectionVars false

namespace Verif.Dag
open M Relation

variable {K T : Type} [DecidableEq K] [GoZero K] [GoZero T]

/-- Same vertices and same edge maps (caches may differ). -/
structure Same (g g' : Graph K T) : Prop where
  v : g'.vertices = g.vertices
  i : g'.inb = g.inb
  o : g'.outb = g.outb

theorem Same.refl (g : Graph K T) : Same g g := ⟨rfl, rfl, rfl⟩
theorem Same.trans {g g' g'' : Graph K T} (h : Same g g') (h' : Same g' g'') : Same g g'' :=
  ⟨h'.v.trans h.v, h'.i.trans h.i, h'.o.trans h.o⟩
theorem SameBut.same {d : Dir} {g g' : Graph K T} (h : SameBut d g g') : Same g g' :=
  ⟨h.vertices, h.edges .up, h.edges .down⟩
theorem Same.E {g g' : Graph K T} (h : Same g g') : g'.E = g.E := by
  unfold Graph.E; rw [h.o]

theorem SameBut.inv {d : Dir} {g g' : Graph K T} (h : SameBut d g g') (hi : Inv g) (hc : CInv d g') :
    Inv g' := by
  have hb := h.ginv hi.base
  cases d with
  | down =>
    refine ⟨hb, hc, ?_⟩
    have e : g'.ancC = g.ancC := by rw [h]; rfl
    constructor
    · show GoMap.NodupKeys g'.ancC; rw [e]; exact hi.up.nd
    · intro v S hS; rw [h.vertices, h.E]; exact hi.up.exact v S (by rw [← hS]; show _ = GoMap.get? g'.ancC v; rw [e]; rfl)
    · intro v c hv hE; rw [h.E] at hE
      have := hi.up.closed v c
      simp only [Dir.cache, e] at *
      exact this hv hE
  | up =>
    refine ⟨hb, ?_, hc⟩
    have e : g'.descC = g.descC := by rw [h]; rfl
    constructor
    · show GoMap.NodupKeys g'.descC; rw [e]; exact hi.down.nd
    · intro v S hS; rw [h.vertices, h.E]; exact hi.down.exact v S (by rw [← hS]; show _ = GoMap.get? g'.descC v; rw [e]; rfl)
    · intro v c hv hE; rw [h.E] at hE
      have := hi.down.closed v c
      simp only [Dir.cache, e] at *
      exact this hv hE

/-- Exactly `id` and what it leads to in direction `d` have been added to the cached vertices of that direction. -/
def Fills (d : Dir) (id : K) (g g' : Graph K T) : Prop :=
  ∀ d' x, GoMap.has (Dir.cache d' g') x = true ↔
    GoMap.has (Dir.cache d' g) x = true ∨ (d' = d ∧ (x = id ∨ TransGen (d.E g) id x))

theorem CInv.closedTG {d : Dir} {g : Graph K T} (h : CInv d g) {v x : K} (hv : GoMap.has (d.cache g) v = true)
    (hx : TransGen (d.E g) v x) : GoMap.has (d.cache g) x = true := by
  induction hx with
  | single h1 => exact h.closed _ _ hv h1
  | tail _ h1 ih => exact h.closed _ _ ih h1

theorem SameBut.cache_ne {d d' : Dir} {g g' : Graph K T} (h : SameBut d g g') (hne : d' ≠ d) :
    d'.cache g' = d'.cache g := by
  rw [h]; cases d <;> cases d' <;> first | rfl | exact absurd rfl hne

theorem Fills.of {d : Dir} {id : K} {g g' : Graph K T} (h1 : SameBut d g g') (h2 : CInv d g')
    (h3 : CacheMono d g g') (h4 : GoMap.has (d.cache g') id = true) (h5 : CacheFrom d id g g') : Fills d id g g' := by
  intro d' x
  by_cases hd : d' = d
  · subst hd
    constructor
    · intro hx
      rcases h5 x hx with h | h
      · exact .inl h
      · exact .inr ⟨rfl, h⟩
    · rintro (h | ⟨-, rfl | h⟩)
      · exact h3.has h
      · exact h4
      · rw [← h1.E d'] at h; exact h2.closedTG h4 h
  · rw [h1.cache_ne hd]
    simp [hd]

/-- The error of a query about `id`. -/
theorem closure_err (ω : Oracle) (d : Dir) (fuel : Nat) (id : K) (s : St K T) (e : Err)
    (h : checkVertexID s.g id = some e) :
    Tot (closureIDs ω d (fuel + 1) id) s (fun r s' => r = .error e ∧ s' = s) := by
  unfold closureIDs
  refine Tot.bind (Tot.getG ?_)
  simp only [h]
  exact Tot.pure ⟨rfl, rfl⟩

theorem getDescendantsIDs_spec (ω : Oracle) (id : K) (s : St K T) (hi : Inv s.g)
    (hv : GoMap.has s.g.vertices id = true) :
    Tot (getDescendantsIDs ω (fuelFor s.g) id) s (fun r s' => Inv s'.g ∧ Same s.g s'.g ∧
      CacheMono .down s.g s'.g ∧ GoMap.has s'.g.descC id = true ∧
      Fills .down id s.g s'.g ∧
      ∃ S, r = .ok S ∧ SetWF S ∧ ∀ x, GSet.includes S x = true ↔ s.g.Reach id x) := by
  rw [getDescendantsIDs_eq]
  refine Tot.mono (closure_spec ω .down _ id s hi.base hi.down hv ?_) ?_
  · have := rank_lt_order hi.base .down hv; unfold fuelFor; omega
  · rintro r s' ⟨h1, h2, h3, S, h4, h5, h6, h7, h8⟩
    have h9 : GoMap.has s'.g.descC id = true := by rw [GoMap.has_iff]; exact ⟨S, h7⟩
    exact ⟨h1.inv hi h2, h1.same, h3, h9, .of h1 h2 h3 h9 h8, S, h4, h5, h6⟩

theorem getAncestorsIDs_spec (ω : Oracle) (id : K) (s : St K T) (hi : Inv s.g)
    (hv : GoMap.has s.g.vertices id = true) :
    Tot (getAncestorsIDs ω (fuelFor s.g) id) s (fun r s' => Inv s'.g ∧ Same s.g s'.g ∧ Fills .up id s.g s'.g ∧
      ∃ S, r = .ok S ∧ SetWF S ∧ ∀ x, GSet.includes S x = true ↔ s.g.Reach x id) := by
  rw [getAncestorsIDs_eq]
  refine Tot.mono (closure_spec ω .up _ id s hi.base hi.up hv ?_) ?_
  · have := rank_lt_order hi.base .up hv; unfold fuelFor; omega
  · rintro r s' ⟨h1, h2, h3, S, h4, h5, h6, h7, h8⟩
    have h9 : GoMap.has (Dir.up.cache s'.g) id = true := by rw [GoMap.has_iff]; exact ⟨S, h7⟩
    exact ⟨h1.inv hi h2, h1.same, .of h1 h2 h3 h9 h8, S, h4, h5, fun x => (h6 x).trans (hi.base.upTG id x)⟩

theorem descendantsOf_spec (ω : Oracle) (id : K) (s : St K T) (hi : Inv s.g)
    (hv : GoMap.has s.g.vertices id = true) :
    Tot (descendantsOf ω id) s (fun S s' => Inv s'.g ∧ Same s.g s'.g ∧
      CacheMono .down s.g s'.g ∧ GoMap.has s'.g.descC id = true ∧ Fills .down id s.g s'.g ∧ SetWF S ∧
      ∀ x, GSet.includes S x = true ↔ s.g.Reach id x) := by
  unfold descendantsOf
  refine Tot.bind (Tot.getG (Tot.bind (Tot.mono (getDescendantsIDs_spec ω id s hi hv) ?_)))
  rintro r s' ⟨h1, h2, h3, h4, h5, S, rfl, h6, h7⟩
  exact Tot.pure ⟨h1, h2, h3, h4, h5, h6, h7⟩

theorem ancestorsOf_spec (ω : Oracle) (id : K) (s : St K T) (hi : Inv s.g)
    (hv : GoMap.has s.g.vertices id = true) :
    Tot (ancestorsOf ω id) s (fun S s' => Inv s'.g ∧ Same s.g s'.g ∧ Fills .up id s.g s'.g ∧ SetWF S ∧
      ∀ x, GSet.includes S x = true ↔ s.g.Reach x id) := by
  unfold ancestorsOf
  refine Tot.bind (Tot.getG (Tot.bind (Tot.mono (getAncestorsIDs_spec ω id s hi hv) ?_)))
  rintro r s' ⟨h1, h2, h5, S, rfl, h6, h7⟩
  exact Tot.pure ⟨h1, h2, h5, h6, h7⟩

/-- What is cached after looking for the descendants of `u` and the ancestors of `v`. -/
theorem Fills.both {u v : K} {g g1 g2 : Graph K T} (hg : GInv g) (sm : Same g g1) (h1 : Fills .down u g g1)
    (h2 : Fills .up v g1 g2) :
    (∀ x, GoMap.has g2.ancC x = true ↔ GoMap.has g.ancC x = true ∨ x = v ∨ g.Reach x v) ∧
    (∀ x, GoMap.has g2.descC x = true ↔ GoMap.has g.descC x = true ∨ x = u ∨ g.Reach u x) := by
  constructor
  · intro x
    have e1 := h1 .up x
    have e2 := h2 .up x
    simp only [Dir.cache, reduceCtorEq, false_and, or_false, true_and] at e1 e2
    rw [e2, e1]
    have : Dir.up.E g1 = Dir.up.E g := by unfold Dir.E Dir.edges; simp only [sm.i]
    rw [this, hg.upTG]
  · intro x
    have e1 := h1 .down x
    have e2 := h2 .down x
    simp only [Dir.cache, reduceCtorEq, false_and, or_false, true_and] at e1 e2
    rw [e2, e1, downE]

/-- Which vertices stay cached when the entries of `R` are deleted. -/
theorem has_of_get? {m m' : GoMap K (GSet K)} {P : K → Prop}
    (h : ∀ v S, GoMap.get? m' v = some S ↔ ¬ P v ∧ GoMap.get? m v = some S) (x : K) :
    GoMap.has m' x = true ↔ GoMap.has m x = true ∧ ¬ P x := by
  rw [GoMap.has_iff, GoMap.has_iff]
  constructor
  · rintro ⟨S, hS⟩
    exact ⟨⟨S, ((h x S).mp hS).2⟩, ((h x S).mp hS).1⟩
  · rintro ⟨⟨S, hS⟩, hx⟩
    exact ⟨S, (h x S).mpr ⟨hx, hS⟩⟩

/-! ### Loops that only mutate -/

theorem Tot.loopMod {α : Type} {xs : List α} {f : α → Graph K T → Graph K T} {s : St K T}
    {Q : Unit → St K T → Prop} (h : Q () { s with g := xs.foldl (fun g x => f x g) s.g }) :
    Tot (M.loop xs () (fun _ x => M.modG (f x))) s Q := by
  induction xs generalizing s with
  | nil => exact Tot.mpure h
  | cons x xs ih => exact Tot.mbind (Tot.modG (ih h))

theorem foldl_ancC {α : Type} (k : α → K) (xs : List α) (g : Graph K T) :
    xs.foldl (fun g x => { g with ancC := GoMap.del g.ancC (k x) }) g =
      { g with ancC := xs.foldl (fun m x => GoMap.del m (k x)) g.ancC } := by
  induction xs generalizing g with
  | nil => rfl
  | cons x xs ih => simp only [List.foldl_cons]; rw [ih]

theorem foldl_descC {α : Type} (k : α → K) (xs : List α) (g : Graph K T) :
    xs.foldl (fun g x => { g with descC := GoMap.del g.descC (k x) }) g =
      { g with descC := xs.foldl (fun m x => GoMap.del m (k x)) g.descC } := by
  induction xs generalizing g with
  | nil => rfl
  | cons x xs ih => simp only [List.foldl_cons]; rw [ih]

theorem foldl_outb {α : Type} (k : α → K) (f : α → GSet K → GSet K) (xs : List α) (g : Graph K T) :
    xs.foldl (fun g x => { g with outb := GoMap.updAt g.outb (k x) (f x) }) g =
      { g with outb := xs.foldl (fun m x => GoMap.updAt m (k x) (f x)) g.outb } := by
  induction xs generalizing g with
  | nil => rfl
  | cons x xs ih => simp only [List.foldl_cons]; rw [ih]

theorem foldl_inb {α : Type} (k : α → K) (f : α → GSet K → GSet K) (xs : List α) (g : Graph K T) :
    xs.foldl (fun g x => { g with inb := GoMap.updAt g.inb (k x) (f x) }) g =
      { g with inb := xs.foldl (fun m x => GoMap.updAt m (k x) (f x)) g.inb } := by
  induction xs generalizing g with
  | nil => rfl
  | cons x xs ih => simp only [List.foldl_cons]; rw [ih]

theorem get?_foldl_del {α V : Type} (k : α → K) (xs : List α) (m : GoMap K V) (v : K) (S : V) :
    GoMap.get? (xs.foldl (fun m x => GoMap.del m (k x)) m) v = some S ↔
      (∀ x ∈ xs, k x ≠ v) ∧ GoMap.get? m v = some S := by
  induction xs generalizing m with
  | nil => simp
  | cons x xs ih =>
    simp only [List.foldl_cons, ih, GoMap.get?_del, List.mem_cons, forall_eq_or_imp]
    by_cases h : v = k x
    · simp [h]
    · simp [h, Ne.symm h]

theorem nodup_foldl_del {α V : Type} (k : α → K) (xs : List α) (m : GoMap K V)
    (h : GoMap.NodupKeys m) : GoMap.NodupKeys (xs.foldl (fun m x => GoMap.del m (k x)) m) := by
  induction xs generalizing m with
  | nil => exact h
  | cons x xs ih => exact ih _ (h.del _)

/-- Removing `id` from the set stored under one key. -/
theorem includes_remove (m : GoMap K (GSet K)) (k id v x : K) :
    GSet.includes (setAt (GoMap.updAt m k (fun s => GoMap.del s id)) v) x = true ↔
        GSet.includes (setAt m v) x = true ∧ ¬ (k = v ∧ x = id) := by
  unfold setAt
  rw [GoMap.get?_updAt]
  by_cases h : v = k
  · subst h
    cases hm : GoMap.get? m v with
    | none => simp
    | some S =>
      simp only [if_true, Option.map_some, Option.getD_some]
      rw [show GoMap.del S id = GSet.delete S id from rfl, GSet.includes_delete]
      simp only [true_and]; exact and_comm
  · simp [h, Ne.symm h]

/-- Removing `id` from the sets stored under all of `ks`. -/
theorem get?_foldl_updAt {α : Type} (k : α → K) (id : K) (xs : List α) (m : GoMap K (GSet K)) (v x : K) :
    GSet.includes (setAt (xs.foldl (fun m x => GoMap.updAt m (k x) (fun s => GoMap.del s id)) m) v) x = true ↔
      GSet.includes (setAt m v) x = true ∧ ¬ ((∃ a ∈ xs, k a = v) ∧ x = id) := by
  induction xs generalizing m with
  | nil => simp
  | cons a xs ih =>
    simp only [List.foldl_cons, ih]
    rw [includes_remove]
    simp only [List.mem_cons, exists_eq_or_imp]
    constructor
    · rintro ⟨⟨h1, h2⟩, h3⟩
      refine ⟨h1, ?_⟩
      rintro ⟨h4 | h4, h5⟩
      · exact h2 ⟨h4, h5⟩
      · exact h3 ⟨h4, h5⟩
    · rintro ⟨h1, h2⟩
      exact ⟨⟨h1, fun h => h2 ⟨Or.inl h.1, h.2⟩⟩, fun h => h2 ⟨Or.inr h.1, h.2⟩⟩

theorem wf_updAt {m : GoMap K (GSet K)} (h : ∀ k S, GoMap.get? m k = some S → SetWF S) (k : K)
    (f : GSet K → GSet K) (hf : ∀ S, SetWF S → SetWF (f S)) :
    ∀ k' S, GoMap.get? (GoMap.updAt m k f) k' = some S → SetWF S := by
  intro k' S hS
  rw [GoMap.get?_updAt] at hS
  split at hS
  · cases hm : GoMap.get? m k with
    | none => rw [hm] at hS; cases hS
    | some S' => rw [hm] at hS; cases hS; exact hf _ (h _ _ hm)
  · exact h _ _ hS

theorem wf_foldl_updAt {α : Type} (k : α → K) (f : GSet K → GSet K) (hf : ∀ S, SetWF S → SetWF (f S))
    (xs : List α) (m : GoMap K (GSet K)) (h : ∀ k S, GoMap.get? m k = some S → SetWF S) :
    ∀ k' S, GoMap.get? (xs.foldl (fun m x => GoMap.updAt m (k x) f) m) k' = some S → SetWF S := by
  induction xs generalizing m with
  | nil => exact h
  | cons x xs ih => exact ih _ (wf_updAt h _ _ hf)

theorem nodup_foldl_updAt {α : Type} (k : α → K) (f : GSet K → GSet K)
    (xs : List α) (m : GoMap K (GSet K)) (h : GoMap.NodupKeys m) :
    GoMap.NodupKeys (xs.foldl (fun m x => GoMap.updAt m (k x) f) m) := by
  induction xs generalizing m with
  | nil => exact h
  | cons x xs ih => exact ih _ (h.updAt _ _)

/-! ### Cache invalidation -/

/-- Forgetting the entries of a set `D` of vertices that is closed under predecessors, while
changing only edges that leave `D`. -/
theorem CInv.forget {d : Dir} {g g' : Graph K T} (h : CInv d g) (D : K → Prop)
    (hnd : GoMap.NodupKeys (d.cache g'))
    (hc : ∀ v S, GoMap.get? (d.cache g') v = some S ↔ ¬ D v ∧ GoMap.get? (d.cache g) v = some S)
    (hD : ∀ v c, d.E g v c → D c → D v)
    (hE : ∀ v c, ¬ D v → (d.E g' v c ↔ d.E g v c))
    (hV : ∀ v, ¬ D v → GoMap.has g.vertices v = true → GoMap.has g'.vertices v = true) :
    CInv d g' := by
  have htg : ∀ v, ¬ D v → ∀ x, TransGen (d.E g') v x ↔ TransGen (d.E g) v x := by
    intro v hv x
    have f1 : TransGen (d.E g') v x → TransGen (d.E g) v x ∧ (¬ D x) := by
      intro ht
      induction ht with
      | single he =>
        have := (hE v _ hv).mp he
        exact ⟨.single this, fun hx => hv (hD _ _ this hx)⟩
      | tail _ he ih =>
        have := (hE _ _ ih.2).mp he
        exact ⟨.tail ih.1 this, fun hx => ih.2 (hD _ _ this hx)⟩
    have f2 : TransGen (d.E g) v x → TransGen (d.E g') v x ∧ (¬ D x) := by
      clear f1
      intro ht
      induction ht with
      | single he => exact ⟨.single ((hE v _ hv).mpr he), fun hx => hv (hD _ _ he hx)⟩
      | tail _ he ih => exact ⟨.tail ih.1 ((hE _ _ ih.2).mpr he), fun hx => ih.2 (hD _ _ he hx)⟩
    exact ⟨fun h => (f1 h).1, fun h => (f2 h).1⟩
  constructor
  · exact hnd
  · intro v S hS
    obtain ⟨h1, h2⟩ := (hc v S).mp hS
    obtain ⟨h3, h4, h5⟩ := h.exact v S h2
    exact ⟨hV v h1 h3, h4, fun x => (h5 x).trans (htg v h1 x).symm⟩
  · intro v c hv hE'
    rw [GoMap.has_iff] at hv
    obtain ⟨S, hS⟩ := hv
    obtain ⟨h1, h2⟩ := (hc v S).mp hS
    have he := (hE v c h1).mp hE'
    have := h.closed v c (by rw [GoMap.has_iff]; exact ⟨S, h2⟩) he
    rw [GoMap.has_iff] at this
    obtain ⟨S', hS'⟩ := this
    rw [GoMap.has_iff]
    exact ⟨S', (hc c S').mpr ⟨fun hx => h1 (hD _ _ he hx), hS'⟩⟩

theorem GInv.isZero_false {g : Graph K T} (h : GInv g) {id : K} (hv : GoMap.has g.vertices id = true) :
    isZero id = false := by
  unfold isZero
  by_cases hz : id = zero
  · subst hz; rw [h.nz] at hv; cases hv
  · simp [hz]

theorem checkEdgeIDs_none {g : Graph K T} (h : GInv g) (s t : K) :
    checkEdgeIDs g s t = none ↔
      s ≠ t ∧ GoMap.has g.vertices s = true ∧ GoMap.has g.vertices t = true := by
  unfold checkEdgeIDs isZero
  by_cases hs : s = zero
  · subst hs; simp [h.nz]
  by_cases ht : t = zero
  · subst ht; simp [h.nz, hs]
  by_cases hst : s = t
  · simp [ht, hst]
  cases h1 : GoMap.has g.vertices s <;> cases h2 : GoMap.has g.vertices t <;> simp [hs, ht, hst]

theorem isEdgeFlag_iff {g : Graph K T} {s t : K} (h : checkEdgeIDs g s t = none) :
    isEdgeFlag g s t = true ↔ g.E s t := by
  unfold isEdgeFlag isEdgeIn Graph.E
  simp only [h]
  unfold setAt GoMap.has
  cases hm : GoMap.get? g.outb s with
  | none => simp
  | some S => cases hb : GSet.includes S t <;> simp [hb]

/-! ### AddVertex -/

theorem addVertex_spec (id : K) (v : T) (s : St K T) (hi : Inv s.g) :
    Tot (addVertex id v) s (fun r s' => Inv s'.g ∧
      (r = if id = zero then some .vertexIDEmpty
        else if GoMap.has s.g.vertices id = true then some .vertexDuplicate else none) ∧
      (r ≠ none → s'.g = s.g) ∧
      (r = none → s'.g = { s.g with vertices := GoMap.set s.g.vertices id v })) := by
  unfold addVertex isZero
  by_cases hz : id = zero
  · simp only [hz, decide_true, if_true]
    exact Tot.pure ⟨hi, rfl, fun _ => rfl, fun h => by cases h⟩
  · simp only [hz, decide_false, if_false, Bool.false_eq_true]
    refine Tot.bind (Tot.getG ?_)
    cases hv : GoMap.has s.g.vertices id with
    | true => exact Tot.pure ⟨hi, rfl, fun _ => rfl, fun h => by cases h⟩
    | false =>
      refine Tot.bind (Tot.modG (Tot.pure ⟨?_, rfl, fun h => absurd rfl h, fun _ => rfl⟩))
      have hmono : ∀ x, GoMap.has s.g.vertices x = true →
          GoMap.has (GoMap.set s.g.vertices id v) x = true :=
        fun x hx => (GoMap.has_set _ _ _ _).mpr (Or.inr hx)
      refine ⟨⟨hi.base.vnd.set _ _, hi.base.ond, hi.base.ind, hi.base.owf, hi.base.iwf, ?_,
        hi.base.conv, ?_, hi.base.acyc⟩, ⟨hi.down.nd, ?_, hi.down.closed⟩, ⟨hi.up.nd, ?_, hi.up.closed⟩⟩
      · cases hc : GoMap.has (GoMap.set s.g.vertices id v) zero with
        | false => rfl
        | true =>
          rcases (GoMap.has_set _ _ _ _).mp hc with h | h
          · exact absurd h.symm hz
          · rw [hi.base.nz] at h; cases h
      · intro a b hab
        have := hi.base.ends a b hab
        exact ⟨hmono a this.1, hmono b this.2⟩
      · intro x S hS
        have := hi.down.exact x S hS
        exact ⟨hmono x this.1, this.2⟩
      · intro x S hS
        have := hi.up.exact x S hS
        exact ⟨hmono x this.1, this.2⟩

/-! ### AddEdge -/

/-- Inserting into the set stored under `s`, creating it if needed (`dag.go:130-134`). -/
theorem includes_insert (m : GoMap K (GSet K)) (s t a b : K) :
    GSet.includes (setAt (GoMap.updAt (if (!GoMap.has m s) = true then GoMap.set m s [] else m) s
      (fun x => GSet.add x t)) a) b = true ↔ GSet.includes (setAt m a) b = true ∨ (a = s ∧ b = t) := by
  unfold setAt
  rw [GoMap.get?_updAt]
  by_cases ha : a = s
  · subst ha
    cases hm : GoMap.get? m a with
    | none => simp [GoMap.has, hm, GSet.includes_add]
    | some S =>
      simp only [GoMap.has, hm, Option.isSome_some, Bool.not_true, Bool.false_eq_true, if_false,
        if_true, Option.map_some, Option.getD_some, GSet.includes_add, true_and]
      exact or_comm
  · simp only [ha, if_false, false_and, or_false]
    cases hm : GoMap.has m s with
    | false => simp [ha]
    | true => simp

theorem wf_insert {m : GoMap K (GSet K)} (h : ∀ k S, GoMap.get? m k = some S → SetWF S) (s t : K) :
    ∀ k S, GoMap.get? (GoMap.updAt (if (!GoMap.has m s) = true then GoMap.set m s [] else m) s
      (fun x => GSet.add x t)) k = some S → SetWF S := by
  refine wf_updAt ?_ _ _ (fun S hS => GSet.wf_add hS _)
  split
  · intro k S hS
    rw [GoMap.get?_set] at hS
    split at hS
    · cases hS; exact GSet.wf_nil
    · exact h _ _ hS
  · exact h

theorem nodup_insert {m : GoMap K (GSet K)} (h : GoMap.NodupKeys m) (s t : K) :
    GoMap.NodupKeys (GoMap.updAt (if (!GoMap.has m s) = true then GoMap.set m s [] else m) s
      (fun x => GSet.add x t)) := by
  refine GoMap.NodupKeys.updAt ?_ _ _
  split
  · exact h.set _ _
  · exact h

/-- One new edge that closes no cycle. -/
theorem acyc_insert {E : K → K → Prop} {s t : K} (hac : ∀ v, ¬ TransGen E v v) (hst : s ≠ t)
    (hno : ¬ TransGen E t s) (v : K) : ¬ TransGen (fun a b => E a b ∨ (a = s ∧ b = t)) v v := by
  have key : ∀ a b, TransGen (fun a b => E a b ∨ (a = s ∧ b = t)) a b →
      TransGen E a b ∨ (ReflTransGen E a s ∧ ReflTransGen E t b) := by
    intro a b h
    induction h with
    | single h =>
      rcases h with h | ⟨rfl, rfl⟩
      · exact Or.inl (.single h)
      · exact Or.inr ⟨.refl, .refl⟩
    | tail _ h ih =>
      rcases h with h | ⟨rfl, rfl⟩
      · rcases ih with ih | ih
        · exact Or.inl (.tail ih h)
        · exact Or.inr ⟨ih.1, ih.2.tail h⟩
      · rcases ih with ih | ih
        · exact Or.inr ⟨ih.to_reflTransGen, .refl⟩
        · exact Or.inr ⟨ih.1, .refl⟩
  intro h
  rcases key v v h with h | ⟨h1, h2⟩
  · exact hac v h
  · rcases reflTransGen_iff_eq_or_transGen.mp (h2.trans h1) with h | h
    · exact hst h
    · exact hno h

theorem addEdge_core {g g' : Graph K T} (hi : Inv g) {s t : K} (hst : s ≠ t)
    (hs : GoMap.has g.vertices s = true) (ht : GoMap.has g.vertices t = true) (hr : ¬ g.Reach t s)
    (hv : g'.vertices = g.vertices)
    (ho : g'.outb = GoMap.updAt (if (!GoMap.has g.outb s) = true then GoMap.set g.outb s [] else g.outb) s
      (fun x => GSet.add x t))
    (hin : g'.inb = GoMap.updAt (if (!GoMap.has g.inb t) = true then GoMap.set g.inb t [] else g.inb) t
      (fun x => GSet.add x s))
    (hand : GoMap.NodupKeys g'.ancC) (hdnd : GoMap.NodupKeys g'.descC)
    (hanc : ∀ v S, GoMap.get? g'.ancC v = some S ↔
      ¬ (v = t ∨ g.Reach t v) ∧ GoMap.get? g.ancC v = some S)
    (hdesc : ∀ v S, GoMap.get? g'.descC v = some S ↔
      ¬ (v = s ∨ g.Reach v s) ∧ GoMap.get? g.descC v = some S) :
    Inv g' ∧ ∀ a b, g'.E a b ↔ g.E a b ∨ (a = s ∧ b = t) := by
  have hE : ∀ a b, g'.E a b ↔ g.E a b ∨ (a = s ∧ b = t) := by
    intro a b; unfold Graph.E; rw [ho]; exact includes_insert _ _ _ _ _
  have hU : ∀ a b, Dir.up.E g' a b ↔ Dir.up.E g a b ∨ (a = t ∧ b = s) := by
    intro a b
    show GSet.includes (setAt g'.inb a) b = true ↔ GSet.includes (setAt g.inb a) b = true ∨ _
    rw [hin]; exact includes_insert _ _ _ _ _
  have hg : GInv g' := by
    constructor
    · rw [hv]; exact hi.base.vnd
    · rw [ho]; exact nodup_insert hi.base.ond _ _
    · rw [hin]; exact nodup_insert hi.base.ind _ _
    · rw [ho]; exact wf_insert hi.base.owf _ _
    · rw [hin]; exact wf_insert hi.base.iwf _ _
    · rw [hv]; exact hi.base.nz
    · intro a b; rw [hU, downE, hE, hi.base.conv]; exact or_congr Iff.rfl and_comm
    · intro a b h; rw [hv]
      rcases (hE a b).mp h with h | ⟨rfl, rfl⟩
      · exact hi.base.ends a b h
      · exact ⟨hs, ht⟩
    · intro v
      have : g'.E = fun a b => g.E a b ∨ (a = s ∧ b = t) := by
        funext a b; exact propext (hE a b)
      unfold Graph.Reach; rw [this]
      exact acyc_insert hi.base.acyc hst hr v
  refine ⟨⟨hg, ?_, ?_⟩, hE⟩
  · refine hi.down.forget (fun v => v = s ∨ g.Reach v s) hdnd hdesc ?_ ?_ ?_
    · rintro v c he (rfl | h)
      · exact Or.inr (.single he)
      · exact Or.inr (.head he h)
    · intro v c h; rw [downE, downE, hE]
      constructor
      · rintro (h' | h')
        · exact h'
        · exact absurd (Or.inl h'.1) h
      · exact Or.inl
    · intro v _ h; rw [hv]; exact h
  · refine hi.up.forget (fun v => v = t ∨ g.Reach t v) hand hanc ?_ ?_ ?_
    · intro v c he hc
      rw [hi.base.conv] at he
      rcases hc with rfl | h
      · exact Or.inr (.single he)
      · exact Or.inr (.tail h he)
    · intro v c h; rw [hU]
      constructor
      · rintro (h' | h')
        · exact h'
        · exact absurd (Or.inl h'.1) h
      · exact Or.inl
    · intro v _ h; rw [hv]; exact h

/-- Deleting from a cache the entries of a set (listed in any order) and one more. -/
theorem get?_invalidate {m : GoMap K (GSet K)} {S0 : GSet K} (wf : SetWF S0) {l : List (K × K)}
    (hl : l.Perm S0) {k : K × K → K} (hk : k = Prod.fst ∨ k = Prod.snd) (R : K → Prop)
    (hR : ∀ x, GSet.includes S0 x = true ↔ R x) (x v : K) (S : GSet K) :
    GoMap.get? (GoMap.del (l.foldl (fun m x => GoMap.del m (k x)) m) x) v = some S ↔
      ¬ (v = x ∨ R v) ∧ GoMap.get? m v = some S := by
  rw [GoMap.get?_del]
  by_cases h : v = x
  · simp [h]
  · simp only [h, if_false, false_or]
    rw [get?_foldl_del]
    refine and_congr_left (fun _ => ?_)
    have hkp : ∀ p ∈ S0, k p = p.1 := by
      intro p hp
      rcases hk with rfl | rfl
      · rfl
      · exact wf.diag p hp
    rw [← hR]
    constructor
    · intro h1 h2
      have hm : (v, v) ∈ S0 := (GSet.mem_iff wf _).mpr ⟨rfl, h2⟩
      exact h1 (v, v) (hl.mem_iff.mpr hm) (hkp _ hm)
    · intro h1 p hp h2
      have hm := hl.mem_iff.mp hp
      rw [hkp p hm] at h2
      exact h1 (by rw [← h2]; exact ((GSet.mem_iff wf p).mp hm).2)

theorem addEdge_spec (ω : Oracle) (s t : K) (σ : St K T) (hi : Inv σ.g) :
    Tot (addEdge ω s t) σ (fun r σ' => Inv σ'.g ∧
      (∀ e, checkEdgeIDs σ.g s t = some e → r = some e ∧ σ'.g = σ.g) ∧
      (checkEdgeIDs σ.g s t = none →
        (σ.g.E s t → r = some .edgeDuplicate) ∧
        (¬ σ.g.E s t → σ.g.Reach t s → r = some .edgeLoop) ∧
        (¬ σ.g.E s t → ¬ σ.g.Reach t s → r = none)) ∧
      σ'.g.vertices = σ.g.vertices ∧
      (∀ a b, σ'.g.E a b ↔ σ.g.E a b ∨ (r = none ∧ a = s ∧ b = t)) ∧
      (checkEdgeIDs σ.g s t = none → σ.g.E s t → σ'.g = σ.g) ∧
      (checkEdgeIDs σ.g s t = none → ¬ σ.g.E s t →
        (∀ x, GoMap.has σ'.g.ancC x = true ↔ (GoMap.has σ.g.ancC x = true ∨ x = s ∨ σ.g.Reach x s) ∧
          ¬ (r = none ∧ (x = t ∨ σ.g.Reach t x))) ∧
        (∀ x, GoMap.has σ'.g.descC x = true ↔ (GoMap.has σ.g.descC x = true ∨ x = t ∨ σ.g.Reach t x) ∧
          ¬ (r = none ∧ (x = s ∨ σ.g.Reach x s))))) := by
  unfold addEdge
  refine Tot.bind (Tot.getG ?_)
  cases hck : checkEdgeIDs σ.g s t with
  | some e =>
    refine Tot.pure ⟨hi, ?_, by simp, rfl, ?_, by simp, by simp⟩
    · intro e' h; cases h; exact ⟨rfl, rfl⟩
    · intro a b; simp
  | none =>
    obtain ⟨hst, hs, ht⟩ := (checkEdgeIDs_none hi.base s t).mp hck
    cases hfl : isEdgeFlag σ.g s t with
    | true =>
      have hE := (isEdgeFlag_iff hck).mp hfl
      exact Tot.pure ⟨hi, by simp, fun _ => ⟨fun _ => rfl, fun h => absurd hE h, fun h => absurd hE h⟩,
        rfl, fun a b => by simp, fun _ _ => rfl, fun _ h => absurd hE h⟩
    | false =>
      have hE : ¬ σ.g.E s t := fun h => by rw [(isEdgeFlag_iff hck).mpr h] at hfl; cases hfl
      simp only [Bool.false_eq_true, if_false]
      refine Tot.bind (Tot.mono (descendantsOf_spec ω t σ hi ht) ?_)
      rintro ds0 σ1 ⟨hi1, sm1, -, -, fd, wd, hd⟩
      refine Tot.bind (Tot.mono (ancestorsOf_spec ω s σ1 hi1 (by rw [sm1.v]; exact hs)) ?_)
      rintro as0 σ2 ⟨hi2, sm2, fa, wa, ha⟩
      have sm := sm1.trans sm2
      obtain ⟨ka, kd⟩ := fd.both hi.base sm1 fa
      unfold Graph.Reach at ha
      rw [sm1.E] at ha
      cases hinc : GSet.includes ds0 s with
      | true =>
        have hr := (hd s).mp hinc
        refine Tot.pure ⟨hi2, by simp, fun _ => ⟨fun h => absurd h hE, fun _ _ => rfl, fun _ h => absurd hr h⟩,
          sm.v, fun a b => ?_, fun _ h => absurd h hE, fun _ _ => ⟨fun x => ?_, fun x => ?_⟩⟩
        · rw [sm.E]; simp
        · rw [ka]; simp
        · rw [kd]; simp
      | false =>
        have hr : ¬ σ.g.Reach t s := fun h => by rw [(hd s).mpr h] at hinc; cases hinc
        refine Tot.bind (Tot.modG (Tot.bind (Tot.modG (Tot.bind (Tot.modG (Tot.bind (Tot.modG ?_)))))))
        refine Tot.bind (Tot.range ?_)
        intro ds hds
        refine Tot.bind (Tot.loopMod ?_)
        refine Tot.bind (Tot.modG ?_)
        refine Tot.bind (Tot.range ?_)
        intro as has
        refine Tot.bind (Tot.loopMod ?_)
        refine Tot.bind (Tot.modG ?_)
        refine Tot.pure ?_
        simp only [foldl_ancC (Prod.fst), foldl_descC (Prod.fst)]
        have hgo : ∀ (g : Graph K T) (c : Bool) (m1 : GoMap K (GSet K)),
            (if c = true then { g with outb := m1 } else g) = { g with outb := if c = true then m1 else g.outb } := by
          intro g c m1; cases c <;> rfl
        have hgi : ∀ (c : Bool) (v : GoMap K T) (i i' o a d : GoMap K (GSet K)),
            (if c = true then (⟨v, i, o, a, d⟩ : Graph K T) else ⟨v, i', o, a, d⟩) =
              ⟨v, if c = true then i else i', o, a, d⟩ := by
          intro c v i i' o a d; cases c <;> rfl
        simp only [hgo, hgi]
        obtain ⟨h1, h2⟩ := addEdge_core (g' := {
            vertices := σ2.g.vertices
            inb := (if (!σ2.g.inb.has t) = true then σ2.g.inb.set t [] else σ2.g.inb).updAt t fun x => x.add s
            outb := (if (!σ2.g.outb.has s) = true then σ2.g.outb.set s [] else σ2.g.outb).updAt s fun x => x.add t
            ancC := (List.foldl (fun m x => m.del x.fst) σ2.g.ancC ds).del t
            descC := (List.foldl (fun m x => m.del x.fst) σ2.g.descC as).del s })
          hi2 hst (by rw [sm.v]; exact hs) (by rw [sm.v]; exact ht)
          (by unfold Graph.Reach; rw [sm.E]; exact hr) rfl rfl rfl
          ((nodup_foldl_del _ _ _ hi2.up.nd).del _) ((nodup_foldl_del _ _ _ hi2.down.nd).del _)
          (fun v S => get?_invalidate wd hds (Or.inl rfl) (fun v => σ2.g.Reach t v)
            (by unfold Graph.Reach; rw [sm.E]; exact hd) _ _ _)
          (fun v S => get?_invalidate wa has (Or.inl rfl) (fun v => σ2.g.Reach v s)
            (by unfold Graph.Reach; rw [sm.E]; exact ha) _ _ _)
        refine ⟨h1, by simp, fun _ => ⟨fun h => absurd h hE, fun _ h => absurd h hr, fun _ _ => trivial⟩, sm.v, ?_,
          fun _ h => absurd h hE, fun _ _ => ⟨fun x => ?_, fun x => ?_⟩⟩
        · intro a b; rw [h2, sm.E]; simp
        · rw [has_of_get? (fun v S => get?_invalidate wd hds (Or.inl rfl) (fun v => σ.g.Reach t v) hd t v S), ka]
          simp
        · rw [has_of_get? (fun v S => get?_invalidate wa has (Or.inl rfl) (fun v => σ.g.Reach v s) ha s v S), kd]
          simp

/-! ### DeleteEdge -/

theorem deleteEdge_core {g g' : Graph K T} (hi : Inv g) {s t : K} (he : g.E s t)
    (hv : g'.vertices = g.vertices)
    (ho : g'.outb = GoMap.updAt g.outb s (fun x => GSet.delete x t))
    (hin : g'.inb = GoMap.updAt g.inb t (fun x => GSet.delete x s))
    (hand : GoMap.NodupKeys g'.ancC) (hdnd : GoMap.NodupKeys g'.descC)
    (hanc : ∀ v S, GoMap.get? g'.ancC v = some S ↔
      ¬ (v = s ∨ g.Reach s v) ∧ GoMap.get? g.ancC v = some S)
    (hdesc : ∀ v S, GoMap.get? g'.descC v = some S ↔
      ¬ (v = t ∨ g.Reach v t) ∧ GoMap.get? g.descC v = some S) :
    Inv g' ∧ ∀ a b, g'.E a b ↔ g.E a b ∧ ¬ (a = s ∧ b = t) := by
  have hE : ∀ a b, g'.E a b ↔ g.E a b ∧ ¬ (a = s ∧ b = t) := by
    intro a b; unfold Graph.E; rw [ho]
    exact (includes_remove _ _ _ _ _).trans (by rw [eq_comm (a := s)])
  have hU : ∀ a b, Dir.up.E g' a b ↔ Dir.up.E g a b ∧ ¬ (a = t ∧ b = s) := by
    intro a b
    show GSet.includes (setAt g'.inb a) b = true ↔ GSet.includes (setAt g.inb a) b = true ∧ _
    rw [hin]; exact (includes_remove _ _ _ _ _).trans (by rw [eq_comm (a := t)])
  have hg : GInv g' := by
    constructor
    · rw [hv]; exact hi.base.vnd
    · rw [ho]; exact hi.base.ond.updAt _ _
    · rw [hin]; exact hi.base.ind.updAt _ _
    · rw [ho]; exact wf_updAt hi.base.owf _ _ (fun S h => GSet.wf_delete h _)
    · rw [hin]; exact wf_updAt hi.base.iwf _ _ (fun S h => GSet.wf_delete h _)
    · rw [hv]; exact hi.base.nz
    · intro a b; rw [hU, downE, hE, hi.base.conv]; exact and_congr Iff.rfl (not_congr and_comm)
    · intro a b h; rw [hv]; exact hi.base.ends a b ((hE a b).mp h).1
    · intro v h
      exact hi.base.acyc v (TransGen.mono (fun a b h => ((hE a b).mp h).1) _ _ h)
  refine ⟨⟨hg, ?_, ?_⟩, hE⟩
  · refine hi.down.forget (fun v => v = t ∨ g.Reach v t) hdnd hdesc ?_ ?_ ?_
    · rintro v c he' (rfl | h)
      · exact Or.inr (.single he')
      · exact Or.inr (.head he' h)
    · intro v c h; rw [downE, downE, hE]
      refine ⟨fun h => h.1, fun h' => ⟨h', ?_⟩⟩
      rintro ⟨rfl, rfl⟩
      exact h (Or.inr (.single he))
    · intro v _ h; rw [hv]; exact h
  · refine hi.up.forget (fun v => v = s ∨ g.Reach s v) hand hanc ?_ ?_ ?_
    · intro v c he' hc
      rw [hi.base.conv] at he'
      rcases hc with rfl | h
      · exact Or.inr (.single he')
      · exact Or.inr (.tail h he')
    · intro v c h; rw [hU]
      refine ⟨fun h => h.1, fun h' => ⟨h', ?_⟩⟩
      rintro ⟨rfl, rfl⟩
      exact h (Or.inr (.single he))
    · intro v _ h; rw [hv]; exact h

theorem deleteEdge_spec (ω : Oracle) (s t : K) (σ : St K T) (hi : Inv σ.g) :
    Tot (deleteEdge ω s t) σ (fun r σ' => Inv σ'.g ∧
      (∀ e, checkEdgeIDs σ.g s t = some e → r = some e ∧ σ'.g = σ.g) ∧
      (checkEdgeIDs σ.g s t = none →
        (¬ σ.g.E s t → r = some .edgeNotFound) ∧ (σ.g.E s t → r = none)) ∧
      σ'.g.vertices = σ.g.vertices ∧
      (∀ a b, σ'.g.E a b ↔ σ.g.E a b ∧ ¬ (r = none ∧ a = s ∧ b = t)) ∧
      (¬ σ.g.E s t → σ'.g = σ.g) ∧
      (σ.g.E s t →
        (∀ x, GoMap.has σ'.g.ancC x = true ↔ (GoMap.has σ.g.ancC x = true ∨ x = t ∨ σ.g.Reach x t) ∧
          ¬ (x = s ∨ σ.g.Reach s x)) ∧
        (∀ x, GoMap.has σ'.g.descC x = true ↔ (GoMap.has σ.g.descC x = true ∨ x = s ∨ σ.g.Reach s x) ∧
          ¬ (x = t ∨ σ.g.Reach x t)))) := by
  unfold deleteEdge
  refine Tot.bind (Tot.getG ?_)
  cases hck : checkEdgeIDs σ.g s t with
  | some e =>
    refine Tot.pure ⟨hi, ?_, by simp, rfl, ?_, fun _ => rfl, fun h => ?_⟩
    · intro e' h; cases h; exact ⟨rfl, rfl⟩
    · intro a b; simp
    · have hn := (checkEdgeIDs_none hi.base s t).mpr
        ⟨by rintro rfl; exact hi.base.acyc _ (.single h), hi.base.ends _ _ h⟩
      rw [hck] at hn; cases hn
  | none =>
    obtain ⟨hst, hs, ht⟩ := (checkEdgeIDs_none hi.base s t).mp hck
    cases hfl : isEdgeFlag σ.g s t with
    | false =>
      have hE : ¬ σ.g.E s t := fun h => by rw [(isEdgeFlag_iff hck).mpr h] at hfl; cases hfl
      exact Tot.pure ⟨hi, by simp, fun _ => ⟨fun _ => rfl, fun h => absurd h hE⟩,
        rfl, fun a b => by simp, fun _ => rfl, fun h => absurd h hE⟩
    | true =>
      have hE := (isEdgeFlag_iff hck).mp hfl
      simp only [Bool.not_true, Bool.false_eq_true, if_false]
      refine Tot.bind (Tot.mono (descendantsOf_spec ω s σ hi hs) ?_)
      rintro ds0 σ1 ⟨hi1, sm1, -, -, fd, wd, hd⟩
      refine Tot.bind (Tot.mono (ancestorsOf_spec ω t σ1 hi1 (by rw [sm1.v]; exact ht)) ?_)
      rintro as0 σ2 ⟨hi2, sm2, fa, wa, ha⟩
      have sm := sm1.trans sm2
      obtain ⟨ka, kd⟩ := fd.both hi.base sm1 fa
      unfold Graph.Reach at ha
      rw [sm1.E] at ha
      refine Tot.bind (Tot.modG (Tot.bind (Tot.modG ?_)))
      refine Tot.bind (Tot.range ?_)
      intro ds hds
      refine Tot.bind (Tot.loopMod ?_)
      refine Tot.bind (Tot.modG ?_)
      refine Tot.bind (Tot.range ?_)
      intro as has
      refine Tot.bind (Tot.loopMod ?_)
      refine Tot.bind (Tot.modG ?_)
      refine Tot.pure ?_
      simp only [foldl_ancC (Prod.fst), foldl_descC (Prod.fst)]
      obtain ⟨h1, h2⟩ := deleteEdge_core (g' := {
          vertices := σ2.g.vertices
          inb := σ2.g.inb.updAt t fun x => x.delete s
          outb := σ2.g.outb.updAt s fun x => x.delete t
          ancC := (List.foldl (fun m x => m.del x.fst) σ2.g.ancC ds).del s
          descC := (List.foldl (fun m x => m.del x.fst) σ2.g.descC as).del t })
        hi2 (by rw [sm.E]; exact hE) rfl rfl rfl
        ((nodup_foldl_del _ _ _ hi2.up.nd).del _) ((nodup_foldl_del _ _ _ hi2.down.nd).del _)
        (fun v S => get?_invalidate wd hds (Or.inl rfl) (fun v => σ2.g.Reach s v)
          (by unfold Graph.Reach; rw [sm.E]; exact hd) _ _ _)
        (fun v S => get?_invalidate wa has (Or.inl rfl) (fun v => σ2.g.Reach v t)
          (by unfold Graph.Reach; rw [sm.E]; exact ha) _ _ _)
      refine ⟨h1, by simp, fun _ => ⟨fun h => absurd hE h, fun _ => trivial⟩, sm.v, ?_,
        fun h => absurd hE h, fun _ => ⟨fun x => ?_, fun x => ?_⟩⟩
      · intro a b; rw [h2, sm.E]; simp
      · rw [has_of_get? (fun v S => get?_invalidate wd hds (Or.inl rfl) (fun v => σ.g.Reach s v) hd s v S), ka]
      · rw [has_of_get? (fun v S => get?_invalidate wa has (Or.inl rfl) (fun v => σ.g.Reach v t) ha t v S), kd]

/-! ### DeleteVertex -/

theorem deleteVertex_core {g g' : Graph K T} (hi : Inv g) {id : K} {ps cs : List (K × K)}
    (hps : ∀ a, (∃ p ∈ ps, p.1 = a) ↔ g.E a id) (hcs : ∀ a, (∃ p ∈ cs, p.1 = a) ↔ g.E id a)
    (hv : g'.vertices = GoMap.del g.vertices id)
    (ho : g'.outb = GoMap.del (ps.foldl (fun m x => GoMap.updAt m x.1 (fun s => GoMap.del s id)) g.outb) id)
    (hin : g'.inb = GoMap.del (cs.foldl (fun m x => GoMap.updAt m x.1 (fun s => GoMap.del s id)) g.inb) id)
    (hand : GoMap.NodupKeys g'.ancC) (hdnd : GoMap.NodupKeys g'.descC)
    (hanc : ∀ v S, GoMap.get? g'.ancC v = some S ↔
      ¬ (v = id ∨ g.Reach id v) ∧ GoMap.get? g.ancC v = some S)
    (hdesc : ∀ v S, GoMap.get? g'.descC v = some S ↔
      ¬ (v = id ∨ g.Reach v id) ∧ GoMap.get? g.descC v = some S) :
    Inv g' ∧ ∀ a b, g'.E a b ↔ g.E a b ∧ a ≠ id ∧ b ≠ id := by
  have setAt_del : ∀ (m : GoMap K (GSet K)) (a b : K),
      GSet.includes (setAt (GoMap.del m id) a) b = true ↔ GSet.includes (setAt m a) b = true ∧ a ≠ id := by
    intro m a b; unfold setAt; rw [GoMap.get?_del]
    by_cases h : a = id <;> simp [h]
  have hE : ∀ a b, g'.E a b ↔ g.E a b ∧ a ≠ id ∧ b ≠ id := by
    intro a b; unfold Graph.E; rw [ho, setAt_del, get?_foldl_updAt (fun x : K × K => x.1), hps, and_assoc]
    refine and_congr_right (fun h => ?_)
    constructor
    · rintro ⟨h1, h2⟩; exact ⟨h2, fun hb => h1 ⟨by rw [← hb]; exact h, hb⟩⟩
    · rintro ⟨h1, h2⟩; exact ⟨fun h => h2 h.2, h1⟩
  have hU : ∀ a b, Dir.up.E g' a b ↔ Dir.up.E g a b ∧ a ≠ id ∧ b ≠ id := by
    intro a b
    show GSet.includes (setAt g'.inb a) b = true ↔ GSet.includes (setAt g.inb a) b = true ∧ _
    rw [hin, setAt_del, get?_foldl_updAt (fun x : K × K => x.1), hcs, and_assoc]
    refine and_congr_right (fun h => ?_)
    constructor
    · rintro ⟨h1, h2⟩
      refine ⟨h2, fun hb => h1 ⟨?_, hb⟩⟩
      rw [← hb]; exact (hi.base.conv b a).mp h
    · rintro ⟨h1, h2⟩; exact ⟨fun h => h2 h.2, h1⟩
  have hg : GInv g' := by
    constructor
    · rw [hv]; exact hi.base.vnd.del _
    · rw [ho]; exact (nodup_foldl_updAt _ _ _ _ hi.base.ond).del _
    · rw [hin]; exact (nodup_foldl_updAt _ _ _ _ hi.base.ind).del _
    · rw [ho]; intro k S hS; rw [GoMap.get?_del] at hS; split at hS
      · cases hS
      · exact wf_foldl_updAt (fun x : K × K => x.1) _ (fun S h => GSet.wf_delete h id) ps _ hi.base.owf k S hS
    · rw [hin]; intro k S hS; rw [GoMap.get?_del] at hS; split at hS
      · cases hS
      · exact wf_foldl_updAt (fun x : K × K => x.1) _ (fun S h => GSet.wf_delete h id) cs _ hi.base.iwf k S hS
    · rw [hv]
      cases h : GoMap.has (GoMap.del g.vertices id) zero with
      | false => rfl
      | true => have := ((GoMap.has_del _ _ _).mp h).2; rw [hi.base.nz] at this; cases this
    · intro a b; rw [hU, downE, hE, hi.base.conv, downE]
      exact and_congr Iff.rfl and_comm
    · intro a b h; rw [hv]
      obtain ⟨h1, h2, h3⟩ := (hE a b).mp h
      have := hi.base.ends a b h1
      exact ⟨(GoMap.has_del _ _ _).mpr ⟨h2, this.1⟩, (GoMap.has_del _ _ _).mpr ⟨h3, this.2⟩⟩
    · intro v h
      exact hi.base.acyc v (TransGen.mono (fun a b h => ((hE a b).mp h).1) _ _ h)
  refine ⟨⟨hg, ?_, ?_⟩, hE⟩
  · refine hi.down.forget (fun v => v = id ∨ g.Reach v id) hdnd hdesc ?_ ?_ ?_
    · rintro v c he (rfl | h)
      · exact Or.inr (.single he)
      · exact Or.inr (.head he h)
    · intro v c h; rw [downE, downE, hE]
      refine ⟨fun h => h.1, fun h' => ⟨h', fun hv => h (Or.inl hv), ?_⟩⟩
      rintro rfl
      exact h (Or.inr (.single h'))
    · intro v h h'; rw [hv, GoMap.has_del]; exact ⟨fun hv => h (Or.inl hv), h'⟩
  · refine hi.up.forget (fun v => v = id ∨ g.Reach id v) hand hanc ?_ ?_ ?_
    · intro v c he hc
      rw [hi.base.conv] at he
      rcases hc with rfl | h
      · exact Or.inr (.single he)
      · exact Or.inr (.tail h he)
    · intro v c h; rw [hU]
      refine ⟨fun h => h.1, fun h' => ⟨h', fun hv => h (Or.inl hv), ?_⟩⟩
      rintro rfl
      rw [hi.base.conv] at h'
      exact h (Or.inr (.single h'))
    · intro v h h'; rw [hv, GoMap.has_del]; exact ⟨fun hv => h (Or.inl hv), h'⟩

theorem exists_range {S0 : GSet K} (wf : SetWF S0) {l : List (K × K)} (hl : l.Perm S0) (a : K) :
    (∃ p ∈ l, p.1 = a) ↔ GSet.includes S0 a = true := by
  constructor
  · rintro ⟨p, hp, rfl⟩; exact ((GSet.mem_iff wf p).mp (hl.mem_iff.mp hp)).2
  · intro h; exact ⟨(a, a), hl.mem_iff.mpr ((GSet.mem_iff wf _).mpr ⟨rfl, h⟩), rfl⟩

theorem unlinkParents_spec (ω : Oracle) (id : K) (σ : St K T) (hg : GInv σ.g) :
    Tot (unlinkParents ω id) σ (fun _ σ' => ∃ ps : List (K × K), (∀ a, (∃ p ∈ ps, p.1 = a) ↔ σ.g.E a id) ∧
      σ'.g = { σ.g with outb := ps.foldl (fun m x => GoMap.updAt m x.1 (fun s => GoMap.del s id)) σ.g.outb }) := by
  unfold unlinkParents
  refine Tot.bind (Tot.getG ?_)
  cases h : GoMap.has σ.g.inb id with
  | true =>
    simp only [if_true]
    refine Tot.bind (Tot.range ?_)
    intro ps hps
    refine Tot.loopMod ⟨ps, ?_, ?_⟩
    · intro a; rw [exists_range (setAt_wf hg.iwf id) hps]; exact hg.conv a id
    · exact foldl_outb Prod.fst (fun _ s => GoMap.del s id) ps σ.g
  | false =>
    simp only [Bool.false_eq_true, if_false]
    refine Tot.pure ⟨[], ?_, rfl⟩
    intro a
    rw [← downE, ← hg.conv]; unfold Dir.E setAt
    rw [GoMap.has_eq_false] at h
    simp only [Dir.edges, h]; simp

theorem unlinkChildren_spec (ω : Oracle) (id : K) (σ : St K T) (howf : ∀ k S, GoMap.get? σ.g.outb k = some S → SetWF S) :
    Tot (unlinkChildren ω id) σ (fun _ σ' => ∃ cs : List (K × K), (∀ a, (∃ p ∈ cs, p.1 = a) ↔ σ.g.E id a) ∧
      σ'.g = { σ.g with inb := cs.foldl (fun m x => GoMap.updAt m x.1 (fun s => GoMap.del s id)) σ.g.inb }) := by
  unfold unlinkChildren
  refine Tot.bind (Tot.getG ?_)
  cases h : GoMap.has σ.g.outb id with
  | true =>
    simp only [if_true]
    refine Tot.bind (Tot.range ?_)
    intro cs hcs
    refine Tot.loopMod ⟨cs, ?_, ?_⟩
    · intro a; exact exists_range (setAt_wf howf id) hcs a
    · exact foldl_inb Prod.fst (fun _ s => GoMap.del s id) cs σ.g
  | false =>
    simp only [Bool.false_eq_true, if_false]
    refine Tot.pure ⟨[], ?_, rfl⟩
    intro a
    unfold Graph.E setAt
    rw [GoMap.has_eq_false] at h
    simp only [h]; simp

theorem deleteVertex_spec (ω : Oracle) (id : K) (σ : St K T) (hi : Inv σ.g) :
    Tot (deleteVertex ω id) σ (fun r σ' => Inv σ'.g ∧ r = checkVertexID σ.g id ∧
      (r ≠ none → σ'.g = σ.g) ∧
      (r = none → σ'.g.vertices = GoMap.del σ.g.vertices id ∧
        (∀ a b, σ'.g.E a b ↔ σ.g.E a b ∧ a ≠ id ∧ b ≠ id) ∧
        (∀ x, GoMap.has σ'.g.ancC x = true ↔ (GoMap.has σ.g.ancC x = true ∨ x = id ∨ σ.g.Reach x id) ∧
          ¬ (x = id ∨ σ.g.Reach id x)) ∧
        (∀ x, GoMap.has σ'.g.descC x = true ↔ (GoMap.has σ.g.descC x = true ∨ x = id ∨ σ.g.Reach id x) ∧
          ¬ (x = id ∨ σ.g.Reach x id)))) := by
  unfold deleteVertex
  refine Tot.bind (Tot.getG ?_)
  cases hck : checkVertexID σ.g id with
  | some e => exact Tot.pure ⟨hi, rfl, fun _ => rfl, fun h => by cases h⟩
  | none =>
    have hv := (checkVertexID_none hi.base id).mp hck
    refine Tot.bind (Tot.mono (descendantsOf_spec ω id σ hi hv) ?_)
    rintro ds0 σ1 ⟨hi1, sm1, -, -, fd, wd, hd⟩
    refine Tot.bind (Tot.mono (ancestorsOf_spec ω id σ1 hi1 (by rw [sm1.v]; exact hv)) ?_)
    rintro as0 σ2 ⟨hi2, sm2, fa, wa, ha⟩
    have sm := sm1.trans sm2
    obtain ⟨ka, kd⟩ := fd.both hi.base sm1 fa
    unfold Graph.Reach at ha
    rw [sm1.E] at ha
    refine Tot.bind (Tot.mono (unlinkParents_spec ω id σ2 hi2.base) ?_)
    rintro - σ3 ⟨ps, hps, hσ3⟩
    refine Tot.bind (Tot.mono (unlinkChildren_spec ω id σ3 ?_) ?_)
    · rw [hσ3]; exact wf_foldl_updAt (fun x : K × K => x.1) _ (fun S h => GSet.wf_delete h id) ps _ hi2.base.owf
    rintro - σ4 ⟨cs, hcs, hσ4⟩
    refine Tot.bind (Tot.modG (Tot.bind (Tot.modG ?_)))
    refine Tot.bind (Tot.range ?_)
    intro ds hds
    refine Tot.bind (Tot.loopMod ?_)
    refine Tot.bind (Tot.modG ?_)
    refine Tot.bind (Tot.range ?_)
    intro as has
    refine Tot.bind (Tot.loopMod ?_)
    refine Tot.bind (Tot.modG (Tot.bind (Tot.modG ?_)))
    refine Tot.pure ?_
    simp only [foldl_ancC (Prod.snd), foldl_descC (Prod.snd), hσ4, hσ3]
    have hcs' : ∀ a, (∃ p ∈ cs, p.1 = a) ↔ σ2.g.E id a := by
      intro a; rw [hcs]; unfold Graph.E; rw [hσ3]
      rw [get?_foldl_updAt (fun x : K × K => x.1), hps]
      refine ⟨fun h => h.1, fun h => ⟨h, fun h' => hi2.base.acyc id (.single h'.1)⟩⟩
    obtain ⟨h1, h2⟩ := deleteVertex_core (g' := {
        vertices := GoMap.del σ2.g.vertices id
        inb := GoMap.del (cs.foldl (fun m x => GoMap.updAt m x.1 (fun s => GoMap.del s id)) σ2.g.inb) id
        outb := GoMap.del (ps.foldl (fun m x => GoMap.updAt m x.1 (fun s => GoMap.del s id)) σ2.g.outb) id
        ancC := (List.foldl (fun m x => m.del x.snd) σ2.g.ancC ds).del id
        descC := (List.foldl (fun m x => m.del x.snd) σ2.g.descC as).del id })
      hi2 hps hcs' rfl rfl rfl
      ((nodup_foldl_del _ _ _ hi2.up.nd).del _) ((nodup_foldl_del _ _ _ hi2.down.nd).del _)
      (fun v S => get?_invalidate wd hds (Or.inr rfl) (fun v => σ2.g.Reach id v)
        (by unfold Graph.Reach; rw [sm.E]; exact hd) _ _ _)
      (fun v S => get?_invalidate wa has (Or.inr rfl) (fun v => σ2.g.Reach v id)
        (by unfold Graph.Reach; rw [sm.E]; exact ha) _ _ _)
    refine ⟨h1, trivial, fun h => absurd rfl h, fun _ => ⟨by rw [sm.v], ?_, fun x => ?_, fun x => ?_⟩⟩
    · intro a b; rw [h2, sm.E]
    · rw [has_of_get? (fun v S => get?_invalidate wd hds (Or.inr rfl) (fun v => σ.g.Reach id v) hd id v S), ka]
    · rw [has_of_get? (fun v S => get?_invalidate wa has (Or.inr rfl) (fun v => σ.g.Reach v id) ha id v S), kd]

end Verif.Dag
