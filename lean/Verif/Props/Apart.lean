import Verif.Props.Symmetry

/-! # C82: parts of a graph that have nothing to do with each other -/

set_option linter.unusedSectionVars false

namespace Verif.Dag
open M Relation

variable {K T : Type} [DecidableEq K] [GoZero K] [GoZero T]

/-! ## Specification -/

/-- The ids a call names. -/
def Op.ids : Op K T → List K
  | .addVertex id _ | .getVertex id | .deleteVertex id | .getParents id | .getChildren id | .getAncestors id
  | .getOrderedAncestors id | .getDescendants id | .getOrderedDescendants id => [id]
  | .addEdge s t | .isEdge s t | .deleteEdge s t => [s, t]
  | .getOrder | .getSize | .getLeaves | .getRoots | .getVertices | .reduceTransitively | .string => []

/-- The call is about the part `A` of the ids, or about everything. -/
def Op.about (A : K → Bool) (op : Op K T) : Bool := op.ids.all A

/-- The call does not have one foot in each part. -/
def Op.apart (A : K → Bool) (op : Op K T) : Prop := (∀ k ∈ op.ids, A k = true) ∨ (∀ k ∈ op.ids, A k = false)

/-- `r'` is what is said in `r` about the part `A`. -/
def Res.Part (A : K → Bool) : Res K T → Res K T → Prop
  | .entries m, .entries m' => (m.filter fun e => A e.1).Perm m'
  | .count n, .count n' => n' ≤ n
  | .listing _ _ vs es, .listing o' s' vs' es' =>
    (vs.filter A).Perm vs' ∧ (es.filter fun e => A e.1).Perm es' ∧ o' = vs'.length ∧ s' = es'.length
  | r, r' => r.Same r'

/-- Element by element. -/
def PartAll (A : K → Bool) : List (Res K T) → List (Res K T) → Prop
  | [], [] => True
  | r :: rs, r' :: rs' => r.Part A r' ∧ PartAll A rs rs'
  | _, _ => False

/-- The results of the calls that are about `A` or about everything. -/
def answersAbout (A : K → Bool) (ops : List (Op K T)) (rs : List (Res K T)) : List (Res K T) :=
  ((ops.zip rs).filter fun p => p.1.about A).map Prod.snd

/-! ## Relations that respect a part -/

/-- `E'` is the part of `E` inside `A`, and no edge crosses. -/
structure InPart (A : K → Bool) (E E' : K → K → Prop) : Prop where
  edge : ∀ x y, E' x y ↔ E x y ∧ A x = true
  closed : ∀ x y, E x y → A x = A y

variable {A : K → Bool} {E E' : K → K → Prop}

theorem InPart.swap (h : InPart A E E') : InPart A (Function.swap E) (Function.swap E') :=
  ⟨fun x y => (h.edge y x).trans ⟨fun ⟨h1, h2⟩ => ⟨h1, by rw [← h.closed _ _ h1]; exact h2⟩,
    fun ⟨h1, h2⟩ => ⟨h1, by rw [h.closed _ _ h1]; exact h2⟩⟩, fun x y hx => (h.closed y x hx).symm⟩

theorem InPart.path_same (h : InPart A E E') {x y : K} (hp : TransGen E x y) : A x = A y := by
  induction hp with
  | single hp => exact h.closed _ _ hp
  | tail _ hp ih => rw [ih, h.closed _ _ hp]

theorem InPart.path (h : InPart A E E') (x y : K) : TransGen E' x y ↔ TransGen E x y ∧ A x = true := by
  constructor
  · intro hp
    induction hp with
    | single hp => exact ⟨.single ((h.edge _ _).mp hp).1, ((h.edge _ _).mp hp).2⟩
    | tail _ hp ih => exact ⟨ih.1.tail ((h.edge _ _).mp hp).1, ih.2⟩
  · rintro ⟨hp, hx⟩
    induction hp with
    | single hp => exact .single ((h.edge _ _).mpr ⟨hp, hx⟩)
    | tail hq hp ih => exact ih.tail ((h.edge _ _).mpr ⟨hp, by rw [← h.path_same hq]; exact hx⟩)

theorem InPart.pathLen_same (h : InPart A E E') {n : Nat} {x y : K} (hp : PathLen E n x y) : A x = A y := by
  induction n generalizing y with
  | zero => cases hp; rfl
  | succ n ih => obtain ⟨c, h1, h2⟩ := hp; rw [ih h1, h.closed _ _ h2]

theorem InPart.pathLen (h : InPart A E E') {x : K} (hx : A x = true) (n : Nat) (y : K) : PathLen E' n x y ↔ PathLen E n x y := by
  induction n generalizing y with
  | zero => exact Iff.rfl
  | succ n ih =>
    constructor
    · rintro ⟨c, h1, h2⟩; exact ⟨c, (ih c).mp h1, ((h.edge _ _).mp h2).1⟩
    · rintro ⟨c, h1, h2⟩; exact ⟨c, (ih c).mpr h1, (h.edge _ _).mpr ⟨h2, by rw [← h.pathLen_same h1]; exact hx⟩⟩

theorem InPart.bfs (h : InPart A E E') {id : K} (hx : A id = true) {l : List K} (hl : BfsDone E id l) : BfsDone E' id l := by
  have hd : ∀ y n, DistIs E' id y n ↔ DistIs E id y n := fun y n => by
    unfold DistIs
    rw [h.pathLen hx]
    simp only [h.pathLen hx]
  refine ⟨hl.nodup, fun x => ?_, hl.sorted.imp fun {x y} hxy n m hn hm => hxy n m ((hd _ _).mp hn) ((hd _ _).mp hm)⟩
  rw [h.path, hl.mem]
  exact ⟨fun hp => ⟨hp, hx⟩, fun hp => hp.1⟩

theorem InPart.implied (h : InPart A E E') (x y : K) : Implied E' x y ↔ Implied E x y ∧ A x = true := by
  constructor
  · rintro ⟨m, h1, h2⟩
    exact ⟨⟨m, ((h.edge _ _).mp h1).1, ((h.path _ _).mp h2).1⟩, ((h.edge _ _).mp h1).2⟩
  · rintro ⟨⟨m, h1, h2⟩, hx⟩
    exact ⟨m, (h.edge _ _).mpr ⟨h1, hx⟩, (h.path _ _).mpr ⟨h2, by rw [← h.closed _ _ h1]; exact hx⟩⟩

/-- `a'` is the part `A` of `a`, and no edge leaves it. -/
structure PartOf (A : K → Bool) (a a' : Abs K T) : Prop where
  V : ∀ k, a'.V k = if A k = true then a.V k else none
  E : InPart A a.E a'.E

variable {a a' : Abs K T}

theorem PartOf.inside (h : PartOf A a a') {k : K} (hk : A k = true) : a'.V k = a.V k := by rw [h.V, if_pos hk]

theorem PartOf.bind (h : PartOf A a a') (k : K) (v : T) : a'.V k = some v ↔ a.V k = some v ∧ A k = true := by
  rw [h.V]
  by_cases hk : A k = true <;> simp [hk]

theorem PartOf.edgeErr (h : PartOf A a a') {s t : K} (hs : A s = true) (ht : A t = true) : Spec.edgeErr a' s t = Spec.edgeErr a s t := by
  unfold Spec.edgeErr; rw [h.inside hs, h.inside ht]

theorem PartOf.vertexErr (h : PartOf A a a') {id : K} (hs : A id = true) : Spec.vertexErr a' id = Spec.vertexErr a id := by
  unfold Spec.vertexErr; rw [h.inside hs]

theorem PartOf.addVertexErr (h : PartOf A a a') {id : K} (hs : A id = true) : Spec.addVertexErr a' id = Spec.addVertexErr a id := by
  unfold Spec.addVertexErr; rw [h.inside hs]

theorem PartOf.edge (h : PartOf A a a') {x : K} (hx : A x = true) (y : K) : a'.E x y ↔ a.E x y := by
  rw [h.E.edge]; exact ⟨And.left, fun e => ⟨e, hx⟩⟩

theorem PartOf.edge' (h : PartOf A a a') {y : K} (hy : A y = true) (x : K) : a'.E x y ↔ a.E x y := by
  rw [h.E.edge]; exact ⟨And.left, fun e => ⟨e, by rw [h.E.closed _ _ e]; exact hy⟩⟩

theorem PartOf.path (h : PartOf A a a') {x : K} (hx : A x = true) (y : K) : TransGen a'.E x y ↔ TransGen a.E x y := by
  rw [h.E.path]; exact ⟨And.left, fun e => ⟨e, hx⟩⟩

theorem PartOf.path' (h : PartOf A a a') {y : K} (hy : A y = true) (x : K) : TransGen a'.E x y ↔ TransGen a.E x y := by
  rw [h.E.path]; exact ⟨And.left, fun e => ⟨e, by rw [h.E.path_same e]; exact hy⟩⟩

theorem PartOf.canAdd (h : PartOf A a a') {s t : K} (hs : A s = true) (ht : A t = true) : Spec.CanAdd a' s t ↔ Spec.CanAdd a s t := by
  unfold Spec.CanAdd
  rw [h.edgeErr hs ht, h.edge hs, h.path ht]

/-- A call about the part. -/
theorem PartOf.next (h : PartOf A a a') {op : Op K T} (ho : ∀ k ∈ op.ids, A k = true) :
    PartOf A (Spec.next a op) (Spec.next a' op) := by
  cases op with
  | addVertex id v =>
    have hid : A id = true := ho id (by simp [Op.ids])
    refine ⟨fun k => ?_, h.E⟩
    show (if k = id ∧ Spec.addVertexErr a' id = none then some v else a'.V k) =
      if A k = true then (if k = id ∧ Spec.addVertexErr a id = none then some v else a.V k) else none
    rw [h.addVertexErr hid, h.V]
    by_cases hk : A k = true
    · simp [hk]
    · rw [if_neg hk, if_neg hk, if_neg]
      rintro ⟨rfl, -⟩; exact hk hid
  | deleteVertex id =>
    refine ⟨fun k => ?_, fun x y => ?_, fun x y hx => h.E.closed _ _ hx.1⟩
    · show (if k = id then none else a'.V k) = if A k = true then (if k = id then none else a.V k) else none
      rw [h.V]
      split <;> simp
    · show a'.E x y ∧ x ≠ id ∧ y ≠ id ↔ (a.E x y ∧ x ≠ id ∧ y ≠ id) ∧ A x = true
      rw [h.E.edge]; tauto
  | addEdge s t =>
    have hs : A s = true := ho s (by simp [Op.ids])
    have ht : A t = true := ho t (by simp [Op.ids])
    refine ⟨h.V, fun x y => ?_, fun x y hx => ?_⟩
    · show (a'.E x y ∨ (Spec.CanAdd a' s t ∧ x = s ∧ y = t)) ↔ (a.E x y ∨ (Spec.CanAdd a s t ∧ x = s ∧ y = t)) ∧ A x = true
      rw [h.E.edge, h.canAdd hs ht]
      constructor
      · rintro (⟨h1, h2⟩ | ⟨h1, rfl, rfl⟩)
        · exact ⟨.inl h1, h2⟩
        · exact ⟨.inr ⟨h1, rfl, rfl⟩, hs⟩
      · rintro ⟨h1 | h1, h2⟩
        · exact .inl ⟨h1, h2⟩
        · exact .inr h1
    · rcases hx with hx | ⟨-, rfl, rfl⟩
      · exact h.E.closed _ _ hx
      · rw [hs, ht]
  | deleteEdge s t =>
    refine ⟨h.V, fun x y => ?_, fun x y hx => h.E.closed _ _ hx.1⟩
    show a'.E x y ∧ ¬ (x = s ∧ y = t) ↔ (a.E x y ∧ ¬ (x = s ∧ y = t)) ∧ A x = true
    rw [h.E.edge]; tauto
  | reduceTransitively =>
    refine ⟨h.V, fun x y => ?_, fun x y hx => h.E.closed _ _ hx.1⟩
    show a'.E x y ∧ ¬ Implied a'.E x y ↔ (a.E x y ∧ ¬ Implied a.E x y) ∧ A x = true
    rw [h.E.edge, h.E.implied]; tauto
  | _ => exact h

/-- A call about the rest. -/
theorem PartOf.skip (h : PartOf A a a') {op : Op K T} (ho : ∀ k ∈ op.ids, A k = false) (hn : op.ids ≠ []) :
    PartOf A (Spec.next a op) a' := by
  cases op with
  | addVertex id v =>
    have hid : A id = false := ho id (by simp [Op.ids])
    refine ⟨fun k => ?_, h.E⟩
    show a'.V k = if A k = true then (if k = id ∧ Spec.addVertexErr a id = none then some v else a.V k) else none
    rw [h.V]
    by_cases hk : A k = true
    · rw [if_pos hk, if_pos hk, if_neg]
      rintro ⟨rfl, -⟩; rw [hid] at hk; cases hk
    · rw [if_neg hk, if_neg hk]
  | deleteVertex id =>
    have hid : A id = false := ho id (by simp [Op.ids])
    refine ⟨fun k => ?_, fun x y => ?_, fun x y hx => h.E.closed _ _ hx.1⟩
    · show a'.V k = if A k = true then (if k = id then none else a.V k) else none
      rw [h.V]
      by_cases hk : A k = true
      · rw [if_pos hk, if_pos hk, if_neg]
        rintro rfl; rw [hid] at hk; cases hk
      · rw [if_neg hk, if_neg hk]
    · show a'.E x y ↔ (a.E x y ∧ x ≠ id ∧ y ≠ id) ∧ A x = true
      rw [h.E.edge]
      constructor
      · rintro ⟨h1, h2⟩
        refine ⟨⟨h1, ?_, ?_⟩, h2⟩
        · rintro rfl; rw [hid] at h2; cases h2
        · rintro rfl; rw [h.E.closed _ _ h1, hid] at h2; cases h2
      · rintro ⟨⟨h1, -⟩, h2⟩; exact ⟨h1, h2⟩
  | addEdge s t =>
    have hs : A s = false := ho s (by simp [Op.ids])
    have ht : A t = false := ho t (by simp [Op.ids])
    refine ⟨h.V, fun x y => ?_, fun x y hx => ?_⟩
    · show a'.E x y ↔ (a.E x y ∨ (Spec.CanAdd a s t ∧ x = s ∧ y = t)) ∧ A x = true
      rw [h.E.edge]
      constructor
      · rintro ⟨h1, h2⟩; exact ⟨.inl h1, h2⟩
      · rintro ⟨h1 | ⟨-, rfl, -⟩, h2⟩
        · exact ⟨h1, h2⟩
        · rw [hs] at h2; cases h2
    · rcases hx with hx | ⟨-, rfl, rfl⟩
      · exact h.E.closed _ _ hx
      · rw [hs, ht]
  | deleteEdge s t =>
    have hs : A s = false := ho s (by simp [Op.ids])
    refine ⟨h.V, fun x y => ?_, fun x y hx => h.E.closed _ _ hx.1⟩
    show a'.E x y ↔ (a.E x y ∧ ¬ (x = s ∧ y = t)) ∧ A x = true
    rw [h.E.edge]
    constructor
    · rintro ⟨h1, h2⟩
      refine ⟨⟨h1, ?_⟩, h2⟩
      rintro ⟨rfl, -⟩; rw [hs] at h2; cases h2
    · rintro ⟨⟨h1, -⟩, h2⟩; exact ⟨h1, h2⟩
  | reduceTransitively => exact absurd rfl hn
  | _ => exact h

theorem PartOf.exactly (h : PartOf A a a') {m m' : List (K × T)} {P P' : K → Prop} (hP : ∀ k, A k = true → (P' k ↔ P k))
    (hm : Spec.Exactly m fun k v => a.V k = some v ∧ P k) (hm' : Spec.Exactly m' fun k v => a'.V k = some v ∧ P' k) :
    (m.filter fun e => A e.1).Perm m' := by
  refine exactly_perm (P := fun k v => a'.V k = some v ∧ P' k) ⟨?_, fun k v => ?_⟩ hm'
  · exact hm.1.sublist (List.filter_sublist.map _)
  · show _ ↔ a'.V k = some v ∧ P' k
    rw [List.mem_filter, hm.2, h.bind]
    constructor
    · rintro ⟨⟨h1, h2⟩, h3⟩; exact ⟨⟨h1, h3⟩, (hP k h3).mpr h2⟩
    · rintro ⟨⟨h1, h3⟩, h2⟩; exact ⟨⟨h1, (hP k h3).mp h2⟩, h3⟩

theorem count_le {α : Type} {P P' : α → Prop} (hP : ∀ x, P' x → P x) {n n' : Nat} (h : Spec.Count P n) (h' : Spec.Count P' n') : n' ≤ n := by
  obtain ⟨l, h1, h2, rfl⟩ := h
  obtain ⟨l', h1', h2', rfl⟩ := h'
  exact (List.subperm_of_subset h1' fun x hx => (h2 x).mpr (hP x ((h2' x).mp hx))).length_le

theorem orErr_weaken {α : Type} {e : Option Err} {r : Except Err α} {P P' : α → Prop}
    (h : Spec.OrErr e r P) (hP : ∀ x, P x → P' x) : Spec.OrErr e r P' := by
  cases e with
  | some e => exact h
  | none => obtain ⟨x, rfl, hx⟩ := h; exact ⟨x, rfl, hP x hx⟩

theorem PartOf.ok (h : PartOf A a a') {op : Op K T} (ho : ∀ k ∈ op.ids, A k = true) {r r' : Res K T} (hr : Spec.ok a op r)
    (hr' : Spec.ok a' op r') : r.Part A r' := by
  have ex : ∀ {m : List (K × T)} {P P' : K → Prop}, (∀ k, P' k → A k = true) → (∀ k, P k → A k = true) → (∀ k, A k = true → (P' k ↔ P k)) →
      (Spec.Exactly m fun k v => a.V k = some v ∧ P k) → Spec.Exactly m fun k v => a'.V k = some v ∧ P' k := by
    intro m P P' h1 h2 h3 hm
    refine ⟨hm.1, fun k v => (hm.2 k v).trans ?_⟩
    show _ ↔ a'.V k = some v ∧ P' k
    rw [h.bind]
    constructor
    · rintro ⟨h4, h5⟩; exact ⟨⟨h4, h2 k h5⟩, (h3 k (h2 k h5)).mpr h5⟩
    · rintro ⟨⟨h4, h6⟩, h5⟩; exact ⟨h4, (h3 k h6).mp h5⟩
  cases op with
  | addVertex id v =>
    have hid : A id = true := ho id (by simp [Op.ids])
    cases r <;> first | exact hr.elim | skip
    cases r' <;> first | exact hr'.elim | skip
    show Res.Same (.err _) (.err _)
    exact ok_same (a := a') (op := .addVertex id v) (Eq.trans hr (h.addVertexErr hid).symm) hr'
  | getVertex id =>
    have hid : A id = true := ho id (by simp [Op.ids])
    cases r <;> first | exact hr.elim | skip
    cases r' <;> first | exact hr'.elim | skip
    show Res.Same (.payload _) (.payload _)
    refine ok_same (a := a') (op := .getVertex id) ?_ hr'
    show Spec.OrErr (Spec.vertexErr a' id) _ (fun v => a'.V id = some v)
    rw [h.vertexErr hid, h.inside hid]; exact hr
  | deleteVertex id =>
    have hid : A id = true := ho id (by simp [Op.ids])
    cases r <;> first | exact hr.elim | skip
    cases r' <;> first | exact hr'.elim | skip
    show Res.Same (.err _) (.err _)
    exact ok_same (a := a') (op := .deleteVertex id) (Eq.trans hr (h.vertexErr hid).symm) hr'
  | addEdge s t =>
    have hs : A s = true := ho s (by simp [Op.ids])
    have ht : A t = true := ho t (by simp [Op.ids])
    cases r <;> first | exact hr.elim | skip
    cases r' <;> first | exact hr'.elim | skip
    show Res.Same (.err _) (.err _)
    refine ok_same (a := a') (op := .addEdge s t) ?_ hr'
    simpa only [Spec.ok, h.edgeErr hs ht, h.edge hs, h.path ht] using hr
  | isEdge s t =>
    have hs : A s = true := ho s (by simp [Op.ids])
    have ht : A t = true := ho t (by simp [Op.ids])
    cases r <;> first | exact hr.elim | skip
    cases r' <;> first | exact hr'.elim | skip
    show Res.Same (.flag _) (.flag _)
    refine ok_same (a := a') (op := .isEdge s t) ?_ hr'
    simpa only [Spec.ok, h.edgeErr hs ht, h.edge hs] using hr
  | deleteEdge s t =>
    have hs : A s = true := ho s (by simp [Op.ids])
    have ht : A t = true := ho t (by simp [Op.ids])
    cases r <;> first | exact hr.elim | skip
    cases r' <;> first | exact hr'.elim | skip
    show Res.Same (.err _) (.err _)
    refine ok_same (a := a') (op := .deleteEdge s t) ?_ hr'
    simpa only [Spec.ok, h.edgeErr hs ht, h.edge hs] using hr
  | getOrder =>
    cases r <;> first | exact hr.elim | skip
    cases r' <;> first | exact hr'.elim | skip
    refine count_le (fun k hk => ?_) hr hr'
    have hk : (a'.V k).isSome = true := hk
    rw [h.V] at hk
    split at hk
    · exact hk
    · cases hk
  | getSize =>
    cases r <;> first | exact hr.elim | skip
    cases r' <;> first | exact hr'.elim | skip
    exact count_le (fun e he => ((h.E.edge _ _).mp he).1) hr hr'
  | getLeaves =>
    cases r <;> first | exact hr.elim | skip
    cases r' <;> first | exact hr'.elim | skip
    exact h.exactly (P := fun k => ∀ x, ¬ a.E k x) (P' := fun k => ∀ x, ¬ a'.E k x) (fun k hk => by simp only [h.edge hk]) hr hr'
  | getRoots =>
    cases r <;> first | exact hr.elim | skip
    cases r' <;> first | exact hr'.elim | skip
    exact h.exactly (P := fun k => ∀ x, ¬ a.E x k) (P' := fun k => ∀ x, ¬ a'.E x k) (fun k hk => by simp only [h.edge' hk]) hr hr'
  | getVertices =>
    cases r <;> first | exact hr.elim | skip
    cases r' <;> first | exact hr'.elim | skip
    exact h.exactly (P := fun _ => True) (P' := fun _ => True) (fun _ _ => Iff.rfl) (by simpa only [and_true, Spec.ok] using hr)
      (by simpa only [and_true, Spec.ok] using hr')
  | getParents id =>
    have hid : A id = true := ho id (by simp [Op.ids])
    cases r <;> first | exact hr.elim | skip
    cases r' <;> first | exact hr'.elim | skip
    refine ok_same (a := a') (op := .getParents id) ?_ hr'
    show Spec.OrErr (Spec.vertexErr a' id) _ (fun m => Spec.Exactly m (fun k v => a'.V k = some v ∧ a'.E k id))
    rw [h.vertexErr hid]
    exact orErr_weaken hr fun m hm => ex (fun k hk => ((h.E.edge _ _).mp hk).2) (fun k hk => by rw [h.E.closed _ _ hk]; exact hid)
      (fun k _ => h.edge' hid k) hm
  | getChildren id =>
    have hid : A id = true := ho id (by simp [Op.ids])
    cases r <;> first | exact hr.elim | skip
    cases r' <;> first | exact hr'.elim | skip
    refine ok_same (a := a') (op := .getChildren id) ?_ hr'
    show Spec.OrErr (Spec.vertexErr a' id) _ (fun m => Spec.Exactly m (fun k v => a'.V k = some v ∧ a'.E id k))
    rw [h.vertexErr hid]
    exact orErr_weaken hr fun m hm => ex (fun k hk => by rw [← h.E.closed _ _ ((h.E.edge _ _).mp hk).1]; exact hid)
      (fun k hk => by rw [← h.E.closed _ _ hk]; exact hid) (fun k _ => h.edge hid k) hm
  | getAncestors id =>
    have hid : A id = true := ho id (by simp [Op.ids])
    cases r <;> first | exact hr.elim | skip
    cases r' <;> first | exact hr'.elim | skip
    refine ok_same (a := a') (op := .getAncestors id) ?_ hr'
    show Spec.OrErr (Spec.vertexErr a' id) _ (fun m => Spec.Exactly m (fun k v => a'.V k = some v ∧ TransGen a'.E k id))
    rw [h.vertexErr hid]
    exact orErr_weaken hr fun m hm => ex (fun k hk => ((h.E.path _ _).mp hk).2) (fun k hk => by rw [h.E.path_same hk]; exact hid)
      (fun k _ => h.path' hid k) hm
  | getDescendants id =>
    have hid : A id = true := ho id (by simp [Op.ids])
    cases r <;> first | exact hr.elim | skip
    cases r' <;> first | exact hr'.elim | skip
    refine ok_same (a := a') (op := .getDescendants id) ?_ hr'
    show Spec.OrErr (Spec.vertexErr a' id) _ (fun m => Spec.Exactly m (fun k v => a'.V k = some v ∧ TransGen a'.E id k))
    rw [h.vertexErr hid]
    exact orErr_weaken hr fun m hm => ex (fun k hk => by rw [← h.E.path_same ((h.E.path _ _).mp hk).1]; exact hid)
      (fun k hk => by rw [← h.E.path_same hk]; exact hid) (fun k _ => h.path hid k) hm
  | getOrderedAncestors id =>
    have hid : A id = true := ho id (by simp [Op.ids])
    cases r <;> first | exact hr.elim | skip
    cases r' <;> first | exact hr'.elim | skip
    refine ok_same (a := a') (op := .getOrderedAncestors id) ?_ hr'
    show Spec.OrErr (Spec.vertexErr a' id) _ (fun l => BfsDone (Function.swap a'.E) id l)
    rw [h.vertexErr hid]
    exact orErr_weaken hr fun l hl => h.E.swap.bfs hid hl
  | getOrderedDescendants id =>
    have hid : A id = true := ho id (by simp [Op.ids])
    cases r <;> first | exact hr.elim | skip
    cases r' <;> first | exact hr'.elim | skip
    refine ok_same (a := a') (op := .getOrderedDescendants id) ?_ hr'
    show Spec.OrErr (Spec.vertexErr a' id) _ (fun l => BfsDone a'.E id l)
    rw [h.vertexErr hid]
    exact orErr_weaken hr fun l hl => h.E.bfs hid hl
  | reduceTransitively =>
    cases r <;> first | exact hr.elim | skip
    cases r' <;> first | exact hr'.elim | skip
    rfl
  | string =>
    cases r <;> first | exact hr.elim | skip
    cases r' <;> first | exact hr'.elim | skip
    obtain ⟨h1, h2, h3, h4, h5, h6⟩ := hr
    obtain ⟨h1', h2', h3', h4', h5', h6'⟩ := hr'
    refine ⟨(List.perm_ext_iff_of_nodup (h1.filter _) h1').mpr fun k => ?_,
      (List.perm_ext_iff_of_nodup (h3.filter _) h3').mpr fun ⟨x, y⟩ => ?_, h5', h6'⟩
    · rw [List.mem_filter, h2, h2', h.V]
      by_cases hk : A k = true <;> simp [hk]
    · rw [List.mem_filter, h4, h4', h.E.edge]

theorem PartOf.okAll (h : PartOf A a a') {ops : List (Op K T)} (ho : ∀ op ∈ ops, op.apart A) {rs rs' : List (Res K T)}
    (hr : Spec.okAll a ops rs) (hr' : Spec.okAll a' (ops.filter (Op.about A)) rs') :
    PartAll A (answersAbout A ops rs) rs' ∧ PartOf A (Spec.after a ops) (Spec.after a' (ops.filter (Op.about A))) := by
  induction ops generalizing a a' rs rs' with
  | nil => cases rs <;> cases rs' <;> first | exact hr.elim | exact hr'.elim | exact ⟨trivial, h⟩
  | cons op ops ih =>
    cases rs with
    | nil => exact hr.elim
    | cons r rs =>
      have hop := ho op List.mem_cons_self
      have hops := fun o hm => ho o (List.mem_cons_of_mem _ hm)
      by_cases hab : op.about A = true
      · rw [List.filter_cons_of_pos hab] at hr' ⊢
        have hids : ∀ k ∈ op.ids, A k = true := List.all_eq_true.mp hab
        cases rs' with
        | nil => exact hr'.elim
        | cons r' rs' =>
          obtain ⟨h1, h2⟩ := ih (h.next hids) hops hr.2 hr'.2
          have e : answersAbout A (op :: ops) (r :: rs) = r :: answersAbout A ops rs := by
            unfold answersAbout
            rw [List.zip_cons_cons, List.filter_cons_of_pos (by exact hab), List.map_cons]
          rw [e]
          exact ⟨⟨h.ok hids hr.1 hr'.1, h1⟩, h2⟩
      · rw [List.filter_cons_of_neg hab] at hr' ⊢
        have hne : op.ids ≠ [] := fun e => hab (by rw [Op.about, e]; rfl)
        have hids : ∀ k ∈ op.ids, A k = false := by
          rcases hop with hop | hop
          · exact absurd (List.all_eq_true.mpr hop) hab
          · exact hop
        obtain ⟨h1, h2⟩ := ih (h.skip hids hne) hops hr.2 hr'
        have e : answersAbout A (op :: ops) (r :: rs) = answersAbout A ops rs := by
          unfold answersAbout
          rw [List.zip_cons_cons, List.filter_cons_of_neg (by exact hab)]
        rw [e]
        exact ⟨h1, h2⟩

/-! ## C82 -/

/-- **C82.** Two parts of a graph that no call connects do not see each other: the calls about one part return what they would return if
the calls about the other part had not been made, the calls about everything return about that part what they would return then, and
that part of the graph is the same in the end. -/
theorem C82_apart (ω ω' : Oracle) (A : K → Bool) (ops : List (Op K T)) (ho : ∀ op ∈ ops, op.apart A) :
    ∃ rs rs' σ σ', run ω ops St.init = some (rs, σ) ∧ run ω' (ops.filter (Op.about A)) St.init = some (rs', σ') ∧
      PartAll A (answersAbout A ops rs) rs' ∧
      (∀ k v, Bound σ' k v ↔ Bound σ k v ∧ A k = true) ∧ (∀ x y, Edge σ' x y ↔ Edge σ x y ∧ A x = true) := by
  obtain ⟨rs, σ, h1, h2, h3, h4⟩ := run_refines ω ops
  obtain ⟨rs', σ', h1', h2', h3', h4'⟩ := run_refines ω' (ops.filter (Op.about A))
  have h0 : PartOf A (Spec.empty : Abs K T) (Spec.empty : Abs K T) :=
    ⟨fun k => by simp [Spec.empty], fun x y => by simp [Spec.empty], fun x y h => h.elim⟩
  obtain ⟨h5, h6⟩ := h0.okAll ho h4 h4'
  refine ⟨rs, rs', σ, σ', h1, h1', h5, fun k v => ?_, fun x y => ?_⟩
  · rw [bound_iff h2', bound_iff h2, h3, h3', h6.bind]
  · rw [edge_iff h2', edge_iff h2, h3, h3', h6.E.edge]

/-- Two chains, 2 → 4 → 6 and 1 → 3 → 5, built in turns, reduced, and asked about. -/
def twoChains : List (Op Nat Nat) :=
  [.addVertex 2 20, .addVertex 1 10, .addVertex 4 40, .addVertex 3 30, .addEdge 2 4, .addEdge 1 3, .addVertex 6 60, .addVertex 5 50,
   .addEdge 4 6, .addEdge 2 6, .addEdge 3 5, .addEdge 1 5, .reduceTransitively, .isEdge 2 6, .deleteVertex 3, .getDescendants 2, .getLeaves, .getSize]

example : (∀ op ∈ twoChains, op.apart (· % 2 == 0)) ∧
    (run Oracle.forward twoChains (St.init : St Nat Nat)).map (fun x => (answersAbout (· % 2 == 0) twoChains x.1).drop 7) =
      some [.flag (.ok false), .entriesE (.ok [(6, 60), (4, 40)]), .entries [(1, 10), (6, 60), (5, 50)], .count 2] ∧
    (run Oracle.forward (twoChains.filter (Op.about (· % 2 == 0))) (St.init : St Nat Nat)).map (fun x => x.1.drop 7) =
      some [.flag (.ok false), .entriesE (.ok [(6, 60), (4, 40)]), .entries [(6, 60)], .count 2] := by
  refine ⟨?_, by decide +kernel, by decide +kernel⟩
  simp [twoChains, Op.apart, Op.ids]

end Verif.Dag
