import Verif.Props.BuildOrder

/-! # C80, C81: renaming the ids of a graph, and turning its edges round -/

set_option linter.unusedSectionVars false

namespace Verif.Dag
open M Relation

variable {K T K' T' : Type} [DecidableEq K] [GoZero K] [GoZero T] [DecidableEq K'] [GoZero K'] [GoZero T']

/-! ## Specification -/

/-- The same call with every id `k` written as `f k` and every payload `v` as `g v`. -/
def Op.map (f : K → K') (g : T → T') : Op K T → Op K' T'
  | .addVertex id v => .addVertex (f id) (g v)
  | .getVertex id => .getVertex (f id)
  | .deleteVertex id => .deleteVertex (f id)
  | .addEdge s t => .addEdge (f s) (f t)
  | .isEdge s t => .isEdge (f s) (f t)
  | .deleteEdge s t => .deleteEdge (f s) (f t)
  | .getOrder => .getOrder
  | .getSize => .getSize
  | .getLeaves => .getLeaves
  | .getRoots => .getRoots
  | .getVertices => .getVertices
  | .getParents id => .getParents (f id)
  | .getChildren id => .getChildren (f id)
  | .getAncestors id => .getAncestors (f id)
  | .getOrderedAncestors id => .getOrderedAncestors (f id)
  | .getDescendants id => .getDescendants (f id)
  | .getOrderedDescendants id => .getOrderedDescendants (f id)
  | .reduceTransitively => .reduceTransitively
  | .string => .string

/-- The same result with every id `k` written as `f k` and every payload `v` as `g v`. -/
def Res.map (f : K → K') (g : T → T') : Res K T → Res K' T'
  | .err e => .err e
  | .payload r => .payload (r.map g)
  | .flag r => .flag r
  | .count n => .count n
  | .entries m => .entries (m.map (Prod.map f g))
  | .entriesE r => .entriesE (r.map (·.map (Prod.map f g)))
  | .idsE r => .idsE (r.map (·.map f))
  | .unit => .unit
  | .listing o s vs es => .listing o s (vs.map f) (es.map (Prod.map f f))

/-- The same call about the graph with all edges turned round. -/
def Op.mirror : Op K T → Op K T
  | .addEdge s t => .addEdge t s
  | .isEdge s t => .isEdge t s
  | .deleteEdge s t => .deleteEdge t s
  | .getLeaves => .getRoots
  | .getRoots => .getLeaves
  | .getParents id => .getChildren id
  | .getChildren id => .getParents id
  | .getAncestors id => .getDescendants id
  | .getDescendants id => .getAncestors id
  | .getOrderedAncestors id => .getOrderedDescendants id
  | .getOrderedDescendants id => .getOrderedAncestors id
  | op => op

/-- A listing with all edges turned round. -/
def Res.turned : Res K T → Res K T
  | .listing o s vs es => .listing o s vs (es.map Prod.swap)
  | r => r

/-- The error about the other end. -/
def Err.otherEnd : Err → Err
  | .edgeSourceIDEmpty => .edgeTargetIDEmpty
  | .edgeTargetIDEmpty => .edgeSourceIDEmpty
  | .edgeSourceIDNotFound => .edgeTargetIDNotFound
  | .edgeTargetIDNotFound => .edgeSourceIDNotFound
  | e => e

/-- An error about the other end, the rest as it is. -/
def Res.otherEnd : Res K T → Res K T
  | .err e => .err (e.map Err.otherEnd)
  | .flag (.error e) => .flag (.error e.otherEnd)
  | r => r

/-- What is answered about the graph and about its mirror image.  Errors name the other end, except that of two bad ends
the source is complained about both times. -/
def Res.Mirrors (r r' : Res K T) : Prop := r.turned.Same r' ∨ r.turned.otherEnd.Same r'

/-- Element by element. -/
def MirrorAll : List (Res K T) → List (Res K T) → Prop
  | [], [] => True
  | r :: rs, r' :: rs' => r.Mirrors r' ∧ MirrorAll rs rs'
  | _, _ => False

/-! ## Renaming relations -/

/-- `E'` is `E` with `x` written as `f x`. -/
structure RenE (f : K → K') (E : K → K → Prop) (E' : K' → K' → Prop) : Prop where
  edge : ∀ x y, E' (f x) (f y) ↔ E x y
  range : ∀ x' y', E' x' y' → (∃ x, f x = x') ∧ ∃ y, f y = y'

theorem RenE.swap {f : K → K'} {E : K → K → Prop} {E' : K' → K' → Prop} (h : RenE f E E') :
    RenE f (Function.swap E) (Function.swap E') :=
  ⟨fun x y => h.edge y x, fun x' y' hx => (h.range y' x' hx).symm⟩

theorem RenE.path {f : K → K'} {E : K → K → Prop} {E' : K' → K' → Prop} (h : RenE f E E')
    (x : K) (z : K') : TransGen E' (f x) z ↔ ∃ y, f y = z ∧ TransGen E x y := by
  constructor
  · intro hz
    induction hz with
    | single hz =>
      obtain ⟨-, y, rfl⟩ := h.range _ _ hz
      exact ⟨y, rfl, .single ((h.edge _ _).mp hz)⟩
    | tail _ hz ih =>
      obtain ⟨y, rfl, hy⟩ := ih
      obtain ⟨-, w, rfl⟩ := h.range _ _ hz
      exact ⟨w, rfl, hy.tail ((h.edge _ _).mp hz)⟩
  · rintro ⟨y, rfl, hy⟩
    exact hy.lift f fun a b hab => (h.edge a b).mpr hab

theorem RenE.path' {f : K → K'} {E : K → K → Prop} {E' : K' → K' → Prop} (h : RenE f E E') (hf : ∀ x y, f x = f y → x = y)
    (x y : K) : TransGen E' (f x) (f y) ↔ TransGen E x y := by
  rw [h.path]
  exact ⟨fun ⟨z, hz, hp⟩ => hf _ _ hz ▸ hp, fun hp => ⟨y, rfl, hp⟩⟩

theorem RenE.pathLen {f : K → K'} {E : K → K → Prop} {E' : K' → K' → Prop} (h : RenE f E E') (hf : ∀ x y, f x = f y → x = y)
    (n : Nat) (x y : K) : PathLen E' n (f x) (f y) ↔ PathLen E n x y := by
  have : ∀ n z, PathLen E' n (f x) z ↔ ∃ y, f y = z ∧ PathLen E n x y := by
    intro n
    induction n with
    | zero => exact fun z => ⟨fun e => ⟨x, e, rfl⟩, fun ⟨y, e, e'⟩ => by cases e'; exact e⟩
    | succ n ih =>
      intro z
      constructor
      · rintro ⟨c, hc, hz⟩
        obtain ⟨w, rfl, hw⟩ := (ih c).mp hc
        obtain ⟨-, y, rfl⟩ := h.range _ _ hz
        exact ⟨y, rfl, w, hw, (h.edge _ _).mp hz⟩
      · rintro ⟨y, rfl, w, hw, hy⟩
        exact ⟨f w, (ih _).mpr ⟨w, rfl, hw⟩, (h.edge _ _).mpr hy⟩
  rw [this]
  exact ⟨fun ⟨z, hz, hp⟩ => hf _ _ hz ▸ hp, fun hp => ⟨y, rfl, hp⟩⟩

theorem RenE.dist {f : K → K'} {E : K → K → Prop} {E' : K' → K' → Prop} (h : RenE f E E') (hf : ∀ x y, f x = f y → x = y)
    (n : Nat) (x y : K) : DistIs E' (f x) (f y) n ↔ DistIs E x y n := by
  unfold DistIs
  rw [h.pathLen hf]
  simp only [h.pathLen hf]

theorem RenE.bfs {f : K → K'} {E : K → K → Prop} {E' : K' → K' → Prop} (h : RenE f E E') (hf : ∀ x y, f x = f y → x = y)
    {id : K} {l : List K} (hl : BfsDone E id l) : BfsDone E' (f id) (l.map f) where
  nodup := List.Pairwise.map f (fun _ _ hne e => hne (hf _ _ e)) hl.nodup
  mem x := by
    rw [h.path, List.mem_map]
    constructor
    · rintro ⟨y, hy, rfl⟩; exact ⟨y, rfl, (hl.mem y).mp hy⟩
    · rintro ⟨y, rfl, hy⟩; exact ⟨y, (hl.mem y).mpr hy, rfl⟩
  sorted := List.Pairwise.map f (fun a b hab n m hn hm => hab n m ((h.dist hf _ _ _).mp hn) ((h.dist hf _ _ _).mp hm)) hl.sorted

/-- `a'` is `a` renamed. -/
structure Ren (f : K → K') (g : T → T') (a : Abs K T) (a' : Abs K' T') : Prop where
  inj : ∀ x y, f x = f y → x = y
  zero : f zero = zero
  V : ∀ k, a'.V (f k) = (a.V k).map g
  range : ∀ k', (a'.V k').isSome = true → ∃ k, f k = k'
  E : RenE f a.E a'.E

variable {f : K → K'} {g : T → T'} {a : Abs K T} {a' : Abs K' T'}

theorem Ren.eq_iff (h : Ren f g a a') (x y : K) : f x = f y ↔ x = y := ⟨h.inj x y, fun e => by rw [e]⟩

theorem Ren.zero_iff (h : Ren f g a a') (x : K) : f x = GoZero.zero ↔ x = GoZero.zero := by rw [← h.zero, h.eq_iff]

theorem Ren.bind (h : Ren f g a a') (k' : K') (v' : T') : a'.V k' = some v' ↔ ∃ k v, f k = k' ∧ g v = v' ∧ a.V k = some v := by
  constructor
  · intro hv
    obtain ⟨k, rfl⟩ := h.range k' (by rw [hv]; rfl)
    rw [h.V, Option.map_eq_some_iff] at hv
    obtain ⟨v, h1, h2⟩ := hv
    exact ⟨k, v, rfl, h2, h1⟩
  · rintro ⟨k, v, rfl, rfl, hv⟩
    rw [h.V, hv]; rfl

theorem Ren.vertexErr (h : Ren f g a a') (id : K) : Spec.vertexErr a' (f id) = Spec.vertexErr a id := by
  unfold Spec.vertexErr
  rw [h.V, Option.isNone_map]
  simp only [h.zero_iff]

theorem Ren.edgeErr (h : Ren f g a a') (s t : K) : Spec.edgeErr a' (f s) (f t) = Spec.edgeErr a s t := by
  unfold Spec.edgeErr
  rw [h.V, h.V, Option.isNone_map, Option.isNone_map]
  simp only [h.zero_iff, h.eq_iff]

theorem Ren.addVertexErr (h : Ren f g a a') (id : K) : Spec.addVertexErr a' (f id) = Spec.addVertexErr a id := by
  unfold Spec.addVertexErr
  rw [h.V, Option.isSome_map]
  simp only [h.zero_iff]

theorem Ren.canAdd (h : Ren f g a a') (s t : K) : Spec.CanAdd a' (f s) (f t) ↔ Spec.CanAdd a s t := by
  unfold Spec.CanAdd
  rw [h.edgeErr, h.E.edge, h.E.path' h.inj]

theorem Ren.implied (h : Ren f g a a') (x y : K) : Implied a'.E (f x) (f y) ↔ Implied a.E x y := by
  constructor
  · rintro ⟨m, h1, h2⟩
    obtain ⟨-, m, rfl⟩ := h.E.range _ _ h1
    exact ⟨m, (h.E.edge _ _).mp h1, (h.E.path' h.inj _ _).mp h2⟩
  · rintro ⟨m, h1, h2⟩
    exact ⟨f m, (h.E.edge _ _).mpr h1, (h.E.path' h.inj _ _).mpr h2⟩

theorem Ren.next (h : Ren f g a a') (op : Op K T) : Ren f g (Spec.next a op) (Spec.next a' (op.map f g)) := by
  cases op with
  | addVertex id v =>
    refine ⟨h.inj, h.zero, fun k => ?_, fun k' => ?_, h.E⟩
    · show (if f k = f id ∧ Spec.addVertexErr a' (f id) = none then some (g v) else a'.V (f k)) = _
      show _ = (if k = id ∧ Spec.addVertexErr a id = none then some v else a.V k).map g
      rw [h.addVertexErr, h.V]
      simp only [h.eq_iff]
      split <;> rfl
    · show (if k' = f id ∧ Spec.addVertexErr a' (f id) = none then some (g v) else a'.V k').isSome = true → _
      split
      · rename_i hk; exact fun _ => ⟨id, hk.1.symm⟩
      · exact h.range k'
  | deleteVertex id =>
    refine ⟨h.inj, h.zero, fun k => ?_, fun k' => ?_, fun x y => ?_, fun x' y' hx => h.E.range _ _ hx.1⟩
    · show (if f k = f id then none else a'.V (f k)) = (if k = id then none else a.V k).map g
      rw [h.V]
      simp only [h.eq_iff]
      split <;> rfl
    · show (if k' = f id then none else a'.V k').isSome = true → _
      split
      · exact fun hk => absurd hk (by simp)
      · exact h.range k'
    · show (a'.E (f x) (f y) ∧ f x ≠ f id ∧ f y ≠ f id) ↔ (a.E x y ∧ x ≠ id ∧ y ≠ id)
      rw [h.E.edge, Ne, Ne, h.eq_iff, h.eq_iff]
  | addEdge s t =>
    refine ⟨h.inj, h.zero, h.V, h.range, fun x y => ?_, fun x' y' hx => ?_⟩
    · show (a'.E (f x) (f y) ∨ (Spec.CanAdd a' (f s) (f t) ∧ f x = f s ∧ f y = f t)) ↔ (a.E x y ∨ (Spec.CanAdd a s t ∧ x = s ∧ y = t))
      rw [h.E.edge, h.canAdd, h.eq_iff, h.eq_iff]
    · rcases hx with hx | ⟨-, rfl, rfl⟩
      · exact h.E.range _ _ hx
      · exact ⟨⟨s, rfl⟩, t, rfl⟩
  | deleteEdge s t =>
    refine ⟨h.inj, h.zero, h.V, h.range, fun x y => ?_, fun x' y' hx => h.E.range _ _ hx.1⟩
    show (a'.E (f x) (f y) ∧ ¬ (f x = f s ∧ f y = f t)) ↔ (a.E x y ∧ ¬ (x = s ∧ y = t))
    rw [h.E.edge, h.eq_iff, h.eq_iff]
  | reduceTransitively =>
    refine ⟨h.inj, h.zero, h.V, h.range, fun x y => ?_, fun x' y' hx => h.E.range _ _ hx.1⟩
    show (a'.E (f x) (f y) ∧ ¬ Implied a'.E (f x) (f y)) ↔ (a.E x y ∧ ¬ Implied a.E x y)
    rw [h.E.edge, h.implied]
  | _ => exact h

theorem Ren.exactly (h : Ren f g a a') {m : List (K × T)} {P : K → Prop} {P' : K' → Prop} (hP : ∀ k, P' (f k) ↔ P k)
    (hm : Spec.Exactly m fun k v => a.V k = some v ∧ P k) :
    Spec.Exactly (m.map (Prod.map f g)) fun k v => a'.V k = some v ∧ P' k := by
  refine ⟨?_, fun k' v' => ?_⟩
  · rw [List.map_map, show (Prod.fst ∘ Prod.map f g : K × T → K') = f ∘ Prod.fst from rfl, ← List.map_map]
    exact List.Pairwise.map f (fun _ _ hne e => hne (h.inj _ _ e)) hm.1
  · show _ ↔ a'.V k' = some v' ∧ P' k'
    rw [h.bind, List.mem_map]
    constructor
    · rintro ⟨⟨k, v⟩, hkv, e⟩
      cases e
      obtain ⟨h1, h2⟩ := (hm.2 k v).mp hkv
      exact ⟨⟨k, v, rfl, rfl, h1⟩, (hP k).mpr h2⟩
    · rintro ⟨⟨k, v, rfl, rfl, hv⟩, hp⟩
      exact ⟨(k, v), (hm.2 k v).mpr ⟨hv, (hP k).mp hp⟩, rfl⟩

theorem orErr_map {α β : Type} {e : Option Err} {r : Except Err α} {P : α → Prop} {P' : β → Prop} {q : α → β}
    (h : Spec.OrErr e r P) (hP : ∀ x, P x → P' (q x)) : Spec.OrErr e (r.map q) P' := by
  cases e with
  | some e => cases h; rfl
  | none => obtain ⟨x, rfl, hx⟩ := h; exact ⟨q x, rfl, hP x hx⟩

theorem count_map {α β : Type} {P : α → Prop} {P' : β → Prop} {q : α → β} (hq : ∀ x y, q x = q y → x = y)
    (hP : ∀ y, P' y ↔ ∃ x, q x = y ∧ P x) {n : Nat} (h : Spec.Count P n) : Spec.Count P' n := by
  obtain ⟨l, h1, h2, rfl⟩ := h
  refine ⟨l.map q, List.Pairwise.map q (fun _ _ hne e => hne (hq _ _ e)) h1, fun y => ?_, by simp⟩
  rw [hP, List.mem_map]
  constructor
  · rintro ⟨x, hx, rfl⟩; exact ⟨x, rfl, (h2 x).mp hx⟩
  · rintro ⟨x, rfl, hx⟩; exact ⟨x, (h2 x).mpr hx, rfl⟩

theorem Ren.known (h : Ren f g a a') (k' : K') : (a'.V k').isSome = true ↔ ∃ k, f k = k' ∧ (a.V k).isSome = true := by
  constructor
  · intro hk
    obtain ⟨k, rfl⟩ := h.range k' hk
    rw [h.V, Option.isSome_map] at hk
    exact ⟨k, rfl, hk⟩
  · rintro ⟨k, rfl, hk⟩
    rw [h.V, Option.isSome_map]; exact hk

theorem Ren.prodInj (h : Ren f g a a') (x y : K × K) (e : Prod.map f f x = Prod.map f f y) : x = y := by
  obtain ⟨x1, x2⟩ := x
  obtain ⟨y1, y2⟩ := y
  have e := Prod.mk.inj e
  rw [h.inj _ _ e.1, h.inj _ _ e.2]

theorem Ren.edges (h : Ren f g a a') (y : K' × K') : a'.E y.1 y.2 ↔ ∃ x : K × K, Prod.map f f x = y ∧ a.E x.1 x.2 := by
  obtain ⟨y1, y2⟩ := y
  constructor
  · intro hy
    obtain ⟨⟨x1, rfl⟩, x2, rfl⟩ := h.E.range _ _ hy
    exact ⟨(x1, x2), rfl, (h.E.edge _ _).mp hy⟩
  · rintro ⟨⟨x1, x2⟩, e, hx⟩
    cases e
    exact (h.E.edge _ _).mpr hx

theorem Ren.noOut (h : Ren f g a a') (k : K) : (∀ x, ¬ a'.E (f k) x) ↔ ∀ x, ¬ a.E k x := by
  constructor
  · exact fun hk x hx => hk (f x) ((h.E.edge _ _).mpr hx)
  · intro hk x hx
    obtain ⟨-, x, rfl⟩ := h.E.range _ _ hx
    exact hk x ((h.E.edge _ _).mp hx)

theorem Ren.noIn (h : Ren f g a a') (k : K) : (∀ x, ¬ a'.E x (f k)) ↔ ∀ x, ¬ a.E x k := by
  constructor
  · exact fun hk x hx => hk (f x) ((h.E.edge _ _).mpr hx)
  · intro hk x hx
    obtain ⟨⟨x, rfl⟩, -⟩ := h.E.range _ _ hx
    exact hk x ((h.E.edge _ _).mp hx)

theorem Ren.ok (h : Ren f g a a') {op : Op K T} {r : Res K T} (hr : Spec.ok a op r) : Spec.ok a' (op.map f g) (r.map f g) := by
  cases op with
  | addVertex id v =>
    cases r <;> first | exact hr.elim | skip
    exact Eq.trans hr (h.addVertexErr id).symm
  | getVertex id =>
    cases r <;> first | exact hr.elim | skip
    show Spec.OrErr (Spec.vertexErr a' (f id)) _ _
    rw [h.vertexErr]
    exact orErr_map hr fun v hv => by show a'.V (f id) = some (g v); rw [h.V, hv]; rfl
  | deleteVertex id =>
    cases r <;> first | exact hr.elim | skip
    exact Eq.trans hr (h.vertexErr id).symm
  | addEdge s t =>
    cases r <;> first | exact hr.elim | skip
    simpa only [Spec.ok, Op.map, Res.map, h.edgeErr, h.E.edge, h.E.path' h.inj] using hr
  | isEdge s t =>
    cases r <;> first | exact hr.elim | skip
    simpa only [Spec.ok, Op.map, Res.map, h.edgeErr, h.E.edge] using hr
  | deleteEdge s t =>
    cases r <;> first | exact hr.elim | skip
    simpa only [Spec.ok, Op.map, Res.map, h.edgeErr, h.E.edge] using hr
  | getOrder =>
    cases r <;> first | exact hr.elim | skip
    exact count_map h.inj h.known hr
  | getSize =>
    cases r <;> first | exact hr.elim | skip
    exact count_map h.prodInj h.edges hr
  | getLeaves =>
    cases r <;> first | exact hr.elim | skip
    exact h.exactly (P' := fun k => ∀ x, ¬ a'.E k x) h.noOut hr
  | getRoots =>
    cases r <;> first | exact hr.elim | skip
    exact h.exactly (P' := fun k => ∀ x, ¬ a'.E x k) h.noIn hr
  | getVertices =>
    cases r <;> first | exact hr.elim | skip
    rename_i m
    have := h.exactly (m := m) (P := fun _ => True) (P' := fun _ => True) (fun _ => Iff.rfl) (by simpa only [and_true, Spec.ok] using hr)
    simpa only [and_true, Spec.ok, Op.map, Res.map] using this
  | getParents id =>
    cases r <;> first | exact hr.elim | skip
    show Spec.OrErr (Spec.vertexErr a' (f id)) _ _
    rw [h.vertexErr]
    exact orErr_map hr fun m hm => h.exactly (P' := fun k => a'.E k (f id)) (fun k => h.E.edge _ _) hm
  | getChildren id =>
    cases r <;> first | exact hr.elim | skip
    show Spec.OrErr (Spec.vertexErr a' (f id)) _ _
    rw [h.vertexErr]
    exact orErr_map hr fun m hm => h.exactly (P' := fun k => a'.E (f id) k) (fun k => h.E.edge _ _) hm
  | getAncestors id =>
    cases r <;> first | exact hr.elim | skip
    show Spec.OrErr (Spec.vertexErr a' (f id)) _ _
    rw [h.vertexErr]
    exact orErr_map hr fun m hm => h.exactly (P' := fun k => TransGen a'.E k (f id)) (fun k => h.E.path' h.inj _ _) hm
  | getDescendants id =>
    cases r <;> first | exact hr.elim | skip
    show Spec.OrErr (Spec.vertexErr a' (f id)) _ _
    rw [h.vertexErr]
    exact orErr_map hr fun m hm => h.exactly (P' := fun k => TransGen a'.E (f id) k) (fun k => h.E.path' h.inj _ _) hm
  | getOrderedAncestors id =>
    cases r <;> first | exact hr.elim | skip
    show Spec.OrErr (Spec.vertexErr a' (f id)) _ _
    rw [h.vertexErr]
    exact orErr_map hr fun l hl => h.E.swap.bfs h.inj hl
  | getOrderedDescendants id =>
    cases r <;> first | exact hr.elim | skip
    show Spec.OrErr (Spec.vertexErr a' (f id)) _ _
    rw [h.vertexErr]
    exact orErr_map hr fun l hl => h.E.bfs h.inj hl
  | reduceTransitively =>
    cases r <;> first | exact hr.elim | skip
    trivial
  | string =>
    cases r <;> first | exact hr.elim | skip
    obtain ⟨h1, h2, h3, h4, h5, h6⟩ := hr
    refine ⟨List.Pairwise.map f (fun _ _ hne e => hne (h.inj _ _ e)) h1, fun k' => ?_,
      List.Pairwise.map _ (fun _ _ hne e => hne (h.prodInj _ _ e)) h3, fun x y => ?_, by simpa using h5, by simpa using h6⟩
    · rw [h.known, List.mem_map]
      constructor
      · rintro ⟨x, hx, rfl⟩; exact ⟨x, rfl, (h2 x).mp hx⟩
      · rintro ⟨x, rfl, hx⟩; exact ⟨x, (h2 x).mpr hx, rfl⟩
    · rw [h.edges (x, y), List.mem_map]
      constructor
      · rintro ⟨z, hz, e⟩; exact ⟨z, e, (h4 _ _).mp hz⟩
      · rintro ⟨z, e, hz⟩; exact ⟨z, (h4 _ _).mpr hz, e⟩

theorem Ren.okAll (h : Ren f g a a') {ops : List (Op K T)} {rs : List (Res K T)} (hr : Spec.okAll a ops rs) :
    Spec.okAll a' (ops.map (Op.map f g)) (rs.map (Res.map f g)) := by
  induction ops generalizing a a' rs with
  | nil => cases rs <;> first | exact hr.elim | trivial
  | cons op ops ih =>
    cases rs with
    | nil => exact hr.elim
    | cons r rs => exact ⟨h.ok hr.1, ih (h.next op) hr.2⟩

theorem Ren.after (h : Ren f g a a') (ops : List (Op K T)) : Ren f g (Spec.after a ops) (Spec.after a' (ops.map (Op.map f g))) := by
  induction ops generalizing a a' with
  | nil => exact h
  | cons op ops ih => exact ih (h.next op)

/-! ## C80 -/

/-- **C80.** A graph only ever compares ids with each other and with the zero value: if the ids of a history are renamed, no two to
one and the zero value to itself, and the payloads replaced in any way, then every call returns what it returned before, renamed,
and the graph left behind is the graph that was left behind, renamed. -/
theorem C80_rename (ω ω' : Oracle) (f : K → K') (g : T → T') (hf : ∀ x y, f x = f y → x = y) (hz : f zero = zero) (ops : List (Op K T)) :
    ∃ rs rs' σ σ', run ω ops St.init = some (rs, σ) ∧ run ω' (ops.map (Op.map f g)) St.init = some (rs', σ') ∧
      SameAll (rs.map (Res.map f g)) rs' ∧
      (∀ k' v', Bound σ' k' v' ↔ ∃ k v, f k = k' ∧ g v = v' ∧ Bound σ k v) ∧
      (∀ x' y', Edge σ' x' y' ↔ ∃ x y, f x = x' ∧ f y = y' ∧ Edge σ x y) := by
  obtain ⟨rs, σ, h1, h2, h3, h4⟩ := run_refines ω ops
  obtain ⟨rs', σ', h1', h2', h3', h4'⟩ := run_refines ω' (ops.map (Op.map f g))
  have h0 : Ren f g (Spec.empty : Abs K T) (Spec.empty : Abs K' T') :=
    ⟨hf, hz, fun _ => rfl, fun _ h => absurd h (by simp [Spec.empty]), fun _ _ => Iff.rfl, fun _ _ h => h.elim⟩
  have hA := h0.after ops
  refine ⟨rs, rs', σ, σ', h1, h1', okAll_same (h0.okAll h4) h4', fun k' v' => ?_, fun x' y' => ?_⟩
  · rw [bound_iff h2', h3', hA.bind]
    simp only [bound_iff h2, h3]
  · rw [edge_iff h2', h3', hA.edges (x', y')]
    simp only [edge_iff h2, h3]
    constructor
    · rintro ⟨⟨x, y⟩, e, h⟩; cases e; exact ⟨x, y, rfl, rfl, h⟩
    · rintro ⟨x, y, rfl, rfl, h⟩; exact ⟨(x, y), rfl, h⟩

/-- The diamond, and questions about it. -/
def askedDiamond : List (Op Nat Nat) := diamond ++ [.getDescendants 2, .getOrderedAncestors 4, .addEdge 4 1]

/-- A renaming that reverses the order of the ids used below, and a payload that becomes constant. -/
def reversing (n : Nat) : Nat := if 0 < n ∧ n < 10 then 10 - n else n

example : (∀ x y, reversing x = reversing y → x = y) ∧ reversing zero = zero ∧
    (run Oracle.forward askedDiamond (St.init : St Nat Nat)).map (fun x => x.1.drop 8) =
      some [.entriesE (.ok [(4, 40)]), .idsE (.ok [3, 2, 1]), .err (some .edgeLoop)] ∧
    (run Oracle.forward (askedDiamond.map (Op.map reversing fun _ => 5)) (St.init : St Nat Nat)).map (fun x => x.1.drop 8) =
      some [.entriesE (.ok [(6, 5)]), .idsE (.ok [7, 8, 9]), .err (some .edgeLoop)] := by
  refine ⟨fun x y h => ?_, rfl, by decide +kernel, by decide +kernel⟩
  unfold reversing at h
  split at h <;> split at h <;> omega

/-! ## Mirror images -/

/-- The graph with its edges turned round. -/
def Abs.mirror (a : Abs K T) : Abs K T := ⟨a.V, Function.swap a.E⟩

theorem transGen_mirror (E : K → K → Prop) (x y : K) : TransGen (Function.swap E) x y ↔ TransGen E y x := transGen_swap

theorem vertexErr_mirror (a : Abs K T) (id : K) : Spec.vertexErr a.mirror id = Spec.vertexErr a id := rfl

theorem edgeErr_mirror (a : Abs K T) (s t : K) :
    (Spec.edgeErr a.mirror t s = none ↔ Spec.edgeErr a s t = none) ∧
    (Spec.edgeErr a.mirror t s = Spec.edgeErr a s t ∨ Spec.edgeErr a.mirror t s = (Spec.edgeErr a s t).map Err.otherEnd) := by
  unfold Spec.edgeErr
  simp only [Abs.mirror, eq_comm (a := t) (b := s)]
  by_cases h1 : s = zero <;> by_cases h2 : t = zero <;> by_cases h3 : s = t <;> by_cases h4 : (a.V s).isNone = true <;>
    by_cases h5 : (a.V t).isNone = true <;> simp only [h1, h2, h3, h4, h5, if_true, if_false, Option.map, Err.otherEnd] <;> simp_all

theorem implied_mirror {a : Abs K T} {x y : K} : Implied (Function.swap a.E) y x ↔ Implied a.E x y := by
  unfold Implied
  simp only [transGen_mirror]
  constructor
  · rintro ⟨m, h1, h2⟩
    rcases TransGen.head'_iff.mp h2 with ⟨c, h3, h4⟩
    exact ⟨c, h3, TransGen.tail'_iff.mpr ⟨m, h4, h1⟩⟩
  · rintro ⟨m, h1, h2⟩
    rcases TransGen.tail'_iff.mp h2 with ⟨c, h3, h4⟩
    exact ⟨c, h4, TransGen.head'_iff.mpr ⟨m, h1, h3⟩⟩

theorem next_mirror (a : Abs K T) (op : Op K T) : Spec.next a.mirror op.mirror = (Spec.next a op).mirror := by
  cases op with
  | deleteVertex id =>
    refine congrArg (Abs.mk _) (funext fun x => funext fun y => propext ?_)
    show a.E y x ∧ x ≠ id ∧ y ≠ id ↔ a.E y x ∧ y ≠ id ∧ x ≠ id
    rw [and_comm (a := x ≠ id)]
  | addEdge s t =>
    refine congrArg (Abs.mk _) (funext fun x => funext fun y => propext ?_)
    show (a.E y x ∨ (Spec.CanAdd a.mirror t s ∧ x = t ∧ y = s)) ↔ (a.E y x ∨ (Spec.CanAdd a s t ∧ y = s ∧ x = t))
    unfold Spec.CanAdd
    rw [(edgeErr_mirror a s t).1, and_comm (a := x = t)]
    show (_ ∨ (_ ∧ ¬ a.E s t ∧ ¬ TransGen (Function.swap a.E) s t) ∧ _) ↔ _
    rw [transGen_mirror]
  | deleteEdge s t =>
    refine congrArg (Abs.mk _) (funext fun x => funext fun y => propext ?_)
    show a.E y x ∧ ¬ (x = t ∧ y = s) ↔ a.E y x ∧ ¬ (y = s ∧ x = t)
    rw [and_comm (a := x = t)]
  | reduceTransitively =>
    refine congrArg (Abs.mk _) (funext fun x => funext fun y => propext ?_)
    show a.E y x ∧ ¬ Implied (Function.swap a.E) x y ↔ a.E y x ∧ ¬ Implied a.E y x
    rw [implied_mirror]
  | _ => rfl

theorem res_same_refl (r : Res K T) : r.Same r := by
  cases r with
  | entries m => exact .refl _
  | entriesE r => cases r <;> first | rfl | exact .refl _
  | idsE r => cases r <;> first | rfl | exact .refl _
  | listing => exact ⟨rfl, rfl, .refl _, .refl _⟩
  | _ => rfl

theorem swap_inj {α : Type} {x y : α × α} (e : x.swap = y.swap) : x = y := by
  rw [← x.swap_swap, e, y.swap_swap]

theorem ok_mirror {a : Abs K T} {op : Op K T} {r r' : Res K T} (h : Spec.ok a op r) (h' : Spec.ok a.mirror op.mirror r') :
    r.Mirrors r' := by
  have err : ∀ {s t : K} {e e' : Option Err}, (e = Spec.edgeErr a s t) → e' = Spec.edgeErr a.mirror t s →
      (Res.err e : Res K T).Mirrors (.err e') := by
    intro s t e e' h1 h2
    rcases (edgeErr_mirror a s t).2 with h3 | h3
    · left; show Res.err e = Res.err e'; rw [h1, h2, h3]
    · right; show Res.err _ = Res.err e'; rw [h1, h2, h3]
  cases op with
  | addVertex id v => exact .inl (by cases r <;> first | exact h.elim | (cases r' <;> first | exact h'.elim | exact ok_same (a := a) (op := .addVertex id v) h h'))
  | getVertex id => exact .inl (by cases r <;> first | exact h.elim | (cases r' <;> first | exact h'.elim | exact ok_same (a := a) (op := .getVertex id) h h'))
  | deleteVertex id => exact .inl (by cases r <;> first | exact h.elim | (cases r' <;> first | exact h'.elim | exact ok_same (a := a) (op := .deleteVertex id) h h'))
  | addEdge s t =>
    cases r <;> first | exact h.elim | skip
    cases r' <;> first | exact h'.elim | skip
    unfold Spec.ok at h h'
    simp only [Op.mirror] at h h'
    cases he : Spec.edgeErr a s t with
    | some e =>
      cases he' : Spec.edgeErr a.mirror t s with
      | none => rw [(edgeErr_mirror a s t).1, he] at he'; cases he'
      | some e' =>
        rw [he] at h; rw [he'] at h'
        exact err (h.trans he.symm) (h'.trans he'.symm)
    | none =>
      have he' := (edgeErr_mirror a s t).1.mpr he
      rw [he] at h; rw [he'] at h'
      simp only [Abs.mirror, transGen_mirror] at h'
      have e : (a.E s t → _) ∧ (¬ a.E s t → TransGen a.E t s → _) ∧ (¬ a.E s t → ¬ TransGen a.E t s → _) := h'
      left
      show Res.err _ = Res.err _
      by_cases h1 : a.E s t
      · rw [h.1 h1, e.1 h1]
      · by_cases h2 : TransGen a.E t s
        · rw [h.2.1 h1 h2, e.2.1 h1 h2]
        · rw [h.2.2 h1 h2, e.2.2 h1 h2]
  | isEdge s t =>
    cases r <;> first | exact h.elim | skip
    cases r' <;> first | exact h'.elim | skip
    have h : Spec.OrErr (Spec.edgeErr a s t) _ (fun b => b = true ↔ a.E s t) := h
    have h' : Spec.OrErr (Spec.edgeErr a.mirror t s) _ (fun b => b = true ↔ a.E s t) := h'
    cases he : Spec.edgeErr a s t with
    | some e =>
      cases he' : Spec.edgeErr a.mirror t s with
      | none => rw [(edgeErr_mirror a s t).1, he] at he'; cases he'
      | some e' =>
        rw [he] at h; rw [he'] at h'
        cases h; cases h'
        rcases (edgeErr_mirror a s t).2 with h3 | h3
        · rw [he, he'] at h3; cases h3; exact .inl rfl
        · rw [he, he'] at h3; cases h3; exact .inr rfl
    | none =>
      have he' := (edgeErr_mirror a s t).1.mpr he
      rw [he] at h; rw [he'] at h'
      obtain ⟨x, rfl, hx⟩ := h
      obtain ⟨y, rfl, hy⟩ := h'
      have : x = y := Bool.eq_iff_iff.mpr (hx.trans hy.symm)
      rw [this]; exact .inl rfl
  | deleteEdge s t =>
    cases r <;> first | exact h.elim | skip
    cases r' <;> first | exact h'.elim | skip
    unfold Spec.ok at h h'
    simp only [Op.mirror] at h h'
    cases he : Spec.edgeErr a s t with
    | some e =>
      cases he' : Spec.edgeErr a.mirror t s with
      | none => rw [(edgeErr_mirror a s t).1, he] at he'; cases he'
      | some e' =>
        rw [he] at h; rw [he'] at h'
        exact err (h.trans he.symm) (h'.trans he'.symm)
    | none =>
      have he' := (edgeErr_mirror a s t).1.mpr he
      rw [he] at h; rw [he'] at h'
      have e : (a.E s t → _) ∧ (¬ a.E s t → _) := h'
      left
      show Res.err _ = Res.err _
      by_cases h1 : a.E s t
      · rw [h.1 h1, e.1 h1]
      · rw [h.2 h1, e.2 h1]
  | getOrder => exact .inl (by cases r <;> first | exact h.elim | (cases r' <;> first | exact h'.elim | exact ok_same (a := a) (op := .getOrder) h h'))
  | getSize =>
    cases r <;> first | exact h.elim | skip
    cases r' <;> first | exact h'.elim | skip
    have := count_map (P := fun e : K × K => a.E e.1 e.2) (P' := fun e : K × K => a.E e.2 e.1) (q := Prod.swap)
      (fun _ _ e => swap_inj e) (fun y => ⟨fun hy => ⟨y.swap, y.swap_swap, hy⟩, fun ⟨x, e, hx⟩ => by cases e; exact hx⟩) h
    exact .inl (congrArg Res.count (count_unique this h'))
  | getLeaves => exact .inl (by cases r <;> first | exact h.elim | (cases r' <;> first | exact h'.elim | exact ok_same (a := a) (op := .getLeaves) h h'))
  | getRoots => exact .inl (by cases r <;> first | exact h.elim | (cases r' <;> first | exact h'.elim | exact ok_same (a := a) (op := .getRoots) h h'))
  | getVertices => exact .inl (by cases r <;> first | exact h.elim | (cases r' <;> first | exact h'.elim | exact ok_same (a := a) (op := .getVertices) h h'))
  | getParents id => exact .inl (by cases r <;> first | exact h.elim | (cases r' <;> first | exact h'.elim | exact ok_same (a := a) (op := .getParents id) h h'))
  | getChildren id => exact .inl (by cases r <;> first | exact h.elim | (cases r' <;> first | exact h'.elim | exact ok_same (a := a) (op := .getChildren id) h h'))
  | getAncestors id =>
    cases r <;> first | exact h.elim | skip
    cases r' <;> first | exact h'.elim | skip
    simp only [Op.mirror, Spec.ok, Abs.mirror, transGen_mirror] at h'
    exact .inl (ok_same (a := a) (op := .getAncestors id) h h')
  | getDescendants id =>
    cases r <;> first | exact h.elim | skip
    cases r' <;> first | exact h'.elim | skip
    simp only [Op.mirror, Spec.ok, Abs.mirror, transGen_mirror] at h'
    exact .inl (ok_same (a := a) (op := .getDescendants id) h h')
  | getOrderedAncestors id => exact .inl (by cases r <;> first | exact h.elim | (cases r' <;> first | exact h'.elim | exact ok_same (a := a) (op := .getOrderedAncestors id) h h'))
  | getOrderedDescendants id => exact .inl (by cases r <;> first | exact h.elim | (cases r' <;> first | exact h'.elim | exact ok_same (a := a) (op := .getOrderedDescendants id) h h'))
  | reduceTransitively => exact .inl (by cases r <;> first | exact h.elim | (cases r' <;> first | exact h'.elim | exact ok_same (a := a) (op := .reduceTransitively) h h'))
  | string =>
    cases r <;> first | exact h.elim | skip
    obtain ⟨h1, h2, h3, h4, h5, h6⟩ := h
    refine .inl (ok_same (a := a.mirror) (op := .string) ?_ h')
    refine ⟨h1, h2, List.Pairwise.map _ (fun _ _ hne e => hne (swap_inj e)) h3, fun x y => ?_, h5, by simpa using h6⟩
    rw [show a.mirror.E x y = a.E y x from rfl, ← h4, List.mem_map]
    exact ⟨fun ⟨z, hz, e⟩ => by cases z; cases e; exact hz, fun hz => ⟨(y, x), hz, rfl⟩⟩

theorem okAll_mirror {a : Abs K T} {ops : List (Op K T)} {rs rs' : List (Res K T)} (h : Spec.okAll a ops rs)
    (h' : Spec.okAll a.mirror (ops.map Op.mirror) rs') : MirrorAll rs rs' := by
  induction ops generalizing a rs rs' with
  | nil => cases rs <;> cases rs' <;> first | exact h.elim | exact h'.elim | trivial
  | cons op ops ih =>
    cases rs with
    | nil => exact h.elim
    | cons r rs =>
      cases rs' with
      | nil => exact h'.elim
      | cons r' rs' => exact ⟨ok_mirror h.1 h'.1, ih h.2 (by rw [← next_mirror]; exact h'.2)⟩

theorem after_mirror (a : Abs K T) (ops : List (Op K T)) : Spec.after a.mirror (ops.map Op.mirror) = (Spec.after a ops).mirror := by
  induction ops generalizing a with
  | nil => rfl
  | cons op ops ih =>
    show Spec.after (Spec.next a.mirror op.mirror) _ = _
    rw [next_mirror, ih]; rfl

/-! ## C81 -/

/-- **C81.** The two directions are treated alike: a history in which every edge is given the other way round, parents are asked for
instead of children, ancestors instead of descendants and roots instead of leaves, returns what the history itself returns, and
leaves behind the same vertices and the edges turned round. -/
theorem C81_mirror (ω ω' : Oracle) (ops : List (Op K T)) :
    ∃ rs rs' σ σ', run ω ops St.init = some (rs, σ) ∧ run ω' (ops.map Op.mirror) St.init = some (rs', σ') ∧
      MirrorAll rs rs' ∧ (∀ k v, Bound σ' k v ↔ Bound σ k v) ∧ (∀ x y, Edge σ' x y ↔ Edge σ y x) := by
  obtain ⟨rs, σ, h1, h2, h3, h4⟩ := run_refines ω ops
  obtain ⟨rs', σ', h1', h2', h3', h4'⟩ := run_refines ω' (ops.map Op.mirror)
  have e : (Spec.empty : Abs K T) = (Spec.empty : Abs K T).mirror := rfl
  rw [e] at h3' h4'
  rw [after_mirror] at h3'
  refine ⟨rs, rs', σ, σ', h1, h1', okAll_mirror h4 h4', fun k v => ?_, fun x y => ?_⟩
  · rw [bound_iff h2', bound_iff h2, h3, h3']; rfl
  · rw [edge_iff h2', edge_iff h2, h3, h3']; rfl

/-- The diamond with a tail 4 → 5, and questions about it. -/
def askedTail : List (Op Nat Nat) :=
  diamond ++ [.addVertex 5 50, .addEdge 4 5, .getDescendants 2, .getRoots, .addEdge 9 1, .addEdge 8 9, .addEdge 5 1]

/-- What is below 2 is above 2 in the mirror image.  An id that is not there is complained about as
the other end, of two the source is named both times, and a loop is a loop. -/
example : (run Oracle.forward askedTail (St.init : St Nat Nat)).map
      (fun x => x.1.drop 10) =
      some [.entriesE (.ok [(5, 50), (4, 40)]), .entries [(1, 10)], .err (some .edgeSourceIDNotFound), .err (some .edgeSourceIDNotFound), .err (some .edgeLoop)] ∧
    (run Oracle.forward (askedTail.map Op.mirror) (St.init : St Nat Nat)).map
      (fun x => x.1.drop 10) =
      some [.entriesE (.ok [(5, 50), (4, 40)]), .entries [(1, 10)], .err (some .edgeTargetIDNotFound), .err (some .edgeSourceIDNotFound), .err (some .edgeLoop)] := by
  decide +kernel

end Verif.Dag
