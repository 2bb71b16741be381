import Mathlib.Data.List.Nodup
import Verif.Dag.Heap

/-!
# The model with references computes what the model with values computes

`HSt.abs` reads the heap back into a value.  `Sim` relates a computation on the heap to one on
values; `Ext` says which cells a computation leaves alone.
-/

set_option linter.unusedSectionVars false

namespace Verif.Dag

namespace GoMap
variable {K V W : Type} [DecidableEq K]

/-- A map with each value replaced. -/
def mapV (f : V → W) (m : GoMap K V) : GoMap K W := m.map fun p => (p.1, f p.2)

@[simp] theorem mapV_nil (f : V → W) : mapV f ([] : GoMap K V) = [] := rfl

@[simp] theorem get?_mapV (f : V → W) (m : GoMap K V) (k : K) :
    get? (mapV f m) k = (get? m k).map f := by
  induction m with
  | nil => rfl
  | cons p m ih =>
    obtain ⟨a, b⟩ := p
    show get? ((a, f b) :: mapV f m) k = _
    rw [get?_cons, get?_cons, ih]
    split <;> rfl

@[simp] theorem has_mapV (f : V → W) (m : GoMap K V) (k : K) : has (mapV f m) k = has m k := by
  unfold has; rw [get?_mapV]; simp

theorem del_mapV (f : V → W) (m : GoMap K V) (k : K) : del (mapV f m) k = mapV f (del m k) := by
  unfold del mapV; rw [List.filter_map]; rfl

theorem set_mapV (f : V → W) (m : GoMap K V) (k : K) (v : V) :
    set (mapV f m) k (f v) = mapV f (set m k v) := by
  unfold set; rw [del_mapV]; rfl

theorem mapV_congr {f g : V → W} {m : GoMap K V} (h : ∀ v ∈ m.map Prod.snd, f v = g v) :
    mapV f m = mapV g m := by
  unfold mapV
  apply List.map_congr_left
  intro p hp
  rw [h _ (List.mem_map_of_mem hp)]

theorem get?_mem {m : GoMap K V} {k : K} {v : V} (h : get? m k = some v) : (k, v) ∈ m := by
  induction m with
  | nil => cases h
  | cons p m ih =>
    obtain ⟨a, b⟩ := p
    rw [get?_cons] at h
    by_cases hk : a = k
    · rw [if_pos hk] at h; cases h; subst hk; exact List.mem_cons_self
    · rw [if_neg hk] at h; exact List.mem_cons_of_mem _ (ih h)

theorem get?_mem_vals {m : GoMap K V} {k : K} {v : V} (h : get? m k = some v) :
    v ∈ m.map Prod.snd := List.mem_map_of_mem (f := Prod.snd) (get?_mem h)

theorem vals_del_sublist (m : GoMap K V) (k : K) :
    ((del m k).map Prod.snd).Sublist (m.map Prod.snd) := by
  unfold del; exact List.filter_sublist.map _

/-- Changing what one address holds changes the one map entry with that address. -/
theorem updAt_mapV {m : GoMap K Nat} {d : Nat → W} {k : K} {a : Nat} (f : W → W)
    (hk : NodupKeys m) (hv : (m.map Prod.snd).Nodup) (h : get? m k = some a) :
    updAt (mapV d m) k f = mapV (fun x => if x = a then f (d x) else d x) m := by
  have hka := get?_mem h
  unfold updAt mapV
  rw [List.map_map]
  apply List.map_congr_left
  rintro ⟨k', a'⟩ hp
  simp only [Function.comp]
  have : k' = k ↔ a' = a := by
    constructor
    · rintro rfl
      have := (mem_iff_get? hk _ _).mp hp
      rw [h] at this; cases this; rfl
    · rintro rfl
      have := List.inj_on_of_nodup_map hv hp hka rfl
      cases this; rfl
  by_cases hh : k' = k
  · rw [if_pos hh, if_pos (this.mp hh)]
  · rw [if_neg hh, if_neg (fun e => hh (this.mpr e))]

theorem updAt_none {m : GoMap K V} {k : K} (f : V → V) (h : get? m k = none) : updAt m k f = m := by
  induction m with
  | nil => rfl
  | cons p m ih =>
    obtain ⟨a, b⟩ := p
    rw [get?_cons] at h
    by_cases hk : a = k
    · rw [if_pos hk] at h; cases h
    · rw [if_neg hk] at h
      unfold updAt at ih ⊢
      rw [List.map_cons, ih h, if_neg hk]

end GoMap

open GoMap (mapV)

namespace HSt
variable {K T : Type} [DecidableEq K] [GoZero K] [GoZero T]

/-- The state of the value model this heap state stands for. -/
def abs (h : HSt K T) : St K T :=
  ⟨⟨h.verts, mapV h.deref h.inb, mapV h.deref h.outb, mapV h.deref h.ancC, mapV h.deref h.descC⟩, h.n⟩

/-- Addresses of the sets of edges. -/
def edges (h : HSt K T) : List Nat := h.inb.map Prod.snd ++ h.outb.map Prod.snd

/-- Addresses of the cached sets. -/
def cached (h : HSt K T) : List Nat := h.ancC.map Prod.snd ++ h.descC.map Prod.snd

/-- Addresses of all sets of the graph. -/
def owned (h : HSt K T) : List Nat := h.edges ++ h.cached

/-- No set of the graph is shared. -/
structure Ok (h : HSt K T) : Prop where
  nodup : h.owned.Nodup
  lt : ∀ a ∈ h.owned, a < h.sets.length
  inK : GoMap.NodupKeys h.inb
  outK : GoMap.NodupKeys h.outb
  verts : h.vertices < h.maps.length

/-- From `h` to `h'`, of the cells with addresses below `n` and `m` only the sets of edges and
the map of vertices may have changed. -/
structure Ext (n m : Nat) (h h' : HSt K T) : Prop where
  sets : h.sets.length ≤ h'.sets.length
  maps : h.maps.length ≤ h'.maps.length
  same : ∀ a, a < n → a ∉ h.edges → h'.deref a = h.deref a ∧ a ∉ h'.edges
  own : ∀ a, a < n → a ∉ h.owned → a ∉ h'.owned
  vert : h'.vertices = h.vertices
  mapsSame : ∀ a, a < m → a ≠ h.vertices → h'.mapAt a = h.mapAt a

theorem Ext.refl (n m : Nat) (h : HSt K T) : Ext n m h h :=
  ⟨Nat.le_refl _, Nat.le_refl _, fun _ _ h => ⟨rfl, h⟩, fun _ _ h => h, rfl, fun _ _ _ => rfl⟩

theorem Ext.trans {n m : Nat} {h1 h2 h3 : HSt K T} (a : Ext n m h1 h2) (b : Ext n m h2 h3) :
    Ext n m h1 h3 := by
  refine ⟨Nat.le_trans a.sets b.sets, Nat.le_trans a.maps b.maps, fun x hx hn => ?_, fun x hx hn => ?_,
    b.vert.trans a.vert, fun x hx hn => ?_⟩
  · obtain ⟨h4, h5⟩ := a.same x hx hn
    obtain ⟨h6, h7⟩ := b.same x hx h5
    exact ⟨h6.trans h4, h7⟩
  · exact b.own x hx (a.own x hx hn)
  · exact (b.mapsSame x hx (by rw [a.vert]; exact hn)).trans (a.mapsSame x hx hn)

theorem Ext.mono {n m n' m' : Nat} {h h' : HSt K T} (a : Ext n m h h') (hn : n' ≤ n) (hm : m' ≤ m) :
    Ext n' m' h h' :=
  ⟨a.sets, a.maps, fun x hx => a.same x (by omega), fun x hx => a.own x (by omega), a.vert,
    fun x hx => a.mapsSame x (by omega)⟩

end HSt

open HSt (Ok Ext)

section
variable {K T α β α' β' : Type} [DecidableEq K] [GoZero K] [GoZero T]

/-- On `h` the heap computation does what the value computation does on `h.abs`: both fail, or
both end, in states that correspond, with results related by `Q`. -/
def Sim (n m : Nat) (hm : H K T α) (vm : M K T β) (h : HSt K T)
    (Q : α → β → HSt K T → Prop) : Prop :=
  (hm h = none ∧ vm h.abs = none) ∨
  ∃ a h' b, hm h = some (a, h') ∧ vm h.abs = some (b, h'.abs) ∧ Ok h' ∧ Ext n m h h' ∧ Q a b h'

namespace Sim
variable {n m : Nat} {h : HSt K T}

theorem ret {a : α} {b : β} {Q : α → β → HSt K T → Prop} (ok : Ok h) (q : Q a b h) :
    Sim n m (Pure.pure a : H K T α) (Pure.pure b : M K T β) h Q :=
  .inr ⟨a, h, b, rfl, rfl, ok, Ext.refl _ _ _, q⟩

theorem mret {a : α} {b : β} {Q : α → β → HSt K T → Prop} (ok : Ok h) (q : Q a b h) :
    Sim n m (H.pure a : H K T α) (M.pure b : M K T β) h Q := ret ok q

theorem seq {n' m' : Nat} {hm : H K T α} {vm : M K T β} {hf : α → H K T α'} {vf : β → M K T β'}
    {R : α → β → HSt K T → Prop} {Q : α' → β' → HSt K T → Prop}
    (s : Sim n' m' hm vm h R) (hn : n ≤ n') (hm' : m ≤ m')
    (k : ∀ a b h', Ok h' → Ext n' m' h h' → R a b h' → Sim n m (hf a) (vf b) h' Q) :
    Sim n m (hm >>= hf) (vm >>= vf) h Q := by
  rcases s with ⟨h1, h2⟩ | ⟨a, h', b, h1, h2, h3, h4, h5⟩
  · refine .inl ⟨?_, ?_⟩
    · show H.bind _ _ _ = _; unfold H.bind; rw [h1]
    · show M.bind _ _ _ = _; unfold M.bind; rw [h2]
  · have e1 : (hm >>= hf) h = hf a h' := by show H.bind _ _ _ = _; unfold H.bind; rw [h1]
    have e2 : (vm >>= vf) h.abs = vf b h'.abs := by show M.bind _ _ _ = _; unfold M.bind; rw [h2]
    rcases k a b h' h3 h4 h5 with ⟨k1, k2⟩ | ⟨a2, h2', b2, k1, k2, k3, k4, k5⟩
    · exact .inl ⟨by rw [e1, k1], by rw [e2, k2]⟩
    · exact .inr ⟨a2, h2', b2, by rw [e1, k1], by rw [e2, k2], k3, (h4.mono hn hm').trans k4, k5⟩

theorem mono {n' m' : Nat} {hm : H K T α} {vm : M K T β} {R Q : α → β → HSt K T → Prop}
    (s : Sim n' m' hm vm h R) (hn : n ≤ n') (hm' : m ≤ m')
    (k : ∀ a b h', Ok h' → Ext n' m' h h' → R a b h' → Q a b h') : Sim n m hm vm h Q := by
  rcases s with s | ⟨a, h', b, h1, h2, h3, h4, h5⟩
  · exact .inl s
  · exact .inr ⟨a, h', b, h1, h2, h3, h4.mono hn hm', k a b h' h3 h4 h5⟩

/-- A step of the heap computation alone. -/
theorem left {hm : H K T α} {hf : α → H K T α'} {vm : M K T β} {Q : α' → β → HSt K T → Prop}
    {a : α} {h' : HSt K T} (e : hm h = some (a, h')) (ea : h'.abs = h.abs) (ex : Ext n m h h')
    (s : Sim n m (hf a) vm h' Q) : Sim n m (hm >>= hf) vm h Q := by
  have e1 : (hm >>= hf) h = hf a h' := by show H.bind _ _ _ = _; unfold H.bind; rw [e]
  rcases s with ⟨k1, k2⟩ | ⟨a2, h2', b2, k1, k2, k3, k4, k5⟩
  · exact .inl ⟨by rw [e1, k1], by rw [← ea, k2]⟩
  · exact .inr ⟨a2, h2', b2, by rw [e1, k1], by rw [← ea, k2], k3, ex.trans k4, k5⟩

/-- A step of the value computation alone. -/
theorem right {vm : M K T β} {vf : β → M K T β'} {hm : H K T α} {Q : α → β' → HSt K T → Prop}
    {b : β} (e : vm h.abs = some (b, h.abs)) (s : Sim n m hm (vf b) h Q) :
    Sim n m hm (vm >>= vf) h Q := by
  have e1 : (vm >>= vf) h.abs = vf b h.abs := by show M.bind _ _ _ = _; unfold M.bind; rw [e]
  rcases s with ⟨k1, k2⟩ | ⟨a2, h2', b2, k1, k2, k3, k4, k5⟩
  · exact .inl ⟨k1, by rw [e1, k2]⟩
  · exact .inr ⟨a2, h2', b2, k1, by rw [e1, k2], k3, k4, k5⟩

theorem getL {hf : HSt K T → H K T α} {vm : M K T β} {Q : α → β → HSt K T → Prop}
    (s : Sim n m (hf h) vm h Q) : Sim n m (H.get >>= hf) vm h Q :=
  left (a := h) (h' := h) rfl rfl (Ext.refl _ _ _) s

theorem getR {vf : Graph K T → M K T β} {hm : H K T α} {Q : α → β → HSt K T → Prop}
    (s : Sim n m hm (vf h.abs.g) h Q) : Sim n m hm (M.getG >>= vf) h Q :=
  right (b := h.abs.g) rfl s

theorem loop {xs : List α'} {a : α} {b : β} {hf : α → α' → H K T α} {vf : β → α' → M K T β}
    (I : α → β → HSt K T → Prop) (ok : Ok h) (i : I a b h) (hn : n ≤ h.sets.length)
    (hm : m ≤ h.maps.length)
    (hs : ∀ x ∈ xs, ∀ a b h, Ok h → n ≤ h.sets.length → m ≤ h.maps.length → I a b h →
      Sim n m (hf a x) (vf b x) h I) :
    Sim n m (H.loop xs a hf) (M.loop xs b vf) h I := by
  induction xs generalizing a b h with
  | nil => exact mret ok i
  | cons x xs ih =>
    refine seq (hs x List.mem_cons_self a b h ok hn hm i) (Nat.le_refl _) (Nat.le_refl _) ?_
    intro a' b' h' ok' e i'
    exact ih ok' i' (Nat.le_trans hn e.sets) (Nat.le_trans hm e.maps)
      (fun y hy => hs y (List.mem_cons_of_mem _ hy))

/-- A loop of the heap computation that computes what a fold does. -/
theorem loopFold {xs : List α'} {a : α} {b : β} {hf : α → α' → H K T α} {f : β → α' → β}
    (I : α → β → HSt K T → Prop) (ok : Ok h) (i : I a b h) (hn : n ≤ h.sets.length)
    (hm : m ≤ h.maps.length)
    (hs : ∀ x ∈ xs, ∀ a b h, Ok h → n ≤ h.sets.length → m ≤ h.maps.length → I a b h →
      Sim n m (hf a x) (Pure.pure (f b x)) h I) :
    Sim n m (H.loop xs a hf) (Pure.pure (xs.foldl f b)) h I := by
  have key : ∀ (xs : List α') (b : β) (σ : St K T),
      M.loop xs b (fun b x => (Pure.pure (f b x) : M K T β)) σ = some (xs.foldl f b, σ) := by
    intro xs
    induction xs with
    | nil => intro b σ; rfl
    | cons x xs ih => intro b σ; exact ih (f b x) σ
  have := loop (vf := fun b x => (Pure.pure (f b x) : M K T β)) (xs := xs) I ok i hn hm hs
  rcases this with ⟨h1, h2⟩ | ⟨a', h', b', h1, h2, h3⟩
  · rw [key] at h2; cases h2
  · refine .inr ⟨a', h', b', h1, ?_, h3⟩
    rw [key] at h2; exact h2

end Sim

theorem H.assoc {α β γ : Type} (x : H K T α) (f : α → H K T β) (g : β → H K T γ) :
    (x >>= f) >>= g = x >>= fun a => f a >>= g := by
  funext h
  show H.bind (H.bind x f) g h = H.bind x (fun a => H.bind (f a) g) h
  unfold H.bind
  cases x h <;> rfl

theorem M.assoc {α β γ : Type} (x : M K T α) (f : α → M K T β) (g : β → M K T γ) :
    (x >>= f) >>= g = x >>= fun a => f a >>= g := by
  funext h
  show M.bind (M.bind x f) g h = M.bind x (fun a => M.bind (f a) g) h
  unfold M.bind
  cases x h <;> rfl

/-! ### Reading -/

theorem HSt.checkVertexID_abs (h : HSt K T) (id : K) :
    h.checkVertexID id = Dag.checkVertexID h.abs.g id := rfl

theorem HSt.checkEdgeIDs_abs (h : HSt K T) (s t : K) :
    h.checkEdgeIDs s t = Dag.checkEdgeIDs h.abs.g s t := rfl

theorem HSt.vertexAt_abs (h : HSt K T) (id : K) : h.vertexAt id = h.abs.g.vertexAt id := rfl

theorem HSt.setAt_mapV (h : HSt K T) (m : GoMap K Nat) (k : K) :
    setAt (mapV h.deref m) k = h.read (GoMap.get? m k) := by
  unfold setAt; rw [GoMap.get?_mapV]
  cases GoMap.get? m k <;> rfl

theorem H.isEdge_eq (h : HSt K T) (s t : K) :
    H.isEdge s t h = some (isEdgeIn h.abs.g s t, h) := by
  show (match h.checkEdgeIDs s t with
    | some e => (Pure.pure (.error e) : H K T (Except Err Bool))
    | none => if !(GoMap.has h.outb s) then Pure.pure (.ok false)
      else if !(GSet.includes (h.read (GoMap.get? h.outb s)) t) then Pure.pure (.ok false)
      else Pure.pure (.ok true)) h = _
  unfold isEdgeIn
  rw [HSt.checkEdgeIDs_abs]
  have e1 : GoMap.has h.abs.g.outb s = GoMap.has h.outb s := GoMap.has_mapV _ _ _
  have e2 : setAt h.abs.g.outb s = h.read (GoMap.get? h.outb s) := HSt.setAt_mapV _ _ _
  cases checkEdgeIDs h.abs.g s t with
  | some e => rfl
  | none =>
    simp only [e1, e2]
    split
    · rfl
    · split <;> rfl

theorem H.isEdgeFlag_eq (h : HSt K T) (s t : K) :
    H.isEdgeFlag s t h = some (Dag.isEdgeFlag h.abs.g s t, h) := by
  unfold H.isEdgeFlag Dag.isEdgeFlag
  show H.bind _ _ _ = _
  unfold H.bind
  rw [H.isEdge_eq]
  cases isEdgeIn h.abs.g s t <;> rfl

end

/-! ### Changing one cell -/

section
variable {K T : Type} [DecidableEq K] [GoZero K] [GoZero T]

namespace HSt

theorem deref_set (h : HSt K T) (a : Nat) (s : GSet K) (ha : a < h.sets.length) (x : Nat) :
    ({ h with sets := h.sets.set a s } : HSt K T).deref x = if x = a then s else h.deref x := by
  unfold deref
  by_cases hx : x = a
  · subst hx; simp [List.getD, ha]
  · simp [List.getD, hx, Ne.symm hx]

theorem deref_append (h : HSt K T) (x : Nat) :
    ({ h with sets := h.sets ++ [[]] } : HSt K T).deref x = h.deref x := by
  unfold deref
  by_cases hx : x < h.sets.length
  · simp [List.getD, List.getElem?_append_left hx]
  · by_cases hx2 : x = h.sets.length
    · subst hx2; simp [List.getD]
    · have : h.sets.length + 1 ≤ x := by omega
      simp [List.getD, this, Nat.le_of_not_lt hx]

theorem mapAt_append (h : HSt K T) (x : Nat) :
    ({ h with maps := h.maps ++ [[]] } : HSt K T).mapAt x = h.mapAt x := by
  unfold mapAt
  by_cases hx : x < h.maps.length
  · simp [List.getD, List.getElem?_append_left hx]
  · by_cases hx2 : x = h.maps.length
    · subst hx2; simp [List.getD]
    · have : h.maps.length + 1 ≤ x := by omega
      simp [List.getD, this, Nat.le_of_not_lt hx]

theorem mapAt_set (h : HSt K T) (a : Nat) (s : GoMap K T) (ha : a < h.maps.length) (x : Nat) :
    ({ h with maps := h.maps.set a s } : HSt K T).mapAt x = if x = a then s else h.mapAt x := by
  unfold mapAt
  by_cases hx : x = a
  · subst hx; simp [List.getD, ha]
  · simp [List.getD, hx, Ne.symm hx]

/-- A set that the graph does not hold. -/
structure Local (c : Nat) (s : GSet K) (h : HSt K T) : Prop where
  lt : c < h.sets.length
  free : c ∉ h.owned
  eq : h.deref c = s

/-- A set, possibly cached by the graph, that is no set of edges; `none` is nil. -/
def Held (c : Option Nat) (s : GSet K) (h : HSt K T) : Prop :=
  match c with
  | none => s = []
  | some c => c < h.sets.length ∧ c ∉ h.edges ∧ h.deref c = s

theorem Held.read {c : Option Nat} {s : GSet K} {h : HSt K T} (a : Held c s h) : h.read c = s := by
  cases c with
  | none => exact a.symm
  | some c => exact a.2.2

theorem Held.ext {c : Option Nat} {s : GSet K} {h h' : HSt K T} {n m : Nat} (a : Held c s h)
    (e : Ext n m h h') (hn : h.sets.length ≤ n) : Held c s h' := by
  cases c with
  | none => exact a
  | some c =>
    obtain ⟨h1, h2, h3⟩ := a
    obtain ⟨h4, h5⟩ := e.same c (by omega) h2
    exact ⟨Nat.lt_of_lt_of_le h1 e.sets, h5, h4.trans h3⟩

theorem Local.ext {c : Nat} {s : GSet K} {h h' : HSt K T} {n m : Nat} (a : Local c s h)
    (e : Ext n m h h') (hn : c < n) : Local c s h' := by
  have hne : c ∉ h.edges := fun hc => a.free (List.mem_append_left _ hc)
  exact ⟨Nat.lt_of_lt_of_le a.lt e.sets, e.own c hn a.free, (e.same c hn hne).1.trans a.eq⟩

/-- A map of the client's (or of the running method's), with its contents. -/
structure Own (r : Nat) (v : GoMap K T) (h : HSt K T) : Prop where
  lt : r < h.maps.length
  ne : r ≠ h.vertices
  eq : h.mapAt r = v

theorem Own.ext {r : Nat} {v : GoMap K T} {h h' : HSt K T} {n m : Nat} (a : Own r v h)
    (e : Ext n m h h') (hm : r < m) : Own r v h' :=
  ⟨Nat.lt_of_lt_of_le a.lt e.maps, by rw [e.vert]; exact a.ne, (e.mapsSame r hm a.ne).trans a.eq⟩

end HSt

open HSt (Local Held Own)

namespace Sim
variable {α β : Type} {n m : Nat} {h : HSt K T}

theorem newSet {hf : Nat → H K T α} {vm : M K T β} {Q : α → β → HSt K T → Prop} (ok : Ok h)
    (hn : n ≤ h.sets.length)
    (k : ∀ h', Ok h' → n ≤ h.sets.length → h'.sets.length = h.sets.length + 1 →
      h'.maps = h.maps → h'.vertices = h.vertices → h'.inb = h.inb → h'.outb = h.outb →
      h'.ancC = h.ancC → h'.descC = h.descC → (∀ x, h'.deref x = h.deref x) →
      Local h.sets.length [] h' → Sim n m (hf h.sets.length) vm h' Q) :
    Sim n m (H.newSet >>= hf) vm h Q := by
  have hd : ∀ x, ({ h with sets := h.sets ++ [[]] } : HSt K T).deref x = h.deref x :=
    HSt.deref_append h
  refine left (a := h.sets.length) (h' := { h with sets := h.sets ++ [[]] }) rfl ?_ ?_ ?_
  · have : ({ h with sets := h.sets ++ [[]] } : HSt K T).deref = h.deref := funext hd
    unfold HSt.abs; rw [this]; rfl
  · refine ⟨by simp, Nat.le_refl _, fun a _ ha => ⟨hd a, ha⟩, fun _ _ ha => ha, rfl, fun _ _ _ => rfl⟩
  · refine k _ ⟨ok.nodup, fun a ha => ?_, ok.inK, ok.outK, ok.verts⟩ hn (by simp) rfl rfl rfl rfl rfl rfl
      hd ⟨by simp, fun ha => Nat.lt_irrefl _ (ok.lt _ ha), ?_⟩
    · have := ok.lt a ha; simp; omega
    · rw [hd]; unfold HSt.deref; simp [List.getD]

theorem newMap {hf : Nat → H K T α} {vm : M K T β} {Q : α → β → HSt K T → Prop} (ok : Ok h)
    (k : ∀ h', Ok h' → h'.sets = h.sets → h'.maps.length = h.maps.length + 1 →
      h'.vertices = h.vertices → h'.inb = h.inb → h'.outb = h.outb →
      h'.ancC = h.ancC → h'.descC = h.descC → h'.abs = h.abs →
      Own h.maps.length [] h' → Sim n m (hf h.maps.length) vm h' Q) :
    Sim n m (H.newMap >>= hf) vm h Q := by
  have hd : ∀ x, ({ h with maps := h.maps ++ [[]] } : HSt K T).mapAt x = h.mapAt x :=
    HSt.mapAt_append h
  have ha : ({ h with maps := h.maps ++ [[]] } : HSt K T).abs = h.abs := by
    have : ({ h with maps := h.maps ++ [[]] } : HSt K T).verts = h.verts := hd _
    unfold HSt.abs; rw [this]; rfl
  refine left (a := h.maps.length) (h' := { h with maps := h.maps ++ [[]] }) rfl ha ?_ ?_
  · exact ⟨Nat.le_refl _, by simp, fun a _ ha => ⟨rfl, ha⟩, fun _ _ ha => ha, rfl, fun a _ _ => hd a⟩
  · refine k _ ⟨ok.nodup, ok.lt, ok.inK, ok.outK, ?_⟩ rfl (by simp) rfl rfl rfl rfl rfl ha
      ⟨by simp, ?_, ?_⟩
    · have := ok.verts; simp; omega
    · have := ok.verts; show h.maps.length ≠ h.vertices; omega
    · rw [hd]; unfold HSt.mapAt; simp [List.getD]

/-- Counting a `range` statement. -/
theorem tick (h : HSt K T) (ok : Ok h) : Ok { h with n := h.n + 1 } ∧
    Ext n m h { h with n := h.n + 1 } :=
  ⟨⟨ok.nodup, ok.lt, ok.inK, ok.outK, ok.verts⟩,
   ⟨Nat.le_refl _, Nat.le_refl _, fun _ _ ha => ⟨rfl, ha⟩, fun _ _ ha => ha, rfl, fun _ _ _ => rfl⟩⟩

theorem rangeSet {ω : Oracle} {s : Option Nat} {v : GSet K} {hf : List (K × K) → H K T α}
    {vf : List (K × K) → M K T β} {Q : α → β → HSt K T → Prop} (ok : Ok h) (e : h.read s = v)
    (k : ∀ l : List (K × K), (∀ p ∈ l, p ∈ v) →
      ∀ h' : HSt K T, h' = { h with n := h.n + 1 } → Ok h' → Ext h.sets.length h.maps.length h h' →
        Sim n m (hf l) (vf l) h' Q) :
    Sim n m (H.rangeSet ω s >>= hf) (M.range ω v >>= vf) h Q := by
  subst e
  obtain ⟨ok', ex⟩ := tick (n := n) (m := m) h ok
  have s0 : Sim n m (H.rangeSet ω s) (M.range ω (h.read s)) h
      (fun a b h' => a = b ∧ (∀ p ∈ a, p ∈ h.read s) ∧ h' = { h with n := h.n + 1 }) :=
    .inr ⟨_, _, _, rfl, rfl, ok', ex, rfl, fun p hp => (ω.isPerm _ _ _).mem_iff.mp hp, rfl⟩
  refine seq s0 (Nat.le_refl _) (Nat.le_refl _) ?_
  rintro a b h' _ _ ⟨rfl, hp, rfl⟩
  exact k a hp _ rfl ok' (tick h ok).2

theorem rangeMap {ω : Oracle} {r : Nat} {v : GoMap K T} {hf : List (K × T) → H K T α}
    {vf : List (K × T) → M K T β} {Q : α → β → HSt K T → Prop} (ok : Ok h) (e : h.mapAt r = v)
    (k : ∀ l : List (K × T), 
      ∀ h' : HSt K T, h' = { h with n := h.n + 1 } → Ok h' → Ext h.sets.length h.maps.length h h' →
        Sim n m (hf l) (vf l) h' Q) :
    Sim n m (H.rangeMap ω r >>= hf) (M.range ω v >>= vf) h Q := by
  subst e
  obtain ⟨ok', ex⟩ := tick (n := n) (m := m) h ok
  have s0 : Sim n m (H.rangeMap ω r) (M.range ω (h.mapAt r)) h
      (fun a b h' => a = b ∧ h' = { h with n := h.n + 1 }) :=
    .inr ⟨_, _, _, rfl, rfl, ok', ex, rfl, rfl⟩
  refine seq s0 (Nat.le_refl _) (Nat.le_refl _) ?_
  rintro a b h' _ _ ⟨rfl, rfl⟩
  exact k a _ rfl ok' (tick h ok).2

theorem rangeOuter {ω : Oracle} {r : GoMap K Nat} {hf : List (K × GSet K) → H K T α}
    {vf : List (K × GSet K) → M K T β} {Q : α → β → HSt K T → Prop} (ok : Ok h)
    (k : ∀ l : List (K × GSet K), 
      ∀ h' : HSt K T, h' = { h with n := h.n + 1 } → Ok h' → Ext h.sets.length h.maps.length h h' →
        Sim n m (hf l) (vf l) h' Q) :
    Sim n m (H.rangeOuter ω r >>= hf) (M.range ω (mapV h.deref r) >>= vf) h Q := by
  obtain ⟨ok', ex⟩ := tick (n := n) (m := m) h ok
  have s0 : Sim n m (H.rangeOuter ω r) (M.range ω (mapV h.deref r)) h
      (fun a b h' => a = b ∧ h' = { h with n := h.n + 1 }) :=
    .inr ⟨_, _, _, rfl, rfl, ok', ex, rfl, rfl⟩
  refine seq s0 (Nat.le_refl _) (Nat.le_refl _) ?_
  rintro a b h' _ _ ⟨rfl, rfl⟩
  exact k a _ rfl ok' (tick h ok).2

theorem rangeSeen {ω : Oracle} {v : GSet K} {hf : List (K × K) → H K T α}
    {vf : List (K × K) → M K T β} {Q : α → β → HSt K T → Prop} (ok : Ok h)
    (k : ∀ l : List (K × K), ∀ h' : HSt K T, h' = { h with n := h.n + 1 } → Ok h' →
      Sim n m (hf l) (vf l) h' Q) :
    Sim n m (H.rangeSeen ω v >>= hf) (M.range ω v >>= vf) h Q := by
  obtain ⟨ok', ex⟩ := tick (n := n) (m := m) h ok
  have s0 : Sim n m (H.rangeSeen ω v) (M.range ω v) h
      (fun a b h' => a = b ∧ h' = { h with n := h.n + 1 }) :=
    .inr ⟨_, _, _, rfl, rfl, ok', ex, rfl, rfl⟩
  refine seq s0 (Nat.le_refl _) (Nat.le_refl _) ?_
  rintro a b h' _ _ ⟨rfl, rfl⟩
  exact k a _ rfl ok'

/-- `Add` on a set the graph does not hold. -/
theorem addLocal {c : Nat} {s : GSet K} {v : K} (ok : Ok h) (l : Local c s h) (hc : n ≤ c) {b : β} :
    Sim n m (H.addTo (some c) v) (Pure.pure b : M K T β) h
      (fun _ b' h' => b' = b ∧ Local c (GSet.add s v) h') := by
  have hd := HSt.deref_set h c (GSet.add (h.deref c) v) l.lt
  have hdo : ∀ x, x ≠ c → ({ h with sets := h.sets.set c (GSet.add (h.deref c) v) } : HSt K T).deref x
      = h.deref x := fun x hx => by rw [hd, if_neg hx]
  refine .inr ⟨(), { h with sets := h.sets.set c (GSet.add (h.deref c) v) }, b, rfl, ?_, ?_, ?_, rfl, ?_⟩
  · show some (b, h.abs) = some (b, _)
    have fr : ∀ mp : GoMap K Nat, (∀ x ∈ mp.map Prod.snd, x ∈ h.owned) →
        mapV h.deref mp =
        mapV ({ h with sets := h.sets.set c (GSet.add (h.deref c) v) } : HSt K T).deref mp := by
      intro mp hmp
      apply GoMap.mapV_congr
      intro x hx
      rw [hdo]
      rintro rfl
      exact l.free (hmp _ hx)
    congr 2
    unfold HSt.abs
    rw [fr h.inb (fun x hx => by simp [HSt.owned, HSt.edges, hx]),
      fr h.outb (fun x hx => by simp [HSt.owned, HSt.edges, hx]),
      fr h.ancC (fun x hx => by simp [HSt.owned, HSt.cached, hx]),
      fr h.descC (fun x hx => by simp [HSt.owned, HSt.cached, hx])]
    rfl
  · exact ⟨ok.nodup, fun a ha => by have := ok.lt a ha; simpa using this, ok.inK, ok.outK, ok.verts⟩
  · exact ⟨by simp, Nat.le_refl _, fun a h1 h2 => ⟨hdo a (by omega), h2⟩, fun _ _ ha => ha, rfl,
      fun _ _ _ => rfl⟩
  · exact ⟨by simpa using l.lt, l.free, by rw [hd, if_pos rfl, l.eq]⟩

/-- `m[k] = v` on a map the graph does not hold. -/
theorem setOwn {r : Nat} {mp : GoMap K T} {k : K} {v : T} (ok : Ok h) (l : Own r mp h) (hc : m ≤ r)
    {b : β} :
    Sim n m (H.setIn r k v) (Pure.pure b : M K T β) h
      (fun _ b' h' => b' = b ∧ Own r (GoMap.set mp k v) h' ∧ h'.abs = h.abs ∧ h'.sets = h.sets ∧
        h'.outb = h.outb ∧ h'.inb = h.inb) := by
  have hd := HSt.mapAt_set h r (GoMap.set (h.mapAt r) k v) l.lt
  have ha : h.abs = ({ h with maps := h.maps.set r (GoMap.set (h.mapAt r) k v) } : HSt K T).abs := by
    have : ({ h with maps := h.maps.set r (GoMap.set (h.mapAt r) k v) } : HSt K T).verts = h.verts := by
      show HSt.mapAt _ h.vertices = _
      rw [hd, if_neg (Ne.symm l.ne)]; rfl
    unfold HSt.abs; rw [this]; rfl
  refine .inr ⟨(), { h with maps := h.maps.set r (GoMap.set (h.mapAt r) k v) }, b, rfl, ?_, ?_, ?_, rfl,
    ?_, ha.symm, rfl, rfl, rfl⟩
  · rw [← ha]; rfl
  · exact ⟨ok.nodup, ok.lt, ok.inK, ok.outK, by simpa using ok.verts⟩
  · exact ⟨Nat.le_refl _, by simp, fun a h1 h2 => ⟨rfl, h2⟩, fun _ _ ha => ha, rfl,
      fun a h1 _ => by rw [hd, if_neg (by omega)]⟩
  · exact ⟨by simpa using l.lt, l.ne, by rw [hd, if_pos rfl, l.eq]⟩

/-- `m[k] = v` on the map of vertices. -/
theorem setVert {k : K} {v : T} (ok : Ok h) :
    Sim n m (H.setIn h.vertices k v)
      (M.modG fun g : Graph K T => { g with vertices := GoMap.set g.vertices k v }) h
      (fun _ _ _ => True) := by
  have hd := HSt.mapAt_set h h.vertices (GoMap.set (h.mapAt h.vertices) k v) ok.verts
  refine .inr ⟨(), { h with maps := h.maps.set h.vertices (GoMap.set (h.mapAt h.vertices) k v) }, (), rfl,
    ?_, ?_, ?_, trivial⟩
  · have : ({ h with maps := h.maps.set h.vertices (GoMap.set (h.mapAt h.vertices) k v) } : HSt K T).verts
        = GoMap.set h.verts k v := by
      show HSt.mapAt _ h.vertices = _
      rw [hd, if_pos rfl]; rfl
    show some ((), _) = some ((), _)
    congr 2
    unfold HSt.abs; rw [this]; rfl
  · exact ⟨ok.nodup, ok.lt, ok.inK, ok.outK, by simpa using ok.verts⟩
  · exact ⟨Nat.le_refl _, by simp, fun a h1 h2 => ⟨rfl, h2⟩, fun _ _ ha => ha, rfl,
      fun a _ h1 => by rw [hd, if_neg h1]⟩

/-- `delete(m, k)` on the map of vertices. -/
theorem delVert {k : K} (ok : Ok h) {r : Nat} (hr : r = h.vertices) :
    Sim n m (H.delIn r k)
      (M.modG fun g : Graph K T => { g with vertices := GoMap.del g.vertices k }) h
      (fun _ _ _ => True) := by
  subst hr
  have hd := HSt.mapAt_set h h.vertices (GoMap.del (h.mapAt h.vertices) k) ok.verts
  refine .inr ⟨(), { h with maps := h.maps.set h.vertices (GoMap.del (h.mapAt h.vertices) k) }, (), rfl,
    ?_, ?_, ?_, trivial⟩
  · have : ({ h with maps := h.maps.set h.vertices (GoMap.del (h.mapAt h.vertices) k) } : HSt K T).verts
        = GoMap.del h.verts k := by
      show HSt.mapAt _ h.vertices = _
      rw [hd, if_pos rfl]; rfl
    show some ((), _) = some ((), _)
    congr 2
    unfold HSt.abs; rw [this]; rfl
  · exact ⟨ok.nodup, ok.lt, ok.inK, ok.outK, by simpa using ok.verts⟩
  · exact ⟨Nat.le_refl _, by simp, fun a h1 h2 => ⟨rfl, h2⟩, fun _ _ ha => ha, rfl,
      fun a _ h1 => by rw [hd, if_neg h1]⟩

/-- `f` applied to the set of children of `k`, in place. -/
theorem writeOut {k : K} {a : Nat} (f : GSet K → GSet K) (ok : Ok h)
    (e : GoMap.get? h.outb k = some a) :
    Sim n m (fun h => some ((), { h with sets := h.sets.set a (f (h.deref a)) }))
      (M.modG fun g : Graph K T => { g with outb := GoMap.updAt g.outb k f }) h
      (fun _ _ h' => h'.sets.length = h.sets.length ∧ h'.inb = h.inb ∧ h'.outb = h.outb) := by
  have hao : a ∈ h.outb.map Prod.snd := GoMap.get?_mem_vals e
  have hal : a < h.sets.length := ok.lt a (by simp only [HSt.owned, HSt.edges, List.mem_append]; tauto)
  have nd := ok.nodup
  simp only [HSt.owned, HSt.edges, HSt.cached, List.nodup_append, List.mem_append] at nd
  have hd := HSt.deref_set h a (f (h.deref a)) hal
  have hdo : ∀ x, x ≠ a → ({ h with sets := h.sets.set a (f (h.deref a)) } : HSt K T).deref x
      = h.deref x := fun x hx => by rw [hd, if_neg hx]
  have fr : ∀ mp : GoMap K Nat, (∀ x ∈ mp.map Prod.snd, x ≠ a) →
      mapV h.deref mp =
      mapV ({ h with sets := h.sets.set a (f (h.deref a)) } : HSt K T).deref mp := by
    intro mp hmp
    apply GoMap.mapV_congr
    intro x hx
    rw [hdo x (hmp x hx)]
  refine .inr ⟨(), { h with sets := h.sets.set a (f (h.deref a)) }, (), rfl, ?_, ?_, ?_, ?_⟩
  · have e3 : GoMap.updAt (mapV h.deref h.outb) k f = mapV ({ h with sets := h.sets.set a (f (h.deref a)) } : HSt K T).deref h.outb := by
      rw [GoMap.updAt_mapV f ok.outK nd.1.2.1 e]
      apply GoMap.mapV_congr
      intro x _
      rw [hd]
      split
      · rename_i hx; rw [hx]
      · rfl
    show some ((), (⟨⟨h.verts, mapV h.deref h.inb, GoMap.updAt (mapV h.deref h.outb) k f, mapV h.deref h.ancC, mapV h.deref h.descC⟩, h.n⟩ : St K T)) =
      some ((), (⟨⟨h.verts, mapV ({ h with sets := h.sets.set a (f (h.deref a)) } : HSt K T).deref h.inb, mapV ({ h with sets := h.sets.set a (f (h.deref a)) } : HSt K T).deref h.outb, mapV ({ h with sets := h.sets.set a (f (h.deref a)) } : HSt K T).deref h.ancC, mapV ({ h with sets := h.sets.set a (f (h.deref a)) } : HSt K T).deref h.descC⟩, h.n⟩ : St K T))
    rw [e3, ← fr h.inb (fun x hx => nd.1.2.2 x hx a hao),
      ← fr h.ancC (fun x hx => (nd.2.2 a (.inr hao) x (.inl hx)).symm),
      ← fr h.descC (fun x hx => (nd.2.2 a (.inr hao) x (.inr hx)).symm)]
  · exact ⟨ok.nodup, fun x hx => by have := ok.lt x hx; simpa using this, ok.inK, ok.outK, ok.verts⟩
  · refine ⟨by simp, Nat.le_refl _, fun x h1 h2 => ⟨hdo x ?_, h2⟩, fun _ _ ha => ha, rfl,
      fun _ _ _ => rfl⟩
    rintro rfl
    exact h2 (List.mem_append_right _ hao)
  · exact ⟨by simp, rfl, rfl⟩

/-- `f` applied to the set of parents of `k`, in place. -/
theorem writeIn {k : K} {a : Nat} (f : GSet K → GSet K) (ok : Ok h)
    (e : GoMap.get? h.inb k = some a) :
    Sim n m (fun h => some ((), { h with sets := h.sets.set a (f (h.deref a)) }))
      (M.modG fun g : Graph K T => { g with inb := GoMap.updAt g.inb k f }) h
      (fun _ _ h' => h'.sets.length = h.sets.length ∧ h'.inb = h.inb ∧ h'.outb = h.outb) := by
  have hao : a ∈ h.inb.map Prod.snd := GoMap.get?_mem_vals e
  have hal : a < h.sets.length := ok.lt a (by simp only [HSt.owned, HSt.edges, List.mem_append]; tauto)
  have nd := ok.nodup
  simp only [HSt.owned, HSt.edges, HSt.cached, List.nodup_append, List.mem_append] at nd
  have hd := HSt.deref_set h a (f (h.deref a)) hal
  have hdo : ∀ x, x ≠ a → ({ h with sets := h.sets.set a (f (h.deref a)) } : HSt K T).deref x
      = h.deref x := fun x hx => by rw [hd, if_neg hx]
  have fr : ∀ mp : GoMap K Nat, (∀ x ∈ mp.map Prod.snd, x ≠ a) →
      mapV h.deref mp =
      mapV ({ h with sets := h.sets.set a (f (h.deref a)) } : HSt K T).deref mp := by
    intro mp hmp
    apply GoMap.mapV_congr
    intro x hx
    rw [hdo x (hmp x hx)]
  refine .inr ⟨(), { h with sets := h.sets.set a (f (h.deref a)) }, (), rfl, ?_, ?_, ?_, ?_⟩
  · have e3 : GoMap.updAt (mapV h.deref h.inb) k f = mapV ({ h with sets := h.sets.set a (f (h.deref a)) } : HSt K T).deref h.inb := by
      rw [GoMap.updAt_mapV f ok.inK nd.1.1 e]
      apply GoMap.mapV_congr
      intro x _
      rw [hd]
      split
      · rename_i hx; rw [hx]
      · rfl
    show some ((), (⟨⟨h.verts, GoMap.updAt (mapV h.deref h.inb) k f, mapV h.deref h.outb, mapV h.deref h.ancC, mapV h.deref h.descC⟩, h.n⟩ : St K T)) =
      some ((), (⟨⟨h.verts, mapV ({ h with sets := h.sets.set a (f (h.deref a)) } : HSt K T).deref h.inb, mapV ({ h with sets := h.sets.set a (f (h.deref a)) } : HSt K T).deref h.outb, mapV ({ h with sets := h.sets.set a (f (h.deref a)) } : HSt K T).deref h.ancC, mapV ({ h with sets := h.sets.set a (f (h.deref a)) } : HSt K T).deref h.descC⟩, h.n⟩ : St K T))
    rw [e3, ← fr h.outb (fun x hx => (nd.1.2.2 a hao x hx).symm),
      ← fr h.ancC (fun x hx => (nd.2.2 a (.inl hao) x (.inl hx)).symm),
      ← fr h.descC (fun x hx => (nd.2.2 a (.inl hao) x (.inr hx)).symm)]
  · exact ⟨ok.nodup, fun x hx => by have := ok.lt x hx; simpa using this, ok.inK, ok.outK, ok.verts⟩
  · refine ⟨by simp, Nat.le_refl _, fun x h1 h2 => ⟨hdo x ?_, h2⟩, fun _ _ ha => ha, rfl,
      fun _ _ _ => rfl⟩
    rintro rfl
    exact h2 (List.mem_append_left _ hao)
  · exact ⟨by simp, rfl, rfl⟩

theorem deleteOut {k v : K} (ok : Ok h) :
    Sim n m (H.deleteFrom (GoMap.get? h.outb k) v)
      (M.modG fun g : Graph K T => { g with outb := GoMap.updAt g.outb k (fun s => GSet.delete s v) }) h
      (fun _ _ h' => h'.sets.length = h.sets.length ∧ h'.inb = h.inb ∧ h'.outb = h.outb) := by
  cases e : GoMap.get? h.outb k with
  | some a => exact writeOut (fun s => GSet.delete s v) ok e
  | none =>
    refine .inr ⟨(), h, (), rfl, ?_, ok, Ext.refl _ _ _, rfl, rfl, rfl⟩
    have e1 : GoMap.updAt (mapV h.deref h.outb) k (fun s => GSet.delete s v) = mapV h.deref h.outb :=
      GoMap.updAt_none _ (by rw [GoMap.get?_mapV, e]; rfl)
    exact congrArg (fun x => some ((), (⟨⟨h.verts, mapV h.deref h.inb, x, mapV h.deref h.ancC, mapV h.deref h.descC⟩, h.n⟩ : St K T))) e1

theorem deleteIn {k v : K} (ok : Ok h) :
    Sim n m (H.deleteFrom (GoMap.get? h.inb k) v)
      (M.modG fun g : Graph K T => { g with inb := GoMap.updAt g.inb k (fun s => GSet.delete s v) }) h
      (fun _ _ h' => h'.sets.length = h.sets.length ∧ h'.inb = h.inb ∧ h'.outb = h.outb) := by
  cases e : GoMap.get? h.inb k with
  | some a => exact writeIn (fun s => GSet.delete s v) ok e
  | none =>
    refine .inr ⟨(), h, (), rfl, ?_, ok, Ext.refl _ _ _, rfl, rfl, rfl⟩
    have e1 : GoMap.updAt (mapV h.deref h.inb) k (fun s => GSet.delete s v) = mapV h.deref h.inb :=
      GoMap.updAt_none _ (by rw [GoMap.get?_mapV, e]; rfl)
    exact congrArg (fun x => some ((), (⟨⟨h.verts, x, mapV h.deref h.outb, mapV h.deref h.ancC, mapV h.deref h.descC⟩, h.n⟩ : St K T))) e1

theorem addOut {k v : K} (ok : Ok h) (hk : GoMap.has h.outb k = true) :
    Sim n m (H.addTo (GoMap.get? h.outb k) v)
      (M.modG fun g : Graph K T => { g with outb := GoMap.updAt g.outb k (fun s => GSet.add s v) }) h
      (fun _ _ h' => h'.sets.length = h.sets.length ∧ h'.inb = h.inb ∧ h'.outb = h.outb) := by
  obtain ⟨a, e⟩ := (GoMap.has_iff _ _).mp hk
  rw [e]
  exact writeOut (fun s => GSet.add s v) ok e

theorem addIn {k v : K} (ok : Ok h) (hk : GoMap.has h.inb k = true) :
    Sim n m (H.addTo (GoMap.get? h.inb k) v)
      (M.modG fun g : Graph K T => { g with inb := GoMap.updAt g.inb k (fun s => GSet.add s v) }) h
      (fun _ _ h' => h'.sets.length = h.sets.length ∧ h'.inb = h.inb ∧ h'.outb = h.outb) := by
  obtain ⟨a, e⟩ := (GoMap.has_iff _ _).mp hk
  rw [e]
  exact writeIn (fun s => GSet.add s v) ok e

/-- The graph drops some of its sets. -/
theorem drop (h' : HSt K T) (ok : Ok h) (hs : h'.sets = h.sets) (hm : h'.maps = h.maps)
    (hv : h'.vertices = h.vertices) (h1 : (h'.inb.map Prod.snd).Sublist (h.inb.map Prod.snd))
    (h2 : (h'.outb.map Prod.snd).Sublist (h.outb.map Prod.snd))
    (h3 : (h'.ancC.map Prod.snd).Sublist (h.ancC.map Prod.snd))
    (h4 : (h'.descC.map Prod.snd).Sublist (h.descC.map Prod.snd))
    (k1 : GoMap.NodupKeys h'.inb) (k2 : GoMap.NodupKeys h'.outb) : Ok h' ∧ Ext n m h h' := by
  have se : h'.edges.Sublist h.edges := h1.append h2
  have so : h'.owned.Sublist h.owned := se.append (h3.append h4)
  refine ⟨⟨so.nodup ok.nodup, fun a ha => by rw [hs]; exact ok.lt a (so.subset ha), k1, k2,
    by rw [hv, hm]; exact ok.verts⟩, ⟨by rw [hs], by rw [hm], fun a _ ha => ⟨?_, fun hx => ha (se.subset hx)⟩,
    fun a _ ha hx => ha (so.subset hx), hv, fun a _ _ => ?_⟩⟩
  · unfold HSt.deref; rw [hs]
  · unfold HSt.mapAt; rw [hm]

theorem delInb {k : K} (ok : Ok h) :
    Sim n m (H.modify fun h => { h with inb := GoMap.del h.inb k })
      (M.modG fun g : Graph K T => { g with inb := GoMap.del g.inb k }) h
      (fun _ _ h' => h'.sets.length = h.sets.length) := by
  obtain ⟨o, e⟩ := drop (n := n) (m := m) { h with inb := GoMap.del h.inb k } ok rfl rfl rfl
    (GoMap.vals_del_sublist _ _) (.refl _) (.refl _) (.refl _) (ok.inK.del k) ok.outK
  refine .inr ⟨(), _, (), rfl, ?_, o, e, rfl⟩
  exact congrArg (fun x => some ((), (⟨⟨h.verts, x, mapV h.deref h.outb, mapV h.deref h.ancC, mapV h.deref h.descC⟩, h.n⟩ : St K T)))
    (GoMap.del_mapV h.deref h.inb k)

theorem delOutb {k : K} (ok : Ok h) :
    Sim n m (H.modify fun h => { h with outb := GoMap.del h.outb k })
      (M.modG fun g : Graph K T => { g with outb := GoMap.del g.outb k }) h
      (fun _ _ h' => h'.sets.length = h.sets.length) := by
  obtain ⟨o, e⟩ := drop (n := n) (m := m) { h with outb := GoMap.del h.outb k } ok rfl rfl rfl
    (.refl _) (GoMap.vals_del_sublist _ _) (.refl _) (.refl _) ok.inK (ok.outK.del k)
  refine .inr ⟨(), _, (), rfl, ?_, o, e, rfl⟩
  exact congrArg (fun x => some ((), (⟨⟨h.verts, mapV h.deref h.inb, x, mapV h.deref h.ancC, mapV h.deref h.descC⟩, h.n⟩ : St K T)))
    (GoMap.del_mapV h.deref h.outb k)

theorem delAncC {k : K} (ok : Ok h) :
    Sim n m (H.modify fun h => { h with ancC := GoMap.del h.ancC k })
      (M.modG fun g : Graph K T => { g with ancC := GoMap.del g.ancC k }) h
      (fun _ _ h' => h'.sets.length = h.sets.length) := by
  obtain ⟨o, e⟩ := drop (n := n) (m := m) { h with ancC := GoMap.del h.ancC k } ok rfl rfl rfl
    (.refl _) (.refl _) (GoMap.vals_del_sublist _ _) (.refl _) ok.inK ok.outK
  refine .inr ⟨(), _, (), rfl, ?_, o, e, rfl⟩
  exact congrArg (fun x => some ((), (⟨⟨h.verts, mapV h.deref h.inb, mapV h.deref h.outb, x, mapV h.deref h.descC⟩, h.n⟩ : St K T)))
    (GoMap.del_mapV h.deref h.ancC k)

theorem delDescC {k : K} (ok : Ok h) :
    Sim n m (H.modify fun h => { h with descC := GoMap.del h.descC k })
      (M.modG fun g : Graph K T => { g with descC := GoMap.del g.descC k }) h
      (fun _ _ h' => h'.sets.length = h.sets.length) := by
  obtain ⟨o, e⟩ := drop (n := n) (m := m) { h with descC := GoMap.del h.descC k } ok rfl rfl rfl
    (.refl _) (.refl _) (.refl _) (GoMap.vals_del_sublist _ _) ok.inK ok.outK
  refine .inr ⟨(), _, (), rfl, ?_, o, e, rfl⟩
  exact congrArg (fun x => some ((), (⟨⟨h.verts, mapV h.deref h.inb, mapV h.deref h.outb, mapV h.deref h.ancC, x⟩, h.n⟩ : St K T)))
    (GoMap.del_mapV h.deref h.descC k)

theorem flush (ok : Ok h) :
    Sim n m (H.flushCaches : H K T Unit) Dag.flushCaches h (fun _ _ _ => True) := by
  obtain ⟨o, e⟩ := drop (n := n) (m := m) { h with ancC := [], descC := [] } ok rfl rfl rfl
    (.refl _) (.refl _) (List.nil_sublist _) (List.nil_sublist _) ok.inK ok.outK
  exact .inr ⟨(), _, (), rfl, rfl, o, e, trivial⟩

/-- A set of the running method's goes into the ancestors cache. -/
theorem storeAnc {k : K} {c : Nat} {s : GSet K} (ok : Ok h) (l : Local c s h) (hc : n ≤ c) :
    Sim n m (H.modify fun h => { h with ancC := GoMap.set h.ancC k c })
      (M.modG fun g : Graph K T => { g with ancC := GoMap.set g.ancC k s }) h
      (fun _ _ h' => Held (some c) s h') := by
  have sub : ∀ a, a ∈ ({ h with ancC := GoMap.set h.ancC k c } : HSt K T).owned → a = c ∨ a ∈ h.owned := by
    intro a ha
    simp only [HSt.owned, HSt.edges, HSt.cached, List.mem_append, GoMap.set, List.map_cons,
      List.mem_cons] at ha ⊢
    have := fun hx => (GoMap.vals_del_sublist h.ancC k).subset (a := a) hx
    tauto
  refine .inr ⟨(), { h with ancC := GoMap.set h.ancC k c }, (), rfl, ?_, ?_, ?_, ?_⟩
  · rw [← l.eq]
    exact congrArg (fun x => some ((), (⟨⟨h.verts, mapV h.deref h.inb, mapV h.deref h.outb, x, mapV h.deref h.descC⟩, h.n⟩ : St K T)))
      (GoMap.set_mapV h.deref h.ancC k c)
  · refine ⟨?_, ?_, ok.inK, ok.outK, ok.verts⟩
    · have nd := ok.nodup
      have fr := l.free
      have sb := GoMap.vals_del_sublist h.ancC k
      have sbm := fun x => sb.subset (a := x)
      simp only [HSt.owned, HSt.edges, HSt.cached, List.nodup_append, List.mem_append, GoMap.set,
        List.map_cons, List.nodup_cons, List.mem_cons] at nd fr ⊢
      refine ⟨nd.1, ⟨⟨fun hx => fr (.inr (.inl (sbm _ hx))), sb.nodup nd.2.1.1⟩, nd.2.1.2.1, ?_⟩, ?_⟩
      · rintro x (rfl | hx) y hy
        · rintro rfl; exact fr (.inr (.inr hy))
        · exact nd.2.1.2.2 x (sbm _ hx) y hy
      · rintro x hx y ((rfl | hy) | hy)
        · rintro rfl; exact fr (.inl hx)
        · exact nd.2.2 x hx y (.inl (sbm _ hy))
        · exact nd.2.2 x hx y (.inr hy)
    · intro a ha
      rcases sub a ha with rfl | ha
      · exact l.lt
      · exact ok.lt a ha
  · refine ⟨Nat.le_refl _, Nat.le_refl _, fun a _ ha => ⟨rfl, ha⟩, fun a hn ha hx => ?_, rfl,
      fun _ _ _ => rfl⟩
    rcases sub a hx with rfl | hx
    · omega
    · exact ha hx
  · exact ⟨l.lt, fun hx => l.free (List.mem_append_left _ hx), l.eq⟩

/-- A set of the running method's goes into the descendants cache. -/
theorem storeDesc {k : K} {c : Nat} {s : GSet K} (ok : Ok h) (l : Local c s h) (hc : n ≤ c) :
    Sim n m (H.modify fun h => { h with descC := GoMap.set h.descC k c })
      (M.modG fun g : Graph K T => { g with descC := GoMap.set g.descC k s }) h
      (fun _ _ h' => Held (some c) s h') := by
  have sub : ∀ a, a ∈ ({ h with descC := GoMap.set h.descC k c } : HSt K T).owned → a = c ∨ a ∈ h.owned := by
    intro a ha
    simp only [HSt.owned, HSt.edges, HSt.cached, List.mem_append, GoMap.set, List.map_cons,
      List.mem_cons] at ha ⊢
    have := fun hx => (GoMap.vals_del_sublist h.descC k).subset (a := a) hx
    tauto
  refine .inr ⟨(), { h with descC := GoMap.set h.descC k c }, (), rfl, ?_, ?_, ?_, ?_⟩
  · rw [← l.eq]
    exact congrArg (fun x => some ((), (⟨⟨h.verts, mapV h.deref h.inb, mapV h.deref h.outb, mapV h.deref h.ancC, x⟩, h.n⟩ : St K T)))
      (GoMap.set_mapV h.deref h.descC k c)
  · refine ⟨?_, ?_, ok.inK, ok.outK, ok.verts⟩
    · have nd := ok.nodup
      have fr := l.free
      have sb := GoMap.vals_del_sublist h.descC k
      have sbm := fun x => sb.subset (a := x)
      simp only [HSt.owned, HSt.edges, HSt.cached, List.nodup_append, List.mem_append, GoMap.set,
        List.map_cons, List.nodup_cons, List.mem_cons] at nd fr ⊢
      refine ⟨nd.1, ⟨nd.2.1.1, ⟨fun hx => fr (.inr (.inr (sbm _ hx))), sb.nodup nd.2.1.2.1⟩, ?_⟩, ?_⟩
      · rintro x hx y (rfl | hy)
        · rintro rfl; exact fr (.inr (.inl hx))
        · exact nd.2.1.2.2 x hx y (sbm _ hy)
      · rintro x hx y (hy | (rfl | hy))
        · exact nd.2.2 x hx y (.inl hy)
        · rintro rfl; exact fr (.inl hx)
        · exact nd.2.2 x hx y (.inr (sbm _ hy))
    · intro a ha
      rcases sub a ha with rfl | ha
      · exact l.lt
      · exact ok.lt a ha
  · refine ⟨Nat.le_refl _, Nat.le_refl _, fun a _ ha => ⟨rfl, ha⟩, fun a hn ha hx => ?_, rfl,
      fun _ _ _ => rfl⟩
    rcases sub a hx with rfl | hx
    · omega
    · exact ha hx
  · exact ⟨l.lt, fun hx => l.free (List.mem_append_left _ hx), l.eq⟩

/-- A set of the running method's becomes the set of children of a vertex. -/
theorem storeOut {k : K} {c : Nat} {s : GSet K} (ok : Ok h) (l : Local c s h) (hc : n ≤ c) :
    Sim n m (H.modify fun h => { h with outb := GoMap.set h.outb k c })
      (M.modG fun g : Graph K T => { g with outb := GoMap.set g.outb k s }) h
      (fun _ _ h' => h'.sets.length = h.sets.length ∧ h'.inb = h.inb ∧ GoMap.has h'.outb k = true) := by
  have sube : ∀ a, a ∈ ({ h with outb := GoMap.set h.outb k c } : HSt K T).edges → a = c ∨ a ∈ h.edges := by
    intro a ha
    simp only [HSt.edges, List.mem_append, GoMap.set, List.map_cons, List.mem_cons] at ha ⊢
    have := fun hx => (GoMap.vals_del_sublist h.outb k).subset (a := a) hx
    tauto
  have sub : ∀ a, a ∈ ({ h with outb := GoMap.set h.outb k c } : HSt K T).owned → a = c ∨ a ∈ h.owned := by
    intro a ha
    rcases List.mem_append.mp ha with ha | ha
    · rcases sube a ha with rfl | ha
      · exact .inl rfl
      · exact .inr (List.mem_append_left _ ha)
    · exact .inr (List.mem_append_right _ ha)
  refine .inr ⟨(), { h with outb := GoMap.set h.outb k c }, (), rfl, ?_, ?_, ?_, rfl, rfl, ?_⟩
  · rw [← l.eq]
    exact congrArg (fun x => some ((), (⟨⟨h.verts, mapV h.deref h.inb, x, mapV h.deref h.ancC, mapV h.deref h.descC⟩, h.n⟩ : St K T)))
      (GoMap.set_mapV h.deref h.outb k c)
  · refine ⟨?_, ?_, ok.inK, ok.outK.set _ _, ok.verts⟩
    · have nd := ok.nodup
      have fr := l.free
      have sb := GoMap.vals_del_sublist h.outb k
      have sbm := fun x => sb.subset (a := x)
      simp only [HSt.owned, HSt.edges, HSt.cached, List.nodup_append, List.mem_append, GoMap.set,
        List.map_cons, List.nodup_cons, List.mem_cons] at nd fr ⊢
      refine ⟨⟨nd.1.1, ⟨fun hx => fr (.inl (.inr (sbm _ hx))), sb.nodup nd.1.2.1⟩, ?_⟩, nd.2.1, ?_⟩
      · rintro x hx y (rfl | hy)
        · rintro rfl; exact fr (.inl (.inl hx))
        · exact nd.1.2.2 x hx y (sbm _ hy)
      · rintro x (hx | (rfl | hx)) y hy
        · exact nd.2.2 x (.inl hx) y hy
        · rintro rfl; exact fr (.inr hy)
        · exact nd.2.2 x (.inr (sbm _ hx)) y hy
    · intro a ha
      rcases sub a ha with rfl | ha
      · exact l.lt
      · exact ok.lt a ha
  · refine ⟨Nat.le_refl _, Nat.le_refl _, fun a hn ha => ⟨rfl, fun hx => ?_⟩, fun a hn ha hx => ?_, rfl,
      fun _ _ _ => rfl⟩
    · rcases sube a hx with rfl | hx
      · omega
      · exact ha hx
    · rcases sub a hx with rfl | hx
      · omega
      · exact ha hx
  · exact (GoMap.has_set _ _ _ _).mpr (.inl rfl)

/-- A set of the running method's becomes the set of parents of a vertex. -/
theorem storeIn {k : K} {c : Nat} {s : GSet K} (ok : Ok h) (l : Local c s h) (hc : n ≤ c) :
    Sim n m (H.modify fun h => { h with inb := GoMap.set h.inb k c })
      (M.modG fun g : Graph K T => { g with inb := GoMap.set g.inb k s }) h
      (fun _ _ h' => h'.sets.length = h.sets.length ∧ h'.outb = h.outb ∧ GoMap.has h'.inb k = true) := by
  have sube : ∀ a, a ∈ ({ h with inb := GoMap.set h.inb k c } : HSt K T).edges → a = c ∨ a ∈ h.edges := by
    intro a ha
    simp only [HSt.edges, List.mem_append, GoMap.set, List.map_cons, List.mem_cons] at ha ⊢
    have := fun hx => (GoMap.vals_del_sublist h.inb k).subset (a := a) hx
    tauto
  have sub : ∀ a, a ∈ ({ h with inb := GoMap.set h.inb k c } : HSt K T).owned → a = c ∨ a ∈ h.owned := by
    intro a ha
    rcases List.mem_append.mp ha with ha | ha
    · rcases sube a ha with rfl | ha
      · exact .inl rfl
      · exact .inr (List.mem_append_left _ ha)
    · exact .inr (List.mem_append_right _ ha)
  refine .inr ⟨(), { h with inb := GoMap.set h.inb k c }, (), rfl, ?_, ?_, ?_, rfl, rfl, ?_⟩
  · rw [← l.eq]
    exact congrArg (fun x => some ((), (⟨⟨h.verts, x, mapV h.deref h.outb, mapV h.deref h.ancC, mapV h.deref h.descC⟩, h.n⟩ : St K T)))
      (GoMap.set_mapV h.deref h.inb k c)
  · refine ⟨?_, ?_, ok.inK.set _ _, ok.outK, ok.verts⟩
    · have nd := ok.nodup
      have fr := l.free
      have sb := GoMap.vals_del_sublist h.inb k
      have sbm := fun x => sb.subset (a := x)
      simp only [HSt.owned, HSt.edges, HSt.cached, List.nodup_append, List.mem_append, GoMap.set,
        List.map_cons, List.nodup_cons, List.mem_cons] at nd fr ⊢
      refine ⟨⟨⟨fun hx => fr (.inl (.inl (sbm _ hx))), sb.nodup nd.1.1⟩, nd.1.2.1, ?_⟩, nd.2.1, ?_⟩
      · rintro x (rfl | hx) y hy
        · rintro rfl; exact fr (.inl (.inr hy))
        · exact nd.1.2.2 x (sbm _ hx) y hy
      · rintro x ((rfl | hx) | hx) y hy
        · rintro rfl; exact fr (.inr hy)
        · exact nd.2.2 x (.inl (sbm _ hx)) y hy
        · exact nd.2.2 x (.inr hx) y hy
    · intro a ha
      rcases sub a ha with rfl | ha
      · exact l.lt
      · exact ok.lt a ha
  · refine ⟨Nat.le_refl _, Nat.le_refl _, fun a hn ha => ⟨rfl, fun hx => ?_⟩, fun a hn ha hx => ?_, rfl,
      fun _ _ _ => rfl⟩
    · rcases sube a hx with rfl | hx
      · omega
      · exact ha hx
    · rcases sub a hx with rfl | hx
      · omega
      · exact ha hx
  · exact (GoMap.has_set _ _ _ _).mpr (.inl rfl)

end Sim
end

end Verif.Dag
