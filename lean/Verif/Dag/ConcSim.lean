import Mathlib.Data.Set.Insert
import Verif.Dag.Conc
import Verif.Dag.HeapOps

/-!
# Running a program next to others

`Safe` says that a program, whatever other goroutines do meanwhile (`Rely`), ends with a result
satisfying a given condition and only makes accesses it is entitled to (`Prim.allowed`).  `CSim`
relates it to a computation of the value model.
-/

set_option linter.unusedSectionVars false

namespace Verif.Dag
open HSt (Ok)
open GoMap (mapV)

variable {K T α β α' β' : Type} [DecidableEq K] [GoZero K] [GoZero T]

/-- How a goroutine uses a cache. -/
inductive Use where
  | none | reads | writes
  deriving DecidableEq

/-- How a goroutine uses the two caches. -/
structure Mode where
  anc : Use
  desc : Use

/-- How it uses each of the outer maps. -/
def Mode.use (w : Mode) : Fld → Use
  | .inb => .reads
  | .outb => .reads
  | .anc => w.anc
  | .desc => w.desc

/-- It may read the map. -/
def Mode.sees (w : Mode) (f : Fld) : Prop := w.use f ≠ .none

/-- It may write to the map. -/
def Mode.writes (w : Mode) (f : Fld) : Prop := w.use f = .writes

theorem Mode.writes.sees {w : Mode} {f : Fld} (h : w.writes f) : w.sees f := by
  unfold Mode.sees; rw [show w.use f = .writes from h]; decide

theorem Mode.writes.cache {w : Mode} {f : Fld} (h : w.writes f) : f.isCache = true := by
  cases f with
  | inb => cases h
  | outb => cases h
  | _ => rfl

theorem Mode.sees_of {w : Mode} {f : Fld} (h : f.isCache = false) : w.sees f := by
  cases f with
  | inb => exact Use.noConfusion
  | outb => exact Use.noConfusion
  | _ => cases h

/-- A goroutine that uses no cache. -/
def Mode.plain : Mode := ⟨.none, .none⟩

theorem Mode.plain_sees {f : Fld} (h : Mode.plain.sees f) : f.isCache = false := by
  cases f with
  | anc => exact absurd rfl h
  | desc => exact absurd rfl h
  | _ => rfl

/-- The sets an outer map refers to. -/
abbrev HSt.vals (h : HSt K T) (f : Fld) : List Nat := (h.fld f).map Prod.snd

theorem HSt.vals_owned {h : HSt K T} {f : Fld} {a : Nat} (ha : a ∈ h.vals f) : a ∈ h.owned := by
  cases f with
  | inb => exact List.mem_append_left _ (List.mem_append_left _ ha)
  | outb => exact List.mem_append_left _ (List.mem_append_right _ ha)
  | anc => exact List.mem_append_right _ (List.mem_append_left _ ha)
  | desc => exact List.mem_append_right _ (List.mem_append_right _ ha)

/-- The cells a goroutine has allocated and not handed to the graph. -/
structure Mine (S M : Set Nat) (h : HSt K T) : Prop where
  set : ∀ a ∈ S, a < h.sets.length ∧ a ∉ h.owned
  map : ∀ a ∈ M, a < h.maps.length ∧ a ≠ h.vertices

/-- What other goroutines may do: from `h` to `h'` the vertices, the outer maps that this goroutine
reads, and its own cells are the same. -/
structure Rely (w : Mode) (S M : Set Nat) (h h' : HSt K T) : Prop where
  ok : Ok h'
  mine : Mine S M h'
  vertices : h'.vertices = h.vertices
  verts : h'.verts = h.verts
  fld : ∀ f, w.sees f → h'.fld f = h.fld f
  deref : ∀ f, w.sees f → ∀ a ∈ h.vals f, h'.deref a = h.deref a
  sets : ∀ a ∈ S, h'.deref a = h.deref a
  maps : ∀ a ∈ M, h'.mapAt a = h.mapAt a

theorem Rely.refl {w : Mode} {S M : Set Nat} {h : HSt K T} (ok : Ok h) (m : Mine S M h) : Rely w S M h h :=
  ⟨ok, m, rfl, rfl, fun _ _ => rfl, fun _ _ _ _ => rfl, fun _ _ => rfl, fun _ _ => rfl⟩

theorem HSt.vals_eq {h h' : HSt K T} {f : Fld} (e : h'.fld f = h.fld f) : h'.vals f = h.vals f := by
  unfold HSt.vals; rw [e]

theorem Rely.trans {w : Mode} {S M : Set Nat} {h1 h2 h3 : HSt K T} (a : Rely w S M h1 h2)
    (b : Rely w S M h2 h3) : Rely w S M h1 h3 := by
  refine ⟨b.ok, b.mine, b.vertices.trans a.vertices, b.verts.trans a.verts,
    fun f hf => (b.fld f hf).trans (a.fld f hf), fun f hf x hx => ?_, fun x hx => (b.sets x hx).trans (a.sets x hx),
    fun x hx => (b.maps x hx).trans (a.maps x hx)⟩
  exact (b.deref f hf x (by rw [HSt.vals_eq (a.fld f hf)]; exact hx)).trans (a.deref f hf x hx)

/-- The accesses a goroutine with cells `S`, `M` is entitled to. -/
def Prim.allowed (w : Mode) (S M : Set Nat) (h : HSt K T) : Prim K T → Prop
  | .vertex _ => True
  | .order => True
  | .rangeVerts => True
  | .look f _ => w.sees f
  | .rangeOuter f => w.sees f
  | .elem a _ => ∀ x, a = some x → x ∈ S ∨ ∃ f, w.sees f ∧ x ∈ h.vals f
  | .size x => x ∈ S ∨ ∃ f, w.sees f ∧ x ∈ h.vals f
  | .range a => ∀ x, a = some x → x ∈ S ∨ ∃ f, w.sees f ∧ x ∈ h.vals f
  | .newSet => True
  | .newMap => True
  | .add a _ => a ∈ S
  | .put a _ _ => a ∈ M
  | .dump a => a ∈ M
  | .store f _ a => w.writes f ∧ a ∈ S

/-- The goroutine's sets after an access. -/
def Prim.ownS (h : HSt K T) (S : Set Nat) : Prim K T → Set Nat
  | .newSet => S ∪ {h.sets.length}
  | .store _ _ a => S \ {a}
  | _ => S

/-- The goroutine's `map[K]T`s after an access. -/
def Prim.ownM (h : HSt K T) (M : Set Nat) : Prim K T → Set Nat
  | .newMap => M ∪ {h.maps.length}
  | _ => M

/-- What an access it is entitled to may change. -/
structure Quiet (w : Mode) (S M : Set Nat) (h h' : HSt K T) : Prop where
  ok : Ok h'
  vertices : h'.vertices = h.vertices
  fld : ∀ f, ¬ w.writes f → h'.fld f = h.fld f
  deref : ∀ a, a ∉ S → h'.deref a = h.deref a
  mapAt : ∀ a, a ∉ M → h'.mapAt a = h.mapAt a
  owned : ∀ a ∈ h'.owned, a ∈ h.owned ∨ a ∈ S
  len : h.sets.length ≤ h'.sets.length ∧ h.maps.length ≤ h'.maps.length

theorem Quiet.refl {w : Mode} {S M : Set Nat} {h : HSt K T} (ok : Ok h) : Quiet w S M h h :=
  ⟨ok, rfl, fun _ _ => rfl, fun _ _ => rfl, fun _ _ => rfl, fun _ h => .inl h, Nat.le_refl _, Nat.le_refl _⟩

theorem owned_storeAnc (h : HSt K T) (id : K) (c a : Nat)
    (ha : a ∈ ({ h with ancC := GoMap.set h.ancC id c } : HSt K T).owned) : a = c ∨ a ∈ h.owned := by
  simp only [HSt.owned, HSt.edges, HSt.cached, List.mem_append, GoMap.set, List.map_cons,
    List.mem_cons] at ha ⊢
  have := fun hx => (GoMap.vals_del_sublist h.ancC id).subset (a := a) hx
  tauto

theorem owned_storeDesc (h : HSt K T) (id : K) (c a : Nat)
    (ha : a ∈ ({ h with descC := GoMap.set h.descC id c } : HSt K T).owned) : a = c ∨ a ∈ h.owned := by
  simp only [HSt.owned, HSt.edges, HSt.cached, List.mem_append, GoMap.set, List.map_cons,
    List.mem_cons] at ha ⊢
  have := fun hx => (GoMap.vals_del_sublist h.descC id).subset (a := a) hx
  tauto

theorem ok_storeAnc {h : HSt K T} (ok : Ok h) {S M : Set Nat} (m : Mine S M h) (id : K) {c : Nat} (hc : c ∈ S) :
    Ok { h with ancC := GoMap.set h.ancC id c } := by
  have := Sim.storeAnc (n := 0) (m := 0) (k := id) (s := h.deref c) ok
    ⟨(m.set c hc).1, (m.set c hc).2, rfl⟩ (Nat.zero_le _)
  rcases this with ⟨h1, _⟩ | ⟨a, h', b, h1, _, h3, _⟩
  · cases h1
  · cases h1; exact h3

theorem ok_storeDesc {h : HSt K T} (ok : Ok h) {S M : Set Nat} (m : Mine S M h) (id : K) {c : Nat} (hc : c ∈ S) :
    Ok { h with descC := GoMap.set h.descC id c } := by
  have := Sim.storeDesc (n := 0) (m := 0) (k := id) (s := h.deref c) ok
    ⟨(m.set c hc).1, (m.set c hc).2, rfl⟩ (Nat.zero_le _)
  rcases this with ⟨h1, _⟩ | ⟨a, h', b, h1, _, h3, _⟩
  · cases h1
  · cases h1; exact h3

theorem Prim.quiet {w : Mode} {S M : Set Nat} {h : HSt K T} (o : Prim K T) (ok : Ok h) (m : Mine S M h)
    (al : o.allowed w S M h) : Quiet w S M h (o.next h) := by
  cases o with
  | newSet =>
    refine ⟨⟨ok.nodup, fun a ha => ?_, ok.inK, ok.outK, ok.verts⟩, rfl, fun f _ => (by cases f <;> rfl),
      fun a _ => HSt.deref_append h a, fun _ _ => rfl, fun _ h => .inl h, by simp [Prim.next], Nat.le_refl _⟩
    have := ok.lt a ha; simp [Prim.next]; omega
  | newMap =>
    refine ⟨⟨ok.nodup, ok.lt, ok.inK, ok.outK, ?_⟩, rfl, fun f _ => (by cases f <;> rfl),
      fun _ _ => rfl, fun a _ => HSt.mapAt_append h a, fun _ h => .inl h, Nat.le_refl _, by simp [Prim.next]⟩
    have := ok.verts; simp [Prim.next]; omega
  | add c v =>
    refine ⟨⟨ok.nodup, fun a ha => by have := ok.lt a ha; simpa [Prim.next] using this, ok.inK, ok.outK, ok.verts⟩,
      rfl, fun f _ => (by cases f <;> rfl),
      fun a ha => ?_, fun _ _ => rfl, fun _ h => .inl h, by simp [Prim.next], Nat.le_refl _⟩
    refine (HSt.deref_set h c _ (m.set c al).1 a).trans (if_neg ?_)
    rintro rfl; exact ha al
  | put c k v =>
    refine ⟨⟨ok.nodup, ok.lt, ok.inK, ok.outK, by simpa [Prim.next] using ok.verts⟩,
      rfl, fun f _ => (by cases f <;> rfl),
      fun _ _ => rfl, fun a ha => ?_, fun _ h => .inl h, Nat.le_refl _, by simp [Prim.next]⟩
    refine (HSt.mapAt_set h c _ (m.map c al).1 a).trans (if_neg ?_)
    rintro rfl; exact ha al
  | store f id c =>
    obtain ⟨hw, hc⟩ := al
    cases f with
    | inb => cases hw
    | outb => cases hw
    | anc =>
      refine ⟨ok_storeAnc ok m id hc, rfl, fun f hf => (by cases f <;> first | rfl | exact absurd hw hf), fun _ _ => rfl,
        fun _ _ => rfl, fun a ha => ?_, Nat.le_refl _, Nat.le_refl _⟩
      rcases owned_storeAnc h id c a ha with rfl | h1
      · exact .inr hc
      · exact .inl h1
    | desc =>
      refine ⟨ok_storeDesc ok m id hc, rfl, fun f hf => (by cases f <;> first | rfl | exact absurd hw hf), fun _ _ => rfl,
        fun _ _ => rfl, fun a ha => ?_, Nat.le_refl _, Nat.le_refl _⟩
      rcases owned_storeDesc h id c a ha with rfl | h1
      · exact .inr hc
      · exact .inl h1
  | _ => exact Quiet.refl ok

theorem Prim.mine {w : Mode} {S M : Set Nat} {h : HSt K T} (o : Prim K T) (ok : Ok h) (m : Mine S M h)
    (al : o.allowed w S M h) : Mine (o.ownS h S) (o.ownM h M) (o.next h) := by
  have q := o.quiet ok m al
  cases o with
  | newSet =>
    refine ⟨?_, m.map⟩
    rintro a (ha | ha)
    · exact ⟨Nat.lt_of_lt_of_le (m.set a ha).1 q.len.1, (m.set a ha).2⟩
    · rw [Set.mem_singleton_iff] at ha
      subst ha
      exact ⟨by simp [Prim.next], fun hx => Nat.lt_irrefl _ (ok.lt _ hx)⟩
  | newMap =>
    refine ⟨m.set, ?_⟩
    rintro a (ha | ha)
    · exact ⟨Nat.lt_of_lt_of_le (m.map a ha).1 q.len.2, (m.map a ha).2⟩
    · rw [Set.mem_singleton_iff] at ha
      subst ha
      refine ⟨by simp [Prim.next], ?_⟩
      have := ok.verts
      show h.maps.length ≠ h.vertices
      omega
  | add c v =>
    exact ⟨fun a ha => ⟨Nat.lt_of_lt_of_le (m.set a ha).1 q.len.1, (m.set a ha).2⟩, m.map⟩
  | put c k v =>
    exact ⟨m.set, fun a ha => ⟨Nat.lt_of_lt_of_le (m.map a ha).1 q.len.2, (m.map a ha).2⟩⟩
  | store f id c =>
    obtain ⟨hw, hc⟩ := al
    cases f with
    | inb => cases hw
    | outb => cases hw
    | anc =>
      refine ⟨?_, m.map⟩
      rintro a ⟨ha, hne⟩
      refine ⟨(m.set a ha).1, fun hx => ?_⟩
      rcases owned_storeAnc h id c a hx with rfl | h1
      · exact hne rfl
      · exact (m.set a ha).2 h1
    | desc =>
      refine ⟨?_, m.map⟩
      rintro a ⟨ha, hne⟩
      refine ⟨(m.set a ha).1, fun hx => ?_⟩
      rcases owned_storeDesc h id c a hx with rfl | h1
      · exact hne rfl
      · exact (m.set a ha).2 h1
  | _ => exact m

/-- The accesses of one goroutine are what another can rely on. -/
theorem Quiet.rely_fld {w w' : Mode} {S M S' M' : Set Nat} {h h' : HSt K T} (q : Quiet w S M h h')
    (m : Mine S M h) (m' : Mine S' M' h) (dS : ∀ a ∈ S, a ∉ S') (dM : ∀ a ∈ M, a ∉ M')
    (hf : ∀ f, w'.sees f → h'.fld f = h.fld f) : Rely w' S' M' h h' := by
  have hown : ∀ a ∈ h.owned, a ∉ S := fun a ha hs => (m.set a hs).2 ha
  refine ⟨q.ok, ⟨fun a ha => ⟨Nat.lt_of_lt_of_le (m'.set a ha).1 q.len.1, fun hx => ?_⟩, fun a ha =>
    ⟨Nat.lt_of_lt_of_le (m'.map a ha).1 q.len.2, by rw [q.vertices]; exact (m'.map a ha).2⟩⟩, q.vertices, ?_,
    hf, fun f _ a ha => q.deref a (hown a (HSt.vals_owned ha)),
    fun a ha => q.deref a (fun hs => dS a hs ha), fun a ha => q.mapAt a (fun hs => dM a hs ha)⟩
  · rcases q.owned a hx with h1 | h1
    · exact (m'.set a ha).2 h1
    · exact dS a h1 ha
  · unfold HSt.verts
    rw [q.vertices]
    exact q.mapAt _ (fun hs => (m.map _ hs).2 rfl)

theorem Quiet.rely {w w' : Mode} {S M S' M' : Set Nat} {h h' : HSt K T} (q : Quiet w S M h h')
    (m : Mine S M h) (m' : Mine S' M' h) (dS : ∀ a ∈ S, a ∉ S') (dM : ∀ a ∈ M, a ∉ M')
    (hw : ∀ f, ¬ (w.writes f ∧ w'.sees f)) : Rely w' S' M' h h' :=
  q.rely_fld m m' dS dM (fun f hf => q.fld f (fun hx => hw f ⟨hx, hf⟩))

/-! ## Safe programs -/

/-- With any interference, the program makes only accesses it is entitled to, does not fail, and ends
with `Q`. -/
def Safe (w : Mode) (ω : Oracle) (Q : α → Nat → Set Nat → Set Nat → HSt K T → Prop) :
    Prog K T α → Nat → Set Nat → Set Nat → HSt K T → Prop
  | .ret a, n, S, M, h => ∀ h', Rely w S M h h' → Q a n S M h'
  | .fail, _, _, _, _ => False
  | .op o k, n, S, M, h => ∀ h', Rely w S M h h' → o.allowed w S M h' ∧
      Safe w ω Q (k (o.ret ω n h')) (o.tick n) (o.ownS h' S) (o.ownM h' M) (o.next h')

theorem Safe.rely {w : Mode} {ω : Oracle} {Q : α → Nat → Set Nat → Set Nat → HSt K T → Prop}
    {p : Prog K T α} {n : Nat} {S M : Set Nat} {h h' : HSt K T} (s : Safe w ω Q p n S M h)
    (r : Rely w S M h h') : Safe w ω Q p n S M h' := by
  cases p with
  | ret a => exact fun h2 r2 => s h2 (r.trans r2)
  | fail => exact s
  | op o k => exact fun h2 r2 => s h2 (r.trans r2)

theorem Safe.mono {w : Mode} {ω : Oracle} {Q Q' : α → Nat → Set Nat → Set Nat → HSt K T → Prop}
    {p : Prog K T α} {n : Nat} {S M : Set Nat} {h : HSt K T} (s : Safe w ω Q p n S M h)
    (hq : ∀ a n S M h, Q a n S M h → Q' a n S M h) : Safe w ω Q' p n S M h := by
  induction p generalizing n S M h with
  | ret a => exact fun h2 r2 => hq _ _ _ _ _ (s h2 r2)
  | fail => exact s
  | op o k ih => exact fun h2 r2 => ⟨(s h2 r2).1, ih _ (s h2 r2).2⟩

theorem Safe.bind {w : Mode} {ω : Oracle} {Q : β → Nat → Set Nat → Set Nat → HSt K T → Prop}
    {p : Prog K T α} {f : α → Prog K T β} {n : Nat} {S M : Set Nat} {h : HSt K T} (ok : Ok h) (m : Mine S M h)
    (s : Safe w ω (fun a n S M h => Safe w ω Q (f a) n S M h) p n S M h) :
    Safe w ω Q (p.bind f) n S M h := by
  induction p generalizing n S M h with
  | ret a => exact s h (Rely.refl ok m)
  | fail => exact s.elim
  | op o k ih =>
    intro h2 r2
    obtain ⟨al, s2⟩ := s h2 r2
    exact ⟨al, ih _ (o.quiet r2.ok r2.mine al).ok (o.mine r2.ok r2.mine al) s2⟩

/-- The frame rule: other cells `F`, `G` of the goroutine stay as they are. -/
theorem Safe.frame {w : Mode} {ω : Oracle} {Q : α → Nat → Set Nat → Set Nat → HSt K T → Prop}
    {p : Prog K T α} {n : Nat} {S M F G : Set Nat} {h0 h : HSt K T} (s : Safe w ω Q p n S M h)
    (ok : Ok h) (m : Mine S M h) (mf : Mine F G h) (dS : ∀ a ∈ S, a ∉ F) (dM : ∀ a ∈ M, a ∉ G)
    (hF : ∀ a ∈ F, h.deref a = h0.deref a) (hG : ∀ a ∈ G, h.mapAt a = h0.mapAt a) :
    Safe w ω (fun a n S' M' h' => ∃ S1 M1, S' = S1 ∪ F ∧ M' = M1 ∪ G ∧ Q a n S1 M1 h' ∧ Mine F G h' ∧
      (∀ x ∈ F, h'.deref x = h0.deref x) ∧ ∀ x ∈ G, h'.mapAt x = h0.mapAt x) p n (S ∪ F) (M ∪ G) h := by
  have split : ∀ {S M : Set Nat} {h h' : HSt K T}, Rely w (S ∪ F) (M ∪ G) h h' → Rely w S M h h' ∧ Mine F G h' ∧
      (∀ x ∈ F, h'.deref x = h.deref x) ∧ ∀ x ∈ G, h'.mapAt x = h.mapAt x := by
    intro S M h h' r
    exact ⟨⟨r.ok, ⟨fun a ha => r.mine.set a (.inl ha), fun a ha => r.mine.map a (.inl ha)⟩, r.vertices, r.verts,
      r.fld, r.deref, fun a ha => r.sets a (.inl ha), fun a ha => r.maps a (.inl ha)⟩,
      ⟨fun a ha => r.mine.set a (.inr ha), fun a ha => r.mine.map a (.inr ha)⟩,
      fun a ha => r.sets a (.inr ha), fun a ha => r.maps a (.inr ha)⟩
  induction p generalizing n S M h with
  | ret a =>
    intro h2 r2
    obtain ⟨r3, m3, f3, g3⟩ := split r2
    exact ⟨S, M, rfl, rfl, s h2 r3, m3, fun x hx => (f3 x hx).trans (hF x hx), fun x hx => (g3 x hx).trans (hG x hx)⟩
  | fail => exact s
  | op o k ih =>
    intro h2 r2
    obtain ⟨r3, m3, f3, g3⟩ := split r2
    obtain ⟨al, s2⟩ := s h2 r3
    have q := o.quiet r3.ok r3.mine al
    have mn := o.mine r3.ok r3.mine al
    have al2 : o.allowed w (S ∪ F) (M ∪ G) h2 := by
      cases o with
      | elem a id => intro x hx; rcases al x hx with h1 | h1; exacts [.inl (.inl h1), .inr h1]
      | size x => rcases al with h1 | h1; exacts [.inl (.inl h1), .inr h1]
      | range a => intro x hx; rcases al x hx with h1 | h1; exacts [.inl (.inl h1), .inr h1]
      | add a v => exact .inl al
      | put a id v => exact .inl al
      | dump a => exact .inl al
      | store f id a => exact ⟨al.1, .inl al.2⟩
      | look f id => exact al
      | rangeOuter f => exact al
      | _ => trivial
    have eS : o.ownS h2 (S ∪ F) = o.ownS h2 S ∪ F := by
      cases o with
      | newSet => ext x; simp only [Prim.ownS, Set.mem_union]; tauto
      | store f id a =>
        ext x
        simp only [Prim.ownS, Set.mem_union, Set.mem_sdiff, Set.mem_singleton_iff]
        constructor
        · rintro ⟨h1 | h1, h2⟩
          · exact .inl ⟨h1, h2⟩
          · exact .inr h1
        · rintro (⟨h1, h2⟩ | h1)
          · exact ⟨.inl h1, h2⟩
          · refine ⟨.inr h1, ?_⟩
            rintro rfl
            exact dS x al.2 h1
      | _ => rfl
    have eM : o.ownM h2 (M ∪ G) = o.ownM h2 M ∪ G := by
      cases o with
      | newMap => ext x; simp only [Prim.ownM, Set.mem_union]; tauto
      | _ => rfl
    refine ⟨al2, ?_⟩
    rw [eS, eM]
    have dS' : ∀ a ∈ o.ownS h2 S, a ∉ F := by
      cases o with
      | newSet =>
        rintro a (ha | ha) hF2
        · exact dS a ha hF2
        · rw [Set.mem_singleton_iff] at ha
          subst ha
          exact Nat.lt_irrefl _ (m3.set _ hF2).1
      | store f id c => rintro a ⟨ha, _⟩; exact dS a ha
      | _ => exact dS
    have dM' : ∀ a ∈ o.ownM h2 M, a ∉ G := by
      cases o with
      | newMap =>
        rintro a (ha | ha) hF2
        · exact dM a ha hF2
        · rw [Set.mem_singleton_iff] at ha
          subst ha
          exact Nat.lt_irrefl _ (m3.map _ hF2).1
      | _ => exact dM
    have rf := q.rely (w' := .plain) r3.mine m3 dS dM (fun f h => by
      have h1 := h.1.cache
      rw [Mode.plain_sees h.2] at h1
      cases h1)
    refine ih _ s2 q.ok mn rf.mine dS' dM' ?_ ?_
    · intro a ha; exact (rf.sets a ha).trans ((f3 a ha).trans (hF a ha))
    · intro a ha; exact (rf.maps a ha).trans ((g3 a ha).trans (hG a ha))

/-! ## Relation to the value model -/

/-- The outer maps of a value graph. -/
def Graph.fld (g : Graph K T) : Fld → GoMap K (GSet K)
  | .inb => g.inb
  | .outb => g.outb
  | .anc => g.ancC
  | .desc => g.descC

/-- What a goroutine knows about the graph: the value `γ`, as far as it may read it. -/
structure View (w : Mode) (h : HSt K T) (γ : Graph K T) : Prop where
  verts : h.verts = γ.vertices
  fld : ∀ f, w.sees f → mapV h.deref (h.fld f) = γ.fld f

theorem View.rely {w : Mode} {S M : Set Nat} {h h' : HSt K T} {γ : Graph K T} (v : View w h γ)
    (r : Rely w S M h h') : View w h' γ := by
  refine ⟨r.verts.trans v.verts, fun f hf => ?_⟩
  rw [r.fld f hf, ← v.fld f hf]
  exact GoMap.mapV_congr (fun a ha => r.deref f hf a ha)

/-- The state in which a goroutine continues. -/
structure Good (w : Mode) (S M : Set Nat) (h : HSt K T) (γ : Graph K T) : Prop where
  ok : Ok h
  mine : Mine S M h
  view : View w h γ

theorem Good.rely {w : Mode} {S M : Set Nat} {h h' : HSt K T} {γ : Graph K T} (g : Good w S M h γ)
    (r : Rely w S M h h') : Good w S M h' γ := ⟨r.ok, r.mine, g.view.rely r⟩

/-- An access other than `store` leaves the graph as the goroutine knows it. -/
theorem Good.step {w : Mode} {S M : Set Nat} {h : HSt K T} {γ : Graph K T} (g : Good w S M h γ) (o : Prim K T)
    (al : o.allowed w S M h) (hs : ∀ f id a, o ≠ .store f id a) :
    Good w (o.ownS h S) (o.ownM h M) (o.next h) γ := by
  have q := o.quiet g.ok g.mine al
  refine ⟨q.ok, o.mine g.ok g.mine al, ?_⟩
  have hc : ∀ f, (o.next h).fld f = h.fld f := by
    cases o with
    | store f id a => exact absurd rfl (hs f id a)
    | _ => intro f; cases f <;> rfl
  refine ⟨?_, fun f hf => ?_⟩
  · rw [← g.view.verts]
    unfold HSt.verts
    rw [q.vertices]
    exact q.mapAt _ (fun hx => (g.mine.map _ hx).2 rfl)
  · rw [hc f, ← g.view.fld f hf]
    exact GoMap.mapV_congr (fun a ha => q.deref a (fun hx => (g.mine.set a hx).2 (HSt.vals_owned ha)))

/-- With any interference, the program ends with what the computation on values ends with. -/
def CSim (w : Mode) (ω : Oracle) (p : Prog K T α) (n : Nat) (S M : Set Nat) (h : HSt K T) (vm : Dag.M K T β)
    (γ : Graph K T) (Q : α → β → Set Nat → Set Nat → HSt K T → Prop) : Prop :=
  ∀ b σ', vm ⟨γ, n⟩ = some (b, σ') →
    Safe w ω (fun a n' S' M' h' => n' = σ'.n ∧ Good w S' M' h' σ'.g ∧ Q a b S' M' h') p n S M h

namespace CSim
variable {w : Mode} {ω : Oracle} {n : Nat} {S M : Set Nat} {h : HSt K T} {γ : Graph K T}

theorem ret {a : α} {b : β} {Q : α → β → Set Nat → Set Nat → HSt K T → Prop} (g : Good w S M h γ)
    (q : ∀ h', Rely w S M h h' → Q a b S M h') :
    CSim w ω (Pure.pure a) n S M h (Pure.pure b) γ Q := by
  intro b' σ' e
  cases e
  exact fun h' r => ⟨rfl, g.rely r, q h' r⟩

theorem diverge {p : Prog K T α} {Q : α → β → Set Nat → Set Nat → HSt K T → Prop} :
    CSim w ω p n S M h Dag.M.diverge γ Q := by
  intro b' σ' e
  cases e

theorem mono {p : Prog K T α} {vm : Dag.M K T β} {Q Q' : α → β → Set Nat → Set Nat → HSt K T → Prop}
    (s : CSim w ω p n S M h vm γ Q) (hq : ∀ a b S M h, Q a b S M h → Q' a b S M h) :
    CSim w ω p n S M h vm γ Q' := by
  intro b σ' e
  exact (s b σ' e).mono (fun _ _ _ _ _ h => ⟨h.1, h.2.1, hq _ _ _ _ _ h.2.2⟩)

theorem seq {p : Prog K T α} {vm : Dag.M K T β} {f : α → Prog K T α'} {vf : β → Dag.M K T β'}
    {R : α → β → Set Nat → Set Nat → HSt K T → Prop} {Q : α' → β' → Set Nat → Set Nat → HSt K T → Prop}
    (g : Good w S M h γ) (s : CSim w ω p n S M h vm γ R)
    (k : ∀ a b n' S' M' h' γ', Good w S' M' h' γ' → R a b S' M' h' → CSim w ω (f a) n' S' M' h' (vf b) γ' Q) :
    CSim w ω (p >>= f) n S M h (vm >>= vf) γ Q := by
  intro b σ' e
  have e' : Dag.M.bind vm vf ⟨γ, n⟩ = some (b, σ') := e
  unfold Dag.M.bind at e'
  cases hv : vm ⟨γ, n⟩ with
  | none => rw [hv] at e'; cases e'
  | some x =>
    obtain ⟨b1, σ1⟩ := x
    rw [hv] at e'
    refine Safe.bind g.ok g.mine ((s b1 σ1 hv).mono ?_)
    rintro a n1 S1 M1 h1 ⟨rfl, g1, q1⟩
    exact k a b1 _ S1 M1 h1 σ1.g g1 q1 b σ' e'

/-- Reading the graph, in the value model only. -/
theorem getR {p : Prog K T α} {vf : Graph K T → Dag.M K T β} {Q : α → β → Set Nat → Set Nat → HSt K T → Prop}
    (s : CSim w ω p n S M h (vf γ) γ Q) : CSim w ω p n S M h (Dag.M.getG >>= vf) γ Q := s

/-- An access that the value model does not have. -/
theorem op {o : Prim K T} {k : o.Ret → Prog K T α} {vm : Dag.M K T β}
    {Q : α → β → Set Nat → Set Nat → HSt K T → Prop} (g : Good w S M h γ) (ht : o.tick n = n)
    (s : ∀ h', Good w S M h' γ → Rely w S M h h' → o.allowed w S M h' ∧
      CSim w ω (k (o.ret ω n h')) n (o.ownS h' S) (o.ownM h' M) (o.next h') vm γ Q) :
    CSim w ω (Prog.prim o >>= k) n S M h vm γ Q := by
  intro b σ' e h' r
  obtain ⟨al, s1⟩ := s h' (g.rely r) r
  refine ⟨al, ?_⟩
  rw [ht]
  exact s1 b σ' e

theorem range {a : Option Nat} {s : GSet K} {k : List (K × K) → Prog K T α} {vf : List (K × K) → Dag.M K T β}
    {Q : α → β → Set Nat → Set Nat → HSt K T → Prop} (g : Good w S M h γ)
    (hs : ∀ h', Rely w S M h h' → (Prim.range a).allowed w S M h' ∧ h'.read a = s)
    (c : ∀ l h', Good w S M h' γ → Rely w S M h h' → CSim w ω (k l) (n + 1) S M h' (vf l) γ Q) :
    CSim w ω (Prog.prim (.range a) >>= k) n S M h (Dag.M.range ω s >>= vf) γ Q := by
  intro b σ' e h' r
  obtain ⟨al, hr⟩ := hs h' r
  refine ⟨al, ?_⟩
  have := c (ω.perm _ n s) h' (g.rely r) r b σ' e
  show Safe _ _ _ (k (ω.perm _ n (h'.read a))) _ _ _ _
  rw [hr]
  exact this

theorem rangeVerts {k : List (K × T) → Prog K T α} {vf : List (K × T) → Dag.M K T β}
    {Q : α → β → Set Nat → Set Nat → HSt K T → Prop} (g : Good w S M h γ)
    (c : ∀ l h', Good w S M h' γ → Rely w S M h h' → CSim w ω (k l) (n + 1) S M h' (vf l) γ Q) :
    CSim w ω (Prog.prim .rangeVerts >>= k) n S M h (Dag.M.range ω γ.vertices >>= vf) γ Q := by
  intro b σ' e h' r
  refine ⟨trivial, ?_⟩
  have := c (ω.perm _ n γ.vertices) h' (g.rely r) r b σ' e
  show Safe _ _ _ (k (ω.perm _ n h'.verts)) _ _ _ _
  rw [(g.rely r).view.verts]
  exact this

theorem loop {xs : List α'} {a : α} {b : β} {f : α → α' → Prog K T α} {vf : β → α' → Dag.M K T β}
    (I : α → β → Set Nat → Set Nat → HSt K T → Prop)
    (st : ∀ a b S M h h', I a b S M h → Rely w S M h h' → I a b S M h') (g : Good w S M h γ) (i : I a b S M h)
    (hs : ∀ x ∈ xs, ∀ a b n S M h γ, Good w S M h γ → I a b S M h → CSim w ω (f a x) n S M h (vf b x) γ I) :
    CSim w ω (Prog.loop xs a f) n S M h (Dag.M.loop xs b vf) γ I := by
  induction xs generalizing a b n S M h γ with
  | nil => exact ret g (fun h' r => st _ _ _ _ _ _ i r)
  | cons x xs ih =>
    refine seq (vm := vf b x) (vf := fun b' => Dag.M.loop xs b' vf) g (hs x List.mem_cons_self a b n S M h γ g i) ?_
    intro a' b' n' S' M' h' γ' g' i'
    exact ih g' i' (fun y hy => hs y (List.mem_cons_of_mem _ hy))

theorem loopFold {xs : List α'} {a : α} {b : β} {f : α → α' → Prog K T α} {vf : β → α' → β}
    (I : α → β → Set Nat → Set Nat → HSt K T → Prop)
    (st : ∀ a b S M h h', I a b S M h → Rely w S M h h' → I a b S M h') (g : Good w S M h γ) (i : I a b S M h)
    (hs : ∀ x ∈ xs, ∀ a b n S M h, Good w S M h γ → I a b S M h →
      CSim w ω (f a x) n S M h (Pure.pure (vf b x)) γ I) :
    CSim w ω (Prog.loop xs a f) n S M h (Pure.pure (xs.foldl vf b)) γ I := by
  induction xs generalizing a b n S M h with
  | nil => exact ret g (fun h' r => st _ _ _ _ _ _ i r)
  | cons x xs ih =>
    have s1 := hs x List.mem_cons_self a b n S M h g i (vf b x) ⟨γ, n⟩ rfl
    intro b2 σ2 e
    cases e
    refine Safe.bind g.ok g.mine (s1.mono ?_)
    rintro a1 n1 S1 M1 h1 ⟨hn, g1, q1⟩
    refine ih g1 q1 (fun y hy => hs y (List.mem_cons_of_mem _ hy)) _ ⟨γ, n⟩ ?_
    rw [hn]; rfl

/-- A call, with other cells of the caller around. -/
theorem call {p : Prog K T α} {vm : Dag.M K T β} {Q : α → β → Set Nat → Set Nat → HSt K T → Prop}
    (g : Good w S M h γ) (s : CSim w ω p n ∅ ∅ h vm γ Q) :
    CSim w ω p n S M h vm γ (fun a b S' M' h' => ∃ S1 M1, S' = S1 ∪ S ∧ M' = M1 ∪ M ∧ Q a b S1 M1 h' ∧
      Mine S M h' ∧ (∀ x ∈ S, h'.deref x = h.deref x) ∧ ∀ x ∈ M, h'.mapAt x = h.mapAt x) := by
  intro b σ' e
  have e0 : (∅ : Set Nat) ∪ S = S := Set.empty_union S
  have e1 : (∅ : Set Nat) ∪ M = M := Set.empty_union M
  have := (s b σ' e).frame (F := S) (G := M) (h0 := h) g.ok ⟨fun _ h => h.elim, fun _ h => h.elim⟩ g.mine
    (fun _ h => h.elim) (fun _ h => h.elim) (fun _ _ => rfl) (fun _ _ => rfl)
  rw [e0, e1] at this
  refine this.mono ?_
  rintro a n1 S' M' h' ⟨S1, M1, rfl, rfl, ⟨h1, g1, q1⟩, mf, f1, f2⟩
  refine ⟨h1, ⟨g1.ok, ⟨?_, ?_⟩, g1.view⟩, S1, M1, rfl, rfl, q1, mf, f1, f2⟩
  · rintro a (ha | ha)
    · exact g1.mine.set a ha
    · exact mf.set a ha
  · rintro a (ha | ha)
    · exact g1.mine.map a ha
    · exact mf.map a ha

/-! ### One rule for each access -/

theorem vertex {id : K} {k : Option T → Prog K T α} {vm : Dag.M K T β}
    {Q : α → β → Set Nat → Set Nat → HSt K T → Prop} (g : Good w S M h γ)
    (c : ∀ h', Good w S M h' γ → Rely w S M h h' → CSim w ω (k (GoMap.get? γ.vertices id)) n S M h' vm γ Q) :
    CSim w ω (Prog.prim (.vertex id) >>= k) n S M h vm γ Q := by
  refine op (o := .vertex id) g rfl fun h' g' r => ⟨trivial, ?_⟩
  show CSim w ω (k (GoMap.get? h'.verts id)) n S M h' vm γ Q
  rw [g'.view.verts]
  exact c h' g' r

theorem order {k : Nat → Prog K T α} {vm : Dag.M K T β}
    {Q : α → β → Set Nat → Set Nat → HSt K T → Prop} (g : Good w S M h γ)
    (c : ∀ h', Good w S M h' γ → Rely w S M h h' → CSim w ω (k γ.vertices.length) n S M h' vm γ Q) :
    CSim w ω (Prog.prim .order >>= k) n S M h vm γ Q := by
  refine op (o := .order) g rfl fun h' g' r => ⟨trivial, ?_⟩
  show CSim w ω (k h'.verts.length) n S M h' vm γ Q
  rw [g'.view.verts]
  exact c h' g' r

theorem newMap {k : Nat → Prog K T α} {vm : Dag.M K T β}
    {Q : α → β → Set Nat → Set Nat → HSt K T → Prop} (g : Good w S M h γ)
    (c : ∀ r h1 h', Rely w S M h h1 → h'.sets = h1.sets → (∀ f, h'.fld f = h1.fld f) →
      Good w S (M ∪ {r}) h' γ → h'.mapAt r = [] →
      CSim w ω (k r) n S (M ∪ {r}) h' vm γ Q) :
    CSim w ω (Prog.prim .newMap >>= k) n S M h vm γ Q := by
  refine op (o := .newMap) g rfl fun h1 g1 r1 => ⟨trivial, ?_⟩
  refine c h1.maps.length h1 _ r1 rfl (fun f => by cases f <;> rfl) (g1.step .newMap trivial (by simp)) ?_
  show (h1.maps ++ [[]]).getD h1.maps.length [] = []
  simp

theorem newSet {k : Nat → Prog K T α} {vm : Dag.M K T β}
    {Q : α → β → Set Nat → Set Nat → HSt K T → Prop} (g : Good w S M h γ)
    (c : ∀ r h', Good w (S ∪ {r}) M h' γ → h'.deref r = [] → CSim w ω (k r) n (S ∪ {r}) M h' vm γ Q) :
    CSim w ω (Prog.prim .newSet >>= k) n S M h vm γ Q := by
  refine op (o := .newSet) g rfl fun h1 g1 _ => ⟨trivial, ?_⟩
  refine c h1.sets.length _ (g1.step .newSet trivial (by simp)) ?_
  show (h1.sets ++ [[]]).getD h1.sets.length [] = []
  simp

theorem put {r : Nat} {v : GoMap K T} {id : K} {x : T} {b : β}
    {Q : Unit → β → Set Nat → Set Nat → HSt K T → Prop} (g : Good w S M h γ)
    (hr : r ∈ M) (hv : h.mapAt r = v)
    (c : ∀ h', Good w S M h' γ → h'.mapAt r = GoMap.set v id x → Q () b S M h') :
    CSim w ω (Prog.prim (.put r id x)) n S M h (Pure.pure b) γ Q := by
  show CSim w ω (Prog.prim (.put r id x) >>= Pure.pure) n S M h (Pure.pure b) γ Q
  refine op (o := .put r id x) g rfl fun h1 g1 r1 => ⟨hr, ?_⟩
  have g2 := g1.step (.put r id x) hr (by simp)
  have e : (Prim.next h1 (.put r id x)).mapAt r = GoMap.set v id x := by
    refine (HSt.mapAt_set h1 r _ (g1.mine.map r hr).1 r).trans ?_
    rw [if_pos rfl, r1.maps r hr, hv]
  exact ret g2 (fun h3 r3 => c h3 (g2.rely r3) ((r3.maps r hr).trans e))

theorem add {r : Nat} {s : GSet K} {x : K} {b : β}
    {Q : Unit → β → Set Nat → Set Nat → HSt K T → Prop} (g : Good w S M h γ)
    (hr : r ∈ S) (hv : h.deref r = s)
    (c : ∀ h', Good w S M h' γ → h'.deref r = GSet.add s x → Q () b S M h') :
    CSim w ω (Prog.prim (.add r x)) n S M h (Pure.pure b) γ Q := by
  show CSim w ω (Prog.prim (.add r x) >>= Pure.pure) n S M h (Pure.pure b) γ Q
  refine op (o := .add r x) g rfl fun h1 g1 r1 => ⟨hr, ?_⟩
  have g2 := g1.step (.add r x) hr (by simp)
  have e : (Prim.next h1 (.add r x)).deref r = GSet.add s x := by
    refine (HSt.deref_set h1 r _ (g1.mine.set r hr).1 r).trans ?_
    rw [if_pos rfl, r1.sets r hr, hv]
  exact ret g2 (fun h3 r3 => c h3 (g2.rely r3) ((r3.sets r hr).trans e))

theorem dump {r : Nat} {v : GoMap K T} {k : GoMap K T → Prog K T α} {vm : Dag.M K T β}
    {Q : α → β → Set Nat → Set Nat → HSt K T → Prop} (g : Good w S M h γ)
    (hr : r ∈ M) (hv : h.mapAt r = v)
    (c : ∀ h', Good w S M h' γ → CSim w ω (k v) n S M h' vm γ Q) :
    CSim w ω (Prog.prim (.dump r) >>= k) n S M h vm γ Q := by
  refine op (o := .dump r) g rfl fun h1 g1 r1 => ⟨hr, ?_⟩
  show CSim w ω (k (h1.mapAt r)) n S M h1 vm γ Q
  rw [r1.maps r hr, hv]
  exact c h1 g1

end CSim

/-! ## References to sets -/

/-- The goroutine may read the set `x`, and it has the elements `s`. -/
def Reads (w : Mode) (S : Set Nat) (h : HSt K T) (x : Option Nat) (s : GSet K) : Prop :=
  (∀ y, x = some y → y ∈ S ∨ ∃ f, w.sees f ∧ y ∈ h.vals f) ∧ h.read x = s

theorem Reads.rely {w : Mode} {S M : Set Nat} {h h' : HSt K T} {x : Option Nat} {s : GSet K}
    (a : Reads w S h x s) (r : Rely w S M h h') : Reads w S h' x s := by
  obtain ⟨a1, a2⟩ := a
  cases x with
  | none => exact ⟨fun _ e => (by cases e), a2⟩
  | some y =>
    rcases a1 y rfl with h1 | ⟨f, h1, h2⟩
    · exact ⟨fun z e => by cases e; exact .inl h1, (r.sets y h1).trans a2⟩
    · exact ⟨fun z e => by cases e; exact .inr ⟨f, h1, by rw [HSt.vals_eq (r.fld f h1)]; exact h2⟩,
        (r.deref f h1 y h2).trans a2⟩

/-- An oracle whose orders depend on the positions of the entries only. -/
def Oracle.Natural (ω : Oracle) : Prop :=
  ∀ (α β : Type) (f : α → β) (n : Nat) (l : List α), ω.perm β n (l.map f) = (ω.perm α n l).map f

namespace CSim
variable {w : Mode} {ω : Oracle} {n : Nat} {S M : Set Nat} {h : HSt K T} {γ : Graph K T}

theorem look {f : Fld} {id : K} {k : Option Nat → Prog K T α} {vm : Dag.M K T β}
    {Q : α → β → Set Nat → Set Nat → HSt K T → Prop} (g : Good w S M h γ) (hf : w.sees f)
    (c : ∀ x h', Good w S M h' γ → Rely w S M h h' → GoMap.get? (γ.fld f) id = x.map h'.deref →
      Reads w S h' x (setAt (γ.fld f) id) → (∀ y, x = some y → y ∈ h'.vals f) →
      CSim w ω (k x) n S M h' vm γ Q) :
    CSim w ω (Prog.prim (.look f id) >>= k) n S M h vm γ Q := by
  refine op (o := .look f id) g rfl fun h' g' r => ⟨hf, ?_⟩
  refine c (GoMap.get? (h'.fld f) id) h' g' r ?_ ⟨fun y e => .inr ⟨f, hf, GoMap.get?_mem_vals e⟩, ?_⟩
    (fun y e => GoMap.get?_mem_vals e)
  · rw [← g'.view.fld f hf, GoMap.get?_mapV]
  · rw [← g'.view.fld f hf, HSt.setAt_mapV]

theorem size {a : Nat} {s : GSet K} {k : Nat → Prog K T α} {vm : Dag.M K T β}
    {Q : α → β → Set Nat → Set Nat → HSt K T → Prop} (g : Good w S M h γ) (hs : Reads w S h (some a) s)
    (c : ∀ h', Good w S M h' γ → Rely w S M h h' → CSim w ω (k s.length) n S M h' vm γ Q) :
    CSim w ω (Prog.prim (.size a) >>= k) n S M h vm γ Q := by
  refine op (o := .size a) g rfl fun h' g' r => ⟨(hs.rely r).1 a rfl, ?_⟩
  have := c h' g' r
  rw [← (hs.rely r).2] at this
  exact this

theorem elem {a : Option Nat} {s : GSet K} {id : K} {k : Bool → Prog K T α} {vm : Dag.M K T β}
    {Q : α → β → Set Nat → Set Nat → HSt K T → Prop} (g : Good w S M h γ) (hs : Reads w S h a s)
    (c : ∀ h', Good w S M h' γ → Rely w S M h h' → CSim w ω (k (GSet.includes s id)) n S M h' vm γ Q) :
    CSim w ω (Prog.prim (.elem a id) >>= k) n S M h vm γ Q := by
  refine op (o := .elem a id) g rfl fun h' g' r => ⟨(hs.rely r).1, ?_⟩
  have := c h' g' r
  rw [← (hs.rely r).2] at this
  exact this

theorem rangeS {a : Option Nat} {s : GSet K} {k : List (K × K) → Prog K T α} {vf : List (K × K) → Dag.M K T β}
    {Q : α → β → Set Nat → Set Nat → HSt K T → Prop} (g : Good w S M h γ) (hs : Reads w S h a s)
    (c : ∀ l h', Good w S M h' γ → Rely w S M h h' → CSim w ω (k l) (n + 1) S M h' (vf l) γ Q) :
    CSim w ω (Prog.prim (.range a) >>= k) n S M h (Dag.M.range ω s >>= vf) γ Q :=
  range g (fun _ r => hs.rely r) c

theorem rangeOuter {f : Fld} {k : List (K × Nat) → Prog K T α} {vf : List (K × GSet K) → Dag.M K T β}
    {Q : α → β → Set Nat → Set Nat → HSt K T → Prop} (nat : ω.Natural) (g : Good w S M h γ)
    (hf : w.sees f)
    (c : ∀ (l : List (K × Nat)) (d : Nat → GSet K) h', Good w S M h' γ →
      (∀ x ∈ l, Reads w S h' (some x.2) (d x.2)) →
      CSim w ω (k l) (n + 1) S M h' (vf (l.map fun p => (p.1, d p.2))) γ Q) :
    CSim w ω (Prog.prim (.rangeOuter f) >>= k) n S M h (Dag.M.range ω (γ.fld f) >>= vf) γ Q := by
  intro b σ' e h' r
  have g' := g.rely r
  refine ⟨hf, ?_⟩
  refine c (ω.perm _ n (h'.fld f)) h'.deref h' g' ?_ b σ' ?_
  · intro x hx
    have hx' := (ω.isPerm _ n _).subset hx
    exact ⟨fun y e => by cases e; exact .inr ⟨f, hf, List.mem_map_of_mem hx'⟩, rfl⟩
  · have e2 : ω.perm _ n (γ.fld f) = (ω.perm _ n (h'.fld f)).map fun p => (p.1, h'.deref p.2) := by
      rw [← g'.view.fld f hf]
      exact nat _ _ _ _ _
    rw [← e2]
    exact e

/-- Writing to a cache. -/
def _root_.Verif.Dag.Graph.setFld (g : Graph K T) (f : Fld) (id : K) (s : GSet K) : Graph K T :=
  match f with
  | .inb => { g with inb := GoMap.set g.inb id s }
  | .outb => { g with outb := GoMap.set g.outb id s }
  | .anc => { g with ancC := GoMap.set g.ancC id s }
  | .desc => { g with descC := GoMap.set g.descC id s }

theorem store {f : Fld} {id : K} {a : Nat} {s : GSet K} {k : Unit → Prog K T α} {vf : Unit → Dag.M K T β}
    {Q : α → β → Set Nat → Set Nat → HSt K T → Prop} (g : Good w S M h γ) (hw : w.writes f)
    (ha : a ∈ S) (hs : h.deref a = s)
    (c : ∀ h', Good w (S \ {a}) M h' (γ.setFld f id s) → a ∈ h'.vals f → h'.deref a = s →
      CSim w ω (k ()) n (S \ {a}) M h' (vf ()) (γ.setFld f id s) Q) :
    CSim w ω (Prog.prim (.store f id a) >>= k) n S M h (Dag.M.modG (fun g => g.setFld f id s) >>= vf) γ Q := by
  intro b σ' e h1 r1
  have g1 := g.rely r1
  have al : (Prim.store f id a : Prim K T).allowed w S M h1 := ⟨hw, ha⟩
  have q := Prim.quiet _ g1.ok g1.mine al
  have d1 : h1.deref a = s := (r1.sets a ha).trans hs
  refine ⟨al, ?_⟩
  have hc := hw.cache
  refine c _ ⟨q.ok, Prim.mine _ g1.ok g1.mine al, ?_⟩ ?_ ?_ b σ' e
  · cases f with
    | inb => cases hc
    | outb => cases hc
    | anc =>
      refine ⟨g1.view.verts, fun f hf => ?_⟩
      cases f with
      | anc =>
        show mapV h1.deref (GoMap.set h1.ancC id a) = GoMap.set γ.ancC id s
        rw [← d1, ← GoMap.set_mapV]
        exact congrArg (fun m => GoMap.set m id (h1.deref a)) (g1.view.fld .anc hf)
      | inb => exact g1.view.fld .inb hf
      | outb => exact g1.view.fld .outb hf
      | desc => exact g1.view.fld .desc hf
    | desc =>
      refine ⟨g1.view.verts, fun f hf => ?_⟩
      cases f with
      | desc =>
        show mapV h1.deref (GoMap.set h1.descC id a) = GoMap.set γ.descC id s
        rw [← d1, ← GoMap.set_mapV]
        exact congrArg (fun m => GoMap.set m id (h1.deref a)) (g1.view.fld .desc hf)
      | inb => exact g1.view.fld .inb hf
      | outb => exact g1.view.fld .outb hf
      | anc => exact g1.view.fld .anc hf
  · cases f with
    | inb => cases hc
    | outb => cases hc
    | anc => simp [HSt.vals, HSt.fld, Prim.next, GoMap.set]
    | desc => simp [HSt.vals, HSt.fld, Prim.next, GoMap.set]
  · cases f with
    | inb => cases hc
    | outb => cases hc
    | anc => exact d1
    | desc => exact d1

end CSim

end Verif.Dag
