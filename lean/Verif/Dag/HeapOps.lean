import Verif.Dag.HeapSim

/-! # Each method on the heap simulates the method on values -/

set_option linter.unusedSectionVars false

namespace Verif.Dag
open HSt (Ok Ext Local Held Own)
open GoMap (mapV)

variable {K T : Type} [DecidableEq K] [GoZero K] [GoZero T]

/-- A method that returns a set: the same error, or a set with those elements. -/
def IdsRel (a : Except Err Nat) (b : Except Err (GSet K)) (h : HSt K T) : Prop :=
  (∃ e, a = .error e ∧ b = .error e) ∨ ∃ c s, a = .ok c ∧ b = .ok s ∧ Held (some c) s h

/-- A new map, at an address not below `n`, with these entries. -/
def Fresh (n : Nat) (r : Nat) (v : GoMap K T) (h : HSt K T) : Prop := n ≤ r ∧ Own r v h

/-- A method that returns a map: the same error, or a new map with those entries. -/
def MapRel (n : Nat) (a : Except Err Nat) (b : Except Err (GoMap K T)) (h : HSt K T) : Prop :=
  (∃ e, a = .error e ∧ b = .error e) ∨ ∃ r v, a = .ok r ∧ b = .ok v ∧ Fresh n r v h

theorem heldAnc {h : HSt K T} (ok : Ok h) {id : K} {c : Nat} (e : GoMap.get? h.ancC id = some c) :
    Held (some c) (h.deref c) h := by
  have hc := GoMap.get?_mem_vals e
  refine ⟨ok.lt c (by simp only [HSt.owned, HSt.cached, List.mem_append]; tauto), fun hx => ?_, rfl⟩
  have nd := ok.nodup
  simp only [HSt.owned, HSt.cached, List.nodup_append, List.mem_append] at nd
  exact nd.2.2 c hx c (.inl hc) rfl

theorem heldDesc {h : HSt K T} (ok : Ok h) {id : K} {c : Nat} (e : GoMap.get? h.descC id = some c) :
    Held (some c) (h.deref c) h := by
  have hc := GoMap.get?_mem_vals e
  refine ⟨ok.lt c (by simp only [HSt.owned, HSt.cached, List.mem_append]; tauto), fun hx => ?_, rfl⟩
  have nd := ok.nodup
  simp only [HSt.owned, HSt.cached, List.nodup_append, List.mem_append] at nd
  exact nd.2.2 c hx c (.inr hc) rfl

/-- Adding a list of elements to a set of the running method's. -/
theorem addAll {α : Type} {n m : Nat} {h : HSt K T} {c : Nat} {s : GSet K} (f : α → K) (l : List α)
    (ok : Ok h) (lo : Local c s h) (hc : n ≤ c) (hm : m ≤ h.maps.length) :
    Sim n m (H.loop l () fun _ a => H.addTo (some c) (f a))
      (Pure.pure (l.foldl (fun s a => GSet.add s (f a)) s) : M K T (GSet K)) h
      (fun _ b h' => Local c b h') := by
  refine Sim.loopFold (fun _ b h' => Local c b h') ok lo (Nat.le_of_lt (Nat.lt_of_le_of_lt hc lo.lt)) hm ?_
  intro x _ _ b h1 ok1 _ _ lo1
  refine Sim.mono (Sim.addLocal ok1 lo1 hc) (Nat.le_refl _) (Nat.le_refl _) ?_
  rintro _ _ h2 _ _ ⟨rfl, h3⟩
  exact h3

theorem getAncestorsIDs_sim (ω : Oracle) (fuel : Nat) (id : K) (h : HSt K T) (ok : Ok h) :
    Sim h.sets.length h.maps.length (H.getAncestorsIDs ω fuel id) (getAncestorsIDs ω fuel id) h
      IdsRel := by
  induction fuel generalizing id h with
  | zero => exact .inl ⟨rfl, rfl⟩
  | succ fuel ih =>
    unfold H.getAncestorsIDs getAncestorsIDs
    refine Sim.getL (Sim.getR ?_)
    rw [HSt.checkVertexID_abs]
    cases checkVertexID h.abs.g id with
    | some e => exact Sim.ret ok (.inl ⟨e, rfl, rfl⟩)
    | none =>
      have e1 : GoMap.get? h.abs.g.ancC id = (GoMap.get? h.ancC id).map h.deref := GoMap.get?_mapV _ _ _
      have e2 : GoMap.get? h.abs.g.inb id = (GoMap.get? h.inb id).map h.deref := GoMap.get?_mapV _ _ _
      simp only [e1, e2]
      cases ec : GoMap.get? h.ancC id with
      | some c => exact Sim.ret ok (.inr ⟨c, _, rfl, rfl, heldAnc ok ec⟩)
      | none =>
        simp only [Option.map_none]
        refine Sim.newSet ok (Nat.le_refl _) ?_
        intro h1 ok1 _ hl hm _ hin _ _ _ hd lo
        have tail : ∀ (s : GSet K) (h2 : HSt K T), Ok h2 → Local h.sets.length s h2 →
            Sim h.sets.length h.maps.length
              ((H.modify fun h1 => { h1 with ancC := GoMap.set h1.ancC id h.sets.length }) >>= fun _ =>
                Pure.pure (.ok h.sets.length))
              ((M.modG fun g => { g with ancC := GoMap.set g.ancC id s }) >>= fun _ => Pure.pure (.ok s))
              h2 IdsRel := by
          intro s h2 ok2 lo2
          refine Sim.seq (Sim.storeAnc ok2 lo2 (Nat.le_refl _)) (Nat.le_refl _) (Nat.le_refl _) ?_
          intro _ _ h3 ok3 ex3 hh
          exact Sim.ret ok3 (.inr ⟨_, _, rfl, rfl, hh⟩)
        cases ep : GoMap.get? h.inb id with
        | none => exact tail [] h1 ok1 lo
        | some parents =>
            simp only [Option.map_some]
            rw [H.assoc]
            refine Sim.rangeSet ok1 (hd parents) ?_
            intro l _ h2 eh2 ok2 ex2
            have lo2 := lo.ext ex2 lo.lt
            refine Sim.seq (Sim.loop (fun _ b (h' : HSt K T) => Local h.sets.length b h') ok2 lo2
              (Nat.le_of_lt lo2.lt) (by have := ex2.maps; rw [← hm]; omega) ?_) (Nat.le_refl _) (Nat.le_refl _) ?_
            · intro p _ _ b h3 ok3 hn3 hm3 lo3
              refine Sim.seq (ih p.1 h3 ok3) hn3 hm3 ?_
              intro r rv h4 ok4 ex4 hr
              have lo4 := lo3.ext ex4 lo3.lt
              have hread : h4.read (match (generalizing := false) r with | .ok c => some c | .error _ => none) =
                  (match (generalizing := false) rv with | .ok c => c | .error _ => []) := by
                rcases hr with ⟨e, rfl, rfl⟩ | ⟨c, s, rfl, rfl, hh⟩
                · rfl
                · exact hh.read
              refine Sim.rangeSet ok4 hread ?_
              intro as _ h5 _ ok5 ex5
              have lo5 := lo4.ext ex5 lo4.lt
              have hm5 : h.maps.length ≤ h5.maps.length :=
                Nat.le_trans hm3 (Nat.le_trans ex4.maps ex5.maps)
              refine Sim.seq (vm := (Pure.pure (as.foldl (fun c a => GSet.add c a.2) b) : M K T (GSet K)))
                (vf := fun c => Pure.pure (GSet.add c p.1))
                (addAll Prod.snd as ok5 lo5 (Nat.le_refl _) hm5) (Nat.le_refl _) (Nat.le_refl _) ?_
              intro _ s6 h6 ok6 ex6 lo6
              refine Sim.mono (Sim.addLocal ok6 lo6 (Nat.le_refl _)) (Nat.le_refl _) (Nat.le_refl _) ?_
              rintro _ _ h7 _ _ ⟨rfl, h8⟩
              exact h8
            · intro _ s h3 ok3 _ lo3
              exact tail s h3 ok3 lo3

theorem getDescendantsIDs_sim (ω : Oracle) (fuel : Nat) (id : K) (h : HSt K T) (ok : Ok h) :
    Sim h.sets.length h.maps.length (H.getDescendantsIDs ω fuel id) (getDescendantsIDs ω fuel id) h
      IdsRel := by
  induction fuel generalizing id h with
  | zero => exact .inl ⟨rfl, rfl⟩
  | succ fuel ih =>
    unfold H.getDescendantsIDs getDescendantsIDs
    refine Sim.getL (Sim.getR ?_)
    rw [HSt.checkVertexID_abs]
    cases checkVertexID h.abs.g id with
    | some e => exact Sim.ret ok (.inl ⟨e, rfl, rfl⟩)
    | none =>
      have e1 : GoMap.get? h.abs.g.descC id = (GoMap.get? h.descC id).map h.deref := GoMap.get?_mapV _ _ _
      have e2 : GoMap.get? h.abs.g.outb id = (GoMap.get? h.outb id).map h.deref := GoMap.get?_mapV _ _ _
      simp only [e1, e2]
      cases ec : GoMap.get? h.descC id with
      | some c => exact Sim.ret ok (.inr ⟨c, _, rfl, rfl, heldDesc ok ec⟩)
      | none =>
        simp only [Option.map_none]
        refine Sim.newSet ok (Nat.le_refl _) ?_
        intro h1 ok1 _ hl hm _ _ hin _ _ hd lo
        have tail : ∀ (s : GSet K) (h2 : HSt K T), Ok h2 → Local h.sets.length s h2 →
            Sim h.sets.length h.maps.length
              ((H.modify fun h1 => { h1 with descC := GoMap.set h1.descC id h.sets.length }) >>= fun _ =>
                Pure.pure (.ok h.sets.length))
              ((M.modG fun g => { g with descC := GoMap.set g.descC id s }) >>= fun _ => Pure.pure (.ok s))
              h2 IdsRel := by
          intro s h2 ok2 lo2
          refine Sim.seq (Sim.storeDesc ok2 lo2 (Nat.le_refl _)) (Nat.le_refl _) (Nat.le_refl _) ?_
          intro _ _ h3 ok3 ex3 hh
          exact Sim.ret ok3 (.inr ⟨_, _, rfl, rfl, hh⟩)
        cases ep : GoMap.get? h.outb id with
        | none => exact tail [] h1 ok1 lo
        | some children =>
            simp only [Option.map_some]
            rw [H.assoc]
            refine Sim.rangeSet ok1 (hd children) ?_
            intro l _ h2 eh2 ok2 ex2
            have lo2 := lo.ext ex2 lo.lt
            refine Sim.seq (Sim.loop (fun _ b (h' : HSt K T) => Local h.sets.length b h') ok2 lo2
              (Nat.le_of_lt lo2.lt) (by have := ex2.maps; rw [← hm]; omega) ?_) (Nat.le_refl _) (Nat.le_refl _) ?_
            · intro p _ _ b h3 ok3 hn3 hm3 lo3
              refine Sim.seq (ih p.1 h3 ok3) hn3 hm3 ?_
              intro r rv h4 ok4 ex4 hr
              have lo4 := lo3.ext ex4 lo3.lt
              have hread : h4.read (match (generalizing := false) r with | .ok c => some c | .error _ => none) =
                  (match (generalizing := false) rv with | .ok c => c | .error _ => []) := by
                rcases hr with ⟨e, rfl, rfl⟩ | ⟨c, s, rfl, rfl, hh⟩
                · rfl
                · exact hh.read
              refine Sim.rangeSet ok4 hread ?_
              intro as _ h5 _ ok5 ex5
              have lo5 := lo4.ext ex5 lo4.lt
              have hm5 : h.maps.length ≤ h5.maps.length :=
                Nat.le_trans hm3 (Nat.le_trans ex4.maps ex5.maps)
              refine Sim.seq (vm := (Pure.pure (as.foldl (fun c a => GSet.add c a.2) b) : M K T (GSet K)))
                (vf := fun c => Pure.pure (GSet.add c p.1))
                (addAll Prod.snd as ok5 lo5 (Nat.le_refl _) hm5) (Nat.le_refl _) (Nat.le_refl _) ?_
              intro _ s6 h6 ok6 ex6 lo6
              refine Sim.mono (Sim.addLocal ok6 lo6 (Nat.le_refl _)) (Nat.le_refl _) (Nat.le_refl _) ?_
              rintro _ _ h7 _ _ ⟨rfl, h8⟩
              exact h8
            · intro _ s h3 ok3 _ lo3
              exact tail s h3 ok3 lo3

theorem ancestorsOf_sim (ω : Oracle) (id : K) (h : HSt K T) (ok : Ok h) :
    Sim h.sets.length h.maps.length (H.ancestorsOf ω id) (ancestorsOf ω id) h Held := by
  unfold H.ancestorsOf ancestorsOf
  refine Sim.getL (Sim.getR ?_)
  refine Sim.seq (getAncestorsIDs_sim ω _ id h ok) (Nat.le_refl _) (Nat.le_refl _) ?_
  rintro a b h' ok' _ (⟨e, rfl, rfl⟩ | ⟨c, s, rfl, rfl, hh⟩)
  · exact Sim.ret ok' rfl
  · exact Sim.ret ok' hh

theorem descendantsOf_sim (ω : Oracle) (id : K) (h : HSt K T) (ok : Ok h) :
    Sim h.sets.length h.maps.length (H.descendantsOf ω id) (descendantsOf ω id) h Held := by
  unfold H.descendantsOf descendantsOf
  refine Sim.getL (Sim.getR ?_)
  refine Sim.seq (getDescendantsIDs_sim ω _ id h ok) (Nat.le_refl _) (Nat.le_refl _) ?_
  rintro a b h' ok' _ (⟨e, rfl, rfl⟩ | ⟨c, s, rfl, rfl, hh⟩)
  · exact Sim.ret ok' rfl
  · exact Sim.ret ok' hh

/-- Filling a map of the running method's with the payloads of some keys. -/
theorem fill {n : Nat} {h : HSt K T} {r : Nat} {v : GoMap K T} (l : List (K × K)) (g : Graph K T)
    (hg : h.abs.g = g) (ok : Ok h) (o : Own r v h) (hn : n ≤ h.sets.length) {m : Nat} (hm : m ≤ r) :
    Sim n m (H.loop l () fun _ k => H.get >>= fun h => H.setIn r k.1 (h.vertexAt k.1))
      (Pure.pure (l.foldl (fun res k => GoMap.set res k.1 (g.vertexAt k.1)) v) : M K T (GoMap K T)) h
      (fun _ b h' => Own r b h') := by
  refine Sim.mono (Sim.loopFold (fun _ b h' => Own r b h' ∧ h'.abs.g = g) ok ⟨o, hg⟩ hn
    (Nat.le_of_lt (Nat.lt_of_le_of_lt hm o.lt)) ?_) (Nat.le_refl _) (Nat.le_refl _)
    (fun _ _ _ _ _ hh => hh.1)
  rintro x _ _ b h1 ok1 _ _ ⟨o1, hg1⟩
  refine Sim.getL ?_
  refine Sim.mono (Sim.setOwn ok1 o1 hm) (Nat.le_refl _) (Nat.le_refl _) ?_
  rintro _ _ h2 _ _ ⟨rfl, o2, ha, _⟩
  refine ⟨?_, by rw [ha]; exact hg1⟩
  rw [HSt.vertexAt_abs, hg1] at o2
  exact o2

theorem loadFromCache_sim (ω : Oracle) (c : Nat) (s : GSet K) (h : HSt K T) (ok : Ok h)
    (hh : Held (some c) s h) :
    Sim h.sets.length h.maps.length (H.loadFromCache ω c) (loadFromCache ω h.abs.g s) h (Fresh h.maps.length) := by
  unfold H.loadFromCache loadFromCache
  refine Sim.newMap ok ?_
  intro h1 ok1 hs hl hv hin hout hanc hdesc ha o
  have hd : h1.read (some c) = s := by rw [← hh.read]; show h1.deref c = h.deref c; unfold HSt.deref; rw [hs]
  refine Sim.rangeSet ok1 hd ?_
  intro l _ h2 eh2 ok2 ex2
  have o2 := o.ext ex2 o.lt
  refine Sim.seq (vf := Pure.pure) (vm := (Pure.pure _ : M K T (GoMap K T)))
    (fill l h.abs.g ?_ ok2 o2 ?_ (Nat.le_refl _)) (Nat.le_refl _) (Nat.le_refl _) ?_
  · subst eh2; rw [← ha]; rfl
  · rw [← hs]; exact ex2.sets
  · intro _ b h3 ok3 _ o3
    exact Sim.ret ok3 ⟨Nat.le_refl _, o3⟩

theorem getAncestors_sim (ω : Oracle) (id : K) (h : HSt K T) (ok : Ok h) :
    Sim h.sets.length h.maps.length (H.getAncestors ω id) (getAncestors ω id) h (MapRel h.maps.length) := by
  unfold H.getAncestors getAncestors
  refine Sim.getL (Sim.getR ?_)
  refine Sim.seq (getAncestorsIDs_sim ω _ id h ok) (Nat.le_refl _) (Nat.le_refl _) ?_
  rintro a b h' ok' ex (⟨e, rfl, rfl⟩ | ⟨c, s, rfl, rfl, hh⟩)
  · exact Sim.ret ok' (.inl ⟨e, rfl, rfl⟩)
  · refine Sim.getR ?_
    refine Sim.seq (loadFromCache_sim ω c s h' ok' hh) ex.sets ex.maps ?_
    intro r v h2 ok2 _ o
    exact Sim.ret ok2 (.inr ⟨r, v, rfl, rfl, Nat.le_trans ex.maps o.1, o.2⟩)

theorem getDescendants_sim (ω : Oracle) (id : K) (h : HSt K T) (ok : Ok h) :
    Sim h.sets.length h.maps.length (H.getDescendants ω id) (getDescendants ω id) h (MapRel h.maps.length) := by
  unfold H.getDescendants getDescendants
  refine Sim.getL (Sim.getR ?_)
  refine Sim.seq (getDescendantsIDs_sim ω _ id h ok) (Nat.le_refl _) (Nat.le_refl _) ?_
  rintro a b h' ok' ex (⟨e, rfl, rfl⟩ | ⟨c, s, rfl, rfl, hh⟩)
  · exact Sim.ret ok' (.inl ⟨e, rfl, rfl⟩)
  · refine Sim.getR ?_
    refine Sim.seq (loadFromCache_sim ω c s h' ok' hh) ex.sets ex.maps ?_
    intro r v h2 ok2 _ o
    exact Sim.ret ok2 (.inr ⟨r, v, rfl, rfl, Nat.le_trans ex.maps o.1, o.2⟩)

/-- No claim about the result. -/
abbrev Any {α β : Type} : α → β → HSt K T → Prop := fun _ _ _ => True

theorem any {α β : Type} {n m : Nat} {hm : H K T α} {vm : M K T β} {h : HSt K T}
    {R : α → β → HSt K T → Prop} (s : Sim n m hm vm h R) : Sim n m hm vm h Any :=
  s.mono (Nat.le_refl _) (Nat.le_refl _) (fun _ _ _ _ _ _ => trivial)

theorem dropAnc {α : Type} (f : α → K) (l : List α) (h : HSt K T) (ok : Ok h) :
    Sim h.sets.length h.maps.length
      (H.loop l () fun _ d => H.modify fun h => { h with ancC := GoMap.del h.ancC (f d) })
      (M.loop l () fun _ d => M.modG fun g => { g with ancC := GoMap.del g.ancC (f d) }) h Any :=
  Sim.loop Any ok trivial (Nat.le_refl _) (Nat.le_refl _)
    (fun _ _ _ _ _ ok1 _ _ _ => any (Sim.delAncC ok1))

theorem dropDesc {α : Type} (f : α → K) (l : List α) (h : HSt K T) (ok : Ok h) :
    Sim h.sets.length h.maps.length
      (H.loop l () fun _ d => H.modify fun h => { h with descC := GoMap.del h.descC (f d) })
      (M.loop l () fun _ d => M.modG fun g => { g with descC := GoMap.del g.descC (f d) }) h Any :=
  Sim.loop Any ok trivial (Nat.le_refl _) (Nat.le_refl _)
    (fun _ _ _ _ _ ok1 _ _ _ => any (Sim.delDescC ok1))

theorem unlinkParents_sim (ω : Oracle) (id : K) (h : HSt K T) (ok : Ok h) :
    Sim h.sets.length h.maps.length (H.unlinkParents ω id) (unlinkParents ω id) h Any := by
  unfold H.unlinkParents unlinkParents
  refine Sim.getL (Sim.getR ?_)
  have e1 : GoMap.has h.abs.g.inb id = GoMap.has h.inb id := GoMap.has_mapV _ _ _
  rw [e1]
  split
  · refine Sim.rangeSet ok (HSt.setAt_mapV _ _ _).symm ?_
    intro l _ h2 _ ok2 ex2
    refine Sim.loop Any ok2 trivial ex2.sets ex2.maps ?_
    intro p _ _ _ h3 ok3 _ _ _
    exact Sim.getL (any (Sim.deleteOut ok3))
  · exact Sim.ret ok trivial

theorem unlinkChildren_sim (ω : Oracle) (id : K) (h : HSt K T) (ok : Ok h) :
    Sim h.sets.length h.maps.length (H.unlinkChildren ω id) (unlinkChildren ω id) h Any := by
  unfold H.unlinkChildren unlinkChildren
  refine Sim.getL (Sim.getR ?_)
  have e1 : GoMap.has h.abs.g.outb id = GoMap.has h.outb id := GoMap.has_mapV _ _ _
  rw [e1]
  split
  · refine Sim.rangeSet ok (HSt.setAt_mapV _ _ _).symm ?_
    intro l _ h2 _ ok2 ex2
    refine Sim.loop Any ok2 trivial ex2.sets ex2.maps ?_
    intro p _ _ _ h3 ok3 _ _ _
    exact Sim.getL (any (Sim.deleteIn ok3))
  · exact Sim.ret ok trivial

/-- A step that leaves alone everything but the graph's own sets, and the steps after it. -/
theorem Sim.step {α α' β β' : Type} {n m : Nat} {h : HSt K T} {hm : H K T α} {vm : M K T β} {hf : α → H K T α'}
    {vf : β → M K T β'} {R : α → β → HSt K T → Prop} {Q : α' → β' → HSt K T → Prop}
    (s : Sim h.sets.length h.maps.length hm vm h R) (hn : n ≤ h.sets.length ∧ m ≤ h.maps.length)
    (k : ∀ a b h', Ok h' → Ext h.sets.length h.maps.length h h' → R a b h' →
      (n ≤ h'.sets.length ∧ m ≤ h'.maps.length) → Sim n m (hf a) (vf b) h' Q) :
    Sim n m (hm >>= hf) (vm >>= vf) h Q :=
  Sim.seq s hn.1 hn.2 (fun a b h' ok ex r =>
    k a b h' ok ex r ⟨Nat.le_trans hn.1 ex.sets, Nat.le_trans hn.2 ex.maps⟩)

theorem deleteVertex_sim (ω : Oracle) (id : K) (h : HSt K T) (ok : Ok h) :
    Sim h.sets.length h.maps.length (H.deleteVertex ω id) (deleteVertex ω id) h
      (fun a b _ => a = b) := by
  unfold H.deleteVertex deleteVertex
  refine Sim.getL (Sim.getR ?_)
  rw [HSt.checkVertexID_abs]
  cases checkVertexID h.abs.g id with
  | some e => exact Sim.ret ok rfl
  | none =>
    refine Sim.step (descendantsOf_sim ω id h ok) ⟨Nat.le_refl _, Nat.le_refl _⟩ ?_
    intro d sd h1 ok1 ex1 hd1 le1
    refine Sim.step (ancestorsOf_sim ω id h1 ok1) le1 ?_
    intro a sa h2 ok2 ex2 ha2 le2
    have hd2 := hd1.ext ex2 (Nat.le_refl _)
    refine Sim.step (unlinkParents_sim ω id h2 ok2) le2 ?_
    intro _ _ h3 ok3 ex3 _ le3
    have hd3 := hd2.ext ex3 (Nat.le_refl _)
    have ha3 := ha2.ext ex3 (Nat.le_refl _)
    refine Sim.step (unlinkChildren_sim ω id h3 ok3) le3 ?_
    intro _ _ h4 ok4 ex4 _ le4
    have hd4 := hd3.ext ex4 (Nat.le_refl _)
    have ha4 := ha3.ext ex4 (Nat.le_refl _)
    refine Sim.step (Sim.delInb ok4) le4 ?_
    intro _ _ h5 ok5 ex5 _ le5
    have hd5 := hd4.ext ex5 (Nat.le_refl _)
    have ha5 := ha4.ext ex5 (Nat.le_refl _)
    refine Sim.step (Sim.delOutb ok5) le5 ?_
    intro _ _ h6 ok6 ex6 _ le6
    have hd6 := hd5.ext ex6 (Nat.le_refl _)
    have ha6 := ha5.ext ex6 (Nat.le_refl _)
    refine Sim.rangeSet ok6 hd6.read ?_
    intro ds _ h7 _ ok7 ex7
    have le7 : h.sets.length ≤ h7.sets.length ∧ h.maps.length ≤ h7.maps.length :=
      ⟨Nat.le_trans le6.1 ex7.sets, Nat.le_trans le6.2 ex7.maps⟩
    have ha7 := ha6.ext ex7 (Nat.le_refl _)
    refine Sim.step (dropAnc Prod.snd ds h7 ok7) le7 ?_
    intro _ _ h8 ok8 ex8 _ le8
    have ha8 := ha7.ext ex8 (Nat.le_refl _)
    refine Sim.step (Sim.delAncC ok8) le8 ?_
    intro _ _ h9 ok9 ex9 _ le9
    have ha9 := ha8.ext ex9 (Nat.le_refl _)
    refine Sim.rangeSet ok9 ha9.read ?_
    intro as _ h10 _ ok10 ex10
    have le10 : h.sets.length ≤ h10.sets.length ∧ h.maps.length ≤ h10.maps.length :=
      ⟨Nat.le_trans le9.1 ex10.sets, Nat.le_trans le9.2 ex10.maps⟩
    refine Sim.step (dropDesc Prod.snd as h10 ok10) le10 ?_
    intro _ _ h11 ok11 ex11 _ le11
    refine Sim.step (Sim.delDescC ok11) le11 ?_
    intro _ _ h12 ok12 ex12 _ le12
    have hv : h.vertices = h12.vertices := by
      rw [ex12.vert, ex11.vert, ex10.vert, ex9.vert, ex8.vert, ex7.vert, ex6.vert, ex5.vert, ex4.vert,
        ex3.vert, ex2.vert, ex1.vert]
    refine Sim.step (Sim.delVert ok12 hv) le12 ?_
    intro _ _ h13 ok13 ex13 _ le13
    exact Sim.ret ok13 rfl

theorem addVertex_sim (id : K) (v : T) (h : HSt K T) (ok : Ok h) :
    Sim h.sets.length h.maps.length (H.addVertex id v) (addVertex id v) h (fun a b _ => a = b) := by
  unfold H.addVertex addVertex
  split
  · exact Sim.ret ok rfl
  · refine Sim.getL (Sim.getR ?_)
    show Sim _ _ (if GoMap.has h.verts id then _ else _) (if GoMap.has h.verts id then _ else _) _ _
    split
    · exact Sim.ret ok rfl
    · refine Sim.step (Sim.setVert ok) ⟨Nat.le_refl _, Nat.le_refl _⟩ ?_
      intro _ _ h1 ok1 _ _ _
      exact Sim.ret ok1 rfl

theorem getVertex_sim (id : K) (h : HSt K T) (ok : Ok h) :
    Sim h.sets.length h.maps.length (H.getVertex id) (getVertex id) h (fun a b _ => a = b) := by
  unfold H.getVertex getVertex
  refine Sim.getL (Sim.getR ?_)
  rw [HSt.checkVertexID_abs]
  cases checkVertexID h.abs.g id with
  | some e => exact Sim.ret ok rfl
  | none => exact Sim.ret ok rfl

theorem isEdge_sim (s t : K) (h : HSt K T) (ok : Ok h) :
    Sim h.sets.length h.maps.length (H.isEdge s t) (isEdge s t) h (fun a b _ => a = b) :=
  .inr ⟨_, _, _, H.isEdge_eq h s t, rfl, ok, Ext.refl _ _ _, rfl⟩

theorem ensureOut_sim (s : K) (h : HSt K T) (ok : Ok h) :
    Sim h.sets.length h.maps.length (H.ensureOut s)
      (M.modG fun g => if !(GoMap.has g.outb s) then { g with outb := GoMap.set g.outb s [] } else g) h
      (fun _ _ h' => GoMap.has h'.outb s = true) := by
  unfold H.ensureOut
  refine Sim.getL ?_
  have e1 : GoMap.has h.abs.g.outb s = GoMap.has h.outb s := GoMap.has_mapV _ _ _
  cases hb : GoMap.has h.outb s with
  | true =>
    refine .inr ⟨(), h, (), rfl, ?_, ok, Ext.refl _ _ _, hb⟩
    unfold M.modG
    simp only [e1, hb]
    rfl
  | false =>
    simp only [Bool.not_false, if_true]
    have vm : (M.modG fun g => if !(GoMap.has g.outb s) then { g with outb := GoMap.set g.outb s [] } else g) h.abs
        = (M.modG fun g : Graph K T => { g with outb := GoMap.set g.outb s [] }) h.abs := by
      unfold M.modG
      simp only [e1, hb]
      rfl
    have : Sim h.sets.length h.maps.length
        (H.newSet >>= fun x => H.modify fun h => { h with outb := GoMap.set h.outb s x })
        (M.modG fun g : Graph K T => { g with outb := GoMap.set g.outb s [] }) h
        (fun _ _ h' => GoMap.has h'.outb s = true) := by
      refine Sim.newSet ok (Nat.le_refl _) ?_
      intro h1 ok1 _ _ _ _ _ _ _ _ _ lo
      exact (Sim.storeOut ok1 lo (Nat.le_refl _)).mono (Nat.le_refl _) (Nat.le_refl _)
        (fun _ _ _ _ _ hh => hh.2.2)
    unfold Sim at this ⊢
    rw [vm]
    exact this

theorem ensureIn_sim (s : K) (h : HSt K T) (ok : Ok h) :
    Sim h.sets.length h.maps.length (H.ensureIn s)
      (M.modG fun g => if !(GoMap.has g.inb s) then { g with inb := GoMap.set g.inb s [] } else g) h
      (fun _ _ h' => GoMap.has h'.inb s = true) := by
  unfold H.ensureIn
  refine Sim.getL ?_
  have e1 : GoMap.has h.abs.g.inb s = GoMap.has h.inb s := GoMap.has_mapV _ _ _
  cases hb : GoMap.has h.inb s with
  | true =>
    refine .inr ⟨(), h, (), rfl, ?_, ok, Ext.refl _ _ _, hb⟩
    unfold M.modG
    simp only [e1, hb]
    rfl
  | false =>
    simp only [Bool.not_false, if_true]
    have vm : (M.modG fun g => if !(GoMap.has g.inb s) then { g with inb := GoMap.set g.inb s [] } else g) h.abs
        = (M.modG fun g : Graph K T => { g with inb := GoMap.set g.inb s [] }) h.abs := by
      unfold M.modG
      simp only [e1, hb]
      rfl
    have : Sim h.sets.length h.maps.length
        (H.newSet >>= fun x => H.modify fun h => { h with inb := GoMap.set h.inb s x })
        (M.modG fun g : Graph K T => { g with inb := GoMap.set g.inb s [] }) h
        (fun _ _ h' => GoMap.has h'.inb s = true) := by
      refine Sim.newSet ok (Nat.le_refl _) ?_
      intro h1 ok1 _ _ _ _ _ _ _ _ _ lo
      exact (Sim.storeIn ok1 lo (Nat.le_refl _)).mono (Nat.le_refl _) (Nat.le_refl _)
        (fun _ _ _ _ _ hh => hh.2.2)
    unfold Sim at this ⊢
    rw [vm]
    exact this

theorem addEdge_sim (ω : Oracle) (s t : K) (h : HSt K T) (ok : Ok h) :
    Sim h.sets.length h.maps.length (H.addEdge ω s t) (addEdge ω s t) h (fun a b _ => a = b) := by
  unfold H.addEdge addEdge
  refine Sim.getL (Sim.getR ?_)
  rw [HSt.checkEdgeIDs_abs]
  cases checkEdgeIDs h.abs.g s t with
  | some e => exact Sim.ret ok rfl
  | none =>
    refine Sim.left (H.isEdgeFlag_eq h s t) rfl (Ext.refl _ _ _) ?_
    by_cases hf : isEdgeFlag h.abs.g s t = true
    · rw [if_pos hf, if_pos hf]; exact Sim.ret ok rfl
    rw [if_neg hf, if_neg hf]
    refine Sim.step (descendantsOf_sim ω t h ok) ⟨Nat.le_refl _, Nat.le_refl _⟩ ?_
    intro d sd h1 ok1 ex1 hd1 le1
    refine Sim.step (ancestorsOf_sim ω s h1 ok1) le1 ?_
    intro a sa h2 ok2 ex2 ha2 le2
    have hd2 := hd1.ext ex2 (Nat.le_refl _)
    refine Sim.getL ?_
    rw [hd2.read]
    by_cases hi : GSet.includes sd s = true
    · rw [if_pos hi, if_pos hi]; exact Sim.ret ok2 rfl
    rw [if_neg hi, if_neg hi]
    refine Sim.step (ensureOut_sim s h2 ok2) le2 ?_
    intro _ _ h3 ok3 ex3 hs3 le3
    have hd3 := hd2.ext ex3 (Nat.le_refl _)
    have ha3 := ha2.ext ex3 (Nat.le_refl _)
    refine Sim.getL ?_
    refine Sim.step (Sim.addOut ok3 hs3) le3 ?_
    intro _ _ h4 ok4 ex4 _ le4
    have hd4 := hd3.ext ex4 (Nat.le_refl _)
    have ha4 := ha3.ext ex4 (Nat.le_refl _)
    refine Sim.step (ensureIn_sim t h4 ok4) le4 ?_
    intro _ _ h5 ok5 ex5 hs5 le5
    have hd5 := hd4.ext ex5 (Nat.le_refl _)
    have ha5 := ha4.ext ex5 (Nat.le_refl _)
    refine Sim.getL ?_
    refine Sim.step (Sim.addIn ok5 hs5) le5 ?_
    intro _ _ h6 ok6 ex6 _ le6
    have hd6 := hd5.ext ex6 (Nat.le_refl _)
    have ha6 := ha5.ext ex6 (Nat.le_refl _)
    refine Sim.rangeSet ok6 hd6.read ?_
    intro ds _ h7 _ ok7 ex7
    have le7 : h.sets.length ≤ h7.sets.length ∧ h.maps.length ≤ h7.maps.length :=
      ⟨Nat.le_trans le6.1 ex7.sets, Nat.le_trans le6.2 ex7.maps⟩
    have ha7 := ha6.ext ex7 (Nat.le_refl _)
    refine Sim.step (dropAnc Prod.fst ds h7 ok7) le7 ?_
    intro _ _ h8 ok8 ex8 _ le8
    have ha8 := ha7.ext ex8 (Nat.le_refl _)
    refine Sim.step (Sim.delAncC ok8) le8 ?_
    intro _ _ h9 ok9 ex9 _ le9
    have ha9 := ha8.ext ex9 (Nat.le_refl _)
    refine Sim.rangeSet ok9 ha9.read ?_
    intro as _ h10 _ ok10 ex10
    have le10 : h.sets.length ≤ h10.sets.length ∧ h.maps.length ≤ h10.maps.length :=
      ⟨Nat.le_trans le9.1 ex10.sets, Nat.le_trans le9.2 ex10.maps⟩
    refine Sim.step (dropDesc Prod.fst as h10 ok10) le10 ?_
    intro _ _ h11 ok11 ex11 _ le11
    refine Sim.step (Sim.delDescC ok11) le11 ?_
    intro _ _ h12 ok12 ex12 _ le12
    exact Sim.ret ok12 rfl

theorem deleteEdge_sim (ω : Oracle) (s t : K) (h : HSt K T) (ok : Ok h) :
    Sim h.sets.length h.maps.length (H.deleteEdge ω s t) (deleteEdge ω s t) h (fun a b _ => a = b) := by
  unfold H.deleteEdge deleteEdge
  refine Sim.getL (Sim.getR ?_)
  rw [HSt.checkEdgeIDs_abs]
  cases checkEdgeIDs h.abs.g s t with
  | some e => exact Sim.ret ok rfl
  | none =>
    refine Sim.left (H.isEdgeFlag_eq h s t) rfl (Ext.refl _ _ _) ?_
    by_cases hf : (!isEdgeFlag h.abs.g s t) = true
    · rw [if_pos hf, if_pos hf]; exact Sim.ret ok rfl
    rw [if_neg hf, if_neg hf]
    refine Sim.step (descendantsOf_sim ω s h ok) ⟨Nat.le_refl _, Nat.le_refl _⟩ ?_
    intro d sd h1 ok1 ex1 hd1 le1
    refine Sim.step (ancestorsOf_sim ω t h1 ok1) le1 ?_
    intro a sa h2 ok2 ex2 ha2 le2
    have hd2 := hd1.ext ex2 (Nat.le_refl _)
    refine Sim.getL ?_
    refine Sim.step (Sim.deleteOut ok2) le2 ?_
    intro _ _ h4 ok4 ex4 _ le4
    have hd4 := hd2.ext ex4 (Nat.le_refl _)
    have ha4 := ha2.ext ex4 (Nat.le_refl _)
    refine Sim.getL ?_
    refine Sim.step (Sim.deleteIn ok4) le4 ?_
    intro _ _ h6 ok6 ex6 _ le6
    have hd6 := hd4.ext ex6 (Nat.le_refl _)
    have ha6 := ha4.ext ex6 (Nat.le_refl _)
    refine Sim.rangeSet ok6 hd6.read ?_
    intro ds _ h7 _ ok7 ex7
    have le7 : h.sets.length ≤ h7.sets.length ∧ h.maps.length ≤ h7.maps.length :=
      ⟨Nat.le_trans le6.1 ex7.sets, Nat.le_trans le6.2 ex7.maps⟩
    have ha7 := ha6.ext ex7 (Nat.le_refl _)
    refine Sim.step (dropAnc Prod.fst ds h7 ok7) le7 ?_
    intro _ _ h8 ok8 ex8 _ le8
    have ha8 := ha7.ext ex8 (Nat.le_refl _)
    refine Sim.step (Sim.delAncC ok8) le8 ?_
    intro _ _ h9 ok9 ex9 _ le9
    have ha9 := ha8.ext ex9 (Nat.le_refl _)
    refine Sim.rangeSet ok9 ha9.read ?_
    intro as _ h10 _ ok10 ex10
    have le10 : h.sets.length ≤ h10.sets.length ∧ h.maps.length ≤ h10.maps.length :=
      ⟨Nat.le_trans le9.1 ex10.sets, Nat.le_trans le9.2 ex10.maps⟩
    refine Sim.step (dropDesc Prod.fst as h10 ok10) le10 ?_
    intro _ _ h11 ok11 ex11 _ le11
    refine Sim.step (Sim.delDescC ok11) le11 ?_
    intro _ _ h12 ok12 ex12 _ le12
    exact Sim.ret ok12 rfl

theorem getOrder_sim (h : HSt K T) (ok : Ok h) :
    Sim h.sets.length h.maps.length (H.getOrder : H K T Nat) getOrder h (fun a b _ => a = b) :=
  .inr ⟨_, _, _, rfl, rfl, ok, Ext.refl _ _ _, rfl⟩

theorem getSize_sim (ω : Oracle) (h : HSt K T) (ok : Ok h) :
    Sim h.sets.length h.maps.length (H.getSize ω : H K T Nat) (getSize ω) h (fun a b _ => a = b) := by
  unfold H.getSize getSize
  refine Sim.getL (Sim.getR ?_)
  refine Sim.rangeOuter ok ?_
  intro l h1 _ ok1 _
  exact Sim.ret ok1 rfl

theorem getLeaves_sim (ω : Oracle) (h : HSt K T) (ok : Ok h) :
    Sim h.sets.length h.maps.length (H.getLeaves ω : H K T Nat) (getLeaves ω) h (Fresh h.maps.length) := by
  unfold H.getLeaves getLeaves
  refine Sim.newMap ok ?_
  intro h1 ok1 hs hl hv hin hout hanc hdesc ha o
  refine Sim.getL (Sim.getR ?_)
  refine Sim.rangeMap ok1 rfl ?_
  intro vs h2 eh2 ok2 ex2
  have o2 := o.ext ex2 o.lt
  refine Sim.seq (vf := Pure.pure) (vm := (Pure.pure _ : M K T (GoMap K T)))
    (R := fun _ b h' => Own h.maps.length b h')
    ((Sim.loopFold (fun _ b h' => Own h.maps.length b h' ∧ h'.sets = h1.sets ∧ h'.outb = h1.outb) ok2
      ⟨o2, by rw [eh2], by rw [eh2]⟩ (n := h.sets.length) (m := h.maps.length)
      (by rw [← hs]; exact ex2.sets) (Nat.le_of_lt o2.lt) ?_).mono
      (Nat.le_refl _) (Nat.le_refl _) (fun _ _ _ _ _ hh => hh.1)) (Nat.le_refl _) (Nat.le_refl _) ?_
  · rintro p _ _ b h3 ok3 _ _ ⟨o3, hs3, ho3⟩
    refine Sim.getL ?_
    have e1 : GoMap.get? h1.abs.g.outb p.1 = (GoMap.get? h3.outb p.1).map h3.deref := by
      have : h1.deref = h3.deref := by funext x; unfold HSt.deref; rw [hs3]
      show GoMap.get? (mapV h1.deref h1.outb) p.1 = _
      rw [GoMap.get?_mapV, ho3, this]
    rw [e1]
    cases GoMap.get? h3.outb p.1 with
    | none =>
      refine (Sim.setOwn ok3 o3 (Nat.le_refl _)).mono (Nat.le_refl _) (Nat.le_refl _) ?_
      rintro _ _ h4 _ _ ⟨rfl, o4, _, k1, k2, _⟩
      exact ⟨o4, by rw [k1, hs3], by rw [k2, ho3]⟩
    | some x =>
      simp only [Option.map_some]
      split
      · refine (Sim.setOwn ok3 o3 (Nat.le_refl _)).mono (Nat.le_refl _) (Nat.le_refl _) ?_
        rintro _ _ h4 _ _ ⟨rfl, o4, _, k1, k2, _⟩
        exact ⟨o4, by rw [k1, hs3], by rw [k2, ho3]⟩
      · exact Sim.ret ok3 ⟨o3, hs3, ho3⟩
  · intro _ b h3 ok3 _ o3
    exact Sim.ret ok3 ⟨Nat.le_refl _, o3⟩

theorem getRoots_sim (ω : Oracle) (h : HSt K T) (ok : Ok h) :
    Sim h.sets.length h.maps.length (H.getRoots ω : H K T Nat) (getRoots ω) h (Fresh h.maps.length) := by
  unfold H.getRoots getRoots
  refine Sim.newMap ok ?_
  intro h1 ok1 hs hl hv hin hout hanc hdesc ha o
  refine Sim.getL (Sim.getR ?_)
  refine Sim.rangeMap ok1 rfl ?_
  intro vs h2 eh2 ok2 ex2
  have o2 := o.ext ex2 o.lt
  refine Sim.seq (vf := Pure.pure) (vm := (Pure.pure _ : M K T (GoMap K T)))
    (R := fun _ b h' => Own h.maps.length b h')
    ((Sim.loopFold (fun _ b h' => Own h.maps.length b h' ∧ h'.sets = h1.sets ∧ h'.inb = h1.inb) ok2
      ⟨o2, by rw [eh2], by rw [eh2]⟩ (n := h.sets.length) (m := h.maps.length)
      (by rw [← hs]; exact ex2.sets) (Nat.le_of_lt o2.lt) ?_).mono
      (Nat.le_refl _) (Nat.le_refl _) (fun _ _ _ _ _ hh => hh.1)) (Nat.le_refl _) (Nat.le_refl _) ?_
  · rintro p _ _ b h3 ok3 _ _ ⟨o3, hs3, ho3⟩
    refine Sim.getL ?_
    have e1 : GoMap.get? h1.abs.g.inb p.1 = (GoMap.get? h3.inb p.1).map h3.deref := by
      have : h1.deref = h3.deref := by funext x; unfold HSt.deref; rw [hs3]
      show GoMap.get? (mapV h1.deref h1.inb) p.1 = _
      rw [GoMap.get?_mapV, ho3, this]
    rw [e1]
    cases GoMap.get? h3.inb p.1 with
    | none =>
      refine (Sim.setOwn ok3 o3 (Nat.le_refl _)).mono (Nat.le_refl _) (Nat.le_refl _) ?_
      rintro _ _ h4 _ _ ⟨rfl, o4, _, k1, _, k2⟩
      exact ⟨o4, by rw [k1, hs3], by rw [k2, ho3]⟩
    | some x =>
      simp only [Option.map_some]
      split
      · refine (Sim.setOwn ok3 o3 (Nat.le_refl _)).mono (Nat.le_refl _) (Nat.le_refl _) ?_
        rintro _ _ h4 _ _ ⟨rfl, o4, _, k1, _, k2⟩
        exact ⟨o4, by rw [k1, hs3], by rw [k2, ho3]⟩
      · exact Sim.ret ok3 ⟨o3, hs3, ho3⟩
  · intro _ b h3 ok3 _ o3
    exact Sim.ret ok3 ⟨Nat.le_refl _, o3⟩

theorem getVertices_sim (ω : Oracle) (h : HSt K T) (ok : Ok h) :
    Sim h.sets.length h.maps.length (H.getVertices ω : H K T Nat) (getVertices ω) h (Fresh h.maps.length) := by
  unfold H.getVertices getVertices
  refine Sim.getL ?_
  refine Sim.newMap ok ?_
  intro h1 ok1 hs hl hv hin hout hanc hdesc ha o
  refine Sim.getR ?_
  refine Sim.rangeMap ok1 (by rw [← hv]; rfl) ?_
  intro vs h2 eh2 ok2 ex2
  have o2 := o.ext ex2 o.lt
  refine Sim.seq (vf := Pure.pure) (vm := (Pure.pure _ : M K T (GoMap K T)))
    (Sim.loopFold (fun _ b h' => Own h.maps.length b h') ok2 o2 (n := h.sets.length) (m := h.maps.length)
      (by rw [← hs]; exact ex2.sets) (Nat.le_of_lt o2.lt) ?_) (Nat.le_refl _) (Nat.le_refl _) ?_
  · intro p _ _ b h3 ok3 _ _ o3
    refine (Sim.setOwn ok3 o3 (Nat.le_refl _)).mono (Nat.le_refl _) (Nat.le_refl _) ?_
    rintro _ _ h4 _ _ ⟨rfl, o4, _⟩
    exact o4
  · intro _ b h3 ok3 _ o3
    exact Sim.ret ok3 ⟨Nat.le_refl _, o3⟩

theorem getParents_sim (ω : Oracle) (id : K) (h : HSt K T) (ok : Ok h) :
    Sim h.sets.length h.maps.length (H.getParents ω id) (getParents ω id) h (MapRel h.maps.length) := by
  unfold H.getParents getParents
  refine Sim.getL (Sim.getR ?_)
  rw [HSt.checkVertexID_abs]
  cases checkVertexID h.abs.g id with
  | some e => exact Sim.ret ok (.inl ⟨e, rfl, rfl⟩)
  | none =>
    refine Sim.newMap ok ?_
    intro h1 ok1 hs hl hv hin hout hanc hdesc ha o
    have hr : h1.read (GoMap.get? h.inb id) = setAt h.abs.g.inb id := by
      refine Eq.trans ?_ (HSt.setAt_mapV _ _ _).symm
      cases GoMap.get? h.inb id with
      | none => rfl
      | some x => show h1.deref x = h.deref x; unfold HSt.deref; rw [hs]
    refine Sim.rangeSet ok1 hr ?_
    intro l _ h2 eh2 ok2 ex2
    have o2 := o.ext ex2 o.lt
    refine Sim.seq (vf := fun v => Pure.pure (Except.ok v)) (vm := (Pure.pure _ : M K T (GoMap K T)))
      (fill l h.abs.g ?_ ok2 o2 ?_ (Nat.le_refl _)) (Nat.le_refl _) (Nat.le_refl _) ?_
    · subst eh2; rw [← ha]; rfl
    · rw [← hs]; exact ex2.sets
    · intro _ b h3 ok3 _ o3
      exact Sim.ret ok3 (.inr ⟨_, _, rfl, rfl, Nat.le_refl _, o3⟩)

theorem getChildren_sim (ω : Oracle) (id : K) (h : HSt K T) (ok : Ok h) :
    Sim h.sets.length h.maps.length (H.getChildren ω id) (getChildren ω id) h (MapRel h.maps.length) := by
  unfold H.getChildren getChildren
  refine Sim.getL (Sim.getR ?_)
  rw [HSt.checkVertexID_abs]
  cases checkVertexID h.abs.g id with
  | some e => exact Sim.ret ok (.inl ⟨e, rfl, rfl⟩)
  | none =>
    refine Sim.newMap ok ?_
    intro h1 ok1 hs hl hv hin hout hanc hdesc ha o
    have hr : h1.read (GoMap.get? h.outb id) = setAt h.abs.g.outb id := by
      refine Eq.trans ?_ (HSt.setAt_mapV _ _ _).symm
      cases GoMap.get? h.outb id with
      | none => rfl
      | some x => show h1.deref x = h.deref x; unfold HSt.deref; rw [hs]
    refine Sim.rangeSet ok1 hr ?_
    intro l _ h2 eh2 ok2 ex2
    have o2 := o.ext ex2 o.lt
    refine Sim.seq (vf := fun v => Pure.pure (Except.ok v)) (vm := (Pure.pure _ : M K T (GoMap K T)))
      (fill l h.abs.g ?_ ok2 o2 ?_ (Nat.le_refl _)) (Nat.le_refl _) (Nat.le_refl _) ?_
    · subst eh2; rw [← ha]; rfl
    · rw [← hs]; exact ex2.sets
    · intro _ b h3 ok3 _ o3
      exact Sim.ret ok3 (.inr ⟨_, _, rfl, rfl, Nat.le_refl _, o3⟩)

theorem stringListing_sim (ω : Oracle) (h : HSt K T) (ok : Ok h) :
    Sim h.sets.length h.maps.length (H.stringListing ω : H K T (Listing K)) (stringListing ω) h
      (fun a b _ => a = b) := by
  unfold H.stringListing stringListing
  refine Sim.step (getOrder_sim h ok) ⟨Nat.le_refl _, Nat.le_refl _⟩ ?_
  rintro a _ h1 ok1 ex1 rfl le1
  refine Sim.step (getSize_sim ω h1 ok1) le1 ?_
  rintro a2 _ h2 ok2 ex2 rfl le2
  refine Sim.getL (Sim.getR ?_)
  refine Sim.rangeMap ok2 rfl ?_
  intro vs h3 _ ok3 ex3
  refine Sim.getL (Sim.getR ?_)
  refine Sim.rangeOuter ok3 ?_
  intro os h4 _ ok4 ex4
  have le4 : h.sets.length ≤ h4.sets.length ∧ h.maps.length ≤ h4.maps.length :=
      ⟨Nat.le_trans le2.1 (Nat.le_trans ex3.sets ex4.sets), Nat.le_trans le2.2 (Nat.le_trans ex3.maps ex4.maps)⟩
  refine Sim.seq (Sim.loop (fun a b _ => a = b) ok4 rfl le4.1 le4.2 ?_) (Nat.le_refl _) (Nat.le_refl _) ?_
  · rintro e _ a _ h5 ok5 _ _ rfl
    refine Sim.rangeSeen ok5 ?_
    intro cs h6 _ ok6
    exact Sim.ret ok6 rfl
  · rintro a _ h5 ok5 _ rfl
    exact Sim.ret ok5 rfl

/-- The queue of a walker and its set of visited vertices. -/
def WalkRel (c : Nat) (a : List K) (b : Walk K) (h : HSt K T) : Prop :=
  a = b.fifo ∧ Local c b.visited h

/-- One step of a walker. -/
def StepRel (c : Nat) (a : Option (K × List K)) (b : Option (K × Walk K)) (h : HSt K T) : Prop :=
  (a = none ∧ b = none) ∨ ∃ top x y, a = some (top, x) ∧ b = some (top, y) ∧ WalkRel c x y h

theorem enqueue {n m : Nat} {h : HSt K T} {c : Nat} (l : List (K × K)) (ok : Ok h)
    (lo : Local c [] h) (hn : n ≤ c) (hm : m ≤ h.maps.length) :
    Sim n m (H.loop l [] fun fifo p => H.addTo (some c) p.1 >>= fun _ => Pure.pure (fifo ++ [p.1]))
      (Pure.pure (l.foldl (fun w p => ⟨w.fifo ++ [p.1], GSet.add w.visited p.1⟩) ⟨[], []⟩) : M K T (Walk K)) h
      (WalkRel c) := by
  refine Sim.loopFold (WalkRel c) ok ⟨rfl, lo⟩ (Nat.le_trans hn (Nat.le_of_lt lo.lt)) hm ?_
  rintro p _ a b h1 ok1 _ _ ⟨rfl, lo1⟩
  refine Sim.seq (vm := Pure.pure ()) (vf := fun _ => Pure.pure _) (Sim.addLocal ok1 lo1 hn)
    (Nat.le_refl _) (Nat.le_refl _) ?_
  rintro _ _ h2 ok2 _ ⟨_, lo2⟩
  exact Sim.ret ok2 ⟨rfl, lo2⟩

theorem enqueueNew {n m : Nat} {h : HSt K T} {c : Nat} (l : List (K × K)) (fifo : List K) (v : GSet K) (ok : Ok h)
    (lo : Local c v h) (hn : n ≤ c) (hm : m ≤ h.maps.length) :
    Sim n m (H.loop l fifo fun fifo p => H.get >>= fun h =>
        if !(GSet.includes (h.deref c) p.1) then
          H.addTo (some c) p.1 >>= fun _ => Pure.pure (fifo ++ [p.1])
        else Pure.pure fifo)
      (Pure.pure (l.foldl (fun w p =>
        if !(GSet.includes w.visited p.1) then ⟨w.fifo ++ [p.1], GSet.add w.visited p.1⟩ else w)
        ⟨fifo, v⟩) : M K T (Walk K)) h
      (WalkRel c) := by
  refine Sim.loopFold (WalkRel c) ok ⟨rfl, lo⟩ (Nat.le_trans hn (Nat.le_of_lt lo.lt)) hm ?_
  rintro p _ a b h1 ok1 _ _ ⟨rfl, lo1⟩
  refine Sim.getL ?_
  rw [lo1.eq]
  split
  · refine Sim.seq (vm := Pure.pure ()) (vf := fun _ => Pure.pure _) (Sim.addLocal ok1 lo1 hn)
      (Nat.le_refl _) (Nat.le_refl _) ?_
    rintro _ _ h2 ok2 _ ⟨_, lo2⟩
    exact Sim.ret ok2 ⟨rfl, lo2⟩
  · exact Sim.ret ok1 ⟨rfl, lo1⟩

theorem walkAncestorsInit_sim (ω : Oracle) (id : K) {n m : Nat} {h : HSt K T} {c : Nat} (ok : Ok h)
    (lo : Local c [] h) (hn : n ≤ c) (hm : m ≤ h.maps.length) :
    Sim n m (H.walkAncestorsInit ω c id) (walkAncestorsInit ω id) h (WalkRel c) := by
  unfold H.walkAncestorsInit walkAncestorsInit
  refine Sim.getL (Sim.getR ?_)
  refine Sim.rangeSet ok (HSt.setAt_mapV _ _ _).symm ?_
  intro l _ h2 _ ok2 ex2
  exact enqueue l ok2 (lo.ext ex2 lo.lt) hn (Nat.le_trans hm ex2.maps)

theorem walkDescendantsInit_sim (ω : Oracle) (id : K) {n m : Nat} {h : HSt K T} {c : Nat} (ok : Ok h)
    (lo : Local c [] h) (hn : n ≤ c) (hm : m ≤ h.maps.length) :
    Sim n m (H.walkDescendantsInit ω c id) (walkDescendantsInit ω id) h (WalkRel c) := by
  unfold H.walkDescendantsInit walkDescendantsInit
  refine Sim.getL (Sim.getR ?_)
  refine Sim.rangeSet ok (HSt.setAt_mapV _ _ _).symm ?_
  intro l _ h2 _ ok2 ex2
  exact enqueue l ok2 (lo.ext ex2 lo.lt) hn (Nat.le_trans hm ex2.maps)

theorem walkAncestorsStep_sim (ω : Oracle) {n m : Nat} {h : HSt K T} {c : Nat} (a : List K) (b : Walk K)
    (ok : Ok h) (w : WalkRel c a b h) (hn : n ≤ c) (hm : m ≤ h.maps.length) :
    Sim n m (H.walkAncestorsStep ω c a) (walkAncestorsStep ω b) h (StepRel c) := by
  obtain ⟨rfl, lo⟩ := w
  unfold walkAncestorsStep
  cases b.fifo with
  | nil => exact Sim.ret ok (.inl ⟨rfl, rfl⟩)
  | cons top fifo =>
    unfold H.walkAncestorsStep
    refine Sim.getL (Sim.getR ?_)
    refine Sim.rangeSet ok (HSt.setAt_mapV _ _ _).symm ?_
    intro l _ h2 _ ok2 ex2
    refine Sim.seq (vm := (Pure.pure _ : M K T (Walk K))) (vf := fun w => Pure.pure (some (top, w)))
      (enqueueNew l fifo b.visited ok2 (lo.ext ex2 lo.lt) hn (Nat.le_trans hm ex2.maps))
      (Nat.le_refl _) (Nat.le_refl _) ?_
    intro x y h3 ok3 _ w3
    exact Sim.ret ok3 (.inr ⟨_, _, _, rfl, rfl, w3⟩)

theorem walkDescendantsStep_sim (ω : Oracle) {n m : Nat} {h : HSt K T} {c : Nat} (a : List K) (b : Walk K)
    (ok : Ok h) (w : WalkRel c a b h) (hn : n ≤ c) (hm : m ≤ h.maps.length) :
    Sim n m (H.walkDescendantsStep ω c a) (walkDescendantsStep ω b) h (StepRel c) := by
  obtain ⟨rfl, lo⟩ := w
  unfold walkDescendantsStep
  cases b.fifo with
  | nil => exact Sim.ret ok (.inl ⟨rfl, rfl⟩)
  | cons top fifo =>
    unfold H.walkDescendantsStep
    refine Sim.getL (Sim.getR ?_)
    refine Sim.rangeSet ok (HSt.setAt_mapV _ _ _).symm ?_
    intro l _ h2 _ ok2 ex2
    refine Sim.seq (vm := (Pure.pure _ : M K T (Walk K))) (vf := fun w => Pure.pure (some (top, w)))
      (enqueueNew l fifo b.visited ok2 (lo.ext ex2 lo.lt) hn (Nat.le_trans hm ex2.maps))
      (Nat.le_refl _) (Nat.le_refl _) ?_
    intro x y h3 ok3 _ w3
    exact Sim.ret ok3 (.inr ⟨_, _, _, rfl, rfl, w3⟩)

theorem drain_sim {n m c : Nat} {hs : List K → H K T (Option (K × List K))}
    {vs : Walk K → M K T (Option (K × Walk K))}
    (hstep : ∀ a b h, Ok h → WalkRel c a b h → m ≤ h.maps.length → Sim n m (hs a) (vs b) h (StepRel c))
    (fuel : Nat) (a : List K) (b : Walk K) (h : HSt K T) (ok : Ok h) (w : WalkRel c a b h)
    (hm : m ≤ h.maps.length) :
    Sim n m (H.drain hs fuel a) (drain vs fuel b) h (fun x y _ => x = y) := by
  induction fuel generalizing a b h with
  | zero => exact .inl ⟨rfl, rfl⟩
  | succ fuel ih =>
    unfold H.drain drain
    refine Sim.seq (hstep a b h ok w hm) (Nat.le_refl _) (Nat.le_refl _) ?_
    rintro x y h1 ok1 ex1 (⟨rfl, rfl⟩ | ⟨top, p, q, rfl, rfl, w1⟩)
    · exact Sim.ret ok1 rfl
    · refine Sim.seq (ih p q h1 ok1 w1 (Nat.le_trans hm ex1.maps)) (Nat.le_refl _) (Nat.le_refl _) ?_
      rintro r _ h2 ok2 _ rfl
      exact Sim.ret ok2 rfl

theorem getOrderedAncestors_sim (ω : Oracle) (id : K) (h : HSt K T) (ok : Ok h) :
    Sim h.sets.length h.maps.length (H.getOrderedAncestors ω id) (getOrderedAncestors ω id) h
      (fun a b _ => a = b) := by
  unfold H.getOrderedAncestors getOrderedAncestors
  refine Sim.getL (Sim.getR ?_)
  rw [HSt.checkVertexID_abs]
  cases checkVertexID h.abs.g id with
  | some e => exact Sim.ret ok rfl
  | none =>
    refine Sim.newSet ok (Nat.le_refl _) ?_
    intro h1 ok1 _ _ hm _ _ _ _ _ _ lo
    have hm1 : h.maps.length ≤ h1.maps.length := by rw [hm]
    refine Sim.seq (walkAncestorsInit_sim ω id ok1 lo (Nat.le_refl _) hm1) (Nat.le_refl _) (Nat.le_refl _) ?_
    intro a b h2 ok2 ex2 w
    refine Sim.seq (drain_sim (fun a b h ok w hm => walkAncestorsStep_sim ω a b ok w (Nat.le_refl _) hm)
      _ a b h2 ok2 w (Nat.le_trans hm1 ex2.maps)) (Nat.le_refl _) (Nat.le_refl _) ?_
    rintro x _ h3 ok3 _ rfl
    exact Sim.ret ok3 rfl

theorem getOrderedDescendants_sim (ω : Oracle) (id : K) (h : HSt K T) (ok : Ok h) :
    Sim h.sets.length h.maps.length (H.getOrderedDescendants ω id) (getOrderedDescendants ω id) h
      (fun a b _ => a = b) := by
  unfold H.getOrderedDescendants getOrderedDescendants
  refine Sim.getL (Sim.getR ?_)
  rw [HSt.checkVertexID_abs]
  cases checkVertexID h.abs.g id with
  | some e => exact Sim.ret ok rfl
  | none =>
    refine Sim.newSet ok (Nat.le_refl _) ?_
    intro h1 ok1 _ _ hm _ _ _ _ _ _ lo
    have hm1 : h.maps.length ≤ h1.maps.length := by rw [hm]
    refine Sim.seq (walkDescendantsInit_sim ω id ok1 lo (Nat.le_refl _) hm1) (Nat.le_refl _) (Nat.le_refl _) ?_
    intro a b h2 ok2 ex2 w
    refine Sim.seq (drain_sim (fun a b h ok w hm => walkDescendantsStep_sim ω a b ok w (Nat.le_refl _) hm)
      _ a b h2 ok2 w (Nat.le_trans hm1 ex2.maps)) (Nat.le_refl _) (Nat.le_refl _) ?_
    rintro x _ h3 ok3 _ rfl
    exact Sim.ret ok3 rfl

theorem reduceTransitively_sim (ω : Oracle) (h : HSt K T) (ok : Ok h) :
    Sim h.sets.length h.maps.length (H.reduceTransitively ω : H K T Unit) (reduceTransitively ω) h Any := by
  unfold H.reduceTransitively reduceTransitively
  refine Sim.step (getRoots_sim ω h ok) ⟨Nat.le_refl _, Nat.le_refl _⟩ ?_
  intro r roots h1 ok1 ex1 o1 le1
  refine Sim.rangeMap ok1 o1.2.eq ?_
  intro rs h2 _ ok2 ex2
  have le2 : h.sets.length ≤ h2.sets.length ∧ h.maps.length ≤ h2.maps.length :=
    ⟨Nat.le_trans le1.1 ex2.sets, Nat.le_trans le1.2 ex2.maps⟩
  refine Sim.seq (Sim.loop Any ok2 trivial le2.1 le2.2 ?_) (Nat.le_refl _) (Nat.le_refl _) ?_
  · intro x _ _ _ h3 ok3 ln3 lm3 _
    refine Sim.step (descendantsOf_sim ω x.1 h3 ok3) ⟨ln3, lm3⟩ ?_
    intro _ _ h4 ok4 _ _ _
    exact Sim.ret ok4 trivial
  intro _ _ h3 ok3 ex3 _
  have le3 : h.sets.length ≤ h3.sets.length ∧ h.maps.length ≤ h3.maps.length :=
    ⟨Nat.le_trans le2.1 ex3.sets, Nat.le_trans le2.2 ex3.maps⟩
  refine Sim.getL (Sim.getR ?_)
  refine Sim.rangeMap ok3 rfl ?_
  intro vs h4 _ ok4 ex4
  have le4 : h.sets.length ≤ h4.sets.length ∧ h.maps.length ≤ h4.maps.length :=
    ⟨Nat.le_trans le3.1 ex4.sets, Nat.le_trans le3.2 ex4.maps⟩
  refine Sim.seq (Sim.loop (fun a b _ => a = b) ok4 rfl le4.1 le4.2 ?_) (Nat.le_refl _) (Nat.le_refl _) ?_
  · rintro v _ changed _ h5 ok5 ln5 lm5 rfl
    refine Sim.newSet ok5 ln5 ?_
    intro h6 ok6 _ _ hm6 _ _ _ _ _ _ lo6
    have lm6 : h.maps.length ≤ h6.maps.length := by rw [hm6]; exact lm5
    refine Sim.getL (Sim.getR ?_)
    refine Sim.rangeSet ok6 (HSt.setAt_mapV _ _ _).symm ?_
    intro cs _ h7 _ ok7 ex7
    have lo7 := lo6.ext ex7 lo6.lt
    refine Sim.seq (n' := h.sets.length) (m' := h.maps.length)
      (Sim.loop (fun _ b (h' : HSt K T) => Local h5.sets.length b h') ok7 lo7
      (Nat.le_trans ln5 (Nat.le_of_lt lo7.lt)) (Nat.le_trans lm6 ex7.maps) ?_) (Nat.le_refl _) (Nat.le_refl _) ?_
    · intro c _ _ b h8 ok8 ln8 lm8 lo8
      refine Sim.getL (Sim.getR ?_)
      refine Sim.rangeSet ok8 (HSt.setAt_mapV _ _ _).symm ?_
      intro ds _ h9 _ ok9 ex9
      exact addAll Prod.fst ds ok9 (lo8.ext ex9 lo8.lt) ln5 (Nat.le_trans lm8 ex9.maps)
    intro _ cd h8 ok8 ex8 lo8
    refine Sim.getL (Sim.getR ?_)
    refine Sim.rangeSet ok8 (HSt.setAt_mapV _ _ _).symm ?_
    intro cs2 _ h9 _ ok9 ex9
    have lo9 := lo8.ext ex9 lo8.lt
    refine Sim.mono (R := fun a b (h' : HSt K T) => a = b ∧ Local h5.sets.length cd h')
      (Sim.loop (fun a b (h' : HSt K T) => a = b ∧ Local h5.sets.length cd h') ok9 ⟨rfl, lo9⟩
        (Nat.le_trans ln5 (Nat.le_of_lt lo9.lt))
        (Nat.le_trans lm6 (Nat.le_trans ex7.maps (Nat.le_trans ex8.maps ex9.maps))) ?_)
      (Nat.le_refl _) (Nat.le_refl _) (fun _ _ _ _ _ hh => hh.1)
    rintro c _ a _ h10 ok10 ln10 lm10 ⟨rfl, lo10⟩
    refine Sim.getL ?_
    rw [lo10.eq]
    split
    · refine Sim.step (Sim.deleteOut ok10) ⟨ln10, lm10⟩ ?_
      intro _ _ h11 ok11 ex11 _ le11
      have lo11 := lo10.ext ex11 lo10.lt
      refine Sim.getL ?_
      refine Sim.step (Sim.deleteIn ok11) le11 ?_
      intro _ _ h12 ok12 ex12 _ le12
      exact Sim.ret ok12 ⟨rfl, lo11.ext ex12 lo11.lt⟩
    · exact Sim.ret ok10 ⟨rfl, lo10⟩
  · rintro changed _ h5 ok5 ex5 rfl
    split
    · exact Sim.flush ok5
    · exact Sim.ret ok5 trivial

end Verif.Dag
