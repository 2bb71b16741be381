import Verif.Props.Concurrent

/-!
# Exactly which goroutines race (C58)

If a goroutine has to compute an answer and another uses the same cache, some interleaving is a
data race.  With `fine_of_apart` this says exactly which goroutines may run at the same time.
-/

set_option linter.unusedSectionVars false

namespace Verif.Dag
open HSt (Ok)

section
variable {K T α β : Type} [DecidableEq K] [GoZero K] [GoZero T]

/-! ## A goroutine running alone -/

/-- Running alone, the goroutine comes to an access with `A`. -/
def Meets (A : Prim K T → Prop) (ω : Oracle) : Prog K T α → Nat → HSt K T → Prop
  | .ret _, _, _ => False
  | .fail, _, _ => False
  | .op o k, n, h => A o ∨ Meets A ω (k (o.ret ω n h)) (o.tick n) (o.next h)

variable {A : Prim K T → Prop} {w w' : Mode} {ω : Oracle} {n : Nat} {S M : Set Nat} {h : HSt K T}

theorem Meets.bind {p : Prog K T α} {f : α → Prog K T β} (m : Meets A ω p n h) : Meets A ω (p.bind f) n h := by
  induction p generalizing n h with
  | ret a => exact m.elim
  | fail => exact m.elim
  | op o k ih =>
    rcases m with m | m
    · exact .inl m
    · exact .inr (ih _ m)

theorem Meets.after {p : Prog K T α} {f : α → Prog K T β} {Q : α → Nat → Set Nat → Set Nat → HSt K T → Prop}
    (s : Safe w ω Q p n S M h) (ok : Ok h) (m : Mine S M h)
    (hq : ∀ a n S M h, Q a n S M h → Meets A ω (f a) n h) : Meets A ω (p.bind f) n h := by
  induction p generalizing n S M h with
  | ret a => exact hq _ _ _ _ _ (s h (Rely.refl ok m))
  | fail => exact s.elim
  | op o k ih =>
    obtain ⟨al, s2⟩ := s h (Rely.refl ok m)
    exact .inr (ih _ s2 (o.quiet ok m al).ok (o.mine ok m al))

theorem Prim.next_fld (o : Prim K T) (f : Fld) (ho : ∀ id a, o ≠ .store f id a) : (o.next h).fld f = h.fld f := by
  cases o with
  | store f' id a =>
    by_cases e : f' = f
    · subst e; exact absurd rfl (ho id a)
    · cases f' <;> cases f <;> first | rfl | exact absurd rfl e
  | _ => cases f <;> rfl

/-- It writes to an outer map, or leaves it as it is. -/
theorem meets_or {p : Prog K T α} {Q : α → Nat → Set Nat → Set Nat → HSt K T → Prop} (F : Fld → Prop)
    (hA : ∀ f id a, F f → A (.store f id a)) (s : Safe w ω Q p n S M h) (ok : Ok h) (m : Mine S M h) :
    Meets A ω p n h ∨ ∃ a n' S' M' h', Q a n' S' M' h' ∧ ∀ f, F f → h'.fld f = h.fld f := by
  induction p generalizing n S M h with
  | ret a => exact .inr ⟨a, n, S, M, h, s h (Rely.refl ok m), fun _ _ => rfl⟩
  | fail => exact s.elim
  | op o k ih =>
    obtain ⟨al, s2⟩ := s h (Rely.refl ok m)
    by_cases ho : A o
    · exact .inl (.inl ho)
    · rcases ih _ s2 (o.quiet ok m al).ok (o.mine ok m al) with h1 | ⟨a, n', S', M', h', q, e⟩
      · exact .inl (.inr h1)
      · refine .inr ⟨a, n', S', M', h', q, fun f hf => (e f hf).trans (o.next_fld f ?_)⟩
        rintro id x rfl
        exact ho (hA f id x hf)

theorem Conf.Reach.trans {c c' c'' : Conf K T} (r : c.Reach c') (r' : c'.Reach c'') : c.Reach c'' := by
  induction r' with
  | refl => exact r
  | step i _ e ih => exact .step i ih e

/-- It is run up to that access. -/
theorem Meets.go {c : Conf K T} {i : Nat} {p : Prog K T (List (Res K T))}
    {Q : List (Res K T) → Nat → Set Nat → Set Nat → HSt K T → Prop}
    (ht : c.ts[i]? = some ⟨p, ω, n⟩) (mt : Meets A ω p n c.h) (s : Safe w ω Q p n S M c.h) (ok : Ok c.h)
    (m : Mine S M c.h)
    (hst : ∀ o S M h, o.allowed w S M h → ¬ A o → ∀ f, w'.sees f → (o.next h).fld f = h.fld f) :
    ∃ c' o k n' S' M', c.Reach c' ∧ c'.ts = c.ts.set i ⟨.op o k, ω, n'⟩ ∧ A o ∧ Rely w' ∅ ∅ c.h c'.h ∧
      o.allowed w S' M' c'.h := by
  have m0 : ∀ h : HSt K T, Mine (∅ : Set Nat) ∅ h := fun h => ⟨fun _ h => h.elim, fun _ h => h.elim⟩
  induction p generalizing n S M c with
  | ret a => exact mt.elim
  | fail => exact mt.elim
  | op o k ih =>
    obtain ⟨al, s2⟩ := s c.h (Rely.refl ok m)
    by_cases ho : A o
    · refine ⟨c, o, k, n, S, M, .refl _, ?_, ho, Rely.refl ok (m0 _), al⟩
      obtain ⟨hlt, e⟩ := List.getElem?_eq_some_iff.mp ht
      rw [← e, List.set_getElem_self]
    · have mt2 := mt.resolve_left ho
      have q := o.quiet ok m al
      have hlt : i < c.ts.length := (List.getElem?_eq_some_iff.mp ht).1
      have hstep : c.step i = some ⟨o.next c.h, c.ts.set i ⟨k (o.ret ω n c.h), ω, o.tick n⟩⟩ := by
        unfold Conf.step; rw [ht]
      obtain ⟨c', o', k', n', S', M', h1, h2, h3, h4, h5⟩ := ih _
        (c := ⟨o.next c.h, c.ts.set i ⟨k (o.ret ω n c.h), ω, o.tick n⟩⟩)
        (List.getElem?_set_self hlt) mt2 s2 q.ok (o.mine ok m al)
      refine ⟨c', o', k', n', S', M', Conf.Reach.trans (.step i (.refl _) hstep) h1, ?_, h3, ?_, h5⟩
      · rw [h2]; simp
      · exact (q.rely_fld m (m0 _) (fun _ _ h => h) (fun _ _ h => h) (hst o S M c.h al ho)).trans h4

/-! ## What a query does to a cache -/

/-- An access to an outer map. -/
def Uses (f : Fld) (o : Prim K T) : Prop := ∃ id, o = .look f id

theorem reachIDs_uses (e f : Fld) (fuel : Nat) (id : K) (hv : h.checkVertexID id = none) :
    Meets (Uses f) ω (P.reachIDs e f (fuel + 1) id : Prog K T _) n h := by
  unfold HSt.checkVertexID at hv
  by_cases hz : isZero id = true
  · rw [if_pos hz] at hv; cases hv
  rw [if_neg hz] at hv
  have hx : ∃ x, GoMap.get? h.verts id = some x := by
    cases hg : GoMap.get? h.verts id with
    | some x => exact ⟨x, rfl⟩
    | none =>
      unfold GoMap.has at hv
      rw [hg] at hv; simp at hv
  obtain ⟨x, hx⟩ := hx
  unfold P.reachIDs P.checkVertexID
  rw [if_neg hz]
  refine .inr ?_
  show Meets (Uses f) ω (Prog.bind (Prog.bind (Prog.ret (GoMap.get? h.verts id)) _) _) n h
  rw [hx]
  exact .inl ⟨id, rfl⟩

theorem exec_uses {fuel : Nat} {op : Op K T} {f : Fld} {id : K} (hc : op.cache = some (f, id))
    (hv : h.checkVertexID id = none) : Meets (Uses f) ω (P.exec (fuel + 1) op) n h := by
  cases op with
  | getAncestors _ => cases hc; exact Meets.bind (Meets.bind (reachIDs_uses _ _ _ _ hv))
  | getDescendants _ => cases hc; exact Meets.bind (Meets.bind (reachIDs_uses _ _ _ _ hv))
  | _ => cases hc

theorem script_uses (nat : ω.Natural) (ops : List (Op K T)) (hq : ∀ op ∈ ops, op.isQuery = true) {γ : Graph K T}
    {fuel : Nat} (hc : ∀ op ∈ ops, ∀ f id, op.cache = some (f, id) → Entitled w γ f id)
    (hf : fuel = fuelFor γ) (hi : Inv γ) (g : Good w S M h γ) {f : Fld} {op : Op K T} (ho : op ∈ ops) {id : K}
    (hop : op.cache = some (f, id)) (hv : checkVertexID γ id = none) :
    Meets (Uses f) ω (P.script fuel ops) n h := by
  induction ops generalizing n S M h γ with
  | nil => cases ho
  | cons op' ops ih =>
    unfold P.script
    by_cases e : op' = op
    · subst e
      refine Meets.bind ?_
      rw [hf]
      refine exec_uses hop ?_
      unfold checkVertexID at hv
      unfold HSt.checkVertexID
      rw [g.view.verts]
      exact hv
    · obtain ⟨r, σ1, e1, hi1, _, _⟩ := exec_refines ω op' ⟨γ, n⟩ hi
      have ask := (query_asked ω op' (hq op' List.mem_cons_self) ⟨γ, n⟩ hi).elim e1
      have s1 := CSim.call g (exec_conc (n := n) nat op' (hq op' List.mem_cons_self) (hc op' List.mem_cons_self) g.empty)
        r σ1 e1
      rw [← hf] at s1
      refine Meets.after s1 g.ok g.mine ?_
      rintro a n1 S1 M1 h1 ⟨_, g1, _⟩
      refine Meets.bind (ih (fun o ho => hq o (List.mem_cons_of_mem _ ho))
        (fun o ho f id hcf => (hc o (List.mem_cons_of_mem _ ho) f id hcf).asked ask) ?_ hi1 g1 ?_ ?_)
      · rw [hf]; unfold fuelFor; rw [ask.same.v]
      · rcases List.mem_cons.mp ho with rfl | ho
        · exact absurd rfl e
        · exact ho
      · rw [check_same ask.same]; exact hv

/-! ## The race -/

open Classical in
/-- A goroutine that may do to the caches it touches what it likes. -/
noncomputable def Job.mode (h : HSt K T) (j : Job K T) : Mode :=
  ⟨if j.Touches h .anc then .writes else .none, if j.Touches h .desc then .writes else .none⟩

theorem Job.mode_sees {j : Job K T} {f : Fld} (hf : f.isCache = true) (hs : (j.mode h).sees f) : j.Touches h f := by
  unfold Job.mode Mode.sees Mode.use at hs
  cases f with
  | inb => cases hf
  | outb => cases hf
  | anc => by_contra hn; exact hs (if_neg hn)
  | desc => by_contra hn; exact hs (if_neg hn)

theorem Job.mode_writes {j : Job K T} {f : Fld} (hf : f.isCache = true) (hs : j.Touches h f) : (j.mode h).writes f := by
  cases f with
  | inb => cases hf
  | outb => cases hf
  | anc => exact if_pos hs
  | desc => exact if_pos hs

theorem Op.cache_isCache {op : Op K T} {f : Fld} {id : K} (hc : op.cache = some (f, id)) : f.isCache = true := by
  cases op <;> first | (cases hc; rfl) | cases hc

theorem race_of_shared (ok : Ok h) (hi : Inv h.abs.g) (jobs : List (Job K T))
    (hj : ∀ j ∈ jobs, j.ω.Natural ∧ ∀ op ∈ j.ops, op.isQuery = true)
    {i i' : Nat} {j j' : Job K T} {f : Fld} (hne : i ≠ i') (e : jobs[i]? = some j) (e' : jobs[i']? = some j')
    (cold : j.Cold h f) (touches : j'.Touches h f) : ∃ c, (Conf.start h jobs).Reach c ∧ c.Race := by
  have v0 : ∀ w, View w h h.abs.g := fun w => ⟨rfl, fun f _ => (abs_fld h f).symm⟩
  have m0 : ∀ h : HSt K T, Mine (∅ : Set Nat) ∅ h := fun h => ⟨fun _ h => h.elim, fun _ h => h.elim⟩
  have hm := List.mem_of_getElem? e
  have hm' := List.mem_of_getElem? e'
  -- the first goroutine alone
  have ent : ∀ op ∈ j.ops, ∀ f id, op.cache = some (f, id) → Entitled ⟨.writes, .writes⟩ h.abs.g f id := by
    intro op _ f id hc
    have := Op.cache_isCache hc
    cases f with
    | inb => cases this
    | outb => cases this
    | anc => exact .inl rfl
    | desc => exact .inl rfl
  obtain ⟨rs, σ', run1, s1⟩ := script_conc (n := 0) (hj j hm).1 j.ops (hj j hm).2 ent rfl hi ⟨ok, m0 h, v0 _⟩
  have mt1 : Meets (fun o => ∃ f id a, o = .store f id a ∧ (j'.mode h).sees f) j.ω
      (P.script (H.fuelFor h) j.ops) 0 h := by
    rcases meets_or (A := fun o => ∃ f id a, o = .store f id a ∧ (j'.mode h).sees f)
      (fun f => (j'.mode h).sees f) (fun f id a hf => ⟨f, id, a, rfl, hf⟩) s1 ok (m0 h) with h1 | h1
    · exact h1
    · obtain ⟨a, n', S', M', h', ⟨_, v⟩, hfld⟩ := h1
      obtain ⟨op, ho, id, c1, c2, c3⟩ := cold
      have hfc := Op.cache_isCache c1
      obtain ⟨rs2, σ2, run2, _, _, filled⟩ := run_asked j.ω j.ops (hj j hm).2 ⟨h.abs.g, 0⟩ hi
      rw [run1] at run2
      cases run2
      have k1 := filled op ho f id c1 c2
      have hs : (⟨.writes, .writes⟩ : Mode).sees f := by
        cases f with
        | inb => cases hfc
        | outb => cases hfc
        | anc => exact Use.noConfusion
        | desc => exact Use.noConfusion
      rw [← v.fld f hs, GoMap.get?_mapV, hfld f (Job.mode_writes hfc touches).sees, c3] at k1
      exact absurd rfl k1
  have ht1 : (Conf.start h jobs).ts[i]? = some ⟨P.script (H.fuelFor h) j.ops, j.ω, 0⟩ := by
    show (jobs.map _)[i]? = _
    rw [List.getElem?_map, e]; rfl
  have quiet1 : ∀ (o : Prim K T) (S M : Set Nat) (h2 : HSt K T), o.allowed ⟨.writes, .writes⟩ S M h2 →
      ¬ (∃ f id a, o = .store f id a ∧ (j'.mode h).sees f) → ∀ f, (j'.mode h).sees f → (o.next h2).fld f = h2.fld f := by
    intro o S M h2 al hn f hf
    refine o.next_fld f ?_
    rintro id a rfl
    exact hn ⟨f, id, a, rfl, hf⟩
  obtain ⟨c1, o1, k1, n1, S1, M1, r1, t1, ⟨f1, id1, a1, rfl, hf1⟩, rely1, al1⟩ := Meets.go ht1 mt1 s1 ok (m0 _) quiet1
  have hfc1 : f1.isCache = true := al1.1.cache
  obtain ⟨op', ho', id', c1', c2'⟩ := Job.mode_sees hfc1 hf1
  -- then the second
  have ent' : ∀ op ∈ j'.ops, ∀ f id, op.cache = some (f, id) → Entitled (j'.mode h) h.abs.g f id := by
    intro op ho f id hc
    by_cases hck : h.checkVertexID id = none
    · exact .inl (Job.mode_writes (Op.cache_isCache hc) ⟨op, ho, id, hc, hck⟩)
    · exact .inr (.inl hck)
  have g1 : Good (j'.mode h) ∅ ∅ c1.h h.abs.g := ⟨rely1.ok, m0 _, (v0 _).rely rely1⟩
  obtain ⟨rs', σ2, run2, s2⟩ := script_conc (n := 0) (hj j' hm').1 j'.ops (hj j' hm').2 ent' rfl hi g1
  have mt2 : Meets (Uses f1) j'.ω (P.script (H.fuelFor h) j'.ops) 0 c1.h :=
    script_uses (hj j' hm').1 j'.ops (hj j' hm').2 ent' rfl hi g1 ho' c1' c2'
  have hlt : i < (Conf.start h jobs).ts.length := (List.getElem?_eq_some_iff.mp ht1).1
  have ht2 : c1.ts[i']? = some ⟨P.script (H.fuelFor h) j'.ops, j'.ω, 0⟩ := by
    rw [t1, List.getElem?_set_ne hne]
    show (jobs.map _)[i']? = _
    rw [List.getElem?_map, e']; rfl
  obtain ⟨c2, o2, k2, n2, S2, M2, r2, t2, ⟨id2, rfl⟩, _, _⟩ := mt2.go (w' := .plain) ht2 s2 rely1.ok (m0 _) (by
    intro o S M h2 al _ f hf
    refine o.next_fld f ?_
    rintro id a rfl
    have := al.1.cache
    rw [Mode.plain_sees hf] at this
    cases this)
  refine ⟨c2, r1.trans r2, i, i', .fld f1, true, false, hne, ?_, ?_, .inl rfl⟩
  · unfold Conf.access
    rw [t2, List.getElem?_set_ne (Ne.symm hne), t1, List.getElem?_set_self hlt]
    rfl
  · unfold Conf.access
    rw [t2, List.getElem?_set_self (List.getElem?_eq_some_iff.mp ht2).1]
    rfl

/-- **C58.**  Exactly which goroutines may run at the same time: none of those that have to compute an answer
shares a cache with another. -/
theorem C58_exact (ω : Oracle) (ss : List (Act K T)) (os : List (Out K T)) (h : HSt K T)
    (hh : client ω ss [] HSt.init = some (os, h)) (jobs : List (Job K T))
    (hj : ∀ j ∈ jobs, j.ω.Natural ∧ ∀ op ∈ j.ops, op.isQuery = true) :
    (∀ c, (Conf.start h jobs).Reach c → Fine (Spec.after Spec.empty (calls ss)) jobs c) ↔
      ¬ ∃ (i i' : Nat) (j j' : Job K T) (f : Fld), i ≠ i' ∧ jobs[i]? = some j ∧ jobs[i']? = some j' ∧
        j.Cold h f ∧ j'.Touches h f := by
  obtain ⟨ok, hi, ha⟩ := client_end hh
  constructor
  · rintro hfine ⟨i, i', j, j', f, hne, e, e', c, t⟩
    obtain ⟨c, r, race⟩ := race_of_shared ok hi jobs hj hne e e' c t
    exact (hfine c r).race race
  · intro hn c hr
    rw [← ha]
    refine fine_of_apart ok hi jobs hj ?_ c hr
    intro i i' j j' f hne e e' ⟨c1, c2⟩
    exact hn ⟨i, i', j, j', f, hne, e, e', c1, c2⟩

end

/-! ### Goroutines that use both caches -/

/-- After `edge12` the descendants of 2 and the ancestors of 1 are cached.  The first goroutine computes
descendants, the others only ancestors that are there. -/
def apart : List (Job Nat Nat) :=
  [⟨Oracle.forward, [.getDescendants 1]⟩, ⟨Oracle.backward, [.getAncestors 1, .getAncestors 3]⟩,
   ⟨Oracle.forward, [.getAncestors 1]⟩]

/-- They may run at the same time. -/
example (c : Conf Nat Nat) (hr : (Conf.start edgeMem apart).Reach c) :
    Fine (Spec.after Spec.empty (calls edge12)) apart c := by
  obtain ⟨os, hos⟩ := edgeMem_eq
  refine (C58_exact _ edge12 os edgeMem hos apart ?_).mpr ?_ c hr
  · intro j hj
    simp only [apart, List.mem_cons, List.not_mem_nil, or_false] at hj
    rcases hj with rfl | rfl | rfl
    · exact ⟨forward_natural, by simp [Op.isQuery]⟩
    · exact ⟨backward_natural, by simp [Op.isQuery]⟩
    · exact ⟨forward_natural, by simp [Op.isQuery]⟩
  · have a1 : GoMap.get? (edgeMem.fld .anc) 1 ≠ none := by decide +kernel
    have a3 : edgeMem.checkVertexID 3 ≠ none := by decide +kernel
    have z : ∀ (i : Nat) (j : Job Nat Nat) (f : Fld), apart[i]? = some j → j.Cold edgeMem f → i = 0 ∧ f = .desc := by
      rintro i j f e ⟨op, ho, id, c, ck, n⟩
      match i, e with
      | 0, e =>
        cases e
        rw [List.mem_singleton.mp ho] at c
        cases c; exact ⟨rfl, rfl⟩
      | 1, e =>
        cases e
        rcases List.mem_pair.mp ho with rfl | rfl
        · cases c; exact absurd n a1
        · cases c; exact absurd ck a3
      | 2, e =>
        cases e
        rw [List.mem_singleton.mp ho] at c
        cases c; exact absurd n a1
      | i + 3, e => simp [apart] at e
    rintro ⟨i, i', j, j', f, hne, e, e', c, op, ho, id, c', -⟩
    obtain ⟨rfl, rfl⟩ := z i j f e c
    match i', e' with
    | 0, _ => exact hne rfl
    | 1, e' =>
      cases e'
      rcases List.mem_pair.mp ho with rfl | rfl <;> cases c'
    | 2, e' =>
      cases e'
      rw [List.mem_singleton.mp ho] at c'
      cases c'
    | i + 3, e' => simp [apart] at e'

/-- Two goroutines that compute the same descendants may not. -/
example : ¬ ∀ c, (Conf.start edgeMem twice).Reach c → Fine (Spec.after Spec.empty (calls edge12)) twice c := by
  obtain ⟨os, hos⟩ := edgeMem_eq
  rw [C58_exact _ edge12 os edgeMem hos twice ?_, not_not]
  · refine ⟨0, 1, _, _, .desc, by decide, rfl, rfl, ?_, ?_⟩
    · exact ⟨_, List.mem_singleton.mpr rfl, 1, rfl, by decide +kernel, by decide +kernel⟩
    · exact ⟨_, List.mem_singleton.mpr rfl, 1, rfl, by decide +kernel⟩
  · intro j hj
    simp only [twice, List.mem_cons, List.not_mem_nil, or_false] at hj
    rcases hj with rfl | rfl <;> exact ⟨forward_natural, by simp [Op.isQuery]⟩

end Verif.Dag
