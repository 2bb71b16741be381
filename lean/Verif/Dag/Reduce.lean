import Verif.Dag.Queries

/-! Transitive reduction. -/

set_option linter.unusedSectionVars false

namespace Verif.Dag
open M Relation

variable {K T : Type} [DecidableEq K] [GoZero K] [GoZero T]

/-- Every vertex is a root or has a root above it. -/
theorem exists_root {g : Graph K T} (hg : GInv g) (v : K) (hv : GoMap.has g.vertices v = true) :
    ∃ r, GoMap.has g.vertices r = true ∧ (∀ a, ¬ g.E a r) ∧ (r = v ∨ g.Reach r v) := by
  generalize hn : rank .up g v = n
  induction n using Nat.strongRecOn generalizing v with
  | ind n ih =>
    by_cases h : ∃ a, g.E a v
    · obtain ⟨a, ha⟩ := h
      have := rank_lt_of_edge hg .up ((hg.conv a v).mpr ha)
      obtain ⟨r, h1, h2, h3⟩ := ih _ (by omega) a (hg.ends a v ha).1 rfl
      refine ⟨r, h1, h2, Or.inr ?_⟩
      rcases h3 with rfl | h3
      · exact .single ha
      · exact .tail h3 ha
    · exact ⟨v, hv, fun a ha => h ⟨a, ha⟩, Or.inl rfl⟩

/-- Every vertex is a leaf or has a leaf below it. -/
theorem exists_leaf {g : Graph K T} (hg : GInv g) (v : K) (hv : GoMap.has g.vertices v = true) :
    ∃ r, GoMap.has g.vertices r = true ∧ (∀ a, ¬ g.E r a) ∧ (r = v ∨ g.Reach v r) := by
  generalize hn : rank .down g v = n
  induction n using Nat.strongRecOn generalizing v with
  | ind n ih =>
    by_cases h : ∃ a, g.E v a
    · obtain ⟨a, ha⟩ := h
      have := rank_lt_of_edge hg .down ha
      obtain ⟨r, h1, h2, h3⟩ := ih _ (by omega) a (hg.ends v a ha).2 rfl
      refine ⟨r, h1, h2, Or.inr ?_⟩
      rcases h3 with rfl | h3
      · exact .single ha
      · exact .head ha h3
    · exact ⟨v, hv, fun a ha => h ⟨a, ha⟩, Or.inl rfl⟩

open Classical in
/-- The reduced relation has the same closure (finite acyclic case). -/
theorem transGen_reduced {E : K → K → Prop} (hac : ∀ v, ¬ TransGen E v v) (V : List K)
    (hV : ∀ a b, E a b → b ∈ V) (a b : K) :
    TransGen (fun a b => E a b ∧ ¬ Implied E a b) a b ↔ TransGen E a b := by
  constructor
  · intro h; exact TransGen.mono (fun _ _ h => h.1) _ _ h
  · intro h
    generalize hn : V.countP (fun x => decide (TransGen E a x ∧ TransGen E x b)) = n
    induction n using Nat.strongRecOn generalizing a b with
    | ind n ih =>
      by_cases hx : ∃ x, TransGen E a x ∧ TransGen E x b
      · obtain ⟨x, h1, h2⟩ := hx
        have hxV : x ∈ V := by
          obtain ⟨c, _, hc⟩ := TransGen.tail'_iff.mp h1
          exact hV _ _ hc
        refine TransGen.trans (ih _ ?_ a x h1 rfl) (ih _ ?_ x b h2 rfl)
        · rw [← hn]
          refine countP_lt_of _ _ _ ?_ x hxV ?_ ?_
          · intro y _ hy; simp only [decide_eq_true_eq] at hy ⊢; exact ⟨hy.1, hy.2.trans h2⟩
          · simp only [decide_eq_true_eq]; exact ⟨h1, h2⟩
          · simp only [decide_eq_false_iff_not]; exact fun h => hac x h.2
        · rw [← hn]
          refine countP_lt_of _ _ _ ?_ x hxV ?_ ?_
          · intro y _ hy; simp only [decide_eq_true_eq] at hy ⊢; exact ⟨h1.trans hy.1, hy.2⟩
          · simp only [decide_eq_true_eq]; exact ⟨h1, h2⟩
          · simp only [decide_eq_false_iff_not]; exact fun h => hac x h.1
      · obtain ⟨m, h1, h2⟩ := TransGen.head'_iff.mp h
        rcases reflTransGen_iff_eq_or_transGen.mp h2 with rfl | h2
        · refine .single ⟨h1, ?_⟩
          rintro ⟨m, h3, h4⟩
          exact hx ⟨m, .single h3, h4⟩
        · exact absurd ⟨m, .single h1, h2⟩ hx

/-- State of the deletion phase: everything but the edge maps as in `g0`, edges given by `P`. -/
structure RS (g0 : Graph K T) (P : K → K → Prop) (g : Graph K T) : Prop where
  v : g.vertices = g0.vertices
  a : g.ancC = g0.ancC
  d : g.descC = g0.descC
  ond : GoMap.NodupKeys g.outb
  ind : GoMap.NodupKeys g.inb
  owf : ∀ k S, GoMap.get? g.outb k = some S → SetWF S
  iwf : ∀ k S, GoMap.get? g.inb k = some S → SetWF S
  hE : ∀ a b, g.E a b ↔ P a b
  hU : ∀ a b, Dir.up.E g b a ↔ P a b

theorem RS.del {g0 g : Graph K T} {P : K → K → Prop} (h : RS g0 P g) (id c : K) :
    RS g0 (fun a b => P a b ∧ ¬ (a = id ∧ b = c))
      { g with outb := GoMap.updAt g.outb id (fun s => GSet.delete s c),
               inb := GoMap.updAt g.inb c (fun s => GSet.delete s id) } := by
  constructor
  · exact h.v
  · exact h.a
  · exact h.d
  · exact h.ond.updAt _ _
  · exact h.ind.updAt _ _
  · exact wf_updAt h.owf _ _ (fun S h => GSet.wf_delete h _)
  · exact wf_updAt h.iwf _ _ (fun S h => GSet.wf_delete h _)
  · intro a b
    rw [← h.hE]
    exact (includes_remove _ _ _ _ _).trans (by rw [eq_comm (a := id)]; rfl)
  · intro a b
    rw [← h.hU]
    exact (includes_remove _ _ _ _ _).trans (by rw [eq_comm (a := c), and_comm (a := b = c)]; rfl)

theorem RS.congr {g0 g : Graph K T} {P P' : K → K → Prop} (h : RS g0 P g) (hp : ∀ a b, P a b ↔ P' a b) :
    RS g0 P' g :=
  ⟨h.v, h.a, h.d, h.ond, h.ind, h.owf, h.iwf, fun a b => (h.hE a b).trans (hp a b),
    fun a b => (h.hU a b).trans (hp a b)⟩

theorem CInv.nil (d : Dir) (g : Graph K T) (h : d.cache g = []) : CInv d g := by
  constructor
  · rw [h]; exact GoMap.NodupKeys.nil
  · intro v S hS; rw [h] at hS; cases hS
  · intro v c hv; rw [h] at hv; cases hv

theorem reduce_spec (ω : Oracle) (σ : St K T) (hi : Inv σ.g) :
    Tot (reduceTransitively ω) σ (fun _ σ' => Inv σ'.g ∧ σ'.g.vertices = σ.g.vertices ∧
      (∀ a b, σ'.g.E a b ↔ σ.g.E a b ∧ ¬ Implied σ.g.E a b) ∧
      ((∃ a b, σ.g.E a b ∧ Implied σ.g.E a b) → σ'.g.ancC = [] ∧ σ'.g.descC = []) ∧
      ((¬ ∃ a b, σ.g.E a b ∧ Implied σ.g.E a b) → (∀ x, GoMap.has σ'.g.ancC x = GoMap.has σ.g.ancC x) ∧
        ∀ x, GoMap.has σ'.g.descC x = GoMap.has σ.g.vertices x)) := by
  unfold reduceTransitively
  refine Tot.bind (Tot.mono (getRoots_spec ω σ hi) ?_)
  rintro roots σ1 ⟨hσ1, hrnd, hroots⟩
  refine Tot.bind (Tot.range ?_)
  intro rs hrs
  -- phase 1: fill the descendants cache from the roots
  refine Tot.bind (Tot.loop (fun pre _ _ s' => Inv s'.g ∧ Same σ.g s'.g ∧
    (∀ p ∈ pre, GoMap.has s'.g.descC p.1 = true) ∧ ∀ x, GoMap.has s'.g.ancC x = GoMap.has σ.g.ancC x) ?_ ?_ ?_)
  · rw [hσ1]; exact ⟨hi, Same.refl _, by simp, fun _ => rfl⟩
  · rintro pre r post _ s' hsplit ⟨h1, h2, h3, hanc⟩
    have hr : r ∈ roots := hrs.mem_iff.mp (by rw [hsplit]; simp)
    have hr' := (hroots r.1 r.2).mp ((GoMap.mem_iff_get? hrnd _ _).mp hr)
    have hv : GoMap.has s'.g.vertices r.1 = true := by
      rw [h2.v, GoMap.has_iff]; exact ⟨_, hr'.1⟩
    refine Tot.bind (Tot.mono (descendantsOf_spec ω r.1 s' h1 hv) ?_)
    rintro S s'' ⟨k1, k2, k3, k4, kf, -, -⟩
    refine Tot.pure ⟨k1, h2.trans k2, ?_, fun x => ?_⟩
    rotate_left
    · rw [← hanc x, Bool.eq_iff_iff]
      have := kf .up x
      simpa [Dir.cache] using this
    intro p hp
    rcases List.mem_append.mp hp with hp | hp
    · exact CacheMono.has k3 (h3 p hp)
    · rw [List.mem_singleton.mp hp]; exact k4
  rintro _ σ2 ⟨hi2, sm, hrc, hanc⟩
  -- all vertices are cached now
  have hall : ∀ v, GoMap.has σ2.g.vertices v = true → GoMap.has σ2.g.descC v = true := by
    intro v hv
    obtain ⟨r, h1, h2, h3⟩ := exists_root hi2.base v hv
    have hrd : GoMap.has σ2.g.descC r = true := by
      rw [sm.v, GoMap.has_iff] at h1
      obtain ⟨t, ht⟩ := h1
      rw [sm.E] at h2
      have := (hroots r t).mpr ⟨ht, h2⟩
      exact hrc (r, t) (hrs.mem_iff.mpr ((GoMap.mem_iff_get? hrnd _ _).mpr this))
    rcases h3 with rfl | h3
    · exact hrd
    · induction h3 with
      | single h => exact hi2.down.closed _ _ hrd h
      | tail _ h ih => exact hi2.down.closed _ _ (ih (hi2.base.ends _ _ h).1) h
  -- phase 2: delete
  refine Tot.bind (Tot.getG (Tot.bind (Tot.range ?_)))
  intro vs hvs
  have hvnd : (vs.map Prod.fst).Nodup := hi2.base.vnd.perm hvs
  have phase2 : ∀ (k : Bool → M K T Unit) Q, (∀ changed σ3, RS σ2.g (fun a b => σ2.g.E a b ∧ ¬ Implied σ2.g.E a b) σ3.g →
      (changed = false → ∀ a b, σ2.g.E a b → σ3.g.E a b) →
      (changed = true → ∃ a b, σ2.g.E a b ∧ Implied σ2.g.E a b) → Tot (k changed) σ3 Q) →
      Tot (M.loop vs false (fun changed v => do
        let id := v.1
        let g ← getG
        let cs ← range ω (setAt g.outb id)
        let childrenDescendants ← loop cs ([] : GSet K) fun acc c => do
          let g ← getG
          let ds ← range ω (setAt g.descC c.1)
          return ds.foldl (fun acc d => GSet.add acc d.1) acc
        let g ← getG
        let cs ← range ω (setAt g.outb id)
        loop cs changed fun changed c => do
          if GSet.includes childrenDescendants c.1 then
            modG fun g => { g with outb := GoMap.updAt g.outb id (fun s => GSet.delete s c.1) }
            modG fun g => { g with inb := GoMap.updAt g.inb c.1 (fun s => GSet.delete s id) }
            return true
          else return changed) >>= k) { σ2 with n := σ2.n + 1 } Q := by
    intro k Q hk
    refine Tot.bind (Tot.loop (fun pre _ changed s' =>
      RS σ2.g (fun a b => σ2.g.E a b ∧ ¬ ((∃ p ∈ pre, p.1 = a) ∧ Implied σ2.g.E a b)) s'.g ∧
      (changed = false → ∀ a b, σ2.g.E a b → s'.g.E a b) ∧
      (changed = true → ∃ a b, σ2.g.E a b ∧ Implied σ2.g.E a b)) ?_ ?_ ?_)
    · refine ⟨⟨rfl, rfl, rfl, hi2.base.ond, hi2.base.ind, hi2.base.owf, hi2.base.iwf, ?_, ?_⟩, fun _ _ _ h => h, fun h => by cases h⟩
      · intro a b; simp
      · intro a b; simp only [List.not_mem_nil, false_and, exists_false, not_false_eq_true, and_true]
        exact hi2.base.conv a b
    · rintro pre v post changed s' hsplit ⟨hrs', hch, hct⟩
      have hnotpre : ∀ p ∈ pre, p.1 ≠ v.1 := by
        intro p hp h
        rw [hsplit, List.map_append, List.map_cons, List.nodup_append] at hvnd
        exact hvnd.2.2 p.1 (List.mem_map_of_mem hp) v.1 List.mem_cons_self h
      have hrow : ∀ b, s'.g.E v.1 b ↔ σ2.g.E v.1 b := by
        intro b; rw [hrs'.hE]
        refine ⟨fun h => h.1, fun h => ⟨h, ?_⟩⟩
        rintro ⟨⟨p, hp, h1⟩, _⟩; exact hnotpre p hp h1
      refine Tot.bind (Tot.getG (Tot.bind (Tot.range ?_)))
      intro cs hcs
      have hcsmem := exists_range (setAt_wf hrs'.owf v.1) hcs
      -- childrenDescendants
      refine Tot.bind (Tot.loop (fun pre' _ acc s'' => s''.g = s'.g ∧
        ∀ x, GSet.includes acc x = true ↔ ∃ p ∈ pre', σ2.g.Reach p.1 x) ⟨rfl, by simp⟩ ?_ ?_)
      · rintro pre' c post' acc s'' hsp ⟨h1, h2⟩
        refine Tot.bind (Tot.getG (Tot.bind (Tot.range ?_)))
        intro ds hds
        refine Tot.pure ⟨h1, ?_⟩
        have hEc : σ2.g.E v.1 c.1 := (hrow c.1).mp ((hcsmem c.1).mp ⟨c, by rw [hsp]; simp, rfl⟩)
        have hc := hall c.1 (hi2.base.ends _ _ hEc).2
        rw [GoMap.has_iff] at hc
        obtain ⟨S, hS⟩ := hc
        obtain ⟨-, wS, hSx⟩ := hi2.down.exact c.1 S hS
        have hset : setAt s''.g.descC c.1 = S := by
          unfold setAt; rw [h1, hrs'.d, hS]; rfl
        rw [hset] at hds
        intro x
        rw [GSet.includes_foldl_add (fun a : K × K => a.1), h2, exists_range wS hds, hSx]
        simp only [List.mem_append, List.mem_singleton]
        constructor
        · rintro (⟨p, hp, h⟩ | h)
          · exact ⟨p, Or.inl hp, h⟩
          · exact ⟨c, Or.inr rfl, h⟩
        · rintro ⟨p, hp | rfl, h⟩
          · exact Or.inl ⟨p, hp, h⟩
          · exact Or.inr h
      rintro cd s2 ⟨hs2, hcd⟩
      have hcd' : ∀ x, GSet.includes cd x = true ↔ Implied σ2.g.E v.1 x := by
        intro x; rw [hcd]; unfold Implied
        constructor
        · rintro ⟨p, hp, h⟩
          exact ⟨p.1, (hrow _).mp ((hcsmem p.1).mp ⟨p, hp, rfl⟩), h⟩
        · rintro ⟨m, h1, h2⟩
          obtain ⟨p, hp, rfl⟩ := (hcsmem m).mpr ((hrow m).mpr h1)
          exact ⟨p, hp, h2⟩
      refine Tot.bind (Tot.getG (Tot.bind (Tot.range ?_)))
      intro cs2 hcs2
      rw [hs2] at hcs2
      have hcs2mem := exists_range (setAt_wf hrs'.owf v.1) hcs2
      refine Tot.loop (fun pre' _ changed s'' =>
        RS σ2.g (fun a b => (σ2.g.E a b ∧ ¬ ((∃ p ∈ pre, p.1 = a) ∧ Implied σ2.g.E a b)) ∧
          ¬ (a = v.1 ∧ (∃ p ∈ pre', p.1 = b) ∧ Implied σ2.g.E a b)) s''.g ∧
        (changed = false → ∀ a b, σ2.g.E a b → s''.g.E a b) ∧
        (changed = true → ∃ a b, σ2.g.E a b ∧ Implied σ2.g.E a b)) ?_ ?_ ?_
      · refine ⟨?_, ?_, hct⟩
        · show RS σ2.g _ s2.g
          rw [hs2]; exact hrs'.congr (fun a b => by simp)
        · show _ → ∀ a b, _ → s2.g.E a b
          rw [hs2]; exact hch
      · rintro pre' c post' ch s3 hsp ⟨h1, h2, h3⟩
        cases hin : GSet.includes cd c.1 with
        | true =>
          have himp := (hcd' c.1).mp hin
          simp only [if_true]
          refine Tot.bind (Tot.modG (Tot.bind (Tot.modG (Tot.pure ⟨?_, fun h => by (cases h), fun _ =>
            ⟨v.1, c.1, (hrow c.1).mp ((hcs2mem c.1).mp ⟨c, by rw [hsp]; simp, rfl⟩), himp⟩⟩))))
          refine (h1.del v.1 c.1).congr (fun a b => ?_)
          rw [and_assoc]
          refine and_congr_right (fun _ => ?_)
          simp only [List.mem_append, List.mem_singleton]
          constructor
          · rintro ⟨k1, k2⟩ ⟨ha, ⟨p, hp | rfl, hpb⟩, hI⟩
            · exact k1 ⟨ha, ⟨p, hp, hpb⟩, hI⟩
            · exact k2 ⟨ha, hpb.symm⟩
          · intro k1
            refine ⟨fun ⟨ha, ⟨p, hp, hpb⟩, hI⟩ => k1 ⟨ha, ⟨p, Or.inl hp, hpb⟩, hI⟩, ?_⟩
            rintro ⟨rfl, rfl⟩
            exact k1 ⟨rfl, ⟨c, Or.inr rfl, rfl⟩, himp⟩
        | false =>
          have himp : ¬ Implied σ2.g.E v.1 c.1 := fun h => by rw [(hcd' c.1).mpr h] at hin; cases hin
          simp only [Bool.false_eq_true, if_false]
          refine Tot.pure ⟨h1.congr (fun a b => ?_), h2, h3⟩
          refine and_congr_right (fun _ => ?_)
          simp only [List.mem_append, List.mem_singleton]
          constructor
          · rintro k1 ⟨ha, ⟨p, hp | rfl, hpb⟩, hI⟩
            · exact k1 ⟨ha, ⟨p, hp, hpb⟩, hI⟩
            · rw [ha, ← hpb] at hI; exact himp hI
          · rintro k1 ⟨ha, ⟨p, hp, hpb⟩, hI⟩
            exact k1 ⟨ha, ⟨p, Or.inl hp, hpb⟩, hI⟩
      · rintro ch s3 ⟨h1, h2, h3⟩
        refine ⟨h1.congr (fun a b => ?_), h2, h3⟩
        rw [and_assoc]
        refine and_congr_right (fun hab => ?_)
        simp only [List.mem_append, List.mem_singleton]
        constructor
        · rintro ⟨k1, k2⟩ ⟨⟨p, hp | rfl, hpa⟩, hI⟩
          · exact k1 ⟨⟨p, hp, hpa⟩, hI⟩
          · refine k2 ⟨hpa.symm, ?_, hI⟩
            rw [hcs2mem]; subst hpa; exact (hrow b).mpr hab
        · intro k1
          refine ⟨fun ⟨⟨p, hp, hpa⟩, hI⟩ => k1 ⟨⟨p, Or.inl hp, hpa⟩, hI⟩, ?_⟩
          rintro ⟨rfl, _, hI⟩
          exact k1 ⟨⟨v, Or.inr rfl, rfl⟩, hI⟩
    · rintro ch s3 ⟨h1, h2, h3⟩
      refine hk ch s3 (h1.congr (fun a b => ?_)) h2 h3
      refine and_congr_right (fun hab => not_congr ?_)
      refine ⟨fun h => h.2, fun h => ⟨?_, h⟩⟩
      have hv := (hi2.base.ends a b hab).1
      rw [GoMap.has_iff] at hv
      obtain ⟨t, ht⟩ := hv
      exact ⟨(a, t), hvs.mem_iff.mpr ((GoMap.mem_iff_get? hi2.base.vnd _ _).mpr ht), rfl⟩
  refine phase2 _ _ ?_
  intro changed σ3 h1 h2 h3
  rw [sm.E] at h3
  have hbase : GInv σ3.g := by
    constructor
    · rw [h1.v]; exact hi2.base.vnd
    · exact h1.ond
    · exact h1.ind
    · exact h1.owf
    · exact h1.iwf
    · rw [h1.v]; exact hi2.base.nz
    · intro a b; rw [h1.hU, downE, h1.hE]
    · intro a b h; rw [h1.v]; exact hi2.base.ends a b ((h1.hE a b).mp h).1
    · intro v h
      exact hi2.base.acyc v (TransGen.mono (fun a b h => ((h1.hE a b).mp h).1) _ _ h)
  cases changed with
  | true =>
    simp only [if_true]
    unfold flushCaches
    refine Tot.modG ⟨⟨?_, CInv.nil .down _ rfl, CInv.nil .up _ rfl⟩, h1.v.trans sm.v, ?_, fun _ => ⟨rfl, rfl⟩, fun h => absurd (h3 rfl) h⟩
    · exact ⟨hbase.vnd, hbase.ond, hbase.ind, hbase.owf, hbase.iwf, hbase.nz, hbase.conv, hbase.ends, hbase.acyc⟩
    · intro a b; rw [← sm.E]; exact h1.hE a b
  | false =>
    simp only [Bool.false_eq_true, if_false]
    have hEeq : ∀ a b, σ3.g.E a b ↔ σ2.g.E a b := fun a b =>
      ⟨fun h => ((h1.hE a b).mp h).1, h2 rfl a b⟩
    refine Tot.pure ⟨⟨hbase, ?_, ?_⟩, h1.v.trans sm.v, fun a b => by rw [h1.hE, sm.E], ?_, fun _ => ⟨?_, ?_⟩⟩
    rotate_left 2
    · rintro ⟨a, b, hab, himp⟩
      rw [← sm.E] at hab himp
      exact absurd himp ((h1.hE a b).mp (h2 rfl a b hab)).2
    · intro x; rw [h1.a]; exact hanc x
    · intro x
      rw [h1.d, ← sm.v, Bool.eq_iff_iff]
      refine ⟨fun hx => ?_, hall x⟩
      rw [GoMap.has_iff] at hx
      obtain ⟨S, hS⟩ := hx
      exact (hi2.down.exact x S hS).1
    · refine hi2.down.forget (fun _ => False) ?_ ?_ ?_ ?_ ?_
      · show GoMap.NodupKeys σ3.g.descC; rw [h1.d]; exact hi2.down.nd
      · intro v S; show GoMap.get? σ3.g.descC v = _ ↔ _; rw [h1.d]; simp; rfl
      · intro _ _ _ h; exact h
      · intro v c _; exact hEeq v c
      · intro v _ h; rw [h1.v]; exact h
    · refine hi2.up.forget (fun _ => False) ?_ ?_ ?_ ?_ ?_
      · show GoMap.NodupKeys σ3.g.ancC; rw [h1.a]; exact hi2.up.nd
      · intro v S; show GoMap.get? σ3.g.ancC v = _ ↔ _; rw [h1.a]; simp; rfl
      · intro _ _ _ h; exact h
      · intro v c _; rw [hbase.conv, hi2.base.conv]; exact hEeq c v
      · intro v _ h; rw [h1.v]; exact h

end Verif.Dag
