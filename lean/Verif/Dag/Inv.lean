import Verif.Dag.MapLemmas
import Mathlib.Logic.Relation

/-! The graph invariant and the correctness of the cached closure computation. -/

set_option linter.unusedSectionVars false

namespace Verif.Dag
open M Relation

variable {K T : Type} [DecidableEq K] [GoZero K] [GoZero T]

/-- There is an edge from `a` to `b`: read off the outbound map. -/
def Graph.E (g : Graph K T) (a b : K) : Prop := GSet.includes (setAt g.outb a) b = true

/-- `b` is reachable from `a` by one or more edges. -/
abbrev Graph.Reach (g : Graph K T) : K → K → Prop := TransGen g.E

/-- Direction of a traversal. -/
inductive Dir where
  | down | up

namespace Dir

def edges : Dir → Graph K T → GoMap K (GSet K)
  | .down, g => g.outb
  | .up, g => g.inb

def cache : Dir → Graph K T → GoMap K (GSet K)
  | .down, g => g.descC
  | .up, g => g.ancC

def withCache : Dir → Graph K T → GoMap K (GSet K) → Graph K T
  | .down, g, c => { g with descC := c }
  | .up, g, c => { g with ancC := c }

/-- Edge relation as seen in a direction. -/
def E (d : Dir) (g : Graph K T) (a b : K) : Prop := GSet.includes (setAt (d.edges g) a) b = true

end Dir

/-- The common text of `getAncestorsIDs` and `getDescendantsIDs`. -/
def closureIDs (ω : Oracle) (d : Dir) : Nat → K → M K T (Except Err (GSet K))
  | 0, _ => diverge
  | fuel + 1, id => do
    let g ← getG
    match checkVertexID g id with
    | some e => return .error e
    | none =>
      match GoMap.get? (d.cache g) id with
      | some cache => return .ok cache
      | none =>
        let cache ←
          match GoMap.get? (d.edges g) id with
          | none => M.pure []
          | some nexts => do
            let cs ← range ω nexts
            loop cs ([] : GSet K) fun cache p => do
              let r ← closureIDs ω d fuel p.1
              let sub : GSet K := match r with | .ok c => c | .error _ => []
              let ds ← range ω sub
              let cache := ds.foldl (fun c x => GSet.add c x.2) cache
              return GSet.add cache p.1
        modG fun g => d.withCache g (GoMap.set (d.cache g) id cache)
        return .ok cache

theorem getDescendantsIDs_eq (ω : Oracle) (fuel : Nat) (id : K) :
    (getDescendantsIDs ω fuel id : M K T _) = closureIDs ω .down fuel id := by
  induction fuel generalizing id with
  | zero => rfl
  | succ n ih => unfold getDescendantsIDs closureIDs; simp only [ih]; rfl

theorem getAncestorsIDs_eq (ω : Oracle) (fuel : Nat) (id : K) :
    (getAncestorsIDs ω fuel id : M K T _) = closureIDs ω .up fuel id := by
  induction fuel generalizing id with
  | zero => rfl
  | succ n ih => unfold getAncestorsIDs closureIDs; simp only [ih]; rfl

/-- Invariant of vertices and edges. -/
structure GInv (g : Graph K T) : Prop where
  vnd : GoMap.NodupKeys g.vertices
  ond : GoMap.NodupKeys g.outb
  ind : GoMap.NodupKeys g.inb
  owf : ∀ k S, GoMap.get? g.outb k = some S → SetWF S
  iwf : ∀ k S, GoMap.get? g.inb k = some S → SetWF S
  nz : GoMap.has g.vertices (zero : K) = false
  conv : ∀ a b, Dir.up.E g b a ↔ Dir.down.E g a b
  ends : ∀ a b, g.E a b → GoMap.has g.vertices a = true ∧ GoMap.has g.vertices b = true
  acyc : ∀ v, ¬ g.Reach v v

/-- Invariant of one of the two caches. -/
structure CInv (d : Dir) (g : Graph K T) : Prop where
  nd : GoMap.NodupKeys (d.cache g)
  exact : ∀ v S, GoMap.get? (d.cache g) v = some S →
    GoMap.has g.vertices v = true ∧ SetWF S ∧ ∀ x, GSet.includes S x = true ↔ TransGen (d.E g) v x
  closed : ∀ v c, GoMap.has (d.cache g) v = true → d.E g v c → GoMap.has (d.cache g) c = true

/-- The whole invariant. -/
structure Inv (g : Graph K T) : Prop where
  base : GInv g
  down : CInv .down g
  up : CInv .up g

theorem downE (g : Graph K T) : Dir.down.E g = g.E := rfl

theorem GInv.upE {g : Graph K T} (h : GInv g) : Dir.up.E g = Function.swap g.E := by
  funext a b; exact propext (h.conv b a)

theorem GInv.upTG {g : Graph K T} (h : GInv g) (a b : K) : TransGen (Dir.up.E g) a b ↔ g.Reach b a := by
  rw [h.upE, transGen_swap]

theorem GInv.dAcyc {g : Graph K T} (h : GInv g) (d : Dir) (v : K) : ¬ TransGen (d.E g) v v := by
  cases d with
  | down => exact h.acyc v
  | up => rw [h.upTG]; exact h.acyc v

theorem GInv.dEnds {g : Graph K T} (h : GInv g) (d : Dir) (a b : K) (he : d.E g a b) :
    GoMap.has g.vertices a = true ∧ GoMap.has g.vertices b = true := by
  cases d with
  | down => exact h.ends a b he
  | up => exact (h.ends b a ((h.conv b a).mp he)).symm

theorem GInv.dWF {g : Graph K T} (h : GInv g) (d : Dir) (k : K) (S : GSet K)
    (hs : GoMap.get? (d.edges g) k = some S) : SetWF S := by
  cases d with
  | down => exact h.owf k S hs
  | up => exact h.iwf k S hs

theorem setAt_wf {m : GoMap K (GSet K)} (h : ∀ k S, GoMap.get? m k = some S → SetWF S) (k : K) :
    SetWF (setAt m k) := by
  unfold setAt
  cases hk : GoMap.get? m k with
  | none => exact GSet.wf_nil
  | some S => exact h k S hk

theorem checkVertexID_none {g : Graph K T} (h : GInv g) (id : K) :
    checkVertexID g id = none ↔ GoMap.has g.vertices id = true := by
  unfold checkVertexID isZero
  by_cases hz : id = zero
  · subst hz; simp [h.nz]
  · simp [hz]

/-! ### Rank: number of vertices strictly reachable -/

open Classical in
/-- Number of vertices reachable from `v` in direction `d`. -/
noncomputable def rank (d : Dir) (g : Graph K T) (v : K) : Nat :=
  (GoMap.keys g.vertices).countP (fun x => decide (TransGen (d.E g) v x))

theorem countP_lt_of {α : Type} (p q : α → Bool) (l : List α) (hpq : ∀ x ∈ l, p x = true → q x = true)
    (y : α) (hy : y ∈ l) (hq : q y = true) (hp : p y = false) : l.countP p < l.countP q := by
  induction l with
  | nil => cases hy
  | cons a l ih =>
    rw [List.countP_cons, List.countP_cons]
    have hle : l.countP p ≤ l.countP q :=
      List.countP_mono_left (fun x hx h => hpq x (List.mem_cons_of_mem _ hx) h)
    rcases List.mem_cons.mp hy with rfl | hy
    · simp only [hp, hq]; simp; omega
    · have := ih (fun x hx h => hpq x (List.mem_cons_of_mem _ hx) h) hy
      have ha := hpq a List.mem_cons_self
      cases hpa : p a with
      | false => simp; omega
      | true => simp [ha hpa]; omega

theorem rank_lt_of_edge {g : Graph K T} (h : GInv g) (d : Dir) {a b : K} (he : d.E g a b) :
    rank d g b < rank d g a := by
  unfold rank
  refine countP_lt_of _ _ _ ?_ b ?_ ?_ ?_
  · intro x _ hx
    simp only [decide_eq_true_eq] at hx ⊢
    exact TransGen.head he hx
  · rw [GoMap.mem_keys_iff_has]; exact (h.dEnds d a b he).2
  · simp only [decide_eq_true_eq]; exact TransGen.single he
  · simp only [decide_eq_false_iff_not]; exact h.dAcyc d b

theorem rank_lt_order {g : Graph K T} (h : GInv g) (d : Dir) {a : K}
    (ha : GoMap.has g.vertices a = true) : rank d g a < g.vertices.length := by
  unfold rank
  have : (GoMap.keys g.vertices).length = g.vertices.length := by simp [GoMap.keys]
  have h2 : (GoMap.keys g.vertices).countP (fun _ => true) = (GoMap.keys g.vertices).length := by simp
  rw [← this, ← h2]
  refine countP_lt_of _ _ _ (by simp) a ?_ rfl ?_
  · rw [GoMap.mem_keys_iff_has]; exact ha
  · simp only [decide_eq_false_iff_not]; exact h.dAcyc d a

/-! ### The closure computation -/

/-- `g'` differs from `g` at most in the cache of direction `d`. -/
def SameBut (d : Dir) (g g' : Graph K T) : Prop := g' = d.withCache g (d.cache g')

theorem SameBut.refl (d : Dir) (g : Graph K T) : SameBut d g g := by
  cases d <;> rfl

theorem SameBut.trans {d : Dir} {g g' g'' : Graph K T} (h : SameBut d g g') (h' : SameBut d g' g'') :
    SameBut d g g'' := by
  unfold SameBut at *
  rw [h'] ; rw [h]; cases d <;> rfl

theorem SameBut.withCache (d : Dir) (g : Graph K T) (c) : SameBut d g (d.withCache g c) := by
  cases d <;> rfl

theorem SameBut.vertices {d : Dir} {g g' : Graph K T} (h : SameBut d g g') : g'.vertices = g.vertices := by
  rw [h]; cases d <;> rfl

theorem SameBut.edges {d : Dir} {g g' : Graph K T} (h : SameBut d g g') (d' : Dir) :
    d'.edges g' = d'.edges g := by
  rw [h]; cases d <;> cases d' <;> rfl

theorem SameBut.E {d : Dir} {g g' : Graph K T} (h : SameBut d g g') (d' : Dir) : d'.E g' = d'.E g := by
  unfold Dir.E; rw [h.edges]

theorem SameBut.gE {d : Dir} {g g' : Graph K T} (h : SameBut d g g') : g'.E = g.E := h.E .down

theorem cache_withCache (d : Dir) (g : Graph K T) (c) : d.cache (d.withCache g c) = c := by
  cases d <;> rfl

theorem SameBut.ginv {d : Dir} {g g' : Graph K T} (h : SameBut d g g') (hg : GInv g) : GInv g' := by
  have e1 := h.edges .down
  have e2 := h.edges .up
  have ev := h.vertices
  simp only [Dir.edges] at e1 e2
  constructor
  · rw [ev]; exact hg.vnd
  · rw [e1]; exact hg.ond
  · rw [e2]; exact hg.ind
  · rw [e1]; exact hg.owf
  · rw [e2]; exact hg.iwf
  · rw [ev]; exact hg.nz
  · intro a b; rw [h.E, h.E]; exact hg.conv a b
  · intro a b; rw [h.gE, ev]; exact hg.ends a b
  · unfold Graph.Reach; rw [h.gE]; exact hg.acyc

/-- Entries already cached stay as they are. -/
def CacheMono (d : Dir) (g g' : Graph K T) : Prop :=
  ∀ v S, GoMap.get? (d.cache g) v = some S → GoMap.get? (d.cache g') v = some S

theorem CacheMono.has {d : Dir} {g g' : Graph K T} (h : CacheMono d g g') {v : K}
    (hv : GoMap.has (d.cache g) v = true) : GoMap.has (d.cache g') v = true := by
  rw [GoMap.has_iff] at *
  obtain ⟨S, hS⟩ := hv
  exact ⟨S, h v S hS⟩

/-- Only `id` and what it leads to are newly cached. -/
def CacheFrom (d : Dir) (id : K) (g g' : Graph K T) : Prop :=
  ∀ x, GoMap.has (d.cache g') x = true → GoMap.has (d.cache g) x = true ∨ x = id ∨ TransGen (d.E g) id x

theorem CacheFrom.refl (d : Dir) (id : K) (g : Graph K T) : CacheFrom d id g g := fun _ h => .inl h

theorem closure_spec (ω : Oracle) (d : Dir) (fuel : Nat) (id : K) (s : St K T)
    (hg : GInv s.g) (hc : CInv d s.g) (hv : GoMap.has s.g.vertices id = true)
    (hf : rank d s.g id < fuel) :
    Tot (closureIDs ω d fuel id) s (fun r s' =>
      SameBut d s.g s'.g ∧ CInv d s'.g ∧ CacheMono d s.g s'.g ∧
      ∃ S, r = .ok S ∧ SetWF S ∧ (∀ x, GSet.includes S x = true ↔ TransGen (d.E s.g) id x) ∧
        GoMap.get? (d.cache s'.g) id = some S ∧ CacheFrom d id s.g s'.g) := by
  induction fuel generalizing id s with
  | zero => omega
  | succ n ih =>
    unfold closureIDs
    refine Tot.bind (Tot.getG ?_)
    have hck := (checkVertexID_none hg id).mpr hv
    simp only [hck]
    cases hget : GoMap.get? (d.cache s.g) id with
    | some S =>
      refine Tot.pure ⟨SameBut.refl _ _, hc, fun _ _ h => h, S, rfl, ?_⟩
      obtain ⟨_, h2, h3⟩ := hc.exact id S hget
      exact ⟨h2, h3, hget, .refl _ _ _⟩
    | none =>
      -- storing the computed set
      have fin : ∀ (C : GSet K) (s1 : St K T), (SameBut d s.g s1.g ∧ CInv d s1.g ∧ CacheMono d s.g s1.g ∧ SetWF C ∧
            (∀ x, GSet.includes C x = true ↔ TransGen (d.E s.g) id x) ∧
            (∀ c, d.E s.g id c → GoMap.has (d.cache s1.g) c = true) ∧ CacheFrom d id s.g s1.g) →
          Tot (do
            modG fun g => d.withCache g (GoMap.set (d.cache g) id C)
            return .ok C : M K T (Except Err (GSet K))) s1 (fun r s' =>
              SameBut d s.g s'.g ∧ CInv d s'.g ∧ CacheMono d s.g s'.g ∧
              ∃ S, r = .ok S ∧ SetWF S ∧ (∀ x, GSet.includes S x = true ↔ TransGen (d.E s.g) id x) ∧
                GoMap.get? (d.cache s'.g) id = some S ∧ CacheFrom d id s.g s'.g) := by
        rintro C s1 ⟨k1, k2, k3, k4, k5, k6, k7⟩
        refine Tot.bind (Tot.modG ?_)
        refine Tot.pure ?_
        have sb : SameBut d s1.g (d.withCache s1.g (GoMap.set (d.cache s1.g) id C)) :=
          SameBut.withCache _ _ _
        refine ⟨k1.trans sb, ?_, ?_, C, rfl, k4, k5, ?_, ?_⟩
        · constructor
          · rw [cache_withCache]; exact k2.nd.set _ _
          · intro v S hS
            simp only [cache_withCache, GoMap.get?_set] at hS
            rw [sb.vertices, sb.E]
            by_cases hvid : v = id
            · simp only [hvid, if_true, Option.some.injEq] at hS
              subst hS; rw [hvid, k1.E, k1.vertices]
              exact ⟨hv, k4, k5⟩
            · simp only [hvid, if_false] at hS
              exact k2.exact v S hS
          · intro v c hv' hE
            rw [sb.E] at hE
            simp only [cache_withCache, GoMap.has_set] at hv' ⊢
            right
            rcases hv' with rfl | hv'
            · rw [k1.E] at hE; exact k6 c hE
            · exact k2.closed v c hv' hE
        · intro v S hS
          simp only [cache_withCache, GoMap.get?_set]
          have hne : v ≠ id := by rintro rfl; rw [hget] at hS; cases hS
          simp only [hne, if_false]
          exact k3 v S hS
        · simp [cache_withCache]
        · intro x hx
          simp only [cache_withCache, GoMap.has_set] at hx
          rcases hx with rfl | hx
          · exact .inr (.inl rfl)
          · exact k7 x hx
      cases hn : GoMap.get? (d.edges s.g) id with
      | none =>
        have hno : ∀ c, ¬ d.E s.g id c := by
          intro c h; unfold Dir.E setAt at h; rw [hn] at h; simp at h
        refine Tot.bind (Tot.mpure (fin _ _ ⟨SameBut.refl _ _, hc, fun _ _ h => h, GSet.wf_nil, ?_, ?_, .refl _ _ _⟩))
        · intro x
          constructor
          · intro h; simp at h
          · intro h
            rcases (TransGen.head'_iff).mp h with ⟨c, h1, _⟩
            exact absurd h1 (hno c)
        · intro c h; exact absurd h (hno c)
      | some nexts =>
        have hwf := hg.dWF d id nexts hn
        have hE : ∀ c, d.E s.g id c ↔ GSet.includes nexts c = true := by
          intro c; unfold Dir.E setAt; rw [hn]; rfl
        refine Tot.bind (Tot.range ?_)
        intro cs hperm
        have hmem : ∀ p, p ∈ cs ↔ p.2 = p.1 ∧ d.E s.g id p.1 := by
          intro p; rw [hperm.mem_iff, GSet.mem_iff hwf, hE]
        refine Tot.bind (Tot.mono (Tot.loop (Q := fun C s1 => SameBut d s.g s1.g ∧ CInv d s1.g ∧ CacheMono d s.g s1.g ∧ SetWF C ∧
          (∀ x, GSet.includes C x = true ↔ TransGen (d.E s.g) id x) ∧
          (∀ c, d.E s.g id c → GoMap.has (d.cache s1.g) c = true) ∧ CacheFrom d id s.g s1.g) (fun pre post C s' =>
          SameBut d s.g s'.g ∧ CInv d s'.g ∧ CacheMono d s.g s'.g ∧ SetWF C ∧
          (∀ x, GSet.includes C x = true ↔ ∃ p ∈ pre, x = p.1 ∨ TransGen (d.E s.g) p.1 x) ∧
          (∀ p ∈ pre, GoMap.has (d.cache s'.g) p.1 = true) ∧ CacheFrom d id s.g s'.g) ?_ ?_ ?_) fin)
        · exact ⟨SameBut.refl _ _, hc, fun _ _ h => h, GSet.wf_nil, by simp, by simp, .refl _ _ _⟩
        · rintro pre p post C s1 hcs ⟨i1, i2, i3, i4, i5, i6, i7⟩
          have hp : d.E s.g id p.1 := ((hmem p).mp (by rw [hcs]; simp)).2
          have hg1 := i1.ginv hg
          refine Tot.bind (Tot.mono (ih p.1 s1 hg1 i2 ?_ ?_) ?_)
          · rw [i1.vertices]; exact (hg.dEnds d _ _ hp).2
          · have := rank_lt_of_edge hg d hp
            have e : rank d s1.g p.1 = rank d s.g p.1 := by
              unfold rank; rw [i1.vertices, i1.E]
            omega
          · rintro r s2 ⟨j1, j2, j3, S, rfl, j5, j6, j7, j8⟩
            refine Tot.bind (Tot.range ?_)
            intro ds hds
            refine Tot.pure ?_
            refine ⟨i1.trans j1, j2, fun v S h => j3 v S (i3 v S h), ?_, ?_, ?_, ?_⟩
            · exact GSet.wf_add (GSet.wf_foldl_add _ _ i4) _
            · intro x
              rw [GSet.includes_add, GSet.includes_foldl_add (fun a : K × K => a.2), i5]
              have hS : (∃ a ∈ ds, a.2 = x) ↔ TransGen (d.E s.g) p.1 x := by
                rw [← i1.E d, ← j6 x]
                constructor
                · rintro ⟨a, ha, rfl⟩
                  rw [hds.mem_iff, GSet.mem_iff j5] at ha
                  rw [ha.1]; exact ha.2
                · intro hx
                  exact ⟨(x, x), by rw [hds.mem_iff, GSet.mem_iff j5]; exact ⟨rfl, hx⟩, rfl⟩
              rw [hS]
              simp only [List.mem_append, List.mem_singleton]
              constructor
              · rintro (h | h | h)
                · exact ⟨p, Or.inr rfl, Or.inl h⟩
                · obtain ⟨q, hq, h⟩ := h; exact ⟨q, Or.inl hq, h⟩
                · exact ⟨p, Or.inr rfl, Or.inr h⟩
              · rintro ⟨q, hq | rfl, h⟩
                · exact Or.inr (Or.inl ⟨q, hq, h⟩)
                · rcases h with h | h
                  · exact Or.inl h
                  · exact Or.inr (Or.inr h)
            · intro q hq
              simp only [List.mem_append, List.mem_singleton] at hq
              rcases hq with hq | rfl
              · exact CacheMono.has j3 (i6 q hq)
              · rw [GoMap.has_iff]; exact ⟨S, j7⟩
            · intro x hx
              rcases j8 x hx with hx | rfl | hx
              · exact i7 x hx
              · exact .inr (.inr (.single hp))
              · rw [i1.E] at hx; exact .inr (.inr (.head hp hx))
        · rintro C s' ⟨i1, i2, i3, i4, i5, i6, i7⟩
          refine ⟨i1, i2, i3, i4, ?_, ?_, i7⟩
          · intro x
            rw [i5, TransGen.head'_iff]
            constructor
            · rintro ⟨p, hp, h⟩
              refine ⟨p.1, ((hmem p).mp hp).2, ?_⟩
              rcases h with rfl | h
              · exact ReflTransGen.refl
              · exact h.to_reflTransGen
            · rintro ⟨c, h1, h2⟩
              refine ⟨(c, c), (hmem _).mpr ⟨rfl, h1⟩, ?_⟩
              rcases reflTransGen_iff_eq_or_transGen.mp h2 with rfl | h2
              · exact Or.inl rfl
              · exact Or.inr h2
          · intro c h1
            exact i6 (c, c) ((hmem _).mpr ⟨rfl, h1⟩)

end Verif.Dag
