import Verif.Dag.Queries
import Mathlib.Data.Nat.Find
import Mathlib.Data.List.Perm.Subperm

/-! Breadth-first traversal. -/

set_option linter.unusedSectionVars false

namespace Verif.Dag
open M Relation

variable {K T : Type} [DecidableEq K] [GoZero K] [GoZero T]

/-! ### Distances -/

theorem pathLen_of_transGen {E : K → K → Prop} {a b : K} (h : TransGen E a b) : ∃ n, PathLen E n a b := by
  induction h with
  | single h => exact ⟨1, _, rfl, h⟩
  | tail _ h ih => obtain ⟨n, hn⟩ := ih; exact ⟨n + 1, _, hn, h⟩

open Classical in
/-- Edge distance, 0 when unreachable. -/
noncomputable def lev (E : K → K → Prop) (a b : K) : Nat :=
  if h : ∃ n, PathLen E n a b then Nat.find h else 0

theorem lev_spec {E : K → K → Prop} {a b : K} (h : ∃ n, PathLen E n a b) : PathLen E (lev E a b) a b := by
  classical
  unfold lev; rw [dif_pos h]; exact Nat.find_spec h

theorem lev_le {E : K → K → Prop} {a b : K} {n : Nat} (h : PathLen E n a b) : lev E a b ≤ n := by
  classical
  unfold lev; rw [dif_pos ⟨n, h⟩]; exact Nat.find_min' _ h

theorem distIs_lev {E : K → K → Prop} {a b : K} {n : Nat} (h : DistIs E a b n) : n = lev E a b := by
  have h1 := lev_le h.1
  have h2 := lev_spec ⟨n, h.1⟩
  rcases Nat.lt_or_ge (lev E a b) n with h3 | h3
  · exact absurd h2 (h.2 _ h3)
  · omega

/-! ### The traversal invariant -/

/-- `em` has been emitted, the queue and visited set are in `w`. -/
structure BfsInv (E : K → K → Prop) (id : K) (em : List K) (w : Walk K) : Prop where
  nodup : (em ++ w.fifo).Nodup
  vis : ∀ x, GSet.includes w.visited x = true ↔ x ∈ em ++ w.fifo
  reach : ∀ x ∈ em ++ w.fifo, TransGen E id x
  start : ∀ c, E id c → c ∈ em ++ w.fifo
  closed : ∀ x ∈ em, ∀ c, E x c → c ∈ em ++ w.fifo
  sorted : (em ++ w.fifo).Pairwise (fun x y => lev E id x ≤ lev E id y)
  near : ∀ h rest, w.fifo = h :: rest → ∀ y ∈ em ++ w.fifo, lev E id y ≤ lev E id h + 1

/-- `cs` lists the successors of `x`. -/
def Lists (E : K → K → Prop) (x : K) (cs : List (K × K)) : Prop :=
  (cs.map Prod.fst).Nodup ∧ ∀ a, (∃ p ∈ cs, p.1 = a) ↔ E x a

/-- The body of the inner loop of both walkers. -/
def visit (w : Walk K) (cs : List (K × K)) : Walk K :=
  cs.foldl (fun w c =>
    if !(GSet.includes w.visited c.1) then ⟨w.fifo ++ [c.1], GSet.add w.visited c.1⟩ else w) w

/-- The initialisation loop of both walkers. -/
def enqueueAll (w : Walk K) (cs : List (K × K)) : Walk K :=
  cs.foldl (fun w p => ⟨w.fifo ++ [p.1], GSet.add w.visited p.1⟩) w

theorem enqueueAll_spec (w : Walk K) (cs : List (K × K)) :
    (enqueueAll w cs).fifo = w.fifo ++ cs.map Prod.fst ∧
    ∀ x, GSet.includes (enqueueAll w cs).visited x = true ↔
      GSet.includes w.visited x = true ∨ x ∈ cs.map Prod.fst := by
  induction cs generalizing w with
  | nil => simp [enqueueAll]
  | cons c cs ih =>
    have := ih ⟨w.fifo ++ [c.1], GSet.add w.visited c.1⟩
    unfold enqueueAll at this ⊢
    rw [List.foldl_cons]
    refine ⟨by rw [this.1]; simp, fun x => ?_⟩
    rw [this.2, GSet.includes_add, List.map_cons, List.mem_cons]
    constructor
    · rintro ((h | h) | h)
      · exact Or.inr (Or.inl h)
      · exact Or.inl h
      · exact Or.inr (Or.inr h)
    · rintro (h | h | h)
      · exact Or.inl (Or.inr h)
      · exact Or.inl (Or.inl h)
      · exact Or.inr h

theorem visit_spec (w : Walk K) (cs : List (K × K)) :
    ∃ new : List K, (visit w cs).fifo = w.fifo ++ new ∧ new.Nodup ∧
      (∀ x, x ∈ new ↔ x ∈ cs.map Prod.fst ∧ GSet.includes w.visited x = false) ∧
      ∀ x, GSet.includes (visit w cs).visited x = true ↔ GSet.includes w.visited x = true ∨ x ∈ new := by
  induction cs generalizing w with
  | nil => exact ⟨[], by simp [visit]⟩
  | cons c cs ih =>
    cases hc : GSet.includes w.visited c.1 with
    | true =>
      obtain ⟨new, h1, h2, h3, h4⟩ := ih w
      have e : visit w (c :: cs) = visit w cs := by
        unfold visit; rw [List.foldl_cons]; simp [hc]
      refine ⟨new, by rw [e]; exact h1, h2, ?_, by rw [e]; exact h4⟩
      intro x; rw [h3, List.map_cons, List.mem_cons]
      constructor
      · rintro ⟨h, h'⟩; exact ⟨Or.inr h, h'⟩
      · rintro ⟨rfl | h, h'⟩
        · rw [hc] at h'; cases h'
        · exact ⟨h, h'⟩
    | false =>
      obtain ⟨new, h1, h2, h3, h4⟩ := ih ⟨w.fifo ++ [c.1], GSet.add w.visited c.1⟩
      have e : visit w (c :: cs) = visit ⟨w.fifo ++ [c.1], GSet.add w.visited c.1⟩ cs := by
        unfold visit; rw [List.foldl_cons]; simp [hc]
      have hinc : ∀ x, GSet.includes (GSet.add w.visited c.1) x = false ↔ x ≠ c.1 ∧ GSet.includes w.visited x = false := by
        intro x
        rw [← Bool.not_eq_true, GSet.includes_add, ← Bool.not_eq_true, not_or]
      refine ⟨c.1 :: new, by rw [e, h1]; simp, ?_, ?_, ?_⟩
      · rw [List.nodup_cons]
        refine ⟨fun h => ?_, h2⟩
        have := ((h3 c.1).mp h).2
        exact ((hinc c.1).mp this).1 rfl
      · intro x
        rw [List.mem_cons, h3, List.map_cons, List.mem_cons, hinc]
        constructor
        · rintro (rfl | ⟨h, h'⟩)
          · exact ⟨Or.inl rfl, hc⟩
          · exact ⟨Or.inr h, h'.2⟩
        · rintro ⟨rfl | h, h'⟩
          · exact Or.inl rfl
          · by_cases hx : x = c.1
            · exact Or.inl hx
            · exact Or.inr ⟨h, hx, h'⟩
      · intro x
        rw [e, h4, GSet.includes_add, List.mem_cons]
        constructor
        · rintro ((h | h) | h)
          · exact Or.inr (Or.inl h)
          · exact Or.inl h
          · exact Or.inr (Or.inr h)
        · rintro (h | h | h)
          · exact Or.inl (Or.inr h)
          · exact Or.inl (Or.inl h)
          · exact Or.inr h

theorem Lists.mem {E : K → K → Prop} {x : K} {cs : List (K × K)} (h : Lists E x cs) (a : K) :
    a ∈ cs.map Prod.fst ↔ E x a := by
  rw [← h.2, List.mem_map]

theorem lev_succ_le {E : K → K → Prop} {id a b : K} (ha : ∃ n, PathLen E n id a) (h : E a b) :
    lev E id b ≤ lev E id a + 1 := lev_le ⟨a, lev_spec ha, h⟩

theorem lev_pos {E : K → K → Prop} {id a : K} (hac : ¬ TransGen E id id) (ha : TransGen E id a) :
    0 < lev E id a := by
  rcases Nat.eq_zero_or_pos (lev E id a) with h | h
  · have := lev_spec (pathLen_of_transGen ha)
    rw [h] at this
    cases this
    exact absurd ha hac
  · exact h

theorem bfs_init {E : K → K → Prop} {id : K} (hac : ¬ TransGen E id id) {cs : List (K × K)} (h : Lists E id cs) :
    BfsInv E id [] (enqueueAll ⟨[], []⟩ cs) := by
  obtain ⟨h1, h2⟩ := enqueueAll_spec (⟨[], []⟩ : Walk K) cs
  simp only [List.nil_append] at h1
  have hl : ∀ x, E id x → lev E id x = 1 := by
    intro x hx
    have : lev E id x ≤ 1 := lev_le ⟨id, rfl, hx⟩
    have := lev_pos hac (.single hx)
    omega
  refine ⟨?_, ?_, ?_, ?_, by simp, ?_, ?_⟩
  · rw [List.nil_append, h1]; exact h.1
  · intro x; rw [h2, h1]; simp
  · intro x hx; rw [List.nil_append, h1, h.mem] at hx; exact .single hx
  · intro c hc; rw [List.nil_append, h1, h.mem]; exact hc
  · rw [List.nil_append, h1]
    apply List.pairwise_of_forall_mem_list
    intro a ha b hb
    rw [h.mem] at ha hb
    rw [hl a ha, hl b hb]
  · intro x rest _ y hy
    rw [List.nil_append, h1, h.mem] at hy
    rw [hl y hy]; omega

theorem PathLen.cases {E : K → K → Prop} {n : Nat} {a b : K} (h : PathLen E n a b) :
    a = b ∨ TransGen E a b := by
  induction n generalizing b with
  | zero => exact Or.inl h
  | succ n ih =>
    obtain ⟨c, h1, h2⟩ := h
    rcases ih h1 with rfl | h3
    · exact Or.inr (.single h2)
    · exact Or.inr (.tail h3 h2)

/-- Everything closer than the head of the queue has been emitted. -/
theorem BfsInv.closer {E : K → K → Prop} {id : K} (hac : ¬ TransGen E id id) {em : List K} {w : Walk K}
    (h : BfsInv E id em w) {top : K} {rest : List K} (hw : w.fifo = top :: rest) (x : K)
    (hx : TransGen E id x) (hl : lev E id x < lev E id top) : x ∈ em := by
  generalize hn : lev E id x = n
  induction n using Nat.strongRecOn generalizing x with
  | ind n ih =>
    have hmem : x ∈ em ++ w.fifo := by
      have hp := lev_spec (pathLen_of_transGen hx)
      rw [hn] at hp
      cases n with
      | zero => cases hp; exact absurd hx hac
      | succ m =>
        obtain ⟨p, hp1, hp2⟩ := hp
        have hle := lev_le hp1
        rcases hp1.cases with rfl | hp3
        · exact h.start _ hp2
        · exact h.closed p (ih (lev E id p) (by omega) p hp3 (by omega) rfl) x hp2
    rcases List.mem_append.mp hmem with h1 | h1
    · exact h1
    · exfalso
      have hs := h.sorted
      rw [List.pairwise_append] at hs
      have hs := hs.2.1
      rw [hw] at hs h1
      rcases List.mem_cons.mp h1 with rfl | h1
      · omega
      · have := (List.pairwise_cons.mp hs).1 x h1
        omega

theorem BfsInv.step {E : K → K → Prop} {id : K} (hac : ¬ TransGen E id id) {em : List K} {w : Walk K}
    (h : BfsInv E id em w) {top : K} {rest : List K} (hw : w.fifo = top :: rest)
    {cs : List (K × K)} (hcs : Lists E top cs) :
    BfsInv E id (em ++ [top]) (visit ⟨rest, w.visited⟩ cs) := by
  obtain ⟨new, h1, h2, h3, h4⟩ := visit_spec (⟨rest, w.visited⟩ : Walk K) cs
  simp only at h1 h3 h4
  have hL : (em ++ [top]) ++ (visit ⟨rest, w.visited⟩ cs).fifo = (em ++ w.fifo) ++ new := by
    rw [h1, hw]; simp
  have htop : top ∈ em ++ w.fifo := by rw [hw]; simp
  have hrtop := h.reach top htop
  have hnew : ∀ c, c ∈ new ↔ E top c ∧ c ∉ em ++ w.fifo := by
    intro c; rw [h3, hcs.mem, ← h.vis]; simp
  -- newly found vertices are exactly one further away than `top`
  have hlev : ∀ c ∈ new, lev E id c = lev E id top + 1 := by
    intro c hc
    obtain ⟨hc1, hc2⟩ := (hnew c).mp hc
    have hle := lev_succ_le (pathLen_of_transGen hrtop) hc1
    have hrc : TransGen E id c := .tail hrtop hc1
    have hge : ¬ lev E id c ≤ lev E id top := by
      intro hle2
      have hp := lev_spec (pathLen_of_transGen hrc)
      have hpos := lev_pos hac hrc
      obtain ⟨m, hm⟩ : ∃ m, lev E id c = m + 1 := ⟨lev E id c - 1, by omega⟩
      rw [hm] at hp
      obtain ⟨p, hp1, hp2⟩ := hp
      have hlp := lev_le hp1
      rcases hp1.cases with rfl | hp3
      · exact hc2 (h.start _ hp2)
      · exact hc2 (h.closed p (h.closer hac hw p hp3 (by omega)) c hp2)
    omega
  refine ⟨?_, ?_, ?_, ?_, ?_, ?_, ?_⟩
  · rw [hL, List.nodup_append]
    refine ⟨h.nodup, h2, ?_⟩
    rintro a ha b hb rfl
    exact ((hnew a).mp hb).2 ha
  · intro x; rw [h4, hL, h.vis, List.mem_append (t := new)]
  · intro x hx; rw [hL] at hx
    rcases List.mem_append.mp hx with hx | hx
    · exact h.reach x hx
    · exact .tail hrtop ((hnew x).mp hx).1
  · intro c hc; rw [hL]; exact List.mem_append_left _ (h.start c hc)
  · intro x hx c hc; rw [hL]
    rcases List.mem_append.mp hx with hx | hx
    · exact List.mem_append_left _ (h.closed x hx c hc)
    · rw [List.mem_singleton.mp hx] at hc
      by_cases hm : c ∈ em ++ w.fifo
      · exact List.mem_append_left _ hm
      · exact List.mem_append_right _ ((hnew c).mpr ⟨hc, hm⟩)
  · rw [hL, List.pairwise_append]
    refine ⟨h.sorted, ?_, ?_⟩
    · apply List.pairwise_of_forall_mem_list
      intro a ha b hb
      rw [hlev a ha, hlev b hb]
    · intro a ha b hb
      rw [hlev b hb]; exact h.near top rest hw a ha
  · intro h' rest' hf y hy
    have hh' : lev E id top ≤ lev E id h' := by
      have : h' ∈ rest ++ new := by rw [← h1, hf]; exact List.mem_cons_self
      rcases List.mem_append.mp this with hm | hm
      · have hs := (List.pairwise_append.mp h.sorted).2.1
        rw [hw] at hs
        exact (List.pairwise_cons.mp hs).1 h' hm
      · rw [hlev h' hm]; omega
    rw [hL] at hy
    rcases List.mem_append.mp hy with hy | hy
    · have := h.near top rest hw y hy; omega
    · rw [hlev y hy]; omega

theorem BfsInv.done {E : K → K → Prop} {id : K} {em : List K} {w : Walk K} (h : BfsInv E id em w)
    (hw : w.fifo = []) : BfsDone E id em := by
  obtain ⟨h1, _, h3, h4, h5, h6, _⟩ := h
  rw [hw, List.append_nil] at *
  refine ⟨h1, fun x => ⟨h3 x, fun hx => ?_⟩, ?_⟩
  · induction hx with
    | single hc => exact h4 _ hc
    | tail _ hc ih => exact h5 _ ih _ hc
  · refine h6.imp ?_
    intro a b hab n m hn hm
    rw [distIs_lev hn, distIs_lev hm]; exact hab

theorem BfsInv.length_le {E : K → K → Prop} {id : K} {em : List K} {w : Walk K} (h : BfsInv E id em w)
    (V : List K) (hV : ∀ a b, E a b → b ∈ V) : (em ++ w.fifo).length ≤ V.length := by
  refine (List.subperm_of_subset h.nodup ?_).length_le
  intro x hx
  obtain ⟨y, _, hy⟩ := TransGen.tail'_iff.mp (h.reach x hx)
  exact hV _ _ hy

/-- A walker step, as both walkers perform it. -/
def StepOK (E : K → K → Prop) (g : Graph K T) (step : Walk K → M K T (Option (K × Walk K))) : Prop :=
  ∀ w σ, σ.g = g → Tot (step w) σ (fun r σ' => σ'.g = g ∧
    match w.fifo with
    | [] => r = none
    | top :: rest => ∃ cs, Lists E top cs ∧ r = some (top, visit ⟨rest, w.visited⟩ cs))

theorem drain_spec {E : K → K → Prop} {id : K} (hac : ¬ TransGen E id id) {g : Graph K T}
    {step : Walk K → M K T (Option (K × Walk K))} (hstep : StepOK E g step)
    (V : List K) (hV : ∀ a b, E a b → b ∈ V) (fuel : Nat) (em : List K) (w : Walk K) (σ : St K T)
    (hσ : σ.g = g) (h : BfsInv E id em w) (hf : V.length < fuel + em.length) :
    Tot (drain step fuel w) σ (fun l σ' => σ'.g = g ∧ BfsDone E id (em ++ l)) := by
  induction fuel generalizing em w σ with
  | zero =>
    have := h.length_le V hV
    rw [List.length_append] at this
    omega
  | succ n ih =>
    unfold drain
    refine Tot.bind (Tot.mono (hstep w σ hσ) ?_)
    rintro r σ1 ⟨hg1, hr⟩
    cases hw : w.fifo with
    | nil =>
      rw [hw] at hr
      subst hr
      refine Tot.pure ⟨hg1, ?_⟩
      rw [List.append_nil]; exact h.done hw
    | cons top rest =>
      rw [hw] at hr
      obtain ⟨cs, hcs, rfl⟩ := hr
      have h' := h.step hac hw hcs
      refine Tot.bind (Tot.mono (ih (em ++ [top]) _ σ1 hg1 h' ?_) ?_)
      · rw [List.length_append]; simp; omega
      · rintro l σ2 ⟨hg2, hl⟩
        refine Tot.pure ⟨hg2, ?_⟩
        rw [List.append_assoc] at hl
        exact hl

theorem lists_of_set {E : K → K → Prop} {x : K} {S : GSet K} (wf : SetWF S)
    (hS : ∀ a, GSet.includes S a = true ↔ E x a) {cs : List (K × K)} (hcs : cs.Perm S) : Lists E x cs :=
  ⟨wf.nodup.perm hcs, fun a => (exists_range wf hcs a).trans (hS a)⟩

theorem walkDescendantsInit_spec (ω : Oracle) (id : K) (σ : St K T) (hg : GInv σ.g) :
    Tot (walkDescendantsInit ω id) σ (fun w σ' => σ'.g = σ.g ∧ BfsInv σ.g.E id [] w) := by
  unfold walkDescendantsInit
  refine Tot.bind (Tot.getG (Tot.bind (Tot.range ?_)))
  intro cs hcs
  exact Tot.pure ⟨rfl, bfs_init (hg.acyc id) (lists_of_set (setAt_wf hg.owf id) (fun a => Iff.rfl) hcs)⟩

theorem walkAncestorsInit_spec (ω : Oracle) (id : K) (σ : St K T) (hg : GInv σ.g) :
    Tot (walkAncestorsInit ω id) σ (fun w σ' => σ'.g = σ.g ∧ BfsInv (Function.swap σ.g.E) id [] w) := by
  unfold walkAncestorsInit
  refine Tot.bind (Tot.getG (Tot.bind (Tot.range ?_)))
  intro cs hcs
  refine Tot.pure ⟨rfl, bfs_init ?_ (lists_of_set (E := Function.swap σ.g.E) (x := id) (setAt_wf hg.iwf id) (fun a => hg.conv a id) hcs)⟩
  rw [transGen_swap]; exact hg.acyc id

theorem walkDescendantsStep_ok (ω : Oracle) {g : Graph K T} (hg : GInv g) :
    StepOK g.E g (walkDescendantsStep ω) := by
  intro w σ hσ
  subst hσ
  unfold walkDescendantsStep
  cases hw : w.fifo with
  | nil => exact Tot.pure ⟨rfl, rfl⟩
  | cons top rest =>
    refine Tot.bind (Tot.getG (Tot.bind (Tot.range ?_)))
    intro cs hcs
    exact Tot.pure ⟨rfl, cs, lists_of_set (setAt_wf hg.owf top) (fun a => Iff.rfl) hcs, rfl⟩

theorem walkAncestorsStep_ok (ω : Oracle) {g : Graph K T} (hg : GInv g) :
    StepOK (Function.swap g.E) g (walkAncestorsStep ω) := by
  intro w σ hσ
  subst hσ
  unfold walkAncestorsStep
  cases hw : w.fifo with
  | nil => exact Tot.pure ⟨rfl, rfl⟩
  | cons top rest =>
    refine Tot.bind (Tot.getG (Tot.bind (Tot.range ?_)))
    intro cs hcs
    exact Tot.pure ⟨rfl, cs, lists_of_set (E := Function.swap σ.g.E) (x := top) (setAt_wf hg.iwf top) (fun a => hg.conv a top) hcs, rfl⟩

theorem getOrderedDescendants_spec (ω : Oracle) (id : K) (σ : St K T) (hi : Inv σ.g) :
    Tot (getOrderedDescendants ω id) σ (fun r σ' => σ'.g = σ.g ∧
      (∀ e, checkVertexID σ.g id = some e → r = .error e) ∧
      (checkVertexID σ.g id = none → ∃ l, r = .ok l ∧ BfsDone σ.g.E id l)) := by
  unfold getOrderedDescendants
  refine Tot.bind (Tot.getG ?_)
  cases hck : checkVertexID σ.g id with
  | some e => exact Tot.pure ⟨rfl, fun e' h => by cases h; rfl, fun h => by cases h⟩
  | none =>
    refine Tot.bind (Tot.mono (walkDescendantsInit_spec ω id σ hi.base) ?_)
    rintro w σ1 ⟨h1, h2⟩
    refine Tot.bind (Tot.mono (drain_spec (hi.base.acyc id) (walkDescendantsStep_ok ω hi.base)
      (GoMap.keys σ.g.vertices) ?_ _ [] w σ1 h1 h2 ?_) ?_)
    · intro a b h; rw [GoMap.mem_keys_iff_has]; exact (hi.base.ends a b h).2
    · simp [fuelFor, GoMap.keys]
    · rintro l σ2 ⟨h3, h4⟩
      exact Tot.pure ⟨h3, fun e' h => by (cases h), fun _ => ⟨l, rfl, h4⟩⟩

theorem getOrderedAncestors_spec (ω : Oracle) (id : K) (σ : St K T) (hi : Inv σ.g) :
    Tot (getOrderedAncestors ω id) σ (fun r σ' => σ'.g = σ.g ∧
      (∀ e, checkVertexID σ.g id = some e → r = .error e) ∧
      (checkVertexID σ.g id = none → ∃ l, r = .ok l ∧ BfsDone (Function.swap σ.g.E) id l)) := by
  unfold getOrderedAncestors
  refine Tot.bind (Tot.getG ?_)
  cases hck : checkVertexID σ.g id with
  | some e => exact Tot.pure ⟨rfl, fun e' h => by cases h; rfl, fun h => by cases h⟩
  | none =>
    refine Tot.bind (Tot.mono (walkAncestorsInit_spec ω id σ hi.base) ?_)
    rintro w σ1 ⟨h1, h2⟩
    have hac : ¬ TransGen (Function.swap σ.g.E) id id := by rw [transGen_swap]; exact hi.base.acyc id
    refine Tot.bind (Tot.mono (drain_spec hac (walkAncestorsStep_ok ω hi.base)
      (GoMap.keys σ.g.vertices) ?_ _ [] w σ1 h1 h2 ?_) ?_)
    · intro a b h; rw [GoMap.mem_keys_iff_has]; exact (hi.base.ends b a h).1
    · simp [fuelFor, GoMap.keys]
    · rintro l σ2 ⟨h3, h4⟩
      exact Tot.pure ⟨h3, fun e' h => by (cases h), fun _ => ⟨l, rfl, h4⟩⟩

end Verif.Dag
