import Verif.Dag.Walker
import Verif.Props.DagMeta

/-! # C16–C18 and the walker part of C22 -/

set_option linter.unusedSectionVars false
set_option linter.unusedSimpArgs false

namespace Verif.Dag
open M Relation

variable {K T : Type} [DecidableEq K] [GoZero K] [GoZero T]

/-- The two walkers. -/
inductive Walker where
  | descendants | ancestors

namespace Walker

/-- The call that starts the walker. -/
def start (w : Walker) (id : K) : M K T (Except Err (WSt K T)) :=
  match w with
  | .descendants => descendantsWalker id
  | .ancestors => ancestorsWalker id

/-- Its initialisation. -/
def init (w : Walker) (ω : Oracle) (id : K) : M K T (Walk K) :=
  match w with
  | .descendants => walkDescendantsInit ω id
  | .ancestors => walkAncestorsInit ω id

/-- Its loop body. -/
def step (w : Walker) (ω : Oracle) : Walk K → M K T (Option (K × Walk K)) :=
  match w with
  | .descendants => walkDescendantsStep ω
  | .ancestors => walkAncestorsStep ω

/-- The edges it follows. -/
def edge (w : Walker) (σ : St K T) : K → K → Prop :=
  match w with
  | .descendants => Edge σ
  | .ancestors => fun a b => Edge σ b a

/-- The query that collects everything. -/
def query (w : Walker) (id : K) : Op K T :=
  match w with
  | .descendants => .getOrderedDescendants id
  | .ancestors => .getOrderedAncestors id

end Walker

/-- In state `σ` the walker `w` is started for `id`; the schedule `ls` of walker and consumer steps
leads to `s`. -/
def Walks (w : Walker) (ω : Oracle) (σ : St K T) (id : K) (ls : List (Lbl K)) (s : WSt K T) : Prop :=
  ∃ s0 σ0, w.start id σ = some (.ok s0, σ0) ∧ Exec (w.init ω id) (w.step ω) s0 ls s

/-- Some step labelled `l` is possible in `s`. -/
def Enabled (w : Walker) (ω : Oracle) (id : K) (s : WSt K T) (l : Lbl K) : Prop :=
  ∃ s', Step (w.init ω id) (w.step ω) s l s'

theorem start_ok {w : Walker} {id : K} {σ σ0 : St K T} {s0 : WSt K T} (h : w.start id σ = some (.ok s0, σ0)) :
    checkVertexID σ.g id = none ∧ s0 = ⟨.start, σ, false⟩ := by
  have key : (match checkVertexID σ.g id with
      | some e => some (Except.error e, σ)
      | none => some (.ok ⟨.start, σ, false⟩, σ)) = some (Except.ok s0, σ0) := by
    cases w <;> exact h
  cases hck : checkVertexID σ.g id with
  | some e => rw [hck] at key; cases key
  | none => rw [hck] at key; cases key; exact ⟨rfl, rfl⟩

theorem walker_ok (w : Walker) (ω : Oracle) (id : K) (σ : St K T) (hi : Inv σ.g) :
    WalkerOK (w.edge σ) id σ (w.init ω id) (w.step ω) (GoMap.keys σ.g.vertices) := by
  cases w with
  | descendants =>
    show WalkerOK (Edge σ) _ _ _ _ _
    rw [edge_eq hi]; exact descendantsWalker_ok ω id σ hi
  | ancestors =>
    show WalkerOK (fun a b => Edge σ b a) _ _ _ _ _
    rw [edge_eq hi]; exact ancestorsWalker_ok ω id σ hi

/-! ## C22 -/

/-- **C22** for the walkers. -/
theorem C22_walkers (ω : Oracle) (ops : List (Op K T)) (σ : St K T) (h : After ω ops σ) (w : Walker) (id : K) :
    ∃ r, w.start id σ = some (r, σ) ∧
      (r = .error .vertexIDEmpty ↔ id = zero) ∧
      (r = .error .vertexNotFound ↔ id ≠ zero ∧ ¬ Known σ id) ∧
      ((∃ s, r = .ok s) ↔ Known σ id) := by
  have hi := h.inv
  have key : ∃ r, w.start id σ = some (r, σ) ∧
      (match checkVertexID σ.g id with | some e => r = .error e | none => ∃ s, r = .ok s) := by
    have e : w.start id σ = (match checkVertexID σ.g id with
        | some e => some (Except.error e, σ)
        | none => some (.ok ⟨.start, σ, false⟩, σ)) := by cases w <;> rfl
    rw [e]
    cases checkVertexID σ.g id with
    | some e => exact ⟨_, rfl, rfl⟩
    | none => exact ⟨_, rfl, _, rfl⟩
  obtain ⟨r, h1, h2⟩ := key
  refine ⟨r, h1, ?_⟩
  rw [checkVertexID_eq] at h2
  cases hv : Spec.vertexErr (abs σ.g) id with
  | none =>
    rw [hv] at h2
    have hk := (known_vertexErr hi id).mp hv
    have hz : id ≠ zero := by rintro rfl; exact not_known_zero hi hk
    obtain ⟨s, rfl⟩ := h2
    simp [hk, hz]
  | some e =>
    rw [hv] at h2
    subst h2
    have hk : ¬ Known σ id := by
      rw [← known_vertexErr hi, hv]; simp
    unfold Spec.vertexErr at hv
    by_cases hz : id = zero
    · rw [if_pos hz] at hv; cases hv
      simp [hz]; intro h; rw [hz] at hk; exact hk h
    · rw [if_neg hz] at hv
      split at hv <;> cases hv
      simp [hz, hk]

example : (Walker.descendants.start 0 demo).map (fun p => p.1.toOption.isSome) = some false ∧
    (Walker.ancestors.start 9 demo).map (fun p => p.1.toOption.isSome) = some false ∧
    (Walker.ancestors.start 4 demo).map (fun p => p.1.toOption.isSome) = some true := by
  decide +kernel

/-! ## C16 -/

/-- **C16.** In every schedule, the ids received form a prefix of a breadth-first enumeration of the
descendants (ancestors), without repetition; if the closed channel was seen and no stop was sent,
everything has been received. -/
theorem C16_walker_prefix (ω ω' : Oracle) (ops : List (Op K T)) (σ : St K T) (h : After ω ops σ)
    (w : Walker) (id : K) (ls : List (Lbl K)) (s : WSt K T) (hw : Walks w ω' σ id ls s) :
    ∃ full : List K, full.Nodup ∧ (∀ k, k ∈ full ↔ TransGen (w.edge σ) id k) ∧
      full.Pairwise (fun x y => ∀ n m, DistIs (w.edge σ) id x n → DistIs (w.edge σ) id y m → n ≤ m) ∧
      received ls <+: full ∧ (received ls).Nodup ∧
      (Lbl.recvClosed ∈ ls → Lbl.stop ∉ ls → received ls = full) := by
  obtain ⟨s0, σ0, h1, h2⟩ := hw
  obtain ⟨_, rfl⟩ := start_ok h1
  obtain ⟨full, h3, h4, h5⟩ := exec_prefix (walker_ok w ω' id σ h.inv) h2
  exact ⟨full, h3.nodup, h3.mem, h3.sorted, h4, h3.nodup.sublist h4.sublist, h5⟩

/-- A consumer that receives until it sees the closed channel, without ever stopping the walker,
gets exactly what `GetOrderedDescendants` (`GetOrderedAncestors`) is modelled to return: the
sequential model of those two calls is faithful to the goroutines and channels they use. -/
theorem C16_ordered_queries (ω ω' : Oracle) (ops : List (Op K T)) (σ : St K T) (h : After ω ops σ)
    (w : Walker) (id : K) (ls : List (Lbl K)) (s : WSt K T) (hw : Walks w ω' σ id ls s)
    (hc : Lbl.recvClosed ∈ ls) (hs : Lbl.stop ∉ ls) :
    Call ω' σ (w.query id) (.idsE (.ok (received ls))) s.σ := by
  have hi := h.inv
  obtain ⟨s0, σ0, h1, h2⟩ := hw
  obtain ⟨hck, rfl⟩ := start_ok h1
  have hcl := (exec_inv (walker_ok w ω' id σ hi) h2).closed hc
  cases w with
  | descendants =>
    obtain ⟨wk, σ1, hin, hg1, hb⟩ := walkDescendantsInit_spec ω' id σ hi.base
    obtain ⟨l, σf, hd, hg2, _⟩ := drain_spec (hi.base.acyc id) (walkDescendantsStep_ok ω' hi.base)
      (GoMap.keys σ.g.vertices)
      (fun a b h => by rw [GoMap.mem_keys_iff_has]; exact (hi.base.ends a b h).2)
      (fuelFor σ.g) [] wk σ1 hg1 hb (by unfold fuelFor GoMap.keys; simp)
    obtain ⟨k1, k2⟩ := exec_drain hin hd h2 hs hcl
    show exec ω' (.getOrderedDescendants id) σ = _
    show M.bind (getOrderedDescendants ω' id) _ σ = _
    have : getOrderedDescendants ω' id σ = some (.ok l, σf) := by
      unfold getOrderedDescendants
      show M.bind M.getG _ σ = _
      simp only [M.bind, M.getG, hck]
      show M.bind (walkDescendantsInit ω' id) _ σ = _
      simp only [M.bind, hin]
      show M.bind (drain _ _ _) _ σ1 = _
      simp only [M.bind, hd]; rfl
    simp only [M.bind, this, k1, k2]; rfl
  | ancestors =>
    obtain ⟨wk, σ1, hin, hg1, hb⟩ := walkAncestorsInit_spec ω' id σ hi.base
    obtain ⟨l, σf, hd, hg2, _⟩ := drain_spec
      (by rw [transGen_swap]; exact hi.base.acyc id) (walkAncestorsStep_ok ω' hi.base)
      (GoMap.keys σ.g.vertices)
      (fun a b h => by rw [GoMap.mem_keys_iff_has]; exact (hi.base.ends b a h).1)
      (fuelFor σ.g) [] wk σ1 hg1 hb (by unfold fuelFor GoMap.keys; simp)
    obtain ⟨k1, k2⟩ := exec_drain hin hd h2 hs hcl
    show exec ω' (.getOrderedAncestors id) σ = _
    show M.bind (getOrderedAncestors ω' id) _ σ = _
    have : getOrderedAncestors ω' id σ = some (.ok l, σf) := by
      unfold getOrderedAncestors
      show M.bind M.getG _ σ = _
      simp only [M.bind, M.getG, hck]
      show M.bind (walkAncestorsInit ω' id) _ σ = _
      simp only [M.bind, hin]
      show M.bind (drain _ _ _) _ σ1 = _
      simp only [M.bind, hd]; rfl
    simp only [M.bind, this, k1, k2]; rfl

/-! ## C17 -/

/-- **C17.** (1) After a stop signal at most one more id is received.  (2) In every schedule the
walker makes at most `3·|V|+4` steps, receives included.  (3) It never deadlocks: until both
channels are closed it can go on, unless it is offering an id, which a receive takes; and a receive
from the closed channel never blocks.  (4) From every state it reaches its end by such steps. -/
theorem C17_stop_and_termination (ω ω' : Oracle) (ops : List (Op K T)) (σ : St K T) (h : After ω ops σ)
    (w : Walker) (id : K) (ls : List (Lbl K)) (s : WSt K T) (hw : Walks w ω' σ id ls s) :
    (∀ l1 l2, ls = l1 ++ .stop :: l2 → (received l2).length ≤ 1) ∧
    (∀ n σ', Call ω' σ .getOrder (.count n) σ' → (ls.filter Lbl.advances).length ≤ 3 * n + 4) ∧
    (Enabled w ω' id s .tau ∨ (∃ k, Enabled w ω' id s (.recv k)) ∨ Enabled w ω' id s .recvClosed) ∧
    (∃ ls' s', Exec (w.init ω' id) (w.step ω') s ls' s' ∧ Enabled w ω' id s' .recvClosed ∧
      ∀ l ∈ ls', l.advances = true) := by
  have hi := h.inv
  obtain ⟨s0, σ0, h1, h2⟩ := hw
  obtain ⟨hck, rfl⟩ := start_ok h1
  have ok := walker_ok w ω' id σ hi
  refine ⟨?_, ?_, ?_, ?_⟩
  · rintro l1 l2 rfl
    rw [show l1 ++ Lbl.stop :: l2 = l1 ++ ([Lbl.stop] ++ l2) from rfl] at h2
    obtain ⟨s1, _, k2⟩ := h2.split
    obtain ⟨s2, k3, k4⟩ := k2.split
    exact (k4.late (late_of_stop k3.single_inv)).le_one
  · intro n σ' hn
    have hn' : n = σ.g.vertices.length := by
      obtain ⟨l, hl1, hl2, rfl⟩ := (hn.spec hi).2.2
      rw [show σ.g.vertices.length = (GoMap.keys σ.g.vertices).length by unfold GoMap.keys; simp]
      refine length_eq_of_same hl1 hi.base.vnd ?_
      intro x; rw [hl2, GoMap.mem_keys_iff_has]; rfl
    have := exec_remaining ok h2
    have e : (GoMap.keys σ.g.vertices).length = σ.g.vertices.length := by unfold GoMap.keys; simp
    rw [e] at this
    omega
  · rcases exec_progress ok h2 with hd | ht | ⟨top, wk, s', _, hs⟩
    · obtain ⟨pc, σ1, b⟩ := s
      cases hd
      exact .inr (.inr ⟨_, .recvClosed2⟩)
    · exact .inl ht
    · exact .inr (.inl ⟨top, s', hs⟩)
  · obtain ⟨ls', s', k1, k2, k3⟩ := exec_finish ok h2
    refine ⟨ls', s', k1, ?_, k3⟩
    obtain ⟨pc, σ1, b⟩ := s'
    cases k2
    exact ⟨_, .recvClosed2⟩

/-! ### Concrete schedules -/

/-- Execute a given schedule, to
exhibit concrete ones. -/
def play (w : Walker) (ω : Oracle) (id : K) : List (Lbl K) → WSt K T → Option (WSt K T)
  | [], s => some s
  | l :: ls, s =>
    match l, s with
    | .tau, ⟨.start, σ, b⟩ => (w.init ω id σ).bind fun p => play w ω id ls ⟨.loop p.1, p.2, b⟩
    | .tau, ⟨.loop wk, σ, b⟩ => (w.step ω wk σ).bind fun p =>
        match p with
        | (some q, σ') => play w ω id ls ⟨.sel q.1 q.2, σ', b⟩
        | (none, σ') => play w ω id ls ⟨.exited, σ', b⟩
    | .tau, ⟨.sel _ _, σ, true⟩ => play w ω id ls ⟨.exited, σ, false⟩
    | .tau, ⟨.sel top wk, σ, false⟩ => play w ω id ls ⟨.sending top wk, σ, false⟩
    | .tau, ⟨.exited, σ, b⟩ => play w ω id ls ⟨.idsClosed, σ, b⟩
    | .tau, ⟨.idsClosed, σ, b⟩ => play w ω id ls ⟨.done, σ, b⟩
    | .recv k, ⟨.sending top wk, σ, b⟩ => if k = top then play w ω id ls ⟨.loop wk, σ, b⟩ else none
    | .recvClosed, ⟨.idsClosed, σ, b⟩ => play w ω id ls ⟨.idsClosed, σ, b⟩
    | .recvClosed, ⟨.done, σ, b⟩ => play w ω id ls ⟨.done, σ, b⟩
    | .stop, ⟨.done, _, _⟩ => none
    | .stop, ⟨pc, σ, false⟩ => play w ω id ls ⟨pc, σ, true⟩
    | _, _ => none

theorem play_exec (w : Walker) (ω : Oracle) (id : K) (ls : List (Lbl K)) (s s' : WSt K T)
    (h : play w ω id ls s = some s') : Exec (w.init ω id) (w.step ω) s ls s' := by
  induction ls generalizing s with
  | nil => cases h; exact .nil
  | cons l ls ih =>
    have go : ∀ s1, Step (w.init ω id) (w.step ω) s l s1 → play w ω id ls s1 = some s' →
        Exec (w.init ω id) (w.step ω) s (l :: ls) s' :=
      fun s1 hs hp => (Exec.single hs).append (ih s1 hp)
    obtain ⟨pc, σ, b⟩ := s
    cases l with
    | tau =>
      cases pc with
      | start =>
        simp only [play, Option.bind_eq_some_iff] at h
        obtain ⟨p, h1, h2⟩ := h
        exact go _ (.init h1) h2
      | loop wk =>
        simp only [play, Option.bind_eq_some_iff] at h
        obtain ⟨⟨o, σ'⟩, h1, h2⟩ := h
        cases o with
        | none => exact go _ (.ret h1) h2
        | some q => exact go _ (.iter (top := q.1) (w' := q.2) h1) h2
      | sel top wk =>
        cases b with
        | true => exact go _ .selStop h
        | false => exact go _ .selSend h
      | exited => exact go _ .closeIds h
      | idsClosed => exact go _ .closeSignal h
      | sending top wk => simp [play] at h
      | done => simp [play] at h
    | recv k =>
      cases pc with
      | sending top wk =>
        simp only [play] at h
        split at h
        · next hk => subst hk; exact go _ .recv h
        · cases h
      | _ => simp [play] at h
    | recvClosed =>
      cases pc with
      | idsClosed => exact go _ .recvClosed1 h
      | done => exact go _ .recvClosed2 h
      | _ => simp [play] at h
    | stop =>
      cases b with
      | true => cases pc <;> simp [play] at h
      | false =>
        cases pc with
        | done => simp [play] at h
        | _ => exact go _ (.stop (by simp)) h
    | panic => simp [play] at h

/-- A full walk over the demo graph: everything received, then the closed channel seen. -/
def demoWalk : List (Lbl Nat) :=
  [.tau, .tau, .tau, .recv 4, .tau, .tau, .recv 3, .tau, .tau, .recv 2, .tau, .tau, .recvClosed]

/-- A walk stopped while an id is on offer: that one is still received, then the walker ends. -/
def stoppedWalk : List (Lbl Nat) :=
  [.tau, .tau, .tau, .stop, .recv 4, .tau, .tau, .tau, .tau, .recvClosed]

theorem demo_walks (ls : List (Lbl Nat)) (h : (play .descendants Oracle.forward 1 ls ⟨.start, demo, false⟩).isSome = true) :
    ∃ s, Walks .descendants Oracle.forward demo 1 ls s := by
  obtain ⟨s, hs⟩ := Option.isSome_iff_exists.mp h
  refine ⟨s, ⟨.start, demo, false⟩, demo, ?_, play_exec _ _ _ _ _ _ hs⟩
  have : checkVertexID demo.g 1 = none := by decide +kernel
  show descendantsWalker 1 demo = _
  unfold descendantsWalker
  rw [this]

example : (∃ s, Walks .descendants Oracle.forward demo 1 demoWalk s) ∧ received demoWalk = [4, 3, 2] ∧
    (∃ s, Walks .descendants Oracle.forward demo 1 stoppedWalk s) ∧ received stoppedWalk = [4] :=
  ⟨demo_walks _ (by decide +kernel), rfl, demo_walks _ (by decide +kernel), rfl⟩

/-! ## C18 -/

/-- C18 as stated is false in both halves: (1) a consumer that has not seen `ids` closed can panic
by sending the stop signal; (2) after a stop, the goroutine may be stuck in its send for ever if
nobody receives. -/
theorem C18_stop_safe_false :
    (∃ (ops : List (Op Nat Nat)) (σ : St Nat Nat) (ls : List (Lbl Nat)) (s : WSt Nat Nat),
      After Oracle.forward ops σ ∧ Walks .descendants Oracle.forward σ 1 ls s ∧
      Lbl.recvClosed ∉ ls ∧ Lbl.stop ∉ ls ∧ Enabled .descendants Oracle.forward 1 s .panic) ∧
    (∃ (ops : List (Op Nat Nat)) (σ : St Nat Nat) (ls : List (Lbl Nat)) (s : WSt Nat Nat),
      After Oracle.forward ops σ ∧ Walks .descendants Oracle.forward σ 1 ls s ∧
      Lbl.stop ∈ ls ∧ s.pc ≠ .done ∧
      ∀ l s', Step (Walker.descendants.init Oracle.forward 1) (Walker.descendants.step Oracle.forward) s l s' →
        ∃ k, l = .recv k) := by
  constructor
  · -- every descendant has been received and the walker has finished
    obtain ⟨s, hs⟩ := Option.isSome_iff_exists.mp
      (show (play .descendants Oracle.forward 1 (demoWalk.dropLast ++ [.tau]) ⟨.start, demo, false⟩).isSome = true
        by decide +kernel)
    have hpc : (play .descendants Oracle.forward 1 (demoWalk.dropLast ++ [.tau]) ⟨.start, demo, false⟩).map
        (fun s => match s.pc with | .done => true | _ => false) = some true := by decide +kernel
    rw [hs] at hpc
    refine ⟨demoOps, demo, _, s, demo_after,
      ⟨⟨.start, demo, false⟩, demo, ?_, play_exec _ _ _ _ _ _ hs⟩, by decide, by decide, ?_⟩
    · have : checkVertexID demo.g 1 = none := by decide +kernel
      show descendantsWalker 1 demo = _
      unfold descendantsWalker
      rw [this]
    · obtain ⟨pc, σ, b⟩ := s
      cases pc <;> simp at hpc
      exact ⟨_, .panic⟩
  · obtain ⟨s, hs⟩ := Option.isSome_iff_exists.mp
      (show (play .descendants Oracle.forward 1 [.tau, .tau, .tau, .stop] ⟨.start, demo, false⟩).isSome = true
        by decide +kernel)
    have hpc : (play .descendants Oracle.forward 1 [.tau, .tau, .tau, .stop] ⟨.start, demo, false⟩).map
        (fun s => match s with | ⟨.sending _ _, _, true⟩ => true | _ => false) = some true := by decide +kernel
    rw [hs] at hpc
    refine ⟨demoOps, demo, _, s, demo_after,
      ⟨⟨.start, demo, false⟩, demo, ?_, play_exec _ _ _ _ _ _ hs⟩, by decide, ?_, ?_⟩
    · have : checkVertexID demo.g 1 = none := by decide +kernel
      show descendantsWalker 1 demo = _
      unfold descendantsWalker
      rw [this]
    · obtain ⟨pc, σ, b⟩ := s
      cases pc <;> simp at hpc ⊢
    · intro l s' hstep
      obtain ⟨pc, σ, b⟩ := s
      cases pc <;> cases b <;> simp at hpc
      cases hstep
      exact ⟨_, rfl⟩

/-- **C18**, the part that holds.  (1) While some descendant has not been received and no stop has
been sent, sending the stop signal neither panics nor blocks.  (2) After a stop, once one more id
has been received, the goroutine finishes without the consumer: it is never blocked. -/
theorem C18_stop_safe_partial (ω ω' : Oracle) (ops : List (Op K T)) (σ : St K T) (h : After ω ops σ)
    (w : Walker) (id : K) (ls : List (Lbl K)) (s : WSt K T) (hw : Walks w ω' σ id ls s) :
    (Lbl.stop ∉ ls → (∃ k, TransGen (w.edge σ) id k ∧ k ∉ received ls) →
      ¬ Enabled w ω' id s .panic ∧ Enabled w ω' id s .stop) ∧
    (∀ l1 l2, ls = l1 ++ .stop :: l2 → received l2 ≠ [] → s.pc = .done ∨ Enabled w ω' id s .tau) := by
  have hi := h.inv
  obtain ⟨s0, σ0, h1, h2⟩ := hw
  obtain ⟨hck, rfl⟩ := start_ok h1
  have ok := walker_ok w ω' id σ hi
  constructor
  · rintro hns ⟨k, hk1, hk2⟩
    obtain ⟨hg, hb, hc, hp⟩ := exec_inv ok h2
    obtain ⟨pc, σ1, b⟩ := s
    have hbf : b = false := by
      cases b with
      | false => rfl
      | true => exact absurd (hb rfl) hns
    subst hbf
    have hnd : pc ≠ .done := by
      rintro rfl
      obtain ⟨full, k1, k2, k3⟩ := hp
      have := k3 hns
      rw [this, k1.mem] at hk2
      exact hk2 hk1
    refine ⟨?_, ⟨_, .stop hnd⟩⟩
    rintro ⟨s', hs⟩
    cases hs
    exact hnd rfl
  · rintro l1 l2 rfl hne
    have hpr := exec_progress ok h2
    rw [show l1 ++ Lbl.stop :: l2 = l1 ++ ([Lbl.stop] ++ l2) from rfl] at h2
    obtain ⟨s1, _, k2⟩ := h2.split
    obtain ⟨s2, k3, k4⟩ := k2.split
    have hl := k4.late (late_of_stop k3.single_inv)
    rcases hpr with hd | ht | ⟨top, wk, s', hpc, _⟩
    · exact .inl hd
    · exact .inr ht
    · exfalso
      unfold Late at hl
      rw [hpc] at hl
      exact hne (List.length_eq_zero_iff.mp hl.2)

/-- The hypotheses of both halves are met: before the first receive, and after `stoppedWalk`. -/
example : (∃ s, Walks .descendants Oracle.forward demo 1 [.tau, .tau] s) ∧
    TransGen (Walker.descendants.edge demo) 1 2 ∧ (2 ∉ received ([.tau, .tau] : List (Lbl Nat))) ∧
    received ([.recv 4, .tau, .tau, .tau, .tau, .recvClosed] : List (Lbl Nat)) ≠ [] :=
  ⟨demo_walks _ (by decide +kernel), .single ((demo_edge 1 2).mpr (by simp)), by decide, by decide⟩

end Verif.Dag
