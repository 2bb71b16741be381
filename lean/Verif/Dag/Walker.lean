import Verif.Dag.Run

/-!
# The walkers: two goroutines and two channels

`AncestorsWalker` and `DescendantsWalker` (`dag.go:429-545`) start a goroutine that sends ids on the
unbuffered channel `ids` and polls the channel `signal` of capacity one; it finally closes both.
The consumer (the caller) receives from `ids` and may send on `signal`.  `Step` is the transition
relation of the two; every interleaving is an `Exec`.

*Simplifications*: nobody changes the graph while the walker runs (the code has no lock, so a
concurrent change would be a data race); the work between two channel operations is one step.
-/

set_option linter.unusedSectionVars false

namespace Verif.Dag
open M Relation

variable {K T : Type} [DecidableEq K] [GoZero K] [GoZero T]

/-- Where the walker goroutine is. -/
inductive PC (K : Type) where
  /-- about to run the initialisation loop (`dag.go:452-455`, `511-514`) -/
  | start
  /-- at the head of the `for` (`457`, `516`) -/
  | loop (w : Walk K)
  /-- at the `select` (`472`, `531`) -/
  | sel (top : K) (w : Walk K)
  /-- in `ids <- top` (`476`, `535`) -/
  | sending (top : K) (w : Walk K)
  /-- the walk has returned, before `close(ids)` (`439`, `498`) -/
  | exited
  /-- between `close(ids)` and `close(signal)` -/
  | idsClosed
  /-- after `close(signal)` (`440`, `499`) -/
  | done

/-- State of the two goroutines: the walker's position, the graph, and whether the buffer of `signal`
is full. -/
structure WSt (K T : Type) where
  pc : PC K
  σ : St K T
  buf : Bool

/-- What happens in a step. -/
inductive Lbl (K : Type) where
  /-- an internal step of the walker -/
  | tau
  /-- the consumer receives an id from `ids` -/
  | recv (k : K)
  /-- the consumer receives from the closed channel `ids` -/
  | recvClosed
  /-- the consumer's send on `signal` completes -/
  | stop
  /-- the consumer sends on the closed channel `signal` -/
  | panic
  deriving DecidableEq

section
variable (init : M K T (Walk K)) (step : Walk K → M K T (Option (K × Walk K)))

/-- One step of walker or consumer (`dag.go:429-479`, `488-538`).  A `select` with a ready case never
takes the default branch.  A send on the full, open `signal` blocks, so there is no step for it. -/
inductive Step : WSt K T → Lbl K → WSt K T → Prop
  | init {σ w σ' b} : init σ = some (w, σ') → Step ⟨.start, σ, b⟩ .tau ⟨.loop w, σ', b⟩
  | iter {w σ top w' σ' b} : step w σ = some (some (top, w'), σ') →
      Step ⟨.loop w, σ, b⟩ .tau ⟨.sel top w', σ', b⟩
  | ret {w σ σ' b} : step w σ = some (none, σ') → Step ⟨.loop w, σ, b⟩ .tau ⟨.exited, σ', b⟩
  | selStop {top w σ} : Step ⟨.sel top w, σ, true⟩ .tau ⟨.exited, σ, false⟩
  | selSend {top w σ} : Step ⟨.sel top w, σ, false⟩ .tau ⟨.sending top w, σ, false⟩
  | closeIds {σ b} : Step ⟨.exited, σ, b⟩ .tau ⟨.idsClosed, σ, b⟩
  | closeSignal {σ b} : Step ⟨.idsClosed, σ, b⟩ .tau ⟨.done, σ, b⟩
  | recv {top w σ b} : Step ⟨.sending top w, σ, b⟩ (.recv top) ⟨.loop w, σ, b⟩
  | recvClosed1 {σ b} : Step ⟨.idsClosed, σ, b⟩ .recvClosed ⟨.idsClosed, σ, b⟩
  | recvClosed2 {σ b} : Step ⟨.done, σ, b⟩ .recvClosed ⟨.done, σ, b⟩
  | stop {pc σ} : pc ≠ .done → Step ⟨pc, σ, false⟩ .stop ⟨pc, σ, true⟩
  | panic {σ b} : Step ⟨.done, σ, b⟩ .panic ⟨.done, σ, b⟩

/-- Any number of steps. -/
inductive Exec : WSt K T → List (Lbl K) → WSt K T → Prop
  | nil {s} : Exec s [] s
  | snoc {s s' s'' ls l} : Exec s ls s' → Step init step s' l s'' → Exec s (ls ++ [l]) s''

end

/-- The ids received in a schedule. -/
def received (ls : List (Lbl K)) : List K :=
  ls.filterMap (fun | .recv k => some k | _ => none)

@[simp] theorem received_nil : received ([] : List (Lbl K)) = [] := rfl
theorem received_append (l1 l2 : List (Lbl K)) : received (l1 ++ l2) = received l1 ++ received l2 := by
  simp [received]

/-- `dag.go:488-503` (`DescendantsWalker`): the error, or the initial state of the two goroutines. -/
def descendantsWalker (id : K) : M K T (Except Err (WSt K T)) := fun σ =>
  match checkVertexID σ.g id with
  | some e => some (.error e, σ)
  | none => some (.ok ⟨.start, σ, false⟩, σ)

/-- `dag.go:429-444` (`AncestorsWalker`). -/
def ancestorsWalker (id : K) : M K T (Except Err (WSt K T)) := fun σ =>
  match checkVertexID σ.g id with
  | some e => some (.error e, σ)
  | none => some (.ok ⟨.start, σ, false⟩, σ)

section
variable {init : M K T (Walk K)} {step : Walk K → M K T (Option (K × Walk K))}

/-- What the proofs need to know about a walker. -/
structure WalkerOK (E : K → K → Prop) (id : K) (σ0 : St K T) (init : M K T (Walk K))
    (step : Walk K → M K T (Option (K × Walk K))) (V : List K) : Prop where
  acyc : ¬ TransGen E id id
  fin : ∀ a b, E a b → b ∈ V
  init : Tot init σ0 (fun w σ' => σ'.g = σ0.g ∧ BfsInv E id [] w)
  step : StepOK E σ0.g step

/-- The invariant of the machine. -/
structure WInv (E : K → K → Prop) (id : K) (σ0 : St K T) (ls : List (Lbl K)) (s : WSt K T) : Prop where
  graph : s.σ.g = σ0.g
  buf : s.buf = true → Lbl.stop ∈ ls
  closed : Lbl.recvClosed ∈ ls → s.pc = .idsClosed ∨ s.pc = .done
  pos : match s.pc with
    | .start => s.σ = σ0 ∧ received ls = []
    | .loop w => BfsInv E id (received ls) w
    | .sel top w => BfsInv E id (received ls ++ [top]) w
    | .sending top w => BfsInv E id (received ls ++ [top]) w
    | _ => ∃ full, BfsDone E id full ∧ received ls <+: full ∧ (Lbl.stop ∉ ls → received ls = full)

theorem StepOK.cons {E : K → K → Prop} {g : Graph K T} (hs : StepOK E g step) {id : K} {em : List K} {w w' : Walk K}
    {σ σ' : St K T} {top : K} (hac : ¬ TransGen E id id) (hg : σ.g = g) (h : BfsInv E id em w)
    (he : step w σ = some (some (top, w'), σ')) : σ'.g = g ∧ BfsInv E id (em ++ [top]) w' := by
  have := Tot.elim (hs w σ hg) he
  refine ⟨this.1, ?_⟩
  cases hw : w.fifo with
  | nil => rw [hw] at this; cases this.2
  | cons t rest =>
    rw [hw] at this
    obtain ⟨cs, h1, h2⟩ := this.2
    cases h2
    exact h.step hac hw h1

theorem StepOK.nil {E : K → K → Prop} {g : Graph K T} (hs : StepOK E g step) {id : K} {em : List K} {w : Walk K}
    {σ σ' : St K T} (hg : σ.g = g) (h : BfsInv E id em w)
    (he : step w σ = some (none, σ')) : σ'.g = g ∧ BfsDone E id em := by
  have := Tot.elim (hs w σ hg) he
  refine ⟨this.1, ?_⟩
  cases hw : w.fifo with
  | nil => exact h.done hw
  | cons t rest =>
    rw [hw] at this
    obtain ⟨cs, h1, h2⟩ := this.2
    cases h2

/-- A partial traversal can be completed. -/
theorem BfsInv.complete {E : K → K → Prop} {id : K} {σ0 σ : St K T} {V : List K} {em : List K} {w : Walk K}
    (ok : WalkerOK E id σ0 init step V) (hg : σ.g = σ0.g) (h : BfsInv E id em w) :
    ∃ full, BfsDone E id full ∧ em <+: full := by
  obtain ⟨l, σ', _, _, h2⟩ := drain_spec ok.acyc ok.step V ok.fin (V.length + 1) em w σ hg h (by omega)
  exact ⟨em ++ l, h2, l, rfl⟩

theorem exec_inv {E : K → K → Prop} {id : K} {σ0 : St K T} {V : List K} (ok : WalkerOK E id σ0 init step V)
    {ls : List (Lbl K)} {s : WSt K T} (h : Exec init step ⟨.start, σ0, false⟩ ls s) : WInv E id σ0 ls s := by
  generalize hs0 : (⟨.start, σ0, false⟩ : WSt K T) = s0 at h
  induction h with
  | nil => subst hs0; exact ⟨rfl, fun h => (by cases h), fun h => (by cases h), rfl, rfl⟩
  | @snoc s' s'' ls l h1 h2 ih =>
    obtain ⟨hg, hb, hc, hp⟩ := ih
    have htau : ∀ {q : Lbl K}, q ∈ ls ++ [Lbl.tau] → q ≠ .tau → q ∈ ls := by
      intro q hq hne; simp only [List.mem_append, List.mem_singleton] at hq
      exact hq.resolve_right hne
    have rt : received (ls ++ [Lbl.tau]) = received ls := by simp [received]
    cases h2 with
    | @init σ w σ' b he =>
      simp only at hg hb hc hp
      obtain ⟨h3, h4⟩ := hp
      subst h3
      obtain ⟨h5, h6⟩ := Tot.elim ok.init he
      refine ⟨h5, fun h => List.mem_append_left _ (hb h), fun h => ?_, ?_⟩
      · exact absurd (hc (htau h (by simp))) (by simp)
      · show BfsInv E id (received _) w
        rw [rt, h4]; exact h6
    | @iter w σ top w' σ' b he =>
      simp only at hg hb hc hp
      obtain ⟨h5, h6⟩ := ok.step.cons ok.acyc hg hp he
      refine ⟨h5, fun h => List.mem_append_left _ (hb h), fun h => ?_, ?_⟩
      · exact absurd (hc (htau h (by simp))) (by simp)
      · show BfsInv E id (received _ ++ [top]) w'
        rw [rt]; exact h6
    | @ret w σ σ' b he =>
      simp only at hg hb hc hp
      obtain ⟨h5, h6⟩ := ok.step.nil hg hp he
      refine ⟨h5, fun h => List.mem_append_left _ (hb h), fun h => ?_, ?_⟩
      · exact absurd (hc (htau h (by simp))) (by simp)
      · exact ⟨received ls, h6, by rw [rt]; exact List.prefix_refl _, fun _ => rt⟩
    | @selStop top w σ =>
      simp only at hg hb hc hp
      refine ⟨hg, fun h => (by cases h), fun h => ?_, ?_⟩
      · exact absurd (hc (htau h (by simp))) (by simp)
      · obtain ⟨full, h1, h2⟩ := hp.complete ok hg
        refine ⟨full, h1, ?_, fun h => absurd (List.mem_append_left _ (hb trivial)) h⟩
        rw [rt]; exact (List.prefix_append _ _).trans h2
    | @selSend top w σ =>
      simp only at hg hb hc hp
      refine ⟨hg, fun h => (by cases h), fun h => ?_, ?_⟩
      · exact absurd (hc (htau h (by simp))) (by simp)
      · show BfsInv E id (received _ ++ [top]) w
        rw [rt]; exact hp
    | @closeIds σ b =>
      simp only at hg hb hc hp
      refine ⟨hg, fun h => List.mem_append_left _ (hb h), fun h => .inl rfl, ?_⟩
      obtain ⟨full, h1, h2, h3⟩ := hp
      exact ⟨full, h1, by rw [rt]; exact h2, fun h => by rw [rt]; exact h3 (fun h' => h (List.mem_append_left _ h'))⟩
    | @closeSignal σ b =>
      simp only at hg hb hc hp
      refine ⟨hg, fun h => List.mem_append_left _ (hb h), fun h => .inr rfl, ?_⟩
      obtain ⟨full, h1, h2, h3⟩ := hp
      exact ⟨full, h1, by rw [rt]; exact h2, fun h => by rw [rt]; exact h3 (fun h' => h (List.mem_append_left _ h'))⟩
    | @recv top w σ b =>
      simp only at hg hb hc hp
      refine ⟨hg, fun h => List.mem_append_left _ (hb h), fun h => ?_, ?_⟩
      · simp only [List.mem_append, List.mem_singleton, reduceCtorEq, or_false] at h
        exact absurd (hc h) (by simp)
      · show BfsInv E id (received _) w
        rw [received_append]; exact hp
    | @recvClosed1 σ b =>
      simp only at hg hb hc hp
      have rt : received (ls ++ [Lbl.recvClosed]) = received ls := by simp [received]
      refine ⟨hg, fun h => List.mem_append_left _ (hb h), fun h => .inl rfl, ?_⟩
      obtain ⟨full, h1, h2, h3⟩ := hp
      exact ⟨full, h1, by rw [rt]; exact h2, fun h => by rw [rt]; exact h3 (fun h' => h (List.mem_append_left _ h'))⟩
    | @recvClosed2 σ b =>
      simp only at hg hb hc hp
      have rt : received (ls ++ [Lbl.recvClosed]) = received ls := by simp [received]
      refine ⟨hg, fun h => List.mem_append_left _ (hb h), fun h => .inr rfl, ?_⟩
      obtain ⟨full, h1, h2, h3⟩ := hp
      exact ⟨full, h1, by rw [rt]; exact h2, fun h => by rw [rt]; exact h3 (fun h' => h (List.mem_append_left _ h'))⟩
    | @stop pc σ hne =>
      simp only at hg hb hc hp
      have rt : received (ls ++ [Lbl.stop]) = received ls := by simp [received]
      refine ⟨hg, fun h => by simp, fun h => ?_, ?_⟩
      · simp only [List.mem_append, List.mem_singleton, reduceCtorEq, or_false] at h
        exact hc h
      · rw [rt]
        cases pc with
        | start => exact hp
        | loop w => exact hp
        | sel top w => exact hp
        | sending top w => exact hp
        | _ =>
          obtain ⟨full, h1, h2, h3⟩ := hp
          exact ⟨full, h1, h2, fun h => absurd (by simp) h⟩
    | @panic σ b =>
      simp only at hg hb hc hp
      have rt : received (ls ++ [Lbl.panic]) = received ls := by simp [received]
      refine ⟨hg, fun h => List.mem_append_left _ (hb h), fun h => .inr rfl, ?_⟩
      obtain ⟨full, h1, h2, h3⟩ := hp
      exact ⟨full, h1, by rw [rt]; exact h2, fun h => by rw [rt]; exact h3 (fun h' => h (List.mem_append_left _ h'))⟩

/-- What has been received is a prefix of a breadth-first enumeration. -/
theorem exec_prefix {E : K → K → Prop} {id : K} {σ0 : St K T} {V : List K} (ok : WalkerOK E id σ0 init step V)
    {ls : List (Lbl K)} {s : WSt K T} (h : Exec init step ⟨.start, σ0, false⟩ ls s) :
    ∃ full, BfsDone E id full ∧ received ls <+: full ∧
      (Lbl.recvClosed ∈ ls → Lbl.stop ∉ ls → received ls = full) := by
  obtain ⟨hg, hb, hc, hp⟩ := exec_inv ok h
  obtain ⟨pc, σ, b⟩ := s
  simp only at hg hb hc hp
  cases pc with
  | start =>
    obtain ⟨h1, h2⟩ := hp
    obtain ⟨w, σ', _, h3, h4⟩ := ok.init
    obtain ⟨full, h5, h6⟩ := h4.complete ok h3
    exact ⟨full, h5, by rw [h2]; exact h6, fun h => absurd (hc h) (by simp)⟩
  | loop w =>
    obtain ⟨full, h5, h6⟩ := hp.complete ok hg
    exact ⟨full, h5, h6, fun h => absurd (hc h) (by simp)⟩
  | sel top w =>
    obtain ⟨full, h5, h6⟩ := hp.complete ok hg
    exact ⟨full, h5, (List.prefix_append _ _).trans h6, fun h => absurd (hc h) (by simp)⟩
  | sending top w =>
    obtain ⟨full, h5, h6⟩ := hp.complete ok hg
    exact ⟨full, h5, (List.prefix_append _ _).trans h6, fun h => absurd (hc h) (by simp)⟩
  | _ =>
    obtain ⟨full, h1, h2, h3⟩ := hp
    exact ⟨full, h1, h2, fun _ => h3⟩

/-! ### Stopping -/

/-- Splitting an execution. -/
theorem Exec.split {s0 s : WSt K T} {l1 l2 : List (Lbl K)} (h : Exec init step s0 (l1 ++ l2) s) :
    ∃ s1, Exec init step s0 l1 s1 ∧ Exec init step s1 l2 s := by
  generalize hl : l1 ++ l2 = ls at h
  induction h generalizing l2 with
  | nil =>
    obtain ⟨rfl, rfl⟩ := List.append_eq_nil_iff.mp hl
    exact ⟨_, .nil, .nil⟩
  | @snoc s' s'' ls l h1 h2 ih =>
    rcases List.eq_nil_or_concat l2 with rfl | ⟨l2', x, rfl⟩
    · rw [List.append_nil] at hl; subst hl
      exact ⟨_, .snoc h1 h2, .nil⟩
    · rw [List.concat_eq_append, ← List.append_assoc] at hl
      obtain ⟨h3, h4⟩ := List.append_inj' hl rfl
      cases h4
      obtain ⟨s1, k1, k2⟩ := ih h3
      exact ⟨s1, k1, by rw [List.concat_eq_append]; exact .snoc k2 h2⟩

theorem Exec.append {s0 s1 s : WSt K T} {l1 l2 : List (Lbl K)} (h1 : Exec init step s0 l1 s1)
    (h2 : Exec init step s1 l2 s) : Exec init step s0 (l1 ++ l2) s := by
  induction h2 with
  | nil => rw [List.append_nil]; exact h1
  | snoc _ h ih => rw [← List.append_assoc]; exact .snoc ih h

theorem Exec.single {s0 s : WSt K T} {l : Lbl K} (h : Step init step s0 l s) : Exec init step s0 [l] s :=
  .snoc (ls := []) .nil h

theorem Exec.single_inv {s0 s : WSt K T} {l : Lbl K} (h : Exec init step s0 [l] s) : Step init step s0 l s := by
  generalize hl : [l] = ls at h
  cases h with
  | nil => cases hl
  | @snoc s' _ ls' l' h1 h2 =>
    obtain ⟨h3, h4⟩ := List.append_inj' (s₁ := []) hl rfl
    cases h4
    subst h3
    generalize hn : ([] : List (Lbl K)) = e at h1
    cases h1 with
    | nil => exact h2
    | snoc => simp at hn

/-- After the stop signal: how many more ids can be received from here. -/
def Late (s : WSt K T) (n : Nat) : Prop :=
  match s.pc with
  | .start | .loop _ | .sel _ _ => s.buf = true ∧ n ≤ 1
  | .sending _ _ => s.buf = true ∧ n = 0
  | _ => n ≤ 1

theorem late_of_stop {s s' : WSt K T} (h : Step init step s .stop s') : Late s' 0 := by
  cases h with
  | @stop pc σ hne => cases pc <;> simp [Late]

theorem Exec.late {s s' : WSt K T} {ls : List (Lbl K)} (h : Exec init step s ls s') (h0 : Late s 0) :
    Late s' (received ls).length := by
  induction h with
  | nil => exact h0
  | @snoc s' s'' ls l h1 h2 ih =>
    rw [received_append, List.length_append]
    cases h2 with
    | init he => simp_all [Late, received]
    | iter he => simp_all [Late, received]
    | ret he => simp_all [Late, received]
    | selStop => simp_all [Late, received]
    | selSend => simp_all [Late, received]
    | closeIds => simp_all [Late, received]
    | closeSignal => simp_all [Late, received]
    | recv =>
      obtain ⟨h3, h4⟩ := ih
      rw [h4]
      exact ⟨h3, by simp [received]⟩
    | recvClosed1 => simp_all [Late, received]
    | recvClosed2 => simp_all [Late, received]
    | @stop pc σ hne => cases pc <;> simp_all [Late, received]
    | panic => simp_all [Late, received]

theorem Late.le_one {s : WSt K T} {n : Nat} (h : Late s n) : n ≤ 1 := by
  unfold Late at h
  split at h
  · exact h.2
  · exact h.2
  · exact h.2
  · rw [h.2]; omega
  · exact h

/-! ### Termination -/

/-- Steps by which the walker advances. -/
def Lbl.advances : Lbl K → Bool
  | .tau | .recv _ => true
  | _ => false

/-- Upper bound for the number of advancing steps still to come. -/
def remaining (n : Nat) (ls : List (Lbl K)) : PC K → Nat
  | .start => 3 * n + 4
  | .loop _ => 3 * (n - (received ls).length) + 3
  | .sel _ _ => 3 * (n - (received ls).length - 1) + 5
  | .sending _ _ => 3 * (n - (received ls).length - 1) + 4
  | .exited => 2
  | .idsClosed => 1
  | .done => 0

theorem step_remaining {E : K → K → Prop} {id : K} {σ0 : St K T} {V : List K} (ok : WalkerOK E id σ0 init step V)
    {ls : List (Lbl K)} {s s' : WSt K T} {l : Lbl K} (hi : WInv E id σ0 ls s) (hi' : WInv E id σ0 (ls ++ [l]) s')
    (h : Step init step s l s') :
    remaining V.length (ls ++ [l]) s'.pc + (if l.advances then 1 else 0) ≤ remaining V.length ls s.pc := by
  have rt : ∀ l : Lbl K, (∀ k, l ≠ .recv k) → received (ls ++ [l]) = received ls := by
    intro l hl; rw [received_append]
    cases l with
    | recv k => exact absurd rfl (hl k)
    | _ => simp [received]
  cases h with
  | @init σ w σ' b he =>
    have hr := hi.pos.2
    simp only [remaining, Lbl.advances, if_true]
    rw [rt _ (by simp), hr]; simp
  | @iter w σ top w' σ' b he =>
    have hl := BfsInv.length_le hi'.pos V ok.fin
    simp only [List.length_append, List.length_singleton] at hl
    rw [rt _ (by simp)] at hl
    simp only [remaining, Lbl.advances, if_true]
    rw [rt _ (by simp)]; omega
  | ret he => simp only [remaining, Lbl.advances, if_true]; omega
  | selStop => simp only [remaining, Lbl.advances, if_true]; omega
  | selSend => simp only [remaining, Lbl.advances, if_true]; rw [rt _ (by simp)]
  | closeIds => simp only [remaining, Lbl.advances, if_true]; omega
  | closeSignal => simp only [remaining, Lbl.advances, if_true]; omega
  | @recv top w σ b =>
    simp only [remaining, Lbl.advances, if_true, received_append, List.length_append]
    simp only [received, List.filterMap_cons, List.filterMap_nil, List.length_cons, List.length_nil]
    omega
  | recvClosed1 => simp [remaining, Lbl.advances]
  | recvClosed2 => simp [remaining, Lbl.advances]
  | @stop pc σ hne =>
    cases pc <;> simp [remaining, Lbl.advances, rt]
  | panic => simp [remaining, Lbl.advances]

theorem exec_remaining {E : K → K → Prop} {id : K} {σ0 : St K T} {V : List K} (ok : WalkerOK E id σ0 init step V)
    {ls : List (Lbl K)} {s : WSt K T} (h : Exec init step ⟨.start, σ0, false⟩ ls s) :
    (ls.filter Lbl.advances).length + remaining V.length ls s.pc ≤ 3 * V.length + 4 := by
  generalize hs0 : (⟨.start, σ0, false⟩ : WSt K T) = s0 at h
  induction h with
  | nil => subst hs0; simp [remaining]
  | @snoc s' s'' ls l h1 h2 ih =>
    subst hs0
    have := step_remaining ok (exec_inv ok h1) (exec_inv ok (.snoc h1 h2)) h2
    rw [List.filter_append, List.length_append]
    by_cases hl : l.advances = true
    · rw [if_pos hl] at this
      simp only [List.filter_cons, hl, if_true, List.filter_nil, List.length_singleton]; omega
    · rw [if_neg hl] at this
      simp only [List.filter_cons, hl, List.filter_nil]; simp; omega

/-- Until both channels are closed the walker can advance, if necessary by a receive. -/
theorem exec_progress {E : K → K → Prop} {id : K} {σ0 : St K T} {V : List K} (ok : WalkerOK E id σ0 init step V)
    {ls : List (Lbl K)} {s : WSt K T} (h : Exec init step ⟨.start, σ0, false⟩ ls s) :
    s.pc = .done ∨ (∃ s', Step init step s .tau s') ∨
      ∃ top w s', s.pc = .sending top w ∧ Step init step s (.recv top) s' := by
  obtain ⟨hg, hb, hc, hp⟩ := exec_inv ok h
  obtain ⟨pc, σ, b⟩ := s
  simp only at hg hb hc hp
  cases pc with
  | start =>
    obtain ⟨rfl, _⟩ := hp
    obtain ⟨w, σ', he, _⟩ := ok.init
    exact .inr (.inl ⟨_, .init he⟩)
  | loop w =>
    obtain ⟨r, σ', he, _⟩ := ok.step w σ hg
    cases r with
    | none => exact .inr (.inl ⟨_, .ret he⟩)
    | some p => exact .inr (.inl ⟨_, .iter (top := p.1) (w' := p.2) he⟩)
  | sel top w =>
    cases b with
    | true => exact .inr (.inl ⟨_, .selStop⟩)
    | false => exact .inr (.inl ⟨_, .selSend⟩)
  | sending top w => exact .inr (.inr ⟨top, w, _, rfl, .recv⟩)
  | exited => exact .inr (.inl ⟨_, .closeIds⟩)
  | idsClosed => exact .inr (.inl ⟨_, .closeSignal⟩)
  | done => exact .inl rfl

/-- From every state the walker reaches its end, receiving whatever is offered. -/
theorem exec_finish {E : K → K → Prop} {id : K} {σ0 : St K T} {V : List K} (ok : WalkerOK E id σ0 init step V)
    {ls : List (Lbl K)} {s : WSt K T} (h : Exec init step ⟨.start, σ0, false⟩ ls s) :
    ∃ ls' s', Exec init step s ls' s' ∧ s'.pc = .done ∧ ∀ l ∈ ls', l.advances = true := by
  generalize hn : remaining V.length ls s.pc = n
  induction n using Nat.strongRecOn generalizing ls s with
  | ind n ih =>
    have go : ∀ l s', l.advances = true → Step init step s l s' →
        ∃ ls' s', Exec init step s ls' s' ∧ s'.pc = .done ∧ ∀ l ∈ ls', l.advances = true := by
      intro l s' hl hs
      have h' := Exec.snoc h hs
      have := step_remaining ok (exec_inv ok h) (exec_inv ok h') hs
      rw [if_pos hl] at this
      obtain ⟨ls', s'', k1, k2, k3⟩ := ih _ (by omega) h' rfl
      refine ⟨[l] ++ ls', s'', (Exec.single hs).append k1, k2, ?_⟩
      intro q hq
      rcases List.mem_append.mp hq with hq | hq
      · rw [List.mem_singleton.mp hq]; exact hl
      · exact k3 q hq
    rcases exec_progress ok h with hd | ⟨s', hs⟩ | ⟨top, w, s', _, hs⟩
    · exact ⟨[], s, .nil, hd, fun l hl => by cases hl⟩
    · exact go _ s' rfl hs
    · exact go _ s' rfl hs

/-! ### Agreement with the sequential model of the ordered queries -/

/-- `r` is still to be sent, leaving the state `σf`, if nobody stops the walker. -/
def Rest (init : M K T (Walk K)) (step : Walk K → M K T (Option (K × Walk K))) (s : WSt K T) (r : List K)
    (σf : St K T) : Prop :=
  match s.pc with
  | .start => ∃ w σ1 f, init s.σ = some (w, σ1) ∧ drain step f w σ1 = some (r, σf)
  | .loop w => ∃ f, drain step f w s.σ = some (r, σf)
  | .sel top w => ∃ f r', r = top :: r' ∧ drain step f w s.σ = some (r', σf)
  | .sending top w => ∃ f r', r = top :: r' ∧ drain step f w s.σ = some (r', σf)
  | _ => r = [] ∧ σf = s.σ

theorem exec_rest {r0 : List K} {σf : St K T} {ls : List (Lbl K)} {s0 s : WSt K T}
    (h : Exec init step s0 ls s) (hb : s0.buf = false) (h0 : Rest init step s0 r0 σf) (hns : Lbl.stop ∉ ls) :
    s.buf = false ∧ ∃ r, r0 = received ls ++ r ∧ Rest init step s r σf := by
  induction h with
  | nil => exact ⟨hb, r0, rfl, h0⟩
  | @snoc s' s'' ls l h1 h2 ih =>
    obtain ⟨hb', r, hr, hrest⟩ := ih (fun h => hns (List.mem_append_left _ h))
    have rt : ∀ l : Lbl K, (∀ k, l ≠ .recv k) → received (ls ++ [l]) = received ls := by
      intro l hl; rw [received_append]
      cases l with
      | recv k => exact absurd rfl (hl k)
      | _ => simp [received]
    cases h2 with
    | @init σ w σ' b he =>
      obtain ⟨w2, σ1, f, h3, h4⟩ := hrest
      simp only at h3
      rw [he] at h3; cases h3
      exact ⟨hb', r, by rw [rt _ (by simp)]; exact hr, f, h4⟩
    | @iter w σ top w' σ' b he =>
      obtain ⟨f, h4⟩ := hrest
      cases f with
      | zero => cases h4
      | succ f =>
        change M.bind (step w) _ σ = _ at h4
        simp only [M.bind, he] at h4
        change M.bind (drain step f w') _ σ' = _ at h4
        unfold M.bind at h4
        cases hd : drain step f w' σ' with
        | none => rw [hd] at h4; cases h4
        | some p =>
          rw [hd] at h4; cases h4
          exact ⟨hb', _, by rw [rt _ (by simp)]; exact hr, f, p.1, rfl, by rw [hd]⟩
    | @ret w σ σ' b he =>
      obtain ⟨f, h4⟩ := hrest
      cases f with
      | zero => cases h4
      | succ f =>
        change M.bind (step w) _ σ = _ at h4
        simp only [M.bind, he] at h4
        cases h4
        exact ⟨hb', [], by rw [rt _ (by simp)]; exact hr, rfl, rfl⟩
    | selStop => cases hb'
    | @selSend top w σ => exact ⟨hb', r, by rw [rt _ (by simp)]; exact hr, hrest⟩
    | closeIds => exact ⟨hb', r, by rw [rt _ (by simp)]; exact hr, hrest⟩
    | closeSignal => exact ⟨hb', r, by rw [rt _ (by simp)]; exact hr, hrest⟩
    | @recv top w σ b =>
      obtain ⟨f, r', rfl, h4⟩ := hrest
      refine ⟨hb', r', ?_, f, h4⟩
      rw [hr, received_append]; simp [received]
    | recvClosed1 => exact ⟨hb', r, by rw [rt _ (by simp)]; exact hr, hrest⟩
    | recvClosed2 => exact ⟨hb', r, by rw [rt _ (by simp)]; exact hr, hrest⟩
    | stop _ => exact absurd (by simp) hns
    | panic => exact ⟨hb', r, by rw [rt _ (by simp)]; exact hr, hrest⟩

/-- A consumer that only receives until it sees the closed channel gets exactly the list of the
sequential model. -/
theorem exec_drain {σ0 σ1 σf : St K T} {w : Walk K} {f : Nat} {l : List K} {ls : List (Lbl K)} {s : WSt K T}
    (hinit : init σ0 = some (w, σ1)) (hd : drain step f w σ1 = some (l, σf))
    (h : Exec init step ⟨.start, σ0, false⟩ ls s) (hns : Lbl.stop ∉ ls)
    (hc : s.pc = .idsClosed ∨ s.pc = .done) : received ls = l ∧ s.σ = σf := by
  obtain ⟨_, r, h1, h2⟩ := exec_rest (r0 := l) (σf := σf) h rfl ⟨w, σ1, f, hinit, hd⟩ hns
  unfold Rest at h2
  rcases hc with hc | hc <;> rw [hc] at h2 <;> obtain ⟨rfl, rfl⟩ := h2 <;> simp [h1]

end

/-! ### The two walkers -/

theorem descendantsWalker_ok (ω : Oracle) (id : K) (σ : St K T) (hi : Inv σ.g) :
    WalkerOK σ.g.E id σ (walkDescendantsInit ω id) (walkDescendantsStep ω) (GoMap.keys σ.g.vertices) where
  acyc := hi.base.acyc id
  fin := fun a b h => by rw [GoMap.mem_keys_iff_has]; exact (hi.base.ends a b h).2
  init := walkDescendantsInit_spec ω id σ hi.base
  step := walkDescendantsStep_ok ω hi.base

theorem ancestorsWalker_ok (ω : Oracle) (id : K) (σ : St K T) (hi : Inv σ.g) :
    WalkerOK (Function.swap σ.g.E) id σ (walkAncestorsInit ω id) (walkAncestorsStep ω) (GoMap.keys σ.g.vertices) where
  acyc := by rw [transGen_swap]; exact hi.base.acyc id
  fin := fun a b h => by rw [GoMap.mem_keys_iff_has]; exact (hi.base.ends b a h).1
  init := walkAncestorsInit_spec ω id σ hi.base
  step := walkAncestorsStep_ok ω hi.base

end Verif.Dag
