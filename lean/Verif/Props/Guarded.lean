import Verif.Dag.Guarded
import Verif.Props.Remembered

/-!
# Goroutines that share a graph under a read-write lock (C60)

The obvious way to share a graph: `Lock` for the calls that change it, `RLock` for the queries.  It is not enough, since
`GetAncestors` and `GetDescendants` write.  With `Lock` for these two as well every program is free of races, and the
calls have the results they would have one after the other, in some order.
-/

set_option linter.unusedSectionVars false

namespace Verif.Dag
open HSt (Ok)

section
variable {K T : Type} [DecidableEq K] [GoZero K] [GoZero T]

/-! ## Specification -/

/-- The calls finished so far. -/
def GConf.ops (c : GConf K T) : List (Op K T) := c.log.map fun e => e.2.1

/-- Their results. -/
def GConf.results (c : GConf K T) : List (Res K T) := c.log.map fun e => e.2.2

/-- The calls goroutine `i` has finished. -/
def GConf.opsOf (c : GConf K T) (i : Nat) : List (Op K T) := (c.log.filter fun e => e.1 = i).map fun e => e.2.1

/-- What is claimed of every interleaving of `jobs` on a graph that stands for `a`. -/
structure Served (excl : Op K T → Bool) (a : Abs K T) (jobs : List (Job K T)) (c : GConf K T) : Prop where
  /-- no data race -/
  race : ¬ c.conf.Race
  /-- a query that has begun never panics or waits -/
  goesOn : ∀ (i : Nat) (g : GThread K T), c.ts[i]? = some g → g.cur ≠ none → ∃ c', c.step excl i = some c'
  /-- unless there are queries to wait for, every goroutine can make its next call -/
  begins : c.free = true → ∀ (i : Nat) (g : GThread K T), c.ts[i]? = some g → g.todo ≠ [] → ∃ c', c.step excl i = some c'
  /-- the results are those of the same calls made one after the other, in the order in which they ended -/
  order : Spec.okAll a c.ops c.results
  /-- this order keeps the order of each goroutine's calls, and none is lost -/
  keeps : ∀ (i : Nat) (g : GThread K T) (j : Job K T), c.ts[i]? = some g → jobs[i]? = some j →
    c.opsOf i ++ g.cur.toList ++ g.todo = j.ops
  /-- whatever is done next is done on the graph these calls have made -/
  after : c.free = true → ∀ (ω : Oracle) (ss : List (Act K T)),
    ∃ os h', client ω ss [] c.h = some (os, h') ∧ Ideal (Spec.after a c.ops) [] ss os

/-- A way to use the lock is safe if every program that uses it so is. -/
def Guards (excl : Op K T → Bool) : Prop :=
  ∀ (ω : Oracle) (ss : List (Act K T)) (os : List (Out K T)) (h : HSt K T), client ω ss [] HSt.init = some (os, h) →
    ∀ (jobs : List (Job K T)), (∀ j ∈ jobs, j.ω.Natural) →
    ∀ c, (GConf.start h jobs).Reach excl c → Served excl (Spec.after Spec.empty (calls ss)) jobs c

/-- Whether a call may write to a cache: `GetAncestors` and `GetDescendants`, unless they are refused at once. -/
def Op.mayWrite : Op K T → Bool
  | .getAncestors id => !isZero id
  | .getDescendants id => !isZero id
  | _ => false

/-- **C60.**  The claim in full: it is enough that calls that change the graph hold `Lock`. -/
def C60_full (K T : Type) [DecidableEq K] [GoZero K] [GoZero T] : Prop :=
  Guards (fun op : Op K T => !op.isQuery)

/-! ## Proof -/

theorem Spec.okAll_snoc {a : Abs K T} {ops : List (Op K T)} {rs : List (Res K T)} {op : Op K T} {r : Res K T}
    (h : Spec.okAll a ops rs) (h' : Spec.ok (Spec.after a ops) op r) : Spec.okAll a (ops ++ [op]) (rs ++ [r]) := by
  induction ops generalizing a rs with
  | nil =>
    cases rs with
    | nil => exact ⟨h', trivial⟩
    | cons _ _ => exact h.elim
  | cons o ops ih =>
    cases rs with
    | nil => exact h.elim
    | cons x rs => exact ⟨h.1, ih h.2 h'⟩

theorem Spec.after_snoc (a : Abs K T) (ops : List (Op K T)) (op : Op K T) :
    Spec.after a (ops ++ [op]) = Spec.next (Spec.after a ops) op := by
  induction ops generalizing a with
  | nil => rfl
  | cons o ops ih => exact ih _

/-- The results of the program of a goroutine that is executing `op`. -/
abbrev Answers (a : Abs K T) (op : Option (Op K T)) (rs : List (Res K T)) : Prop :=
  match op with
  | none => rs = []
  | some op => ∃ r, rs = [r] ∧ Spec.ok a op r

/-- What holds between any two steps. -/
structure Steady (a : Abs K T) (jobs : List (Job K T)) (S M : Nat → Set Nat) (c : GConf K T) : Prop where
  ok : Ok c.h
  inv : Inv c.h.abs.g
  abs : abs c.h.abs.g = Spec.after a c.ops
  mine : ∀ i, Mine (S i) (M i) c.h
  apart : ∀ i j, i ≠ j → (∀ a ∈ S i, a ∉ S j) ∧ ∀ a ∈ M i, a ∉ M j
  safe : ∀ (i : Nat) (g : GThread K T), c.ts[i]? = some g → Safe .plain g.t.ω
    (fun rs _ _ _ _ => Answers (Spec.after a c.ops) g.cur rs) g.t.p g.t.n (S i) (M i) c.h
  order : Spec.okAll a c.ops c.results
  keeps : ∀ (i : Nat) (g : GThread K T) (j : Job K T), c.ts[i]? = some g → jobs[i]? = some j →
    c.opsOf i ++ g.cur.toList ++ g.todo = j.ops
  query : ∀ (i : Nat) (g : GThread K T) (op : Op K T), c.ts[i]? = some g → g.cur = some op → op.isQuery = true
  idle : ∀ (i : Nat) (g : GThread K T), c.ts[i]? = some g → g.cur = none → g.t.p = .ret []
  natural : ∀ (i : Nat) (g : GThread K T), c.ts[i]? = some g → g.t.ω.Natural

theorem Mode.plain_writes {f : Fld} : ¬ Mode.plain.writes f := by
  cases f <;> (intro h; cases h)

theorem graph_ext {g g' : Graph K T} (hv : g.vertices = g'.vertices) (hf : ∀ f, g.fld f = g'.fld f) : g = g' := by
  obtain ⟨v, i, o, a, d⟩ := g
  obtain ⟨v', i', o', a', d'⟩ := g'
  have h1 := hf .inb
  have h2 := hf .outb
  have h3 := hf .anc
  have h4 := hf .desc
  simp only [Graph.fld] at h1 h2 h3 h4
  simp_all

/-- The goroutines as those of C58. -/
theorem Steady.together {a : Abs K T} {jobs : List (Job K T)} {S M : Nat → Set Nat} {c : GConf K T}
    (st : Steady a jobs S M c) : Together (fun _ => .plain)
      (fun i rs _ _ _ _ => ∀ g, c.ts[i]? = some g → Answers (Spec.after a c.ops) g.cur rs) c.h.abs.g S M c.conf := by
  refine ⟨st.ok, st.mine, st.apart, ?_, rfl, fun f _ => (abs_fld c.h f).symm⟩
  intro i t ht
  have ht' : (c.ts.map (·.t))[i]? = some t := ht
  rw [List.getElem?_map, Option.map_eq_some_iff] at ht'
  obtain ⟨g, e, rfl⟩ := ht'
  refine (st.safe i g e).mono ?_
  intro rs _ _ _ _ h g' e'
  rw [e] at e'
  cases e'
  exact h

theorem plain_apart : ∀ i j : Nat, i ≠ j → ∀ f, ¬ (((fun _ => Mode.plain : Nat → Mode) i).writes f ∧
    ((fun _ => Mode.plain : Nat → Mode) j).sees f) := fun _ _ _ _ h => Mode.plain_writes h.1

theorem GConf.ops_snoc (c : GConf K T) (h : HSt K T) (ts : List (GThread K T)) (i : Nat) (op : Op K T) (r : Res K T) :
    (⟨h, ts, c.log ++ [(i, op, r)]⟩ : GConf K T).ops = c.ops ++ [op] := by simp [GConf.ops]

theorem GConf.results_snoc (c : GConf K T) (h : HSt K T) (ts : List (GThread K T)) (i : Nat) (op : Op K T) (r : Res K T) :
    (⟨h, ts, c.log ++ [(i, op, r)]⟩ : GConf K T).results = c.results ++ [r] := by simp [GConf.results]

theorem GConf.opsOf_snoc (c : GConf K T) (h : HSt K T) (ts : List (GThread K T)) (i j : Nat) (op : Op K T) (r : Res K T) :
    (⟨h, ts, c.log ++ [(i, op, r)]⟩ : GConf K T).opsOf j = c.opsOf j ++ if i = j then [op] else [] := by
  unfold GConf.opsOf
  rw [List.filter_append, List.map_append]
  by_cases e : i = j <;> simp [e]

/-- A call under `Lock`. -/
theorem exec_locked (ω : Oracle) (op : Op K T) {h : HSt K T} (ok : Ok h) (hi : Inv h.abs.g) :
    ∃ r m h', H.exec ω op h = some ((r, m), h') ∧ Ok h' ∧ Inv h'.abs.g ∧ abs h'.abs.g = Spec.next (abs h.abs.g) op ∧
      Spec.ok (abs h.abs.g) op r := by
  obtain ⟨r, σ, e, h1, h2, h3⟩ := exec_refines ω op h.abs hi
  rcases exec_sim ω op h ok with ⟨_, h'⟩ | ⟨⟨x, m⟩, h', b, k1, k2, k3, _, k5⟩
  · rw [e] at h'; cases h'
  · rw [e] at k2
    cases k2
    have : x = r := k5.1
    subst this
    exact ⟨x, m, h', k1, k3, h1, h2, h3⟩

theorem Op.refused {op : Op K T} (hw : op.mayWrite = false) {f : Fld} {id : K} (hc : op.cache = some (f, id))
    (g : Graph K T) : checkVertexID g id ≠ none := by
  have hz : isZero id = true := by
    cases op <;> first | (cases hc; simpa [Op.mayWrite] using hw) | cases hc
  unfold checkVertexID
  simp [hz]

/-- The query begins. -/
theorem Steady.begin {a : Abs K T} {jobs : List (Job K T)} {S M : Nat → Set Nat} {c : GConf K T}
    (st : Steady a jobs S M c) {i : Nat} {g : GThread K T} (hg : c.ts[i]? = some g) {op : Op K T} (hq : op.isQuery = true)
    (hc : op.mayWrite = false) : Safe .plain g.t.ω (fun rs _ _ _ _ => Answers (Spec.after a c.ops) (some op) rs)
      (P.script (H.fuelFor c.h) [op]) g.t.n (S i) (M i) c.h := by
  have hq' : ∀ o ∈ [op], o.isQuery = true := fun o ho => by rw [List.mem_singleton.mp ho]; exact hq
  obtain ⟨rs, σ', e, s⟩ := script_conc (n := g.t.n) (fuel := H.fuelFor c.h) (γ := c.h.abs.g) (w := .plain)
    (st.natural i g hg) [op] hq' (fun o ho f id h => by rw [List.mem_singleton.mp ho] at h; exact .inr (.inl (Op.refused hc h _)))
    rfl st.inv ⟨st.ok, st.mine i, rfl, fun f _ => (abs_fld c.h f).symm⟩
  obtain ⟨rs2, σ2, k1, _, _, k4⟩ := run_refines_from g.t.ω [op] ⟨c.h.abs.g, g.t.n⟩ st.inv
  rw [e] at k1
  cases k1
  refine s.mono ?_
  rintro rs' _ _ _ _ ⟨rfl, _⟩
  have k4 : Spec.okAll (Dag.abs c.h.abs.g) [op] rs' := k4
  rw [st.abs] at k4
  match rs', k4 with
  | [r], k4 => exact ⟨r, rfl, k4.1⟩

theorem Steady.step {excl : Op K T → Bool} (hx : ∀ op, excl op = false → op.isQuery = true ∧ op.mayWrite = false)
    {a : Abs K T} {jobs : List (Job K T)} {S M : Nat → Set Nat} {c c' : GConf K T}
    (st : Steady a jobs S M c) {i : Nat} (e : c.step excl i = some c') : ∃ S' M', Steady a jobs S' M' c' := by
  unfold GConf.step at e
  cases hg : c.ts[i]? with
  | none => rw [hg] at e; cases e
  | some g =>
    rw [hg] at e
    obtain ⟨⟨p, ω, n⟩, cur, todo⟩ := g
    have hlt : i < c.ts.length := (List.getElem?_eq_some_iff.mp hg).1
    have hnat : ω.Natural := st.natural i _ hg
    have hkeep : ∀ j, jobs[i]? = some j → c.opsOf i ++ cur.toList ++ todo = j.ops := fun j hj => st.keeps i _ j hg hj
    have hidle : cur = none → p = .ret [] := st.idle i _ hg
    -- the goroutine that has made the step, and the others
    have others : ∀ {j : Nat} {g' g0 : GThread K T}, (c.ts.set i g0)[j]? = some g' →
        (j = i ∧ g' = g0) ∨ (j ≠ i ∧ c.ts[j]? = some g') := by
      intro j g' g0 h
      by_cases hj : j = i
      · subst hj
        rw [List.getElem?_set_self hlt] at h
        cases h
        exact .inl ⟨rfl, rfl⟩
      · rw [List.getElem?_set_ne (Ne.symm hj)] at h
        exact .inr ⟨hj, h⟩
    cases cur with
    | some op =>
      cases p with
      | fail => cases e
      | ret rs =>
        match rs, e with
        | [r], e =>
          simp only [Option.some.injEq] at e
          subst e
          have hq := st.query i _ op hg rfl
          have hop := st.safe i _ hg c.h (Rely.refl st.ok (st.mine i))
          obtain ⟨r', e', hop⟩ := hop
          cases e'
          have ha : Spec.after a (c.ops ++ [op]) = Spec.after a c.ops := by
            rw [Spec.after_snoc, Spec.next_query _ hq]
          refine ⟨S, M, st.ok, st.inv, ?_, st.mine, st.apart, ?_, ?_, ?_, ?_, ?_, ?_⟩
          · rw [GConf.ops_snoc, ha]; exact st.abs
          · intro j g' hg'
            rw [GConf.ops_snoc, ha]
            rcases others hg' with ⟨rfl, rfl⟩ | ⟨_, h⟩
            · exact fun _ _ => rfl
            · exact st.safe j g' h
          · rw [GConf.ops_snoc, GConf.results_snoc]; exact Spec.okAll_snoc st.order hop
          · intro j g' jb hg' hj
            rw [GConf.opsOf_snoc]
            rcases others hg' with ⟨rfl, rfl⟩ | ⟨hne, h⟩
            · simpa using hkeep jb hj
            · simpa [Ne.symm hne] using st.keeps j _ jb h hj
          · intro j g' op' hg' hc'
            rcases others hg' with ⟨rfl, rfl⟩ | ⟨_, h⟩
            · cases hc'
            · exact st.query j g' op' h hc'
          · intro j g' hg' hc'
            rcases others hg' with ⟨rfl, rfl⟩ | ⟨_, h⟩
            · rfl
            · exact st.idle j g' h hc'
          · intro j g' hg'
            rcases others hg' with ⟨rfl, rfl⟩ | ⟨_, h⟩
            · exact hnat
            · exact st.natural j g' h
      | op o k =>
        simp only [Option.some.injEq] at e
        subst e
        have hs : c.conf.step i = some ⟨o.next c.h, (c.ts.map (·.t)).set i ⟨k (o.ret ω n c.h), ω, o.tick n⟩⟩ := by
          unfold Conf.step
          have : c.conf.ts[i]? = some ⟨.op o k, ω, n⟩ := by
            show (c.ts.map (·.t))[i]? = _
            rw [List.getElem?_map, hg]
            rfl
          rw [this]
          rfl
        obtain ⟨S', M', tg⟩ := st.together.step plain_apart hs
        have eg : (o.next c.h).abs.g = c.h.abs.g :=
          graph_ext tg.verts (fun f => by rw [abs_fld]; exact tg.still f (fun _ => Mode.plain_writes))
        refine ⟨S', M', tg.ok, ?_, ?_, tg.mine, tg.apart, ?_, st.order, ?_, ?_, ?_, ?_⟩
        · show Inv (o.next c.h).abs.g
          rw [eg]; exact st.inv
        · show Dag.abs (o.next c.h).abs.g = _
          rw [eg]; exact st.abs
        · intro j g' hg'
          have := tg.safe j g'.t (by
            show ((c.ts.map (·.t)).set i _)[j]? = _
            have h2 := congrArg (Option.map GThread.t) hg'
            rw [← List.getElem?_map, List.map_set] at h2
            exact h2)
          refine this.mono ?_
          intro rs _ _ _ _ h
          rcases others hg' with ⟨rfl, rfl⟩ | ⟨_, h'⟩
          · exact h ⟨⟨.op o k, ω, n⟩, some op, todo⟩ hg
          · exact h _ h'
        · intro j g' jb hg' hj
          rcases others hg' with ⟨rfl, rfl⟩ | ⟨_, h⟩
          · exact hkeep jb hj
          · exact st.keeps j _ jb h hj
        · intro j g' op' hg' hc'
          rcases others hg' with ⟨rfl, rfl⟩ | ⟨_, h⟩
          · exact st.query j ⟨⟨.op o k, ω, n⟩, some op, todo⟩ op' hg hc'
          · exact st.query j g' op' h hc'
        · intro j g' hg' hc'
          rcases others hg' with ⟨rfl, rfl⟩ | ⟨_, h⟩
          · cases hc'
          · exact st.idle j g' h hc'
        · intro j g' hg'
          rcases others hg' with ⟨rfl, rfl⟩ | ⟨_, h⟩
          · exact hnat
          · exact st.natural j g' h
    | none =>
      cases todo with
      | nil => cases e
      | cons op todo =>
        by_cases hex : excl op = true
        · simp only [hex, if_true] at e
          by_cases hf : c.free = true
          · simp only [hf, if_true] at e
            obtain ⟨r, m, h', k1, k2, k3, k4, k5⟩ := exec_locked ω op st.ok st.inv
            rw [k1] at e
            simp only [Option.some.injEq] at e
            subst e
            have hall : ∀ {j : Nat} {g' : GThread K T}, c.ts[j]? = some g' → g'.cur = none := by
              intro j g' h
              have := List.all_eq_true.mp hf g' (List.mem_of_getElem? h)
              simpa using this
            have hall' : ∀ {j : Nat} {g' : GThread K T}, (c.ts.set i ⟨⟨p, ω, n⟩, none, todo⟩)[j]? = some g' →
                g'.cur = none ∧ g'.t.p = .ret [] := by
              intro j g' h
              rcases others h with ⟨rfl, rfl⟩ | ⟨_, h⟩
              · exact ⟨rfl, hidle rfl⟩
              · exact ⟨hall h, st.idle _ _ h (hall h)⟩
            refine ⟨fun _ => ∅, fun _ => ∅, k2, k3, ?_, fun _ => ⟨fun _ h => h.elim, fun _ h => h.elim⟩,
              fun _ _ _ => ⟨fun _ h => h.elim, fun _ h => h.elim⟩, ?_, ?_, ?_, ?_, ?_, ?_⟩
            · rw [GConf.ops_snoc, Spec.after_snoc, ← st.abs]; exact k4
            · intro j g' hg'
              obtain ⟨h1, h2⟩ := hall' hg'
              rw [h1, h2]
              exact fun _ _ => rfl
            · rw [GConf.ops_snoc, GConf.results_snoc]
              exact Spec.okAll_snoc st.order (by rw [← st.abs]; exact k5)
            · intro j g' jb hg' hj
              rw [GConf.opsOf_snoc]
              rcases others hg' with ⟨rfl, rfl⟩ | ⟨hne, h⟩
              · simpa using hkeep jb hj
              · simpa [Ne.symm hne] using st.keeps j _ jb h hj
            · intro j g' op' hg' hc'
              rw [(hall' hg').1] at hc'
              cases hc'
            · exact fun j g' hg' _ => (hall' hg').2
            · intro j g' hg'
              rcases others hg' with ⟨rfl, rfl⟩ | ⟨_, h⟩
              · exact hnat
              · exact st.natural j g' h
          · simp only [hf] at e
            cases e
        · simp only [hex] at e
          have hex' : excl op = false := by simpa using hex
          obtain ⟨hq, hc⟩ := hx op hex'
          simp only [Bool.false_eq_true, if_false, Option.some.injEq] at e
          subst e
          refine ⟨S, M, st.ok, st.inv, st.abs, st.mine, st.apart, ?_, st.order, ?_, ?_, ?_, ?_⟩
          · intro j g' hg'
            rcases others hg' with ⟨rfl, rfl⟩ | ⟨_, h⟩
            · exact st.begin hg hq hc
            · exact st.safe j g' h
          · intro j g' jb hg' hj
            rcases others hg' with ⟨rfl, rfl⟩ | ⟨_, h⟩
            · have := hkeep jb hj
              show c.opsOf j ++ [op] ++ todo = jb.ops
              simpa using this
            · exact st.keeps j _ jb h hj
          · intro j g' op' hg' hc'
            rcases others hg' with ⟨rfl, rfl⟩ | ⟨_, h⟩
            · cases hc'; exact hq
            · exact st.query j g' op' h hc'
          · intro j g' hg' hc'
            rcases others hg' with ⟨rfl, rfl⟩ | ⟨_, h⟩
            · cases hc'
            · exact st.idle j g' h hc'
          · intro j g' hg'
            rcases others hg' with ⟨rfl, rfl⟩ | ⟨_, h⟩
            · exact hnat
            · exact st.natural j g' h

theorem Steady.reach {excl : Op K T → Bool} (hx : ∀ op, excl op = false → op.isQuery = true ∧ op.mayWrite = false)
    {a : Abs K T} {jobs : List (Job K T)} {S M : Nat → Set Nat} {c c' : GConf K T}
    (st : Steady a jobs S M c) (r : c.Reach excl c') : ∃ S' M', Steady a jobs S' M' c' := by
  induction r with
  | refl => exact ⟨S, M, st⟩
  | step i _ e ih =>
    obtain ⟨S1, M1, st1⟩ := ih
    exact st1.step hx e

theorem Steady.start {h : HSt K T} (ok : Ok h) (hi : Inv h.abs.g) (jobs : List (Job K T))
    (hj : ∀ j ∈ jobs, j.ω.Natural) : Steady (Dag.abs h.abs.g) jobs (fun _ => ∅) (fun _ => ∅) (GConf.start h jobs) := by
  have key : ∀ {i : Nat} {g : GThread K T}, (GConf.start h jobs).ts[i]? = some g →
      ∃ j, jobs[i]? = some j ∧ g = ⟨⟨.ret [], j.ω, 0⟩, none, j.ops⟩ := by
    intro i g hg
    have hg' : (jobs.map fun j => (⟨⟨.ret [], j.ω, 0⟩, none, j.ops⟩ : GThread K T))[i]? = some g := hg
    rw [List.getElem?_map, Option.map_eq_some_iff] at hg'
    obtain ⟨j, e, rfl⟩ := hg'
    exact ⟨j, e, rfl⟩
  refine ⟨ok, hi, rfl, fun _ => ⟨fun _ h => h.elim, fun _ h => h.elim⟩,
    fun _ _ _ => ⟨fun _ h => h.elim, fun _ h => h.elim⟩, ?_, trivial, ?_, ?_, ?_, ?_⟩
  · intro i g hg
    obtain ⟨j, _, rfl⟩ := key hg
    exact fun _ _ => rfl
  · intro i g j hg hj
    obtain ⟨j', e, rfl⟩ := key hg
    rw [hj] at e
    cases e
    rfl
  · intro i g op hg hc
    obtain ⟨j', e, rfl⟩ := key hg
    cases hc
  · intro i g hg hc
    obtain ⟨j', e, rfl⟩ := key hg
    rfl
  · intro i g hg
    obtain ⟨j', e, rfl⟩ := key hg
    exact hj j' (List.mem_of_getElem? e)

theorem Steady.served {excl : Op K T → Bool} {a : Abs K T} {jobs : List (Job K T)} {S M : Nat → Set Nat} {c : GConf K T}
    (st : Steady a jobs S M c) : Served excl a jobs c := by
  refine ⟨st.together.no_race plain_apart, ?_, ?_, st.order, st.keeps, ?_⟩
  · intro i g hg hc
    obtain ⟨⟨p, ω, n⟩, cur, todo⟩ := g
    cases cur with
    | none => exact absurd rfl hc
    | some op =>
      have s := st.safe i _ hg
      cases p with
      | fail => exact s.elim
      | ret rs =>
        obtain ⟨r, rfl, _⟩ := s c.h (Rely.refl st.ok (st.mine i))
        exact ⟨_, by unfold GConf.step; rw [hg]⟩
      | op o k => exact ⟨_, by unfold GConf.step; rw [hg]⟩
  · intro hf i g hg ht
    obtain ⟨t, cur, todo⟩ := g
    have hcur : cur = none := by
      have := List.all_eq_true.mp hf _ (List.mem_of_getElem? hg)
      simpa using this
    subst hcur
    cases todo with
    | nil => exact absurd rfl ht
    | cons op todo =>
      unfold GConf.step
      rw [hg]
      by_cases hex : excl op = true
      · obtain ⟨r, m, h', k1, _⟩ := exec_locked t.ω op st.ok st.inv
        simp only [hex, hf, if_true, k1]
        exact ⟨_, rfl⟩
      · simp only [hex]
        exact ⟨_, rfl⟩
  · intro _ ω ss
    obtain ⟨os', h', k1, _, k3⟩ := client_ideal ω ss [] [] c.h st.ok st.inv ⟨.nil, List.nodup_nil, fun m hm => by cases hm⟩
    rw [st.abs] at k3
    exact ⟨os', h', k1, k3⟩

/-- **C60.**  It is enough that calls that change the graph, `GetAncestors` and `GetDescendants` hold `Lock`.  What is missing:
`C60_full` has the last two under `RLock`. -/
theorem C60_partial (excl : Op K T → Bool) (hx : ∀ op, excl op = false → op.isQuery = true ∧ op.mayWrite = false) :
    Guards excl := by
  intro ω ss os h hh jobs hj c hr
  obtain ⟨ok, hi, ha⟩ := client_end hh
  rw [← ha]
  obtain ⟨S, M, st⟩ := (Steady.start ok hi jobs hj).reach hx hr
  exact st.served

/-! ### It is also necessary -/

/-- The memory of a graph with one vertex. -/
def single (id : K) : HSt K T := ⟨[], [[(id, zero)]], 0, [], [], [], [], 0⟩

theorem single_eq (id : K) (hz : isZero id = false) :
    client Oracle.forward [.call (.addVertex id (zero : T))] [] HSt.init = some ([.res (.err none)], single id) := by
  simp only [client, clientStep, H.exec, H.addVertex, hz]
  rfl

/-- While all goroutines hold `RLock`, they can do what they can do without a lock. -/
theorem GConf.Reach.lift {excl : Op K T → Bool} {c c' : Conf K T} (r : c.Reach c') {d0 d : GConf K T} (hd : d0.Reach excl d)
    (hc : d.conf = c) (ha : ∀ g ∈ d.ts, g.cur ≠ none) :
    ∃ d', d0.Reach excl d' ∧ d'.conf = c' ∧ ∀ g ∈ d'.ts, g.cur ≠ none := by
  induction r with
  | refl => exact ⟨d, hd, hc, ha⟩
  | step i _ e ih =>
    obtain ⟨d1, h1, rfl, h3⟩ := ih
    unfold Conf.step at e
    cases ht : d1.conf.ts[i]? with
    | none => rw [ht] at e; cases e
    | some t =>
      rw [ht] at e
      have ht' : (d1.ts.map (·.t))[i]? = some t := ht
      rw [List.getElem?_map, Option.map_eq_some_iff] at ht'
      obtain ⟨⟨⟨p, ω, n⟩, cur, todo⟩, hg, rfl⟩ := ht'
      cases cur with
      | none => exact absurd rfl (h3 _ (List.mem_of_getElem? hg))
      | some op =>
        cases p with
        | ret _ => cases e
        | fail => cases e
        | op o k =>
          cases e
          refine ⟨⟨o.next d1.h, d1.ts.set i ⟨⟨k (o.ret ω n d1.h), ω, o.tick n⟩, some op, todo⟩, d1.log⟩,
            h1.step i (by unfold GConf.step; rw [hg]), ?_, ?_⟩
          · show (⟨_, _⟩ : Conf K T) = _
            rw [List.map_set]
            rfl
          · intro g hgm
            rcases List.mem_or_eq_of_mem_set hgm with h | rfl
            · exact h3 g h
            · exact Option.some_ne_none _

/-- **C60.**  Exactly which calls must hold `Lock`, besides those that change the graph: `GetAncestors` and `GetDescendants`. -/
theorem C60_exact (excl : Op K T → Bool) (hm : ∀ op, op.isQuery = false → excl op = true) :
    Guards excl ↔ ∀ op : Op K T, op.mayWrite = true → excl op = true := by
  constructor
  · intro hg op hw
    by_contra hne
    have hex : excl op = false := by simpa using hne
    obtain ⟨f, id, hc, hz⟩ : ∃ f id, op.cache = some (f, id) ∧ isZero id = false := by
      cases op <;> first | exact ⟨_, _, rfl, by simpa [Op.mayWrite] using hw⟩ | cases hw
    have hq : op.isQuery = true := by
      cases op <;> first | rfl | cases hw
    let jobs : List (Job K T) := [⟨Oracle.forward, [op]⟩, ⟨Oracle.forward, [op]⟩]
    have hj : ∀ j ∈ jobs, j.ω.Natural ∧ ∀ op ∈ j.ops, op.isQuery = true := by
      intro j hj
      have : j = ⟨Oracle.forward, [op]⟩ := by simpa [jobs] using hj
      subst this
      exact ⟨forward_natural, fun o ho => by rw [List.mem_singleton.mp ho]; exact hq⟩
    obtain ⟨ok, hi, _⟩ := client_end (single_eq (T := T) id hz)
    have hck : (single id : HSt K T).checkVertexID id = none := by
      simp [HSt.checkVertexID, single, hz, HSt.verts, HSt.mapAt, GoMap.has, GoMap.get?]
    have hcold : GoMap.get? ((single id : HSt K T).fld f) id = none := by cases f <;> rfl
    obtain ⟨c, hr, race⟩ := race_of_shared ok hi jobs hj (i := 0) (i' := 1) (f := f) (by decide) rfl rfl
      ⟨op, List.mem_singleton.mpr rfl, id, hc, hck, hcold⟩ ⟨op, List.mem_singleton.mpr rfl, id, hc, hck⟩
    -- both take `RLock`
    let d : GConf K T := ⟨single id, [⟨⟨P.script (H.fuelFor (single id : HSt K T)) [op], Oracle.forward, 0⟩, some op, []⟩,
      ⟨⟨P.script (H.fuelFor (single id : HSt K T)) [op], Oracle.forward, 0⟩, some op, []⟩], []⟩
    have hd : (GConf.start (single id) jobs).Reach excl d := by
      refine .step 1 (.step 0 (.refl _) (c'' := ⟨single id, [⟨⟨P.script (H.fuelFor (single id : HSt K T)) [op], Oracle.forward, 0⟩,
        some op, []⟩, ⟨⟨.ret [], Oracle.forward, 0⟩, none, [op]⟩], []⟩) ?_) ?_
      · simp [GConf.step, GConf.start, jobs, hex]
      · simp [GConf.step, d, hex]
    obtain ⟨d', hd', rfl, _⟩ := GConf.Reach.lift hr hd rfl (by simp [d])
    exact (hg _ _ _ _ (single_eq (T := T) id hz) jobs (fun j h => (hj j h).1) d' hd').race race
  · intro hw
    refine C60_partial excl fun op h => ⟨?_, ?_⟩
    · by_contra hn
      rw [hm op (by simpa using hn)] at h
      cases h
    · by_contra hn
      rw [hw op (by simpa using hn)] at h
      cases h

/-! ### No interleaving goes on forever -/

/-- One element of the list is replaced by a smaller one. -/
def OneLess {α : Type} (r : α → α → Prop) (l' l : List α) : Prop :=
  ∃ (i : Nat) (x x' : α), l[i]? = some x ∧ r x' x ∧ l' = l.set i x'

theorem oneLess_cons {α : Type} {r : α → α → Prop} {x : α} (hx : Acc r x) (l : List α) (hl : Acc (OneLess r) l) :
    Acc (OneLess r) (x :: l) := by
  induction hx generalizing l with
  | intro x hx ihx =>
    induction hl with
    | intro l hl ihl =>
      refine ⟨_, ?_⟩
      rintro _ ⟨i, y, y', e, h, rfl⟩
      cases i with
      | zero =>
        cases e
        exact ihx y' h l ⟨_, hl⟩
      | succ i => exact ihl _ ⟨i, y, y', by simpa using e, h, rfl⟩

theorem oneLess_wf {α : Type} {r : α → α → Prop} (h : WellFounded r) : WellFounded (OneLess r) := by
  refine ⟨fun l => ?_⟩
  induction l with
  | nil => exact ⟨_, by rintro _ ⟨i, _, _, h, _⟩; simp at h⟩
  | cons x l ih => exact oneLess_cons (h.apply x) l ih

/-- The program after an access. -/
def Then (p' p : Prog K T (List (Res K T))) : Prop :=
  ∃ (o : Prim K T) (k : o.Ret → Prog K T (List (Res K T))) (r : o.Ret), p = .op o k ∧ p' = k r

theorem then_wf : WellFounded (Then (K := K) (T := T)) := by
  refine ⟨fun p => ?_⟩
  induction p with
  | ret a => exact ⟨_, by rintro _ ⟨o, k, r, h, _⟩; cases h⟩
  | fail => exact ⟨_, by rintro _ ⟨o, k, r, h, _⟩; cases h⟩
  | op o k ih =>
    refine ⟨_, ?_⟩
    rintro _ ⟨o', k', r, h, rfl⟩
    cases h
    exact ih r

/-- What is left for a goroutine to do: its calls, whether it is within one, and its program. -/
def GThread.left (g : GThread K T) : Nat × Nat × Prog K T (List (Res K T)) :=
  (g.todo.length, g.cur.toList.length, g.t.p)

theorem step_less {excl : Op K T → Bool} {c c' : GConf K T} {i : Nat} (e : c.step excl i = some c') :
    OneLess (Prod.Lex (· < ·) (Prod.Lex (· < ·) Then)) (c'.ts.map GThread.left) (c.ts.map GThread.left) := by
  have mk : ∀ (g g' : GThread K T), c.ts[i]? = some g → Prod.Lex (· < ·) (Prod.Lex (· < ·) Then) g'.left g.left →
      OneLess (Prod.Lex (· < ·) (Prod.Lex (· < ·) Then)) ((c.ts.set i g').map GThread.left) (c.ts.map GThread.left) := by
    intro g g' hg h
    exact ⟨i, g.left, g'.left, by rw [List.getElem?_map, hg]; rfl, h, by rw [List.map_set]⟩
  unfold GConf.step at e
  cases hg : c.ts[i]? with
  | none => rw [hg] at e; cases e
  | some g =>
    rw [hg] at e
    obtain ⟨⟨p, ω, n⟩, cur, todo⟩ := g
    cases cur with
    | some op =>
      cases p with
      | fail => cases e
      | ret rs =>
        match rs, e with
        | [r], e =>
          simp only [Option.some.injEq] at e
          subst e
          exact mk _ _ hg (.right _ (.left _ _ (Nat.zero_lt_one)))
      | op o k =>
        simp only [Option.some.injEq] at e
        subst e
        exact mk _ _ hg (.right _ (.right _ ⟨o, k, _, rfl, rfl⟩))
    | none =>
      cases todo with
      | nil => cases e
      | cons op todo =>
        by_cases hex : excl op = true
        · simp only [hex, if_true] at e
          by_cases hf : c.free = true
          · simp only [hf, if_true] at e
            split at e
            · cases e
            · simp only [Option.some.injEq] at e
              subst e
              exact mk _ _ hg (.left _ _ (Nat.lt_succ_self _))
          · simp only [hf] at e
            cases e
        · simp only [hex, Bool.false_eq_true, if_false, Option.some.injEq] at e
          subst e
          exact mk _ _ hg (.left _ _ (Nat.lt_succ_self _))

/-- **C60.**  However the goroutines are scheduled, they finish. -/
theorem C60_terminates (excl : Op K T → Bool) (f : Nat → GConf K T)
    (hf : ∀ n, ∃ i, (f n).step excl i = some (f (n + 1))) : False := by
  have wf := oneLess_wf (WellFounded.prod_lex Nat.lt_wfRel.wf (WellFounded.prod_lex Nat.lt_wfRel.wf (then_wf (K := K) (T := T))))
  have key : ∀ l, ∀ n, (f n).ts.map GThread.left = l → False := by
    intro l
    induction l using wf.induction with
    | _ l ih =>
      intro n hn
      obtain ⟨i, e⟩ := hf n
      have := step_less e
      rw [hn] at this
      exact ih _ this (n + 1) rfl
  exact key _ 0 rfl

end

/-- **C60.**  The claim in full does not hold. -/
theorem C60_full_false : ¬ C60_full Nat Nat := by
  intro h
  have := (C60_exact (fun op : Op Nat Nat => !op.isQuery) (fun op ho => by rw [ho]; rfl)).mp h (.getDescendants 1) rfl
  cases this

/-! ### Three goroutines -/

/-- Run the goroutines in a given order. -/
def GConf.steps {K T : Type} [DecidableEq K] [GoZero K] [GoZero T] (excl : Op K T → Bool) (c : GConf K T) :
    List Nat → Option (GConf K T)
  | [] => some c
  | i :: is => match c.step excl i with
    | none => none
    | some c' => c'.steps excl is

/-- `Lock` where it is needed. -/
def careful {K T : Type} [DecidableEq K] [GoZero K] : Op K T → Bool := fun op => !op.isQuery || op.mayWrite

/-- One goroutine adds a vertex and an edge to the graph of `edge12`, the others ask. -/
def builder : List (Job Nat Nat) :=
  [⟨Oracle.forward, [.addVertex 3 30, .addEdge 2 3]⟩, ⟨Oracle.backward, [.getDescendants 1, .getOrderedDescendants 1]⟩,
   ⟨Oracle.forward, [.getOrder, .getSize]⟩]

example (c : GConf Nat Nat) (hr : (GConf.start edgeMem builder).Reach careful c) :
    Served careful (Spec.after Spec.empty (calls edge12)) builder c := by
  obtain ⟨os, hos⟩ := edgeMem_eq
  refine C60_partial careful ?_ _ edge12 os edgeMem hos builder ?_ c hr
  · intro op h
    simpa [careful] using h
  · intro j hj
    simp only [builder, List.mem_cons, List.not_mem_nil, or_false] at hj
    rcases hj with rfl | rfl | rfl
    exacts [forward_natural, backward_natural, forward_natural]

/-- An interleaving: the vertex is added, the queries run in turns, and then the edge is added. -/
example : ((GConf.start edgeMem builder).steps careful [0, 2, 2, 2, 1, 2, 1, 2, 1, 2, 1, 2, 1, 1, 1, 1, 1, 1, 0]).map
      (fun c => c.log.map fun e => (e.1, e.2.2)) = some
    [(0, .err none), (2, .count 3), (1, .entriesE (.ok [(2, 20)])), (2, .count 1), (1, .idsE (.ok [2])), (0, .err none)] := by
  decide +kernel

/-- While the queries run, `AddEdge` has to wait. -/
example : (((GConf.start edgeMem builder).steps careful [0, 2, 2, 2, 1, 2, 1, 2]).bind fun c => c.step careful 0).isNone =
      true ∧
    (((GConf.start edgeMem builder).steps careful [0, 2, 2, 2, 1, 2, 1, 2]).bind fun c => c.step careful 1).isNone = false := by
  decide +kernel

end Verif.Dag
