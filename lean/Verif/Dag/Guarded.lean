import Verif.Props.Concurrent

/-!
# A graph guarded by a `sync.RWMutex`

`dag.go` has no locks, so a program that uses one graph from several goroutines guards it with a lock of its own.  Here
each call is made either under `Lock` or under `RLock`; which one, is up to the program (`excl`).  A call under `RLock` is
executed one memory access at a time (`Verif.Dag.Conc`), next to the calls of other goroutines under `RLock`.

*Simplifications*: while `Lock` is held nothing else runs, so a call under `Lock` is one step (on the heap,
`Verif.Dag.Heap`).  A goroutine reads the map it was given before it unlocks.  A waiting `Lock` does not keep others from
`RLock`, as it does in Go: the interleavings of Go are among those here.
-/

namespace Verif.Dag

/-- A goroutine: the query it is executing under `RLock`, what is left of its program, and the calls it is still to make. -/
structure GThread (K T : Type) where
  t : Thread K T
  cur : Option (Op K T)
  todo : List (Op K T)

/-- Memory, all goroutines, and the calls finished so far, by which goroutine and with which results. -/
structure GConf (K T : Type) where
  h : HSt K T
  ts : List (GThread K T)
  log : List (Nat × Op K T × Res K T)

section
variable {K T : Type} [DecidableEq K] [GoZero K] [GoZero T]

/-- The part of the configuration that is executed access by access. -/
def GConf.conf (c : GConf K T) : Conf K T := ⟨c.h, c.ts.map (·.t)⟩

/-- No goroutine holds `RLock`. -/
def GConf.free (c : GConf K T) : Bool := c.ts.all fun g => g.cur.isNone

/-- Goroutine `i` makes its next step: an access, `RUnlock`, a call under `Lock`, or `RLock`.  `none`: it is finished, it waits for
the lock, or it has panicked. -/
def GConf.step (excl : Op K T → Bool) (c : GConf K T) (i : Nat) : Option (GConf K T) :=
  match c.ts[i]? with
  | none => none
  | some ⟨⟨p, ω, n⟩, some op, todo⟩ =>
    match p with
    | .op o k => some ⟨o.next c.h, c.ts.set i ⟨⟨k (o.ret ω n c.h), ω, o.tick n⟩, some op, todo⟩, c.log⟩
    | .ret [r] => some ⟨c.h, c.ts.set i ⟨⟨.ret [], ω, n⟩, none, todo⟩, c.log ++ [(i, op, r)]⟩
    | _ => none
  | some ⟨_, none, []⟩ => none
  | some ⟨t, none, op :: todo⟩ =>
    if excl op then
      if c.free then
        match H.exec t.ω op c.h with
        | none => none
        | some ((r, _), h') => some ⟨h', c.ts.set i ⟨t, none, todo⟩, c.log ++ [(i, op, r)]⟩
      else none
    else some ⟨c.h, c.ts.set i ⟨{ t with p := P.script (H.fuelFor c.h) [op] }, some op, todo⟩, c.log⟩

/-- Any interleaving. -/
inductive GConf.Reach (excl : Op K T → Bool) : GConf K T → GConf K T → Prop
  | refl (c) : Reach excl c c
  | step {c c' c'' : GConf K T} (i : Nat) : Reach excl c c' → c'.step excl i = some c'' → Reach excl c c''

/-- All goroutines before their first call. -/
def GConf.start (h : HSt K T) (jobs : List (Job K T)) : GConf K T :=
  ⟨h, jobs.map fun j => ⟨⟨.ret [], j.ω, 0⟩, none, j.ops⟩, []⟩

end

end Verif.Dag
