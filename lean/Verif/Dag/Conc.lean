import Verif.Dag.Heap

/-!
# The queries of `dag.go` one memory access at a time

Several goroutines may call methods of one graph at the same time.  Here a method is a program
whose steps are single accesses to a Go map: reading a key, `len`, starting a `range`, writing a
key, allocating.  Programs of several goroutines run on one heap (`HSt`, as in `Verif.Dag.Heap`) in
any interleaving.

Only the queries are written in this form: the methods that change the graph write to maps that
every query reads, so calling them at the same time as anything else is a data race.

*Simplifications*: a `range` reads all entries of the map when it starts; a pointer to one of the
four outer maps and that map are one location (the pointers are only replaced by `flushCaches`).
-/

namespace Verif.Dag

/-- The four outer maps (`dag.go:10-16`). -/
inductive Fld where
  | inb | outb | anc | desc
  deriving DecidableEq

/-- Is it a cache? -/
def Fld.isCache : Fld → Bool
  | .inb => false
  | .outb => false
  | .anc => true
  | .desc => true

/-- The contents of an outer map. -/
def HSt.fld {K T : Type} (h : HSt K T) : Fld → GoMap K Nat
  | .inb => h.inb
  | .outb => h.outb
  | .anc => h.ancC
  | .desc => h.descC

/-- One access to memory. -/
inductive Prim (K T : Type) where
  /-- `v, ok := g.vertices[id]` -/
  | vertex (id : K)
  /-- `len(g.vertices)` -/
  | order
  /-- `range g.vertices` -/
  | rangeVerts
  /-- `s, ok := m[id]`, `m` an outer map -/
  | look (f : Fld) (id : K)
  /-- `range m`, `m` an outer map -/
  | rangeOuter (f : Fld)
  /-- `_, ok := s[id]`, `s` a set, possibly nil -/
  | elem (a : Option Nat) (id : K)
  /-- `len(s)` -/
  | size (a : Nat)
  /-- `range s` -/
  | range (a : Option Nat)
  /-- `make(Set[K])` -/
  | newSet
  /-- `make(map[K]T)` -/
  | newMap
  /-- `s[v] = v` -/
  | add (a : Nat) (v : K)
  /-- `m[id] = v`, `m` a `map[K]T` -/
  | put (a : Nat) (id : K) (v : T)
  /-- the caller reads all of a `map[K]T` it was given -/
  | dump (a : Nat)
  /-- `m[id] = s`, `m` an outer map -/
  | store (f : Fld) (id : K) (a : Nat)

/-- What an access returns. -/
@[reducible] def Prim.Ret {K T : Type} : Prim K T → Type
  | .vertex _ => Option T
  | .order => Nat
  | .rangeVerts => List (K × T)
  | .look _ _ => Option Nat
  | .rangeOuter _ => List (K × Nat)
  | .elem _ _ => Bool
  | .size _ => Nat
  | .range _ => List (K × K)
  | .newSet => Nat
  | .newMap => Nat
  | .add _ _ => Unit
  | .put _ _ _ => Unit
  | .dump _ => GoMap K T
  | .store _ _ _ => Unit

/-- A program. -/
inductive Prog (K T α : Type) where
  | ret (a : α)
  /-- a panic, or infinite recursion -/
  | fail
  | op (o : Prim K T) (k : o.Ret → Prog K T α)

namespace Prog
variable {K T α β : Type}

/-- One program after another. -/
def bind : Prog K T α → (α → Prog K T β) → Prog K T β
  | .ret a, f => f a
  | .fail, _ => .fail
  | .op o k, f => .op o fun r => (k r).bind f

instance : Monad (Prog K T) where
  pure := Prog.ret
  bind := Prog.bind

/-- A single access. -/
def prim (o : Prim K T) : Prog K T o.Ret := .op o .ret

/-- The loop `for x := range xs { acc = body(acc, x) }`. -/
def loop : List α → β → (β → α → Prog K T β) → Prog K T β
  | [], b, _ => .ret b
  | x :: xs, b, f => (f b x).bind fun b' => loop xs b' f

end Prog

section
variable {K T : Type} [DecidableEq K] [GoZero K] [GoZero T]

/-! ## Executing an access -/

/-- The value an access returns; `n` counts the `range` statements the goroutine has executed. -/
def Prim.ret (ω : Oracle) (n : Nat) (h : HSt K T) : (o : Prim K T) → o.Ret
  | .vertex id => GoMap.get? h.verts id
  | .order => h.verts.length
  | .rangeVerts => ω.perm _ n h.verts
  | .look f id => GoMap.get? (h.fld f) id
  | .rangeOuter f => ω.perm _ n (h.fld f)
  | .elem a id => GSet.includes (h.read a) id
  | .size a => (h.deref a).length
  | .range a => ω.perm _ n (h.read a)
  | .newSet => h.sets.length
  | .newMap => h.maps.length
  | .add _ _ => ()
  | .put _ _ _ => ()
  | .dump a => h.mapAt a
  | .store _ _ _ => ()

/-- What an access does to memory. -/
def Prim.next (h : HSt K T) : Prim K T → HSt K T
  | .newSet => { h with sets := h.sets ++ [[]] }
  | .newMap => { h with maps := h.maps ++ [[]] }
  | .add a v => { h with sets := h.sets.set a (GSet.add (h.deref a) v) }
  | .put a id v => { h with maps := h.maps.set a (GoMap.set (h.mapAt a) id v) }
  | .store .inb id a => { h with inb := GoMap.set h.inb id a }
  | .store .outb id a => { h with outb := GoMap.set h.outb id a }
  | .store .anc id a => { h with ancC := GoMap.set h.ancC id a }
  | .store .desc id a => { h with descC := GoMap.set h.descC id a }
  | _ => h

/-- Counting `range` statements. -/
def Prim.tick (n : Nat) : Prim K T → Nat
  | .rangeVerts => n + 1
  | .rangeOuter _ => n + 1
  | .range _ => n + 1
  | _ => n

/-- A location: an outer map, a set, or a `map[K]T`. -/
inductive Loc where
  | fld (f : Fld)
  | set (a : Nat)
  | map (a : Nat)
  deriving DecidableEq

/-- The location an access reads (`false`) or writes (`true`); none for an allocation. -/
def Prim.access (h : HSt K T) : Prim K T → Option (Loc × Bool)
  | .vertex _ => some (.map h.vertices, false)
  | .order => some (.map h.vertices, false)
  | .rangeVerts => some (.map h.vertices, false)
  | .look f _ => some (.fld f, false)
  | .rangeOuter f => some (.fld f, false)
  | .elem (some a) _ => some (.set a, false)
  | .elem none _ => none
  | .size a => some (.set a, false)
  | .range (some a) => some (.set a, false)
  | .range none => none
  | .newSet => none
  | .newMap => none
  | .add a _ => some (.set a, true)
  | .put a _ _ => some (.map a, true)
  | .dump a => some (.map a, false)
  | .store f _ _ => some (.fld f, true)

/-! ## The queries -/

namespace P
open Prog (prim loop)

/-- `dag.go:603-613` -/
def checkVertexID (id : K) : Prog K T (Option Err) :=
  if isZero id then return some .vertexIDEmpty
  else do
    let v ← prim (.vertex id)
    if v.isNone then return some .vertexNotFound else return none

/-- `dag.go:617-635` -/
def checkEdgeIDs (s t : K) : Prog K T (Option Err) :=
  if isZero s then return some .edgeSourceIDEmpty
  else if isZero t then return some .edgeTargetIDEmpty
  else if s = t then return some .edgeSourceTargetIdentical
  else do
    let v ← prim (.vertex s)
    if v.isNone then return some .edgeSourceIDNotFound
    else do
      let v ← prim (.vertex t)
      if v.isNone then return some .edgeTargetIDNotFound else return none

/-- `g.vertices[id]` -/
def vertexAt (id : K) : Prog K T T := do
  let v ← prim (.vertex id)
  return v.getD zero

/-- `dag.go:53-59` -/
def getVertex (id : K) : Prog K T (Except Err T) := do
  match ← checkVertexID id with
  | some e => return .error e
  | none => return .ok (← vertexAt id)

/-- `dag.go:160-174` -/
def isEdge (s t : K) : Prog K T (Except Err Bool) := do
  match ← checkEdgeIDs s t with
  | some e => return .error e
  | none =>
    let a ← prim (.look .outb s)
    if a.isNone then return .ok false
    else
      let a ← prim (.look .outb s)
      let b ← prim (.elem a t)
      return .ok b

/-- `dag.go:212-214` -/
def getOrder : Prog K T Nat := prim .order

/-- `dag.go:217-224` -/
def getSize : Prog K T Nat := do
  let es ← prim (.rangeOuter .outb)
  loop es 0 fun size e => do
    let l ← prim (.size e.2)
    return size + l

/-- `dag.go:227-237`, `dag.go:240-250`: the vertices without entries in an outer map. -/
def ends (f : Fld) : Prog K T Nat := do
  let res ← prim .newMap
  let vs ← prim .rangeVerts
  loop vs () fun _ p => do
    match ← prim (.look f p.1) with
    | none => prim (.put res p.1 p.2)
    | some a =>
      let l ← prim (.size a)
      if l = 0 then prim (.put res p.1 p.2) else return ()
  return res

/-- `dag.go:227-237` -/
def getLeaves : Prog K T Nat := ends .outb

/-- `dag.go:240-250` -/
def getRoots : Prog K T Nat := ends .inb

/-- `dag.go:253-255` with `copyMap`, `dag.go:651-658` -/
def getVertices : Prog K T Nat := do
  let out ← prim .newMap
  let vs ← prim .rangeVerts
  loop vs () fun _ p => prim (.put out p.1 p.2)
  return out

/-- `dag.go:264-271`, `dag.go:281-288`, `dag.go:642-649`: the payloads of the vertices in a set. -/
def payloads (s : Option Nat) : Prog K T Nat := do
  let res ← prim .newMap
  let ks ← prim (.range s)
  loop ks () fun _ k => do
    let v ← vertexAt k.1
    prim (.put res k.1 v)
  return res

/-- `dag.go:260-272` (`.inb`), `dag.go:277-289` (`.outb`).  The map is made before `g.inboundEdges[id]`
is read. -/
def neighbours (f : Fld) (id : K) : Prog K T (Except Err Nat) := do
  match ← checkVertexID id with
  | some e => return .error e
  | none =>
    let res ← prim .newMap
    let s ← prim (.look f id)
    let ks ← prim (.range s)
    loop ks () fun _ k => do
      let v ← vertexAt k.1
      prim (.put res k.1 v)
    return .ok res

/-- `dag.go:260-272` -/
def getParents (id : K) : Prog K T (Except Err Nat) := neighbours .inb id

/-- `dag.go:277-289` -/
def getChildren (id : K) : Prog K T (Except Err Nat) := neighbours .outb id

/-- `dag.go:307-332` with edges `.inb` and cache `.anc`; `dag.go:372-398` with `.outb` and `.desc`.
Fuel as in `Verif.Dag.getAncestorsIDs`. -/
def reachIDs (e c : Fld) : Nat → K → Prog K T (Except Err Nat)
  | 0, _ => .fail
  | fuel + 1, id => do
    match ← checkVertexID id with
    | some e => return .error e
    | none =>
      match ← prim (.look c id) with
      | some cache => return .ok cache
      | none => do
        let cache ← prim .newSet
        match ← prim (.look e id) with
        | none =>
          prim (.store c id cache)
          return .ok cache
        | some next => do
          let ps ← prim (.range (some next))
          loop ps () fun _ p => do
            let r ← reachIDs e c fuel p.1
            let as ← prim (.range (match r with | .ok s => some s | .error _ => none))
            loop as () fun _ a => prim (.add cache a.2)
            prim (.add cache p.1)
          prim (.store c id cache)
          return .ok cache

/-- `dag.go:298-305`, `dag.go:363-370` -/
def reach (e c : Fld) (fuel : Nat) (id : K) : Prog K T (Except Err Nat) := do
  match ← reachIDs e c fuel id with
  | .error e => return .error e
  | .ok ids => return .ok (← payloads (some ids))

/-- `dag.go:298-305` -/
def getAncestors (fuel : Nat) (id : K) : Prog K T (Except Err Nat) := reach .inb .anc fuel id

/-- `dag.go:363-370` -/
def getDescendants (fuel : Nat) (id : K) : Prog K T (Except Err Nat) := reach .outb .desc fuel id

/-- `dag.go:452-455` (`.inb`), `dag.go:511-514` (`.outb`); `visited` is the walker's own set. -/
def walkInit (f : Fld) (visited : Nat) (id : K) : Prog K T (List K) := do
  let s ← prim (.look f id)
  let ps ← prim (.range s)
  loop ps [] fun fifo p => do
    prim (.add visited p.1)
    return fifo ++ [p.1]

/-- `dag.go:462-470` (`.inb`), `dag.go:521-529` (`.outb`) -/
def walkStep (f : Fld) (visited : Nat) : List K → Prog K T (Option (K × List K))
  | [] => return none
  | top :: fifo => do
    let s ← prim (.look f top)
    let ps ← prim (.range s)
    let fifo ← loop ps fifo fun fifo p => do
      let b ← prim (.elem (some visited) p.1)
      if !b then
        prim (.add visited p.1)
        return fifo ++ [p.1]
      else return fifo
    return some (top, fifo)

/-- The `for` loop of a walker, as `Verif.Dag.drain`. -/
def drain (step : List K → Prog K T (Option (K × List K))) : Nat → List K → Prog K T (List K)
  | 0, _ => .fail
  | fuel + 1, w => do
    match ← step w with
    | none => return []
    | some (top, w') =>
      let rest ← drain step fuel w'
      return top :: rest

/-- `dag.go:341-354` (`.inb`), `dag.go:407-420` (`.outb`): the walker and its consumer take turns, and
only the walker touches the graph. -/
def ordered (f : Fld) (fuel : Nat) (id : K) : Prog K T (Except Err (List K)) := do
  match ← checkVertexID id with
  | some e => return .error e
  | none =>
    let visited ← prim .newSet
    let w ← walkInit f visited id
    let l ← drain (walkStep f visited) fuel w
    return .ok l

/-- `dag.go:582-600`, up to rendering. -/
def stringListing : Prog K T (Listing K) := do
  let order ← getOrder
  let size ← getSize
  let vs ← prim .rangeVerts
  let os ← prim (.rangeOuter .outb)
  let edges ← loop os ([] : List (K × K)) fun acc e => do
    let cs ← prim (.range (some e.2))
    return acc ++ cs.map (fun c => (e.1, c.1))
  return ⟨order, size, vs.map (·.1), edges⟩

/-- A query, after which the caller reads the map it was given. -/
def exec (fuel : Nat) : Op K T → Prog K T (Res K T)
  | .getVertex id => do return .payload (← getVertex id)
  | .isEdge s t => do return .flag (← isEdge s t)
  | .getOrder => do return .count (← getOrder)
  | .getSize => do return .count (← getSize)
  | .getLeaves => do ofMap (← getLeaves)
  | .getRoots => do ofMap (← getRoots)
  | .getVertices => do ofMap (← getVertices)
  | .getParents id => do ofMapE (← getParents id)
  | .getChildren id => do ofMapE (← getChildren id)
  | .getAncestors id => do ofMapE (← getAncestors fuel id)
  | .getDescendants id => do ofMapE (← getDescendants fuel id)
  | .getOrderedAncestors id => do return .idsE (← ordered .inb fuel id)
  | .getOrderedDescendants id => do return .idsE (← ordered .outb fuel id)
  | .string => do
    let l ← stringListing
    return .listing l.order l.size l.vertices l.edges
  | .addVertex _ _ => .fail
  | .deleteVertex _ => .fail
  | .addEdge _ _ => .fail
  | .deleteEdge _ _ => .fail
  | .reduceTransitively => .fail
where
  ofMap (r : Nat) : Prog K T (Res K T) := do
    let m ← prim (.dump r)
    return .entries m
  ofMapE : Except Err Nat → Prog K T (Res K T)
    | .error e => return .entriesE (.error e)
    | .ok r => do
      let m ← prim (.dump r)
      return .entriesE (.ok m)

/-- One query after another. -/
def script (fuel : Nat) : List (Op K T) → Prog K T (List (Res K T))
  | [] => return []
  | op :: ops => do
    let r ← exec fuel op
    let rs ← script fuel ops
    return r :: rs

end P

/-! ## Goroutines -/

/-- A goroutine: what is left of its program, the map orders it will see, and how many `range`
statements it has executed. -/
structure Thread (K T : Type) where
  p : Prog K T (List (Res K T))
  ω : Oracle
  n : Nat

/-- Memory and all goroutines. -/
structure Conf (K T : Type) where
  h : HSt K T
  ts : List (Thread K T)

/-- Goroutine `i` makes its next access. -/
def Conf.step (c : Conf K T) (i : Nat) : Option (Conf K T) :=
  match c.ts[i]? with
  | none => none
  | some t =>
    match t.p with
    | .ret _ => none
    | .fail => none
    | .op o k => some ⟨o.next c.h, c.ts.set i ⟨k (o.ret t.ω t.n c.h), t.ω, o.tick t.n⟩⟩

/-- Any interleaving. -/
inductive Conf.Reach : Conf K T → Conf K T → Prop
  | refl (c) : Reach c c
  | step {c c' c'' : Conf K T} (i : Nat) : Reach c c' → c'.step i = some c'' → Reach c c''

/-- The next access of goroutine `i`. -/
def Conf.access (c : Conf K T) (i : Nat) : Option (Loc × Bool) :=
  match c.ts[i]? with
  | some ⟨.op o _, _, _⟩ => o.access c.h
  | _ => none

/-- Two goroutines are about to access one location, and one of them is about to write. -/
def Conf.Race (c : Conf K T) : Prop :=
  ∃ i j l b b', i ≠ j ∧ c.access i = some (l, b) ∧ c.access j = some (l, b') ∧ (b = true ∨ b' = true)

end

end Verif.Dag
