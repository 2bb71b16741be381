import Verif.Dag.Spec

/-!
# Model of `pkg/dag/dag.go` (and of the part of `pkg/dag/set.go` it uses)

One Lean definition per Go method.  Methods run in the state monad `M`, whose state is
the graph together with the number of `range` statements executed so far (the index
given to the order oracle).  `none` models divergence (unbounded recursion).
-/

namespace Verif.Dag

/-- `pkg/dag/set.go:4`: `type Set[T comparable] map[T]T`.  *Simplification*: inside the
graph code a nil set is only ever read, where it behaves like an empty one, so it is
represented by `[]` here.  (`Verif.Dag.SetModel` models `Set` with nil.) -/
abbrev GSet (K : Type) := GoMap K K

namespace GSet
variable {K : Type} [DecidableEq K]

/-- `set.go:7-9` -/
def add (s : GSet K) (v : K) : GSet K := GoMap.set s v v
/-- `set.go:12-14` -/
def delete (s : GSet K) (v : K) : GSet K := GoMap.del s v
/-- `set.go:17-21` -/
def includes (s : GSet K) (v : K) : Bool := GoMap.has s v

end GSet

/-- `dag.go:10-16` -/
structure Graph (K T : Type) where
  vertices : GoMap K T
  inb : GoMap K (GSet K)
  outb : GoMap K (GSet K)
  ancC : GoMap K (GSet K)
  descC : GoMap K (GSet K)

/-- `dag.go:19-27` -/
def Graph.new {K T : Type} : Graph K T := ⟨[], [], [], [], []⟩

/-- Machine state: the graph and the number of `range` statements executed so far. -/
structure St (K T : Type) where
  g : Graph K T
  n : Nat

/-- State monad with divergence. -/
def M (K T α : Type) := St K T → Option (α × St K T)

namespace M
variable {K T α β : Type}

def pure (a : α) : M K T α := fun s => some (a, s)
def bind (m : M K T α) (f : α → M K T β) : M K T β := fun s =>
  match m s with
  | none => none
  | some (a, s') => f a s'

instance : Monad (M K T) where
  pure := M.pure
  bind := M.bind

/-- Infinite recursion. -/
def diverge : M K T α := fun _ => none
/-- Read the receiver. -/
def getG : M K T (Graph K T) := fun s => some (s.g, s)
/-- Mutate the receiver. -/
def modG (f : Graph K T → Graph K T) : M K T Unit := fun s => some ((), { s with g := f s.g })

/-- The entries of a map in the order in which a `range` statement visits them. -/
def range {V : Type} (ω : Oracle) (m : GoMap K V) : M K T (List (K × V)) :=
  fun s => some (ω.perm _ s.n m, { s with n := s.n + 1 })

/-- The loop `for x := range xs { acc = body(acc, x) }`, `xs` in visiting order. -/
def loop : List α → β → (β → α → M K T β) → M K T β
  | [], b, _ => M.pure b
  | x :: xs, b, f => M.bind (f b x) (fun b' => loop xs b' f)

end M

open M

section
variable {K T : Type} [DecidableEq K] [GoZero K] [GoZero T]

/-- `reflect.ValueOf(id).IsZero()` -/
def isZero (id : K) : Bool := decide (id = zero)

/-- The set stored under `k`, a nil set (read as empty) if there is none: `m[k]`. -/
def setAt (m : GoMap K (GSet K)) (k : K) : GSet K := (GoMap.get? m k).getD []

/-- `g.vertices[id]` -/
def Graph.vertexAt (g : Graph K T) (id : K) : T := (GoMap.get? g.vertices id).getD zero

/-- `dag.go:603-613` -/
def checkVertexID (g : Graph K T) (id : K) : Option Err :=
  if isZero id then some .vertexIDEmpty
  else if !(GoMap.has g.vertices id) then some .vertexNotFound
  else none

/-- `dag.go:617-635` -/
def checkEdgeIDs (g : Graph K T) (s t : K) : Option Err :=
  if isZero s then some .edgeSourceIDEmpty
  else if isZero t then some .edgeTargetIDEmpty
  else if s = t then some .edgeSourceTargetIdentical
  else if !(GoMap.has g.vertices s) then some .edgeSourceIDNotFound
  else if !(GoMap.has g.vertices t) then some .edgeTargetIDNotFound
  else none

/-- `dag.go:34-46` -/
def addVertex (id : K) (v : T) : M K T (Option Err) := do
  if isZero id then return some .vertexIDEmpty
  let g ← getG
  if GoMap.has g.vertices id then return some .vertexDuplicate
  modG fun g => { g with vertices := GoMap.set g.vertices id v }
  return none

/-- `dag.go:53-59` -/
def getVertex (id : K) : M K T (Except Err T) := do
  let g ← getG
  match checkVertexID g id with
  | some e => return .error e
  | none => return .ok (g.vertexAt id)

/-- `dag.go:307-332`.  The recursion takes fuel; running out of it is divergence. -/
def getAncestorsIDs (ω : Oracle) : Nat → K → M K T (Except Err (GSet K))
  | 0, _ => diverge
  | fuel + 1, id => do
    let g ← getG
    match checkVertexID g id with
    | some e => return .error e
    | none =>
      match GoMap.get? g.ancC id with
      | some cache => return .ok cache
      | none =>
        let cache ←
          match GoMap.get? g.inb id with
          | none => M.pure []
          | some parents => do
            let ps ← range ω parents
            loop ps ([] : GSet K) fun cache p => do
              let r ← getAncestorsIDs ω fuel p.1
              let parentAncestors : GSet K := match r with | .ok c => c | .error _ => []
              let as ← range ω parentAncestors
              let cache := as.foldl (fun c a => GSet.add c a.2) cache
              return GSet.add cache p.1
        modG fun g => { g with ancC := GoMap.set g.ancC id cache }
        return .ok cache

/-- `dag.go:372-398`.  Fuel as in `getAncestorsIDs`. -/
def getDescendantsIDs (ω : Oracle) : Nat → K → M K T (Except Err (GSet K))
  | 0, _ => diverge
  | fuel + 1, id => do
    let g ← getG
    match checkVertexID g id with
    | some e => return .error e
    | none =>
      match GoMap.get? g.descC id with
      | some cache => return .ok cache
      | none =>
        let cache ←
          match GoMap.get? g.outb id with
          | none => M.pure []
          | some children => do
            let cs ← range ω children
            loop cs ([] : GSet K) fun cache p => do
              let r ← getDescendantsIDs ω fuel p.1
              let childDescendants : GSet K := match r with | .ok c => c | .error _ => []
              let ds ← range ω childDescendants
              let cache := ds.foldl (fun c d => GSet.add c d.2) cache
              return GSet.add cache p.1
        modG fun g => { g with descC := GoMap.set g.descC id cache }
        return .ok cache

/-- Fuel given to the recursive queries: one more than the number of vertices.  That this
is always enough, and that more fuel never changes the result, is proved
(`C06_terminates`, `C06_fuel_irrelevant`). -/
def fuelFor (g : Graph K T) : Nat := g.vertices.length + 1

/-- `s, _ := g.getAncestorsIDs(id)` -/
def ancestorsOf (ω : Oracle) (id : K) : M K T (GSet K) := do
  let g ← getG
  match ← getAncestorsIDs ω (fuelFor g) id with
  | .ok c => return c
  | .error _ => return []

/-- `s, _ := g.getDescendantsIDs(id)` -/
def descendantsOf (ω : Oracle) (id : K) : M K T (GSet K) := do
  let g ← getG
  match ← getDescendantsIDs ω (fuelFor g) id with
  | .ok c => return c
  | .error _ => return []

/-- `dag.go:642-649` -/
def loadFromCache (ω : Oracle) (g : Graph K T) (cache : GSet K) : M K T (GoMap K T) := do
  let ks ← range ω cache
  return ks.foldl (fun res k => GoMap.set res k.1 (g.vertexAt k.1)) []

/-- `dag.go:298-305` -/
def getAncestors (ω : Oracle) (id : K) : M K T (Except Err (GoMap K T)) := do
  let g ← getG
  match ← getAncestorsIDs ω (fuelFor g) id with
  | .error e => return .error e
  | .ok ids =>
    let g ← getG
    let r ← loadFromCache ω g ids
    return .ok r

/-- `dag.go:363-370` -/
def getDescendants (ω : Oracle) (id : K) : M K T (Except Err (GoMap K T)) := do
  let g ← getG
  match ← getDescendantsIDs ω (fuelFor g) id with
  | .error e => return .error e
  | .ok ids =>
    let g ← getG
    let r ← loadFromCache ω g ids
    return .ok r

/-- `dag.go:73-78`: delete `id` in outbound edges of parents. -/
def unlinkParents (ω : Oracle) (id : K) : M K T Unit := do
  let g ← getG
  if GoMap.has g.inb id then
    let ps ← range ω (setAt g.inb id)
    loop ps () fun _ p =>
      modG fun g => { g with outb := GoMap.updAt g.outb p.1 (fun s => GoMap.del s id) }
  else return ()

/-- `dag.go:80-85`: delete `id` in inbound edges of children. -/
def unlinkChildren (ω : Oracle) (id : K) : M K T Unit := do
  let g ← getG
  if GoMap.has g.outb id then
    let cs ← range ω (setAt g.outb id)
    loop cs () fun _ c =>
      modG fun g => { g with inb := GoMap.updAt g.inb c.1 (fun s => GoMap.del s id) }
  else return ()

/-- `dag.go:64-107` -/
def deleteVertex (ω : Oracle) (id : K) : M K T (Option Err) := do
  let g ← getG
  match checkVertexID g id with
  | some e => return some e
  | none =>
    let descendants ← descendantsOf ω id
    let ancestors ← ancestorsOf ω id
    unlinkParents ω id
    unlinkChildren ω id
    -- 87-89
    modG fun g => { g with inb := GoMap.del g.inb id }
    modG fun g => { g with outb := GoMap.del g.outb id }
    -- 91-95: `for _, descendant := range descendants`
    let ds ← range ω descendants
    loop ds () fun _ d => modG fun g => { g with ancC := GoMap.del g.ancC d.2 }
    modG fun g => { g with ancC := GoMap.del g.ancC id }
    -- 97-101
    let as ← range ω ancestors
    loop as () fun _ a => modG fun g => { g with descC := GoMap.del g.descC a.2 }
    modG fun g => { g with descC := GoMap.del g.descC id }
    -- 104
    modG fun g => { g with vertices := GoMap.del g.vertices id }
    return none

/-- `dag.go:160-174`, as a function of the graph it reads. -/
def isEdgeIn (g : Graph K T) (s t : K) : Except Err Bool :=
  match checkEdgeIDs g s t with
  | some e => .error e
  | none =>
    if !(GoMap.has g.outb s) then .ok false
    else if !(GSet.includes (setAt g.outb s) t) then .ok false
    else .ok true

/-- `dag.go:160-174` -/
def isEdge (s t : K) : M K T (Except Err Bool) := do
  let g ← getG
  return isEdgeIn g s t

/-- `b, _ := g.IsEdge(s, t)` -/
def isEdgeFlag (g : Graph K T) (s t : K) : Bool :=
  match isEdgeIn g s t with
  | .ok b => b
  | .error _ => false

/-- `dag.go:112-155` -/
def addEdge (ω : Oracle) (s t : K) : M K T (Option Err) := do
  let g ← getG
  match checkEdgeIDs g s t with
  | some e => return some e
  | none =>
    if isEdgeFlag g s t then return some .edgeDuplicate
    -- 121-123
    let descendants ← descendantsOf ω t
    let ancestors ← ancestorsOf ω s
    -- 126-128
    if GSet.includes descendants s then return some .edgeLoop
    -- 130-134
    modG fun g => if !(GoMap.has g.outb s) then { g with outb := GoMap.set g.outb s [] } else g
    modG fun g => { g with outb := GoMap.updAt g.outb s (fun x => GSet.add x t) }
    -- 136-140
    modG fun g => if !(GoMap.has g.inb t) then { g with inb := GoMap.set g.inb t [] } else g
    modG fun g => { g with inb := GoMap.updAt g.inb t (fun x => GSet.add x s) }
    -- 142-146
    let ds ← range ω descendants
    loop ds () fun _ d => modG fun g => { g with ancC := GoMap.del g.ancC d.1 }
    modG fun g => { g with ancC := GoMap.del g.ancC t }
    -- 148-152
    let as ← range ω ancestors
    loop as () fun _ a => modG fun g => { g with descC := GoMap.del g.descC a.1 }
    modG fun g => { g with descC := GoMap.del g.descC s }
    return none

/-- `dag.go:179-209` -/
def deleteEdge (ω : Oracle) (s t : K) : M K T (Option Err) := do
  let g ← getG
  match checkEdgeIDs g s t with
  | some e => return some e
  | none =>
    if !(isEdgeFlag g s t) then return some .edgeNotFound
    -- 188-190
    let descendants ← descendantsOf ω s
    let ancestors ← ancestorsOf ω t
    -- 192-194
    modG fun g => { g with outb := GoMap.updAt g.outb s (fun x => GSet.delete x t) }
    modG fun g => { g with inb := GoMap.updAt g.inb t (fun x => GSet.delete x s) }
    -- 196-200
    let ds ← range ω descendants
    loop ds () fun _ d => modG fun g => { g with ancC := GoMap.del g.ancC d.1 }
    modG fun g => { g with ancC := GoMap.del g.ancC s }
    -- 202-206
    let as ← range ω ancestors
    loop as () fun _ a => modG fun g => { g with descC := GoMap.del g.descC a.1 }
    modG fun g => { g with descC := GoMap.del g.descC t }
    return none

/-- `dag.go:212-214` -/
def getOrder : M K T Nat := do
  let g ← getG
  return g.vertices.length

/-- `dag.go:217-224` -/
def getSize (ω : Oracle) : M K T Nat := do
  let g ← getG
  let es ← range ω g.outb
  return es.foldl (fun size e => size + e.2.length) 0

/-- `dag.go:227-237` -/
def getLeaves (ω : Oracle) : M K T (GoMap K T) := do
  let g ← getG
  let vs ← range ω g.vertices
  return vs.foldl (fun leaves p =>
    match GoMap.get? g.outb p.1 with
    | none => GoMap.set leaves p.1 p.2
    | some targets => if targets.length = 0 then GoMap.set leaves p.1 p.2 else leaves) []

/-- `dag.go:240-250` -/
def getRoots (ω : Oracle) : M K T (GoMap K T) := do
  let g ← getG
  let vs ← range ω g.vertices
  return vs.foldl (fun roots p =>
    match GoMap.get? g.inb p.1 with
    | none => GoMap.set roots p.1 p.2
    | some sources => if sources.length = 0 then GoMap.set roots p.1 p.2 else roots) []

/-- `dag.go:253-255` with `copyMap`, `dag.go:651-658` -/
def getVertices (ω : Oracle) : M K T (GoMap K T) := do
  let g ← getG
  let vs ← range ω g.vertices
  return vs.foldl (fun out p => GoMap.set out p.1 p.2) []

/-- `dag.go:260-272` -/
def getParents (ω : Oracle) (id : K) : M K T (Except Err (GoMap K T)) := do
  let g ← getG
  match checkVertexID g id with
  | some e => return .error e
  | none =>
    let ps ← range ω (setAt g.inb id)
    return .ok (ps.foldl (fun parents p => GoMap.set parents p.1 (g.vertexAt p.1)) [])

/-- `dag.go:277-289` -/
def getChildren (ω : Oracle) (id : K) : M K T (Except Err (GoMap K T)) := do
  let g ← getG
  match checkVertexID g id with
  | some e => return .error e
  | none =>
    let cs ← range ω (setAt g.outb id)
    return .ok (cs.foldl (fun children c => GoMap.set children c.1 (g.vertexAt c.1)) [])

/-- Local variables of `walkAncestors` / `walkDescendants` (`dag.go:447-450`, `506-509`). -/
structure Walk (K : Type) where
  fifo : List K
  visited : GSet K

/-- `dag.go:446-455`: the initialisation loop. -/
def walkAncestorsInit (ω : Oracle) (id : K) : M K T (Walk K) := do
  let g ← getG
  let ps ← range ω (setAt g.inb id)
  return ps.foldl (fun w p => ⟨w.fifo ++ [p.1], GSet.add w.visited p.1⟩) ⟨[], []⟩

/-- `dag.go:462-470`: one iteration up to the `select`; `none` is the `return` of 458-460. -/
def walkAncestorsStep (ω : Oracle) (w : Walk K) : M K T (Option (K × Walk K)) :=
  match w.fifo with
  | [] => return none
  | top :: fifo => do
    let g ← getG
    let ps ← range ω (setAt g.inb top)
    return some (top, ps.foldl (fun w p =>
      if !(GSet.includes w.visited p.1) then ⟨w.fifo ++ [p.1], GSet.add w.visited p.1⟩ else w)
      ⟨fifo, w.visited⟩)

/-- `dag.go:505-514` -/
def walkDescendantsInit (ω : Oracle) (id : K) : M K T (Walk K) := do
  let g ← getG
  let cs ← range ω (setAt g.outb id)
  return cs.foldl (fun w c => ⟨w.fifo ++ [c.1], GSet.add w.visited c.1⟩) ⟨[], []⟩

/-- `dag.go:521-529` -/
def walkDescendantsStep (ω : Oracle) (w : Walk K) : M K T (Option (K × Walk K)) :=
  match w.fifo with
  | [] => return none
  | top :: fifo => do
    let g ← getG
    let cs ← range ω (setAt g.outb top)
    return some (top, cs.foldl (fun w c =>
      if !(GSet.includes w.visited c.1) then ⟨w.fifo ++ [c.1], GSet.add w.visited c.1⟩ else w)
      ⟨fifo, w.visited⟩)

/-- The `for` loop of a walker with nobody signalling: every `top` is sent.  The list of ids
sent, in order.  Fuel as for the recursive queries. -/
def drain (step : Walk K → M K T (Option (K × Walk K))) : Nat → Walk K → M K T (List K)
  | 0, _ => diverge
  | fuel + 1, w => do
    match ← step w with
    | none => return []
    | some (top, w') =>
      let rest ← drain step fuel w'
      return top :: rest

/-- `dag.go:341-354`.  The receive loop `for aid := range ids` collects everything the walker
goroutine sends; `Verif.Dag.Walker` models the two goroutines and the channels and proves that
this is what is received. -/
def getOrderedAncestors (ω : Oracle) (id : K) : M K T (Except Err (List K)) := do
  let g ← getG
  match checkVertexID g id with
  | some e => return .error e
  | none =>
    let w ← walkAncestorsInit ω id
    let l ← drain (walkAncestorsStep ω) (fuelFor g) w
    return .ok l

/-- `dag.go:407-420` -/
def getOrderedDescendants (ω : Oracle) (id : K) : M K T (Except Err (List K)) := do
  let g ← getG
  match checkVertexID g id with
  | some e => return .error e
  | none =>
    let w ← walkDescendantsInit ω id
    let l ← drain (walkDescendantsStep ω) (fuelFor g) w
    return .ok l

/-- `dag.go:637-640` -/
def flushCaches : M K T Unit := modG fun g => { g with ancC := [], descC := [] }

/-- `dag.go:546-580` -/
def reduceTransitively (ω : Oracle) : M K T Unit := do
  -- 550-552
  let roots ← getRoots ω
  let rs ← range ω roots
  loop rs () fun _ r => do
    let _ ← descendantsOf ω r.1
    return ()
  -- 554-574
  let g ← getG
  let vs ← range ω g.vertices
  let graphChanged ← loop vs false fun changed v => do
    let id := v.1
    -- 555-562
    let g ← getG
    let cs ← range ω (setAt g.outb id)
    let childrenDescendants ← loop cs ([] : GSet K) fun acc c => do
      let g ← getG
      let ds ← range ω (setAt g.descC c.1)
      return ds.foldl (fun acc d => GSet.add acc d.1) acc
    -- 564-573
    let g ← getG
    let cs ← range ω (setAt g.outb id)
    loop cs changed fun changed c => do
      if GSet.includes childrenDescendants c.1 then
        modG fun g => { g with outb := GoMap.updAt g.outb id (fun s => GSet.delete s c.1) }
        modG fun g => { g with inb := GoMap.updAt g.inb c.1 (fun s => GSet.delete s id) }
        return true
      else return changed
  -- 577-579
  if graphChanged then flushCaches

/-- What `String` (`dag.go:582-600`) prints, as structured lines; the text is
`renderString`. -/
structure Listing (K : Type) where
  order : Nat
  size : Nat
  vertices : List K
  edges : List (K × K)

/-- `dag.go:582-600`, up to rendering. -/
def stringListing (ω : Oracle) : M K T (Listing K) := do
  let order ← getOrder
  let size ← getSize ω
  let g ← getG
  let vs ← range ω g.vertices
  let g ← getG
  let os ← range ω g.outb
  let edges ← loop os ([] : List (K × K)) fun acc e => do
    let cs ← range ω e.2
    return acc ++ cs.map (fun c => (e.1, c.1))
  return ⟨order, size, vs.map (·.1), edges⟩

end

/-- The text written by `String` (`dag.go:585-599`); `fmtK` is what the `%v` verb prints for a
key. -/
def renderString {K : Type} (fmtK : K → String) (l : Listing K) : String :=
  s!"DAG Vertices: {l.order} - Edges: {l.size}\n" ++ "Vertices:\n"
    ++ String.join (l.vertices.map fun k => s!"  {fmtK k}\n")
    ++ "Edges:\n"
    ++ String.join (l.edges.map fun e => s!"  {fmtK e.1} -> {fmtK e.2}\n")

end Verif.Dag
