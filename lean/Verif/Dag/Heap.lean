import Verif.Dag.Run

/-!
# Model of `pkg/dag/dag.go` with references

In Go a map is a reference: a method that returns a map it also keeps, or stores one set
under two keys, shares it.  `Verif.Dag.Model` treats maps as values, which is blind to that.
Here the sets and the `map[K]T`s live in a heap, the graph holds their addresses, and each
method of `dag.go` is written again, statement by statement, with allocation (`make`), writes
through a reference, and results that are addresses.

*Simplification*: the four outer maps `map[K]Set[K]` are values inside the state; the code
never copies a reference to one of them (`flushCaches` replaces them).  `range` over an outer
map sees its sets as they are when the loop starts; no loop of that shape writes to a set.
-/

namespace Verif.Dag

/-- The heap, the graph (`dag.go:10-16`), and the number of `range` statements executed. -/
structure HSt (K T : Type) where
  /-- contents of the `Set[K]`s, by address -/
  sets : List (GSet K)
  /-- contents of the `map[K]T`s, by address -/
  maps : List (GoMap K T)
  vertices : Nat
  inb : GoMap K Nat
  outb : GoMap K Nat
  ancC : GoMap K Nat
  descC : GoMap K Nat
  n : Nat
  deriving DecidableEq

/-- State monad; `none` is divergence or a panic. -/
def H (K T α : Type) := HSt K T → Option (α × HSt K T)

namespace H
variable {K T α β : Type}

def pure (a : α) : H K T α := fun s => some (a, s)
def bind (m : H K T α) (f : α → H K T β) : H K T β := fun s =>
  match m s with
  | none => none
  | some (a, s') => f a s'

instance : Monad (H K T) where
  pure := H.pure
  bind := H.bind

/-- Infinite recursion, or a panic. -/
def fail : H K T α := fun _ => none
/-- The state: used to read the receiver's fields, which are addresses. -/
def get : H K T (HSt K T) := fun s => some (s, s)
/-- Change the state. -/
def modify (f : HSt K T → HSt K T) : H K T Unit := fun s => some ((), f s)

/-- The loop `for x := range xs { acc = body(acc, x) }`, `xs` in visiting order. -/
def loop : List α → β → (β → α → H K T β) → H K T β
  | [], b, _ => H.pure b
  | x :: xs, b, f => H.bind (f b x) (fun b' => loop xs b' f)

/-- `make(Set[K])` -/
def newSet : H K T Nat := fun h => some (h.sets.length, { h with sets := h.sets ++ [[]] })

/-- `make(map[K]T)` -/
def newMap : H K T Nat := fun h => some (h.maps.length, { h with maps := h.maps ++ [[]] })

end H

namespace HSt
variable {K T : Type} [DecidableEq K] [GoZero K] [GoZero T]

/-- The set at an address. -/
def deref (h : HSt K T) (a : Nat) : GSet K := h.sets.getD a []

/-- The set a reference stands for when it is read; nil reads as empty. -/
def read (h : HSt K T) : Option Nat → GSet K
  | none => []
  | some a => h.deref a

/-- The `map[K]T` at an address. -/
def mapAt (h : HSt K T) (a : Nat) : GoMap K T := h.maps.getD a []

/-- Contents of `g.vertices`. -/
def verts (h : HSt K T) : GoMap K T := h.mapAt h.vertices

/-- `g.vertices[id]` -/
def vertexAt (h : HSt K T) (id : K) : T := (GoMap.get? h.verts id).getD zero

/-- `dag.go:603-613` -/
def checkVertexID (h : HSt K T) (id : K) : Option Err :=
  if isZero id then some .vertexIDEmpty
  else if !(GoMap.has h.verts id) then some .vertexNotFound
  else none

/-- `dag.go:617-635` -/
def checkEdgeIDs (h : HSt K T) (s t : K) : Option Err :=
  if isZero s then some .edgeSourceIDEmpty
  else if isZero t then some .edgeTargetIDEmpty
  else if s = t then some .edgeSourceTargetIdentical
  else if !(GoMap.has h.verts s) then some .edgeSourceIDNotFound
  else if !(GoMap.has h.verts t) then some .edgeTargetIDNotFound
  else none

end HSt

namespace H
variable {K T : Type} [DecidableEq K] [GoZero K] [GoZero T]

/-- `range` over a set. -/
def rangeSet (ω : Oracle) (s : Option Nat) : H K T (List (K × K)) :=
  fun h => some (ω.perm _ h.n (h.read s), { h with n := h.n + 1 })

/-- `range` over a `map[K]T`. -/
def rangeMap (ω : Oracle) (a : Nat) : H K T (List (K × T)) :=
  fun h => some (ω.perm _ h.n (h.mapAt a), { h with n := h.n + 1 })

/-- `range` over an outer map. -/
def rangeOuter (ω : Oracle) (m : GoMap K Nat) : H K T (List (K × GSet K)) :=
  fun h => some (ω.perm _ h.n (m.map fun p => (p.1, h.deref p.2)), { h with n := h.n + 1 })

/-- `range` over a set found by `rangeOuter`. -/
def rangeSeen (ω : Oracle) (s : GSet K) : H K T (List (K × K)) :=
  fun h => some (ω.perm _ h.n s, { h with n := h.n + 1 })

/-- `s.Add(v)` (`set.go:7-9`): a write to a nil map panics. -/
def addTo (s : Option Nat) (v : K) : H K T Unit := fun h =>
  match s with
  | none => none
  | some a => some ((), { h with sets := h.sets.set a (GSet.add (h.deref a) v) })

/-- `s.Delete(v)` (`set.go:12-14`), `delete(s, v)`: nothing happens on a nil map. -/
def deleteFrom (s : Option Nat) (v : K) : H K T Unit := fun h =>
  match s with
  | none => some ((), h)
  | some a => some ((), { h with sets := h.sets.set a (GSet.delete (h.deref a) v) })

/-- `m[k] = v` -/
def setIn (a : Nat) (k : K) (v : T) : H K T Unit :=
  modify fun h => { h with maps := h.maps.set a (GoMap.set (h.mapAt a) k v) }

/-- `delete(m, k)` -/
def delIn (a : Nat) (k : K) : H K T Unit :=
  modify fun h => { h with maps := h.maps.set a (GoMap.del (h.mapAt a) k) }

/-- `dag.go:34-46` -/
def addVertex (id : K) (v : T) : H K T (Option Err) := do
  if isZero id then return some .vertexIDEmpty
  let h ← get
  if GoMap.has h.verts id then return some .vertexDuplicate
  setIn h.vertices id v
  return none

/-- `dag.go:53-59` -/
def getVertex (id : K) : H K T (Except Err T) := do
  let h ← get
  match h.checkVertexID id with
  | some e => return .error e
  | none => return .ok (h.vertexAt id)

/-- `dag.go:307-332`.  Returns the address of the set that is (now) in the cache. -/
def getAncestorsIDs (ω : Oracle) : Nat → K → H K T (Except Err Nat)
  | 0, _ => fail
  | fuel + 1, id => do
    let h ← get
    match h.checkVertexID id with
    | some e => return .error e
    | none =>
      match GoMap.get? h.ancC id with
      | some cache => return .ok cache
      | none => do
        let cache ← newSet
        (match GoMap.get? h.inb id with
          | none => H.pure ()
          | some parents => do
            let ps ← rangeSet ω (some parents)
            loop ps () fun _ p => do
              let r ← getAncestorsIDs ω fuel p.1
              let as ← rangeSet ω (match r with | .ok c => some c | .error _ => none)
              loop as () fun _ a => addTo (some cache) a.2
              addTo (some cache) p.1)
        modify fun h => { h with ancC := GoMap.set h.ancC id cache }
        return .ok cache

/-- `dag.go:372-398` -/
def getDescendantsIDs (ω : Oracle) : Nat → K → H K T (Except Err Nat)
  | 0, _ => fail
  | fuel + 1, id => do
    let h ← get
    match h.checkVertexID id with
    | some e => return .error e
    | none =>
      match GoMap.get? h.descC id with
      | some cache => return .ok cache
      | none => do
        let cache ← newSet
        (match GoMap.get? h.outb id with
          | none => H.pure ()
          | some children => do
            let cs ← rangeSet ω (some children)
            loop cs () fun _ p => do
              let r ← getDescendantsIDs ω fuel p.1
              let ds ← rangeSet ω (match r with | .ok c => some c | .error _ => none)
              loop ds () fun _ d => addTo (some cache) d.2
              addTo (some cache) p.1)
        modify fun h => { h with descC := GoMap.set h.descC id cache }
        return .ok cache

/-- Fuel, as in `Verif.Dag.fuelFor`. -/
def fuelFor (h : HSt K T) : Nat := h.verts.length + 1

/-- `s, _ := g.getAncestorsIDs(id)`: nil on error. -/
def ancestorsOf (ω : Oracle) (id : K) : H K T (Option Nat) := do
  let h ← get
  match ← getAncestorsIDs ω (fuelFor h) id with
  | .ok c => return some c
  | .error _ => return none

/-- `s, _ := g.getDescendantsIDs(id)` -/
def descendantsOf (ω : Oracle) (id : K) : H K T (Option Nat) := do
  let h ← get
  match ← getDescendantsIDs ω (fuelFor h) id with
  | .ok c => return some c
  | .error _ => return none

/-- `dag.go:642-649` -/
def loadFromCache (ω : Oracle) (cache : Nat) : H K T Nat := do
  let res ← newMap
  let ks ← rangeSet ω (some cache)
  loop ks () fun _ k => do
    let h ← get
    setIn res k.1 (h.vertexAt k.1)
  return res

/-- `dag.go:298-305` -/
def getAncestors (ω : Oracle) (id : K) : H K T (Except Err Nat) := do
  let h ← get
  match ← getAncestorsIDs ω (fuelFor h) id with
  | .error e => return .error e
  | .ok ids => return .ok (← loadFromCache ω ids)

/-- `dag.go:363-370` -/
def getDescendants (ω : Oracle) (id : K) : H K T (Except Err Nat) := do
  let h ← get
  match ← getDescendantsIDs ω (fuelFor h) id with
  | .error e => return .error e
  | .ok ids => return .ok (← loadFromCache ω ids)

/-- `dag.go:73-78` -/
def unlinkParents (ω : Oracle) (id : K) : H K T Unit := do
  let h ← get
  if GoMap.has h.inb id then
    let ps ← rangeSet ω (GoMap.get? h.inb id)
    loop ps () fun _ p => do
      let h ← get
      deleteFrom (GoMap.get? h.outb p.1) id
  else return ()

/-- `dag.go:80-85` -/
def unlinkChildren (ω : Oracle) (id : K) : H K T Unit := do
  let h ← get
  if GoMap.has h.outb id then
    let cs ← rangeSet ω (GoMap.get? h.outb id)
    loop cs () fun _ c => do
      let h ← get
      deleteFrom (GoMap.get? h.inb c.1) id
  else return ()

/-- `dag.go:64-107` -/
def deleteVertex (ω : Oracle) (id : K) : H K T (Option Err) := do
  let h ← get
  match h.checkVertexID id with
  | some e => return some e
  | none =>
    let descendants ← descendantsOf ω id
    let ancestors ← ancestorsOf ω id
    unlinkParents ω id
    unlinkChildren ω id
    -- 87-89
    modify fun h => { h with inb := GoMap.del h.inb id }
    modify fun h => { h with outb := GoMap.del h.outb id }
    -- 91-95
    let ds ← rangeSet ω descendants
    loop ds () fun _ d => modify fun h => { h with ancC := GoMap.del h.ancC d.2 }
    modify fun h => { h with ancC := GoMap.del h.ancC id }
    -- 97-101
    let as ← rangeSet ω ancestors
    loop as () fun _ a => modify fun h => { h with descC := GoMap.del h.descC a.2 }
    modify fun h => { h with descC := GoMap.del h.descC id }
    -- 104
    delIn h.vertices id
    return none

/-- `dag.go:160-174` -/
def isEdge (s t : K) : H K T (Except Err Bool) := do
  let h ← get
  match h.checkEdgeIDs s t with
  | some e => return .error e
  | none =>
    if !(GoMap.has h.outb s) then return .ok false
    else if !(GSet.includes (h.read (GoMap.get? h.outb s)) t) then return .ok false
    else return .ok true

/-- `b, _ := g.IsEdge(s, t)` -/
def isEdgeFlag (s t : K) : H K T Bool := do
  match ← isEdge s t with
  | .ok b => return b
  | .error _ => return false

/-- `dag.go:130-133` -/
def ensureOut (s : K) : H K T Unit := do
  let h ← get
  if !(GoMap.has h.outb s) then
    let x ← newSet
    modify fun h => { h with outb := GoMap.set h.outb s x }
  else return ()

/-- `dag.go:136-139` -/
def ensureIn (t : K) : H K T Unit := do
  let h ← get
  if !(GoMap.has h.inb t) then
    let x ← newSet
    modify fun h => { h with inb := GoMap.set h.inb t x }
  else return ()

/-- `dag.go:112-155` -/
def addEdge (ω : Oracle) (s t : K) : H K T (Option Err) := do
  let h ← get
  match h.checkEdgeIDs s t with
  | some e => return some e
  | none =>
    if ← isEdgeFlag s t then return some .edgeDuplicate
    -- 121-123
    let descendants ← descendantsOf ω t
    let ancestors ← ancestorsOf ω s
    -- 126-128
    let h ← get
    if GSet.includes (h.read descendants) s then return some .edgeLoop
    ensureOut s
    -- 134
    let h ← get
    addTo (GoMap.get? h.outb s) t
    ensureIn t
    -- 140
    let h ← get
    addTo (GoMap.get? h.inb t) s
    -- 142-146
    let ds ← rangeSet ω descendants
    loop ds () fun _ d => modify fun h => { h with ancC := GoMap.del h.ancC d.1 }
    modify fun h => { h with ancC := GoMap.del h.ancC t }
    -- 148-152
    let as ← rangeSet ω ancestors
    loop as () fun _ a => modify fun h => { h with descC := GoMap.del h.descC a.1 }
    modify fun h => { h with descC := GoMap.del h.descC s }
    return none

/-- `dag.go:179-209` -/
def deleteEdge (ω : Oracle) (s t : K) : H K T (Option Err) := do
  let h ← get
  match h.checkEdgeIDs s t with
  | some e => return some e
  | none =>
    if !(← isEdgeFlag s t) then return some .edgeNotFound
    -- 188-190
    let descendants ← descendantsOf ω s
    let ancestors ← ancestorsOf ω t
    -- 192-194
    let h ← get
    deleteFrom (GoMap.get? h.outb s) t
    let h ← get
    deleteFrom (GoMap.get? h.inb t) s
    -- 196-200
    let ds ← rangeSet ω descendants
    loop ds () fun _ d => modify fun h => { h with ancC := GoMap.del h.ancC d.1 }
    modify fun h => { h with ancC := GoMap.del h.ancC s }
    -- 202-206
    let as ← rangeSet ω ancestors
    loop as () fun _ a => modify fun h => { h with descC := GoMap.del h.descC a.1 }
    modify fun h => { h with descC := GoMap.del h.descC t }
    return none

/-- `dag.go:212-214` -/
def getOrder : H K T Nat := do
  let h ← get
  return h.verts.length

/-- `dag.go:217-224` -/
def getSize (ω : Oracle) : H K T Nat := do
  let h ← get
  let es ← rangeOuter ω h.outb
  return es.foldl (fun size e => size + e.2.length) 0

/-- `dag.go:227-237` -/
def getLeaves (ω : Oracle) : H K T Nat := do
  let leaves ← newMap
  let h ← get
  let vs ← rangeMap ω h.vertices
  loop vs () fun _ p => do
    let h ← get
    match GoMap.get? h.outb p.1 with
    | none => setIn leaves p.1 p.2
    | some targets => if (h.deref targets).length = 0 then setIn leaves p.1 p.2 else return ()
  return leaves

/-- `dag.go:240-250` -/
def getRoots (ω : Oracle) : H K T Nat := do
  let roots ← newMap
  let h ← get
  let vs ← rangeMap ω h.vertices
  loop vs () fun _ p => do
    let h ← get
    match GoMap.get? h.inb p.1 with
    | none => setIn roots p.1 p.2
    | some sources => if (h.deref sources).length = 0 then setIn roots p.1 p.2 else return ()
  return roots

/-- `dag.go:253-255` with `copyMap`, `dag.go:651-658` -/
def getVertices (ω : Oracle) : H K T Nat := do
  let h ← get
  let out ← newMap
  let vs ← rangeMap ω h.vertices
  loop vs () fun _ p => setIn out p.1 p.2
  return out

/-- `dag.go:260-272` -/
def getParents (ω : Oracle) (id : K) : H K T (Except Err Nat) := do
  let h ← get
  match h.checkVertexID id with
  | some e => return .error e
  | none =>
    let parents ← newMap
    let ps ← rangeSet ω (GoMap.get? h.inb id)
    loop ps () fun _ p => do
      let h ← get
      setIn parents p.1 (h.vertexAt p.1)
    return .ok parents

/-- `dag.go:277-289` -/
def getChildren (ω : Oracle) (id : K) : H K T (Except Err Nat) := do
  let h ← get
  match h.checkVertexID id with
  | some e => return .error e
  | none =>
    let children ← newMap
    let cs ← rangeSet ω (GoMap.get? h.outb id)
    loop cs () fun _ c => do
      let h ← get
      setIn children c.1 (h.vertexAt c.1)
    return .ok children

/-- `dag.go:446-455`: `visited` is the address of the walker's own set. -/
def walkAncestorsInit (ω : Oracle) (visited : Nat) (id : K) : H K T (List K) := do
  let h ← get
  let ps ← rangeSet ω (GoMap.get? h.inb id)
  loop ps [] fun fifo p => do
    addTo (some visited) p.1
    return fifo ++ [p.1]

/-- `dag.go:462-470` -/
def walkAncestorsStep (ω : Oracle) (visited : Nat) : List K → H K T (Option (K × List K))
  | [] => return none
  | top :: fifo => do
    let h ← get
    let ps ← rangeSet ω (GoMap.get? h.inb top)
    let fifo ← loop ps fifo fun fifo p => do
      let h ← get
      if !(GSet.includes (h.deref visited) p.1) then
        addTo (some visited) p.1
        return fifo ++ [p.1]
      else return fifo
    return some (top, fifo)

/-- `dag.go:505-514` -/
def walkDescendantsInit (ω : Oracle) (visited : Nat) (id : K) : H K T (List K) := do
  let h ← get
  let cs ← rangeSet ω (GoMap.get? h.outb id)
  loop cs [] fun fifo c => do
    addTo (some visited) c.1
    return fifo ++ [c.1]

/-- `dag.go:521-529` -/
def walkDescendantsStep (ω : Oracle) (visited : Nat) : List K → H K T (Option (K × List K))
  | [] => return none
  | top :: fifo => do
    let h ← get
    let cs ← rangeSet ω (GoMap.get? h.outb top)
    let fifo ← loop cs fifo fun fifo c => do
      let h ← get
      if !(GSet.includes (h.deref visited) c.1) then
        addTo (some visited) c.1
        return fifo ++ [c.1]
      else return fifo
    return some (top, fifo)

/-- The `for` loop of a walker, as `Verif.Dag.drain`. -/
def drain (step : List K → H K T (Option (K × List K))) : Nat → List K → H K T (List K)
  | 0, _ => fail
  | fuel + 1, w => do
    match ← step w with
    | none => return []
    | some (top, w') =>
      let rest ← drain step fuel w'
      return top :: rest

/-- `dag.go:341-354` -/
def getOrderedAncestors (ω : Oracle) (id : K) : H K T (Except Err (List K)) := do
  let h ← get
  match h.checkVertexID id with
  | some e => return .error e
  | none =>
    let visited ← newSet
    let w ← walkAncestorsInit ω visited id
    let l ← drain (walkAncestorsStep ω visited) (fuelFor h) w
    return .ok l

/-- `dag.go:407-420` -/
def getOrderedDescendants (ω : Oracle) (id : K) : H K T (Except Err (List K)) := do
  let h ← get
  match h.checkVertexID id with
  | some e => return .error e
  | none =>
    let visited ← newSet
    let w ← walkDescendantsInit ω visited id
    let l ← drain (walkDescendantsStep ω visited) (fuelFor h) w
    return .ok l

/-- `dag.go:637-640` -/
def flushCaches : H K T Unit := modify fun h => { h with ancC := [], descC := [] }

/-- `dag.go:546-580` -/
def reduceTransitively (ω : Oracle) : H K T Unit := do
  -- 550-552
  let roots ← getRoots ω
  let rs ← rangeMap ω roots
  loop rs () fun _ r => do
    let _ ← descendantsOf ω r.1
    return ()
  -- 554-574
  let h ← get
  let vs ← rangeMap ω h.vertices
  let graphChanged ← loop vs false fun changed v => do
    let id := v.1
    -- 555
    let childrenDescendants ← newSet
    -- 557-562
    let h ← get
    let cs ← rangeSet ω (GoMap.get? h.outb id)
    loop cs () fun _ c => do
      let h ← get
      let ds ← rangeSet ω (GoMap.get? h.descC c.1)
      loop ds () fun _ d => addTo (some childrenDescendants) d.1
    -- 564-573
    let h ← get
    let cs ← rangeSet ω (GoMap.get? h.outb id)
    loop cs changed fun changed c => do
      let h ← get
      if GSet.includes (h.deref childrenDescendants) c.1 then
        deleteFrom (GoMap.get? h.outb id) c.1
        let h ← get
        deleteFrom (GoMap.get? h.inb c.1) id
        return true
      else return changed
  -- 577-579
  if graphChanged then flushCaches

/-- `dag.go:582-600`, up to rendering. -/
def stringListing (ω : Oracle) : H K T (Listing K) := do
  let order ← getOrder
  let size ← getSize ω
  let h ← get
  let vs ← rangeMap ω h.vertices
  let h ← get
  let os ← rangeOuter ω h.outb
  let edges ← loop os ([] : List (K × K)) fun acc e => do
    let cs ← rangeSeen ω e.2
    return acc ++ cs.map (fun c => (e.1, c.1))
  return ⟨order, size, vs.map (·.1), edges⟩

end H

/-- A new graph (`dag.go:19-27`) on an empty heap. -/
def HSt.init {K T : Type} : HSt K T := ⟨[], [[]], 0, [], [], [], [], 0⟩

end Verif.Dag
