import Verif.Dag.GoMap
import Mathlib.Logic.Relation

/-!
# Specification of the graph API

Independent of the implementation model: a graph is a partial function from ids to payloads
together with a binary relation.  `Spec.next` says what a call does to it, `Spec.ok` which
results the call may return.
-/

namespace Verif.Dag
open Relation

/-- `pkg/dag/errors.go:7-19` -/
inductive Err where
  | vertexIDEmpty | vertexDuplicate | vertexNotFound
  | edgeSourceIDEmpty | edgeTargetIDEmpty
  | edgeSourceIDNotFound | edgeTargetIDNotFound
  | edgeSourceTargetIdentical | edgeDuplicate | edgeNotFound | edgeLoop
  deriving DecidableEq, Repr

/-- The API calls (`pkg/dag/dag.go`). -/
inductive Op (K T : Type) where
  | addVertex (id : K) (v : T)
  | getVertex (id : K)
  | deleteVertex (id : K)
  | addEdge (s t : K)
  | isEdge (s t : K)
  | deleteEdge (s t : K)
  | getOrder
  | getSize
  | getLeaves
  | getRoots
  | getVertices
  | getParents (id : K)
  | getChildren (id : K)
  | getAncestors (id : K)
  | getOrderedAncestors (id : K)
  | getDescendants (id : K)
  | getOrderedDescendants (id : K)
  | reduceTransitively
  | string

deriving instance DecidableEq for Except

/-- Results.  A returned Go map is the list of its entries. -/
inductive Res (K T : Type) where
  | err (e : Option Err)
  | payload (r : Except Err T)
  | flag (r : Except Err Bool)
  | count (n : Nat)
  | entries (m : List (K × T))
  | entriesE (r : Except Err (List (K × T)))
  | idsE (r : Except Err (List K))
  | unit
  | listing (order size : Nat) (vertices : List K) (edges : List (K × K))
  deriving DecidableEq

/-- The calls that do not change the graph. -/
def Op.readOnly {K T : Type} : Op K T → Bool
  | .addVertex .. | .deleteVertex .. | .addEdge .. | .deleteEdge .. | .reduceTransitively => false
  | _ => true

/-- There is a walk of exactly `n` edges from `a` to `b`. -/
def PathLen {K : Type} (E : K → K → Prop) : Nat → K → K → Prop
  | 0, a, b => a = b
  | n + 1, a, b => ∃ c, PathLen E n a c ∧ E c b

/-- The edge distance from `a` to `b` is `n`. -/
def DistIs {K : Type} (E : K → K → Prop) (a b : K) (n : Nat) : Prop :=
  PathLen E n a b ∧ ∀ m, m < n → ¬ PathLen E m a b

/-- Edge `a → b` is implied by a path through another successor of `a`. -/
def Implied {K : Type} (E : K → K → Prop) (a b : K) : Prop := ∃ m, E a m ∧ TransGen E m b

/-- A breadth-first enumeration of what is reachable from `id`. -/
structure BfsDone {K : Type} (E : K → K → Prop) (id : K) (l : List K) : Prop where
  nodup : l.Nodup
  mem : ∀ x, x ∈ l ↔ TransGen E id x
  sorted : l.Pairwise (fun x y => ∀ n m, DistIs E id x n → DistIs E id y m → n ≤ m)

/-- An abstract graph. -/
structure Abs (K T : Type) where
  V : K → Option T
  E : K → K → Prop

namespace Spec
variable {K T : Type} [DecidableEq K] [GoZero K] [GoZero T]

/-- The graph without vertices. -/
def empty : Abs K T := ⟨fun _ => none, fun _ _ => False⟩

/-- Error of a call that takes the id of an existing vertex. -/
def vertexErr (a : Abs K T) (id : K) : Option Err :=
  if id = zero then some .vertexIDEmpty
  else if (a.V id).isNone then some .vertexNotFound
  else none

/-- Error of a call that takes the ends of an edge. -/
def edgeErr (a : Abs K T) (s t : K) : Option Err :=
  if s = zero then some .edgeSourceIDEmpty
  else if t = zero then some .edgeTargetIDEmpty
  else if s = t then some .edgeSourceTargetIdentical
  else if (a.V s).isNone then some .edgeSourceIDNotFound
  else if (a.V t).isNone then some .edgeTargetIDNotFound
  else none

/-- Error of `AddVertex`. -/
def addVertexErr (a : Abs K T) (id : K) : Option Err :=
  if id = zero then some .vertexIDEmpty
  else if (a.V id).isSome then some .vertexDuplicate
  else none

/-- `AddEdge(s,t)` is to succeed. -/
def CanAdd (a : Abs K T) (s t : K) : Prop :=
  edgeErr a s t = none ∧ ¬ a.E s t ∧ ¬ TransGen a.E t s

/-- Effect of a call. -/
def next (a : Abs K T) : Op K T → Abs K T
  | .addVertex id v =>
    { a with V := fun k => if k = id ∧ addVertexErr a id = none then some v else a.V k }
  | .deleteVertex id =>
    { V := fun k => if k = id then none else a.V k
      E := fun x y => a.E x y ∧ x ≠ id ∧ y ≠ id }
  | .addEdge s t => { a with E := fun x y => a.E x y ∨ (CanAdd a s t ∧ x = s ∧ y = t) }
  | .deleteEdge s t => { a with E := fun x y => a.E x y ∧ ¬ (x = s ∧ y = t) }
  | .reduceTransitively => { a with E := fun x y => a.E x y ∧ ¬ Implied a.E x y }
  | _ => a

/-- The entries of `m` are exactly the bindings `P k v`, each key once. -/
def Exactly (m : List (K × T)) (P : K → T → Prop) : Prop :=
  (m.map Prod.fst).Nodup ∧ ∀ k v, (k, v) ∈ m ↔ P k v

/-- `n` is the number of things satisfying `P`. -/
def Count {α : Type} (P : α → Prop) (n : Nat) : Prop :=
  ∃ l : List α, l.Nodup ∧ (∀ x, x ∈ l ↔ P x) ∧ n = l.length

/-- A result that is an error exactly when `e` says so. -/
def OrErr {α : Type} (e : Option Err) (r : Except Err α) (P : α → Prop) : Prop :=
  match e with
  | some e => r = .error e
  | none => ∃ x, r = .ok x ∧ P x

/-- The results a call may return. -/
def ok (a : Abs K T) : Op K T → Res K T → Prop
  | .addVertex id _, .err r => r = addVertexErr a id
  | .getVertex id, .payload r => OrErr (vertexErr a id) r (fun v => a.V id = some v)
  | .deleteVertex id, .err r => r = vertexErr a id
  | .addEdge s t, .err r =>
    match edgeErr a s t with
    | some e => r = some e
    | none => (a.E s t → r = some .edgeDuplicate) ∧
        (¬ a.E s t → TransGen a.E t s → r = some .edgeLoop) ∧
        (¬ a.E s t → ¬ TransGen a.E t s → r = none)
  | .isEdge s t, .flag r => OrErr (edgeErr a s t) r (fun b => b = true ↔ a.E s t)
  | .deleteEdge s t, .err r =>
    match edgeErr a s t with
    | some e => r = some e
    | none => (a.E s t → r = none) ∧ (¬ a.E s t → r = some .edgeNotFound)
  | .getOrder, .count n => Count (fun k => (a.V k).isSome = true) n
  | .getSize, .count n => Count (fun e : K × K => a.E e.1 e.2) n
  | .getLeaves, .entries m => Exactly m (fun k v => a.V k = some v ∧ ∀ x, ¬ a.E k x)
  | .getRoots, .entries m => Exactly m (fun k v => a.V k = some v ∧ ∀ x, ¬ a.E x k)
  | .getVertices, .entries m => Exactly m (fun k v => a.V k = some v)
  | .getParents id, .entriesE r =>
    OrErr (vertexErr a id) r (fun m => Exactly m (fun k v => a.V k = some v ∧ a.E k id))
  | .getChildren id, .entriesE r =>
    OrErr (vertexErr a id) r (fun m => Exactly m (fun k v => a.V k = some v ∧ a.E id k))
  | .getAncestors id, .entriesE r =>
    OrErr (vertexErr a id) r (fun m => Exactly m (fun k v => a.V k = some v ∧ TransGen a.E k id))
  | .getDescendants id, .entriesE r =>
    OrErr (vertexErr a id) r (fun m => Exactly m (fun k v => a.V k = some v ∧ TransGen a.E id k))
  | .getOrderedAncestors id, .idsE r =>
    OrErr (vertexErr a id) r (fun l => BfsDone (Function.swap a.E) id l)
  | .getOrderedDescendants id, .idsE r => OrErr (vertexErr a id) r (fun l => BfsDone a.E id l)
  | .reduceTransitively, .unit => True
  | .string, .listing o s vs es =>
    vs.Nodup ∧ (∀ k, k ∈ vs ↔ (a.V k).isSome = true) ∧
    es.Nodup ∧ (∀ x y, (x, y) ∈ es ↔ a.E x y) ∧ o = vs.length ∧ s = es.length
  | _, _ => False

/-- State after a history. -/
def after (a : Abs K T) (ops : List (Op K T)) : Abs K T := ops.foldl next a

/-- All results of a history are admissible. -/
def okAll (a : Abs K T) : List (Op K T) → List (Res K T) → Prop
  | [], [] => True
  | op :: ops, r :: rs => ok a op r ∧ okAll (next a op) ops rs
  | _, _ => False

end Spec
end Verif.Dag
