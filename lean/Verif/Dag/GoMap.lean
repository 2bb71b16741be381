/-!
# Go maps, map iteration order, and the Go zero value

Runtime notions used by the model of `pkg/dag`.  Nothing here models repository
code; it models the Go language constructs the repository code is written in.
-/

namespace Verif.Dag

/-- The zero value of a Go type (`var x T`), used for `reflect.ValueOf(id).IsZero()`
and for reading a missing map key.  *Simplification*: key types are assumed to have
lawful decidable equality and exactly one zero value, which excludes keys containing
floats (NaN, -0). -/
class GoZero (α : Type) where
  zero : α

export GoZero (zero)

/-- A (non-nil) Go `map[K]V`: an association list; the lists built below always
have unique keys (`GoMap.NodupKeys`).  The list order carries no meaning: every
`range` loop goes through an `Oracle`. -/
abbrev GoMap (K V : Type) := List (K × V)

namespace GoMap
variable {K V : Type} [DecidableEq K]

/-- `v, ok := m[k]` -/
def get? (m : GoMap K V) (k : K) : Option V :=
  match m with
  | [] => none
  | (k', v) :: m => if k' = k then some v else get? m k

/-- `_, ok := m[k]` -/
def has (m : GoMap K V) (k : K) : Bool := (get? m k).isSome

/-- `delete(m, k)` -/
def del (m : GoMap K V) (k : K) : GoMap K V := m.filter (fun p => decide (p.1 ≠ k))

/-- `m[k] = v` -/
def set (m : GoMap K V) (k : K) (v : V) : GoMap K V := (k, v) :: del m k

/-- Keys of the map. -/
def keys (m : GoMap K V) : List K := m.map Prod.fst

/-- Every key occurs once: what makes the list a map. -/
def NodupKeys (m : GoMap K V) : Prop := (keys m).Nodup

/-- `f` applied to the map stored under `k`, in place: models a call such as
`m[k].Delete(x)` that mutates the inner map through its reference.  When the key is
absent, `m[k]` is a nil map and Go's `delete` on a nil map is a no-op. -/
def updAt (m : GoMap K V) (k : K) (f : V → V) : GoMap K V :=
  m.map (fun p => if p.1 = k then (p.1, f p.2) else p)

end GoMap

/-- The order oracle: which permutation of the entries the `n`-th `range` statement of
an execution sees.  Go leaves the order unspecified and randomises it; quantifying over
all oracles quantifies over all behaviours. -/
structure Oracle where
  perm : (α : Type) → Nat → List α → List α
  isPerm : ∀ α n l, (perm α n l).Perm l

end Verif.Dag
