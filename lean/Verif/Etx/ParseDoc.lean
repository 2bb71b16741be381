import Verif.Etx.Shape
import Verif.Etx.SharingLemmas
import Verif.Etx.Reparent
import Verif.Etx.FormatLemmas

/-!
# Parsed documents

Placement keeps the contents and makes all addresses distinct; so a parsed document is a plain tree, and setting the
parents cannot panic.
-/

namespace Verif.Etx

theorem Meta.place_run (m : Meta) (n : Nat) : m.place n = ({ m with addr := n }, n + 1) := rfl

theorem Node.place_erase {k : Kind} (x : Node k) (n : Nat) : (x.place n).1.erase = x.erase := by
  simp only [Node.erase]
  induction x generalizing n <;>
    simp only [Node.place, Node.map, Meta.place_run, Alloc.bind_run, Alloc.pure_run, Alloc.new_run, Strs.clone_erase,
      cloneFloat_erase, *]

theorem Node.place_incr {k : Kind} (x : Node k) (n : Nat) : Incr n (x.place n).2 (x.place n).1.addrs := by
  have st := Strs.clone_incr
  have fl := cloneFloat_incr
  simp only [Node.addrs]
  induction x generalizing n <;>
    simp only [Node.place, Node.collect, Meta.place_run, Alloc.bind_run, Alloc.pure_run, Alloc.new_run]
  all_goals try with_reducible exact Incr.nil (Nat.le_refl _)
  all_goals repeat' (with_reducible apply Incr.append)
  all_goals first
    | (with_reducible exact Incr.single)
    | (with_reducible apply_assumption)

theorem Node.place_nodup {k : Kind} (x : Node k) (n : Nat) : (x.place n).1.addrs.Nodup :=
  (x.place_incr n).2.1.imp (fun h => Nat.ne_of_lt h)

theorem Node.everywhere_map {P : {k : Kind} → Node k → Bool} (f : Meta → Meta) (fa : Nat → Nat)
    (hP : ∀ (k : Kind) (y : Node k), P (y.map f fa) = P y) {k : Kind} (x : Node k) :
    (x.map f fa).everywhere P = x.everywhere P := by
  induction x
  all_goals
    simp only [everywhere]
    rw [← hP]
    simp only [Node.map, everywhere, *]

theorem Node.everywhere_mono {P Q : {k : Kind} → Node k → Bool} (h : ∀ (k : Kind) (y : Node k), P y = true → Q y = true)
    {k : Kind} (x : Node k) (hx : x.everywhere P = true) : x.everywhere Q = true := by
  induction x <;> simp only [everywhere, Bool.and_eq_true] at hx ⊢ <;> simp_all

theorem Node.set_map (f : Meta → Meta) (fa : Nat → Nat) {k : Kind} (x : Node k) : (x.map f fa).set = x.set := by
  cases x <;> simp only [Node.map, set, isRef_map]

theorem Strs.list_map' (fa : Nat → Nat) (s : Strs) : (s.map fa).list = s.list := by cases s <;> rfl

theorem Node.shaped_map (f : Meta → Meta) (fa : Nat → Nat) {k : Kind} (x : Node k) :
    (x.map f fa).shaped = x.shaped := by
  cases x <;> simp only [Node.map, shaped, isRef_map, set_map, isNilSlice_map, len_map, Strs.list_map', mapFloat]
  case valueNumber v s => rcases v with _ | ⟨a, v⟩ <;> rfl

theorem Node.plain_of_shaped {k : Kind} (x : Node k) (h : x.shaped = true) : x.plain = true := by
  cases x
  case rootItem => 
    simp only [shaped, plain, one, List.count_cons, List.count_nil] at h ⊢
    simp at h ⊢
    omega
  case mapKey x1 x2 =>
    revert h
    simp only [shaped, plain]
    cases x1.isRef <;> cases x2.isRef <;> decide
  all_goals first | rfl | exact h

end Verif.Etx
