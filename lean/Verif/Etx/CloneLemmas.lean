import Verif.Etx.Clone
import Verif.Etx.Tree

namespace Verif.Etx

@[simp] theorem Alloc.bind_run {α β : Type} (m : Alloc α) (f : α → Alloc β) (n : Nat) :
    (m >>= f) n = f (m n).1 (m n).2 := rfl
@[simp] theorem Alloc.pure_run {α : Type} (a : α) (n : Nat) : (Pure.pure a : Alloc α) n = (a, n) := rfl
@[simp] theorem Alloc.new_run (n : Nat) : Alloc.new n = (n, n + 1) := rfl

theorem Meta.clone_run (m : Meta) (n : Nat) : m.clone n = ({ addr := n, pos := m.pos }, n + 1) := rfl

@[simp] theorem Strs.clone_erase (s : Strs) (n : Nat) : (s.clone n).1.map (fun _ => 0) = s.map (fun _ => 0) := by
  cases s <;> rfl

@[simp] theorem cloneFloat_erase (s : Option (Nat × BigFloat)) (n : Nat) :
    mapFloat (fun _ => 0) (cloneFloat s n).1 = mapFloat (fun _ => 0) s := by
  rcases s with _ | ⟨a, f⟩ <;> rfl

@[simp] theorem shallowHeredoc_erase (h : Node (.ptr .heredoc)) (n : Nat) : (shallowHeredoc h n).1.erase = h.erase := by
  cases h with
  | nil => rfl
  | ref y => cases y; rfl

theorem Node.clone_erase {k : Kind} (x : Node k) (n : Nat) : (x.clone n).1.erase = x.erase := by
  have sh := shallowHeredoc_erase
  simp only [Node.erase] at sh ⊢
  induction x generalizing n <;>
    simp only [Node.clone, Node.map, Meta.clone_run, Alloc.bind_run, Alloc.pure_run, Alloc.new_run, Strs.clone_erase,
      cloneFloat_erase, *]

end Verif.Etx
