import Verif.Etx.Reparent
import Verif.Etx.Samples

/-! # Properties C26 and C27: `Parent` references and `Children` -/

namespace Verif.Etx
open Node

/-- A tree: no object is stored at two places. -/
def AST.IsTree (t : AST) : Prop := t.items.addrs.Nodup

/-- At most one alternative of each `RootItem`, `MapKey` and `Expr` is set and no slice holds a nil pointer, as in every
parsed document. -/
def AST.Plain (t : AST) : Prop := t.items.everywhere (fun y => y.plain) = true

instance (t : AST) : Decidable t.IsTree := inferInstanceAs (Decidable (List.Nodup _))
instance (t : AST) : Decidable t.Plain := inferInstanceAs (Decidable (_ = _))

/-- **C26** in full, for `UpdateParentRefs` on trees: afterwards the `Parent` of every stored node is the node that
directly contains it. -/
def C26_full : Prop := ∀ t : AST, t.IsTree → t.Plain →
  ∃ t', t.updateParentRefs = some t' ∧ ∀ e ∈ t'.items.stored none, e.2.2.info.parent = e.1

/-- C26 fails: in `x = a[0].b` the `Parent` of the postfix expression `.b` (address 39) stays nil. -/
theorem C26_post_missing : ¬ C26_full := by
  intro h
  obtain ⟨t', h1, h2⟩ := h Sample.postDoc (by decide +kernel) (by decide +kernel)
  have h3 : (Sample.postDoc.updateParentRefs.map fun t =>
      (t.items.stored none).all (fun e => decide (e.2.2.info.parent = e.1))) = some false := by decide +kernel
  rw [h1] at h3
  simp only [Option.map_some, Option.some.injEq] at h3
  rw [List.all_eq_false] at h3
  obtain ⟨e, he, hne⟩ := h3
  exact hne (decide_eq_true (h2 e he))

/-- **C26** as far as it is true.  On every tree `UpdateParentRefs` succeeds, and changes nothing but `Parent`s; afterwards
every node outside of `ExprPostfix.Post` has as its `Parent` the node that directly contains it (nil for root items).
Missing: what is inside a `Post` keeps its old `Parent`s. -/
theorem C26_parents_partial (t : AST) (ht : t.IsTree) (hp : t.Plain) :
    ∃ t', t.updateParentRefs = some t' ∧ t'.addr = t.addr ∧
      (∃ f : Meta → Meta, (∀ m, (f m).addr = m.addr ∧ (f m).pos = m.pos) ∧ t'.items = t.items.map f id) ∧
      ∀ e ∈ t'.items.storedBy false none, e.2.2.info.parent = e.1 :=
  t.updateParentRefs_spec hp ht

theorem Node.everywhere_map_noPost (f : Meta → Meta) (fa : Nat → Nat) {k : Kind} (x : Node k) :
    (x.map f fa).everywhere (fun y => y.noPost) = x.everywhere (fun y => y.noPost) := by
  induction x
  case postfixE x1 x2 x3 i1 i2 i3 =>
    simp only [Node.map, everywhere, i1, i2, i3]
    cases x3 <;> simp only [Node.map, noPost, isRef]
  all_goals
    simp only [Node.map, everywhere, *]
    try rfl

/-- **C26** for documents in which no expression has a `Post`. -/
theorem C26_no_post_partial (t : AST) (ht : t.IsTree) (hp : t.Plain)
    (hn : t.items.everywhere (fun y => y.noPost) = true) :
    ∃ t', t.updateParentRefs = some t' ∧ ∀ e ∈ t'.items.stored none, e.2.2.info.parent = e.1 := by
  obtain ⟨t', h1, -, ⟨f, -, hf⟩, h2⟩ := C26_parents_partial t ht hp
  refine ⟨t', h1, ?_⟩
  rw [← storedBy_noPost]
  · exact h2
  · rw [hf, everywhere_map_noPost]
    exact hn

example : Sample.number.IsTree ∧ Sample.number.Plain ∧ Sample.number.items.everywhere (fun y => y.noPost) = true ∧
    (Sample.number.items.stored none).length = 19 := by decide +kernel
example : Sample.postDoc.IsTree ∧ Sample.postDoc.Plain := by decide +kernel

/-- **C27** in full: the walk along `Children` from the AST succeeds and visits every node stored in it exactly once,
coming from the node that contains it. -/
def C27_full : Prop := ∀ t : AST, t.Plain → ∃ l, t.visits = some l ∧ l.Perm (t.items.stored none)

/-- C27 fails: in `x = a[0].b`, `.b` is not visited. -/
theorem C27_post_missing : ¬ C27_full := by
  intro h
  obtain ⟨l, h1, h2⟩ := h Sample.postDoc (by decide +kernel)
  have h3 : Sample.postDoc.visits.map List.length = some ((Sample.postDoc.items.stored none).length - 3) := by
    decide +kernel
  rw [h1, Option.map_some, h2.length_eq] at h3
  revert h3
  decide +kernel

/-- **C27** as far as it is true: every node outside of `ExprPostfix.Post` is visited exactly once, from the node that
contains it, and no other one.  Missing: the nodes inside of a `Post` are never visited. -/
theorem C27_visits_partial (t : AST) (hp : t.Plain) :
    ∃ l, t.visits = some l ∧ l.Perm (t.items.storedBy false none) := t.visits_perm hp

/-- **C27** for documents in which no expression has a `Post`. -/
theorem C27_no_post_partial (t : AST) (hp : t.Plain) (hn : t.items.everywhere (fun y => y.noPost) = true) :
    ∃ l, t.visits = some l ∧ l.Perm (t.items.stored none) := by
  rw [← storedBy_noPost _ hn]
  exact t.visits_perm hp

example : Sample.number.Plain ∧ Sample.number.items.everywhere (fun y => y.noPost) = true ∧
    Sample.number.visits.map List.length = some 19 := by decide +kernel

/-- The depth of the walk is bounded by the size of the tree, so that the fuel of the model does not matter. -/
theorem C27_walk_terminates (t : AST) (n : Nat) (hn : t.items.size ≤ n) :
    t.children.mapM (walk n none) = t.children.mapM (walk t.items.size none) := by
  have : ∀ L : List (Option AnyNode), (∀ c, some c ∈ L → c.2.size < t.items.size) →
      L.mapM (walk n none) = L.mapM (walk t.items.size none) := by
    intro L hL
    induction L with
    | nil => rfl
    | cons c L ihL =>
      rw [List.mapM_cons, List.mapM_cons, ihL (fun c hc => hL c (List.mem_cons_of_mem _ hc))]
      cases c with
      | none => cases n <;> cases t.items.size <;> rfl
      | some c =>
        have := hL c List.mem_cons_self
        rw [walk_fuel n t.items.size _ c (by omega) (by omega)]
  exact this _ (fun c hc => t.items.elems_lt hc)

end Verif.Etx
