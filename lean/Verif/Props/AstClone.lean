import Verif.Etx.SharingLemmas
import Verif.Etx.Samples
import Verif.Etx.Children

/-! # Properties C23, C24, C25: cloning -/

namespace Verif.Etx
open Node

/-- The addresses of all objects of a document. -/
def AST.addrs (t : AST) : List Nat := t.addr :: t.items.addrs

/-- No object of the value has been allocated at or after `n`: the values existing when `Clone` is called. -/
def Allocated (n : Nat) (l : List Nat) : Prop := ∀ a ∈ l, a < n

/-! ## C23 -/

/-- **C23.** `Clone` of any node, pointer or slice yields the same value up to addresses and `Parent`s: the same kinds,
texts, numbers, flags, positions, nil-ness and slice contents. -/
theorem C23_clone_equal {k : Kind} (x : Node k) (n : Nat) : (x.clone n).1.erase = x.erase := x.clone_erase n

/-- **C23** for documents: a nil `*AST` clones to nil, any other one to one with equal items. -/
theorem C23_clone_ast (t : Option AST) (n : Nat) :
    (AST.clone t n).1.map (fun t => t.items.erase) = t.map (fun t => t.items.erase) := by
  cases t with
  | none => rfl
  | some t =>
    simp only [AST.clone, Alloc.bind_run, Alloc.pure_run, Alloc.new_run, Option.map_some]
    rw [clone_erase]

/-- Structural equality in the sense of C23 determines nil-ness of pointers. -/
theorem C23_erase_nil {k : Kind} (x y : Node (.ptr k)) (h : x.erase = y.erase) : x = .nil ↔ y = .nil := by
  cases x <;> cases y <;> simp [erase, Node.map] at h ⊢

/-- Structural equality in the sense of C23 determines nil-ness of slices. -/
theorem C23_erase_nilSlice {k : Kind} (x y : Node (.slice k)) (h : x.erase = y.erase) : x = .nilSlice ↔ y = .nilSlice := by
  cases x <;> cases y <;> simp [erase, Node.map] at h ⊢

example : (AST.clone (some Sample.heredocDoc) 23).1.map (fun t => t.items.erase) = some Sample.heredocDoc.items.erase :=
  C23_clone_ast _ _

/-! ## C24 -/

/-- **C24** in full: no object reachable from the clone is reachable from the original. -/
def C24_full : Prop := ∀ (t t' : AST) (n : Nat), Allocated n t.addrs → (AST.clone (some t) n).1 = some t' →
  ∀ a ∈ t'.addrs, a ∉ t.addrs

theorem AST.clone_some (t : AST) (n : Nat) :
    (AST.clone (some t) n).1 = some ⟨n, (t.items.clone (n + 1)).1⟩ := by
  simp only [AST.clone, Alloc.bind_run, Alloc.pure_run, Alloc.new_run]

/-- C24 fails: `Value.Clone` copies the `ValueHeredoc` struct only, so that original and clone share the slice of
fragments and the fragments (addresses 20 and 21 of the sample). -/
theorem C24_heredoc_shared : ¬ C24_full := by
  intro h
  have h1 := h Sample.heredocDoc _ 23 (by unfold Allocated; decide +kernel) (AST.clone_some _ _)
  have h2 : 21 ∈ (AST.mk 23 (Sample.heredocDoc.items.clone 24).1).addrs := by decide +kernel
  exact h1 21 h2 (by decide +kernel)

/-- C24 fails for a second reason: `FuncDecl.Clone` keeps the pointer to the type. -/
theorem C24_funcDecl_shared : ¬ C24_full := by
  intro h
  have h1 := h Sample.funcDoc _ 100 (by unfold Allocated; decide +kernel) (AST.clone_some _ _)
  have h2 : 7 ∈ (AST.mk 100 (Sample.funcDoc.items.clone 101).1).addrs := by decide +kernel
  exact h1 7 h2 (by decide +kernel)

/-- The sharing is observable: replacing the fragments of the clone's heredoc (the slice it holds is the one at 20)
changes the original. -/
theorem C24_write_visible : ∃ w : Write,
    w.addr ∈ (AST.mk 23 (Sample.heredocDoc.items.clone 24).1).addrs ∧
    Sample.heredocDoc.items.write w ≠ Sample.heredocDoc.items := by
  refine ⟨.array 20 ⟨.items .heredocFragment, .empty⟩, by decide +kernel, fun h => ?_⟩
  have := congrArg Node.addrs h
  revert this
  decide +kernel

/-- Nothing in the value is taken over by a clone: it contains no heredoc and no typed declaration in a function. -/
def Node.copied : {k : Kind} → Node k → Bool
  | _, .value _ _ _ _ _ h _ _ => !h.isRef
  | _, .funcDecl _ _ _ t _ => !t.isRef
  | _, _ => true

theorem Node.sharedAddrs_copied {k : Kind} (x : Node k) (h : x.everywhere (fun y => y.copied) = true) :
    x.sharedAddrs = [] := by
  unfold sharedAddrs
  induction x
  case value x1 x2 x3 x4 x5 x6 i1 i2 i3 i4 i5 i6 =>
    simp only [everywhere, Bool.and_eq_true] at h
    cases x4 with
    | nil => simp only [kept, keptHeredoc, i1 h.1.1.1.1.1.2, i2 h.1.1.1.1.2, i3 h.1.1.1.2, i5 h.1.2, i6 h.2, List.append_nil]
    | ref x => simp [copied, isRef] at h
  case funcDecl x1 x2 i1 i2 =>
    simp only [everywhere, Bool.and_eq_true] at h
    cases x1 with
    | nil =>
      rw [kept, i2 h.2]
      simp only [addrs, collect, List.append_nil]
    | ref x => simp [copied, isRef] at h
  all_goals
    simp only [everywhere, Bool.and_eq_true] at h
    simp only [kept]
    try simp only [*, List.append_nil]

/-- **C24** as far as it is true, exactly: the objects that original and clone have in common are the slices and fragments
of heredocs that are values and the types of declarations in functions (`sharedAddrs`); the missing part is that
these are shared. -/
theorem C24_sharing_exact_partial {k : Kind} (x : Node k) (n : Nat) (hn : Allocated n x.addrs) (a : Nat) :
    a ∈ x.addrs ∧ a ∈ (x.clone n).1.addrs ↔ a ∈ x.sharedAddrs := by
  constructor
  · rintro ⟨h1, h2⟩
    rcases x.clone_fresh n a h2 with h | h
    · have := hn a h1
      omega
    · exact h
  · intro h
    exact ⟨x.shared_sub h, x.shared_sub_clone n h⟩

/-- **C24** for documents without heredocs and typed local declarations. -/
theorem C24_no_sharing_partial (t t' : AST) (n : Nat) (hn : Allocated n t.addrs)
    (hc : t.items.everywhere (fun y => y.copied) = true) (h : (AST.clone (some t) n).1 = some t') :
    (∀ a ∈ t'.addrs, a ∉ t.addrs) ∧ t'.addrs.Nodup := by
  rw [AST.clone_some] at h
  obtain rfl := Option.some.inj h
  have hs := sharedAddrs_copied _ hc
  obtain ⟨h1, h2, h3⟩ := clone_incr t.items (n + 1) hs
  constructor
  · intro a ha ha'
    have := hn a ha'
    rcases List.mem_cons.mp ha with rfl | ha
    · omega
    · have := h3 a ha
      omega
  · refine List.nodup_cons.mpr ⟨fun h => ?_, h2.imp (fun h => Nat.ne_of_lt h)⟩
    have := h3 _ h
    simp only at this
    omega

/-- **C24**, the effect: a write to an object of the clone that is not one of the shared ones does not change the
original, and a write to an object of the original that is not shared does not change the clone. -/
theorem C24_isolation_partial {k : Kind} (x : Node k) (n : Nat) (hn : Allocated n x.addrs) (w : Write)
    (hw : w.addr ∉ x.sharedAddrs) :
    (w.addr ∈ (x.clone n).1.addrs → x.write w = x) ∧ (w.addr ∈ x.addrs → (x.clone n).1.write w = (x.clone n).1) := by
  have hx := C24_sharing_exact_partial x n hn w.addr
  constructor
  · intro h
    exact write_of_notMem w x (fun h' => hw (hx.mp ⟨h', h⟩))
  · intro h
    exact write_of_notMem w _ (fun h' => hw (hx.mp ⟨h, h'⟩))

example : Allocated 23 Sample.heredocDoc.items.addrs ∧ Sample.heredocDoc.items.sharedAddrs = [20, 21] := by
  unfold Allocated; decide +kernel
example : Allocated 22 Sample.number.addrs ∧ Sample.number.items.everywhere (fun y => y.copied) = true := by
  unfold Allocated; decide +kernel
/-- A write that has an effect on the clone. -/
example : let x := Sample.number.items
    (x.clone 22).1.addrs = List.range' 22 21 ∧ ((x.clone 22).1.write (.array 22 ⟨.items .rootItem, .empty⟩)).addrs = [22] := by
  decide +kernel

/-! ## C25 -/

/-- **C25** in full: no node of a clone has a `Parent`. -/
def C25_full : Prop := ∀ (t t' : AST) (n : Nat), (AST.clone (some t) n).1 = some t' → ∀ p ∈ t'.items.parents, p = none

/-- The sample with the heredoc's parent set, as after `Parse`. -/
def Sample.heredocParent : Node .value :=
  .value (at_ 18) false .nil .nil .nil (.ref (.heredoc { addr := 19, parent := some 18 } false c!"E" .nilSlice)) .nil .nil

/-- C25 fails: the `Parent` of a cloned heredoc is the original value. -/
theorem C25_heredoc_parent : ¬ C25_full := by
  intro h
  have h1 := h ⟨0, .mkSlice 1 (.cons (.ref (Sample.attrItem 2 c!"x" (Sample.ofValue 4 Sample.heredocParent))) .empty)⟩ _ 40
    (AST.clone_some _ _) (some 18) (by decide +kernel)
  cases h1

/-- **C25** as far as it is true, exactly: the `Parent`s in a clone are those of heredocs that are values, of what is
inside these, and of what is inside the types of declarations in functions.  Missing: these are not reset. -/
theorem C25_parents_exact_partial {k : Kind} (x : Node k) (n : Nat) :
    (x.clone n).1.parents.filter Option.isSome = x.keptParents.filter Option.isSome := x.clone_parents n

theorem Node.keptParents_copied {k : Kind} (x : Node k) (h : x.everywhere (fun y => y.copied) = true) :
    x.keptParents = [] := by
  unfold keptParents
  induction x
  case value x1 x2 x3 x4 x5 x6 i1 i2 i3 i4 i5 i6 =>
    simp only [everywhere, Bool.and_eq_true] at h
    cases x4 with
    | nil => simp only [kept, keptHeredoc, i1 h.1.1.1.1.1.2, i2 h.1.1.1.1.2, i3 h.1.1.1.2, i5 h.1.2, i6 h.2, List.append_nil]
    | ref x => simp [copied, isRef] at h
  case funcDecl x1 x2 i1 i2 =>
    simp only [everywhere, Bool.and_eq_true] at h
    cases x1 with
    | nil =>
      rw [kept, i2 h.2]
      simp only [parents, collect, List.append_nil]
    | ref x => simp [copied, isRef] at h
  all_goals
    simp only [everywhere, Bool.and_eq_true] at h
    simp only [kept]
    try simp only [*, List.append_nil]

/-- **C25** for values without heredocs and typed local declarations. -/
theorem C25_no_parents_partial {k : Kind} (x : Node k) (n : Nat) (hc : x.everywhere (fun y => y.copied) = true) :
    ∀ p ∈ (x.clone n).1.parents, p = none := by
  intro p hp
  have h := x.clone_parents n
  rw [keptParents_copied x hc] at h
  cases p with
  | none => rfl
  | some a =>
    have : some a ∈ (x.clone n).1.parents.filter Option.isSome := List.mem_filter.mpr ⟨hp, rfl⟩
    rw [h] at this
    cases this

example : Sample.heredocParent.keptParents = [some 18] := by decide +kernel
/-- A value whose parents are set and reset by `Clone`. -/
example : let x : Node .value := .value (Sample.at_ 1) false .nil (.ref (.valueNumber { addr := 2, parent := some 1 } none [])) .nil .nil .nil .nil
    x.parents = [none, some 1] ∧ x.everywhere (fun y => y.copied) = true ∧ (x.clone 3).1.parents = [none, none] := by
  decide +kernel

end Verif.Etx
