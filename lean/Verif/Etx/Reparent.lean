import Verif.Etx.Walk

/-!
# The effect of the parent update
-/

namespace Verif.Etx

open Node

/-- A map of the meta data that keeps addresses. -/
def KeepsAddr (f : Meta → Meta) : Prop := ∀ m, (f m).addr = m.addr

theorem Node.storedBy_map {f : Meta → Meta} (hf : KeepsAddr f) (b : Bool) {k : Kind} (x : Node k) (p : Option Nat) :
    (x.map f id).storedBy b p = (x.storedBy b p).map (fun e => (e.1, ⟨e.2.1, e.2.2.map f id⟩)) := by
  induction x generalizing p
  case postfixE x1 x2 x3 i1 i2 i3 =>
    simp only [Node.map, storedBy, hf _, i1, i2, i3, List.map_cons, List.map_append]
    cases b <;> simp
  all_goals
    simp only [Node.map, storedBy, hf _, List.map_cons, List.map_append, List.map_nil, *]

theorem Node.info_map (f : Meta → Meta) (fa : Nat → Nat) {k : Kind} (hk : k.isStruct = true) (x : Node k) :
    (x.map f fa).info = f x.info := by
  cases x <;> first | rfl | cases hk

theorem Node.storedBy_struct (b : Bool) {k : Kind} (x : Node k) (p : Option Nat) :
    ∀ e ∈ x.storedBy b p, e.2.1.isStruct = true := by
  induction x generalizing p
  case postfixE x1 x2 x3 i1 i2 i3 =>
    simp only [storedBy, List.forall_mem_cons, List.forall_mem_append]
    refine ⟨rfl, ⟨i1 _, i2 _⟩, ?_⟩
    cases b
    · simp
    · exact i3 _
  all_goals
    simp only [storedBy, List.forall_mem_cons, List.forall_mem_append, List.not_mem_nil, false_implies, implies_true]
  all_goals
    (repeat' refine And.intro ?_ ?_) <;> first | rfl | apply_assumption

theorem Node.storedBy_addrs (b : Bool) {k : Kind} (x : Node k) (p : Option Nat) :
    ((x.storedBy b p).map (fun e => e.2.addr)).Sublist x.addrs := by
  unfold addrs
  induction x generalizing p
  case postfixE x1 x2 x3 i1 i2 i3 =>
    simp only [storedBy, collect, List.map_cons, List.map_append]
    refine List.Sublist.cons_cons _ ?_
    refine ((i1 _).append (i2 _)).append ?_
    cases b
    · simp
    · simpa using i3 _
  all_goals
    simp only [storedBy, collect, List.map_cons, List.map_append, List.map_nil]
    try simp only [List.append_assoc, List.cons_append, List.nil_append]
  all_goals try refine List.Sublist.cons_cons _ ?_
  all_goals with_reducible
    repeat' (first
      | exact List.nil_sublist _
      | (apply List.Sublist.cons; apply_assumption)
      | apply_assumption
      | refine List.Sublist.append ?_ ?_
      | refine List.Sublist.trans ?_ (List.sublist_append_right _ _))


/-- With different addresses, the last assignment to an address is the only one. -/
theorem lastWrite_mem {ws : List (Nat × Option Nat)} (hn : (ws.map Prod.fst).Nodup) {a : Nat} {p : Option Nat}
    (h : (a, p) ∈ ws) : lastWrite ws a = some p := by
  unfold lastWrite
  have hf : ws.reverse.find? (fun w => w.1 = a) = some (a, p) := by
    rw [List.find?_eq_some_iff_append]
    refine ⟨by simp, ?_⟩
    obtain ⟨l, r, hlr⟩ := List.append_of_mem (List.mem_reverse.mpr h)
    refine ⟨l, r, hlr, ?_⟩
    intro w hw
    have hn' : (ws.reverse.map Prod.fst).Nodup := by
      rw [List.map_reverse]
      exact (List.reverse_perm _).nodup_iff.mpr hn
    rw [hlr, List.map_append, List.map_cons, List.nodup_append] at hn'
    have := hn'.2.2 w.1 (List.mem_map_of_mem hw) a (by simp)
    simpa using this
  rw [hf]
  rfl

theorem lastWrite_none {ws : List (Nat × Option Nat)} {a : Nat} (h : a ∉ ws.map Prod.fst) : lastWrite ws a = none := by
  unfold lastWrite
  rw [Option.map_eq_none_iff, List.find?_eq_none]
  intro w hw
  simp only [decide_eq_true_eq]
  rintro rfl
  exact h (List.mem_map_of_mem (List.mem_reverse.mp hw))

namespace AST

/-- `Children` walks exactly the nodes outside of `ExprPostfix.Post`, each once. -/
theorem visits_perm (t : AST) (h : t.items.everywhere (fun y => y.plain) = true) :
    ∃ l, t.visits = some l ∧ l.Perm (t.items.storedBy false none) := by
  obtain ⟨l, h1, h2⟩ := t.items.vis (p := none) (by rfl) h _ (Nat.le_refl _)
  rw [← kids_slice] at h1
  exact ⟨l.flatten, by simp [visits, children, h1], h2⟩

/-- What `UpdateParentRefs` does to a tree of different objects. -/
theorem updateParentRefs_spec (t : AST) (h : t.items.everywhere (fun y => y.plain) = true) (hd : t.items.addrs.Nodup) :
    ∃ t', t.updateParentRefs = some t' ∧ t'.addr = t.addr ∧
      (∃ f : Meta → Meta, (∀ m, (f m).addr = m.addr ∧ (f m).pos = m.pos) ∧ t'.items = t.items.map f id) ∧
      ∀ e ∈ t'.items.storedBy false none, e.2.2.info.parent = e.1 := by
  obtain ⟨l, h1, h2⟩ := t.visits_perm h
  refine ⟨⟨t.addr, t.items.reparent (l.map fun v => (v.2.addr, v.1))⟩, by simp [updateParentRefs, h1], rfl,
    ⟨_, ?_, by unfold reparent; rfl⟩, ?_⟩
  · exact fun m => ⟨rfl, rfl⟩
  intro e he
  simp only [reparent] at he
  rw [storedBy_map (by intro m; rfl)] at he
  obtain ⟨e', he', rfl⟩ := List.mem_map.mp he
  simp only
  rw [info_map _ _ (storedBy_struct _ _ _ e' he')]
  have hnd : ((l.map fun v => (v.2.addr, v.1)).map Prod.fst).Nodup := by
    rw [List.map_map]
    have : (l.map (fun e => e.2.addr)).Perm ((t.items.storedBy false none).map (fun e => e.2.addr)) := h2.map _
    exact (this.nodup_iff.mpr ((storedBy_addrs false t.items none).nodup hd))
  have hm : (e'.2.addr, e'.1) ∈ l.map fun v => (v.2.addr, v.1) :=
    List.mem_map.mpr ⟨e', h2.mem_iff.mpr he', rfl⟩
  have := lastWrite_mem hnd hm
  simp only [AnyNode.addr] at this
  simp [this, AnyNode.addr]

end AST

end Verif.Etx
