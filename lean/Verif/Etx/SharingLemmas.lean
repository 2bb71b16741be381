import Verif.Etx.Sharing

/-!
# Lemmas about sharing and assignment
-/

namespace Verif.Etx

theorem Node.keptHeredoc_sub (h : Node (.ptr .heredoc)) :
    keptHeredoc (fun y => y.addrs) (fun _ => []) h ⊆ h.addrs := by
  cases h with
  | nil => simp [keptHeredoc]
  | ref y =>
    cases y
    simp only [keptHeredoc, addrs, collect, List.nil_append]
    sub_append

theorem Node.shared_sub {k : Kind} (x : Node k) : x.sharedAddrs ⊆ x.addrs := by
  have sh := keptHeredoc_sub
  simp only [Node.addrs, Node.sharedAddrs] at sh ⊢
  induction x <;> simp only [Node.collect, Node.kept, List.subset_def, List.mem_append] at *
  all_goals grind

theorem shallowHeredoc_kept (h : Node (.ptr .heredoc)) (n : Nat) :
    Node.keptHeredoc (fun y => y.addrs) (fun _ => []) h ⊆ (shallowHeredoc h n).1.addrs := by
  cases h with
  | nil => simp [Node.keptHeredoc]
  | ref y =>
    cases y
    simp only [Node.keptHeredoc, Node.addrs, Node.collect, shallowHeredoc, List.nil_append, Alloc.bind_run, Alloc.pure_run, Alloc.new_run]
    sub_append

theorem Node.shared_sub_clone {k : Kind} (x : Node k) (n : Nat) : x.sharedAddrs ⊆ (x.clone n).1.addrs := by
  have sh := shallowHeredoc_kept
  simp only [Node.addrs, Node.sharedAddrs] at sh ⊢
  induction x generalizing n <;> simp only [Node.clone, Node.collect, Node.kept, Meta.clone_run, Alloc.bind_run, Alloc.pure_run, Alloc.new_run, List.subset_def, List.mem_append] at *
  all_goals grind

theorem Node.write_of_notMem {k : Kind} (w : Write) (x : Node k) (h : w.addr ∉ x.addrs) : x.write w = x := by
  simp only [Node.addrs] at h
  have hs : ∀ {k : Kind} (m : Meta) (y : Node k), w.addr ≠ m.addr → pickStruct w m y = y := by
    intro k m y hm
    cases w <;> simp_all [pickStruct, Write.addr]
    omega
  have ha : ∀ {k : Kind} (a : Nat) (y : Node (.items k)), w.addr ≠ a → pickArray w a y = y := by
    intro k a y hm
    cases w <;> simp_all [pickArray, Write.addr]
    omega
  have ht : ∀ s : Strs, w.addr ∉ s.collect (fun a => [a]) → s.write w = s := by
    intro s hm
    cases s <;> cases w <;> simp_all [Strs.write, Write.addr, Strs.collect]
    omega
  have hf : ∀ s : Option (Nat × BigFloat), w.addr ∉ collectFloat (fun a => [a]) s → writeFloat w s = s := by
    intro s hm
    rcases s with _ | ⟨a, s⟩ <;> cases w <;> simp_all [writeFloat, Write.addr, collectFloat]
    omega
  induction x <;> simp only [Node.write, Node.collect, List.mem_append, List.mem_singleton, not_or] at * <;> simp_all

/-- `l` is increasing and between `lo` and `hi`. -/
def Incr (lo hi : Nat) (l : List Nat) : Prop := lo ≤ hi ∧ l.Pairwise (· < ·) ∧ ∀ a ∈ l, lo ≤ a ∧ a < hi

theorem Incr.nil {lo hi : Nat} (h : lo ≤ hi) : Incr lo hi [] := by simp [Incr, h]

theorem Incr.append {lo mid hi : Nat} {l l' : List Nat} (h : Incr lo mid l) (h' : Incr mid hi l') :
    Incr lo hi (l ++ l') := by
  obtain ⟨h1, h2, h3⟩ := h
  obtain ⟨h1', h2', h3'⟩ := h'
  refine ⟨by omega, List.pairwise_append.mpr ⟨h2, h2', fun a ha b hb => ?_⟩, fun a ha => ?_⟩
  · have := h3 a ha
    have := h3' b hb
    omega
  · rcases List.mem_append.mp ha with ha | ha
    · have := h3 a ha
      omega
    · have := h3' a ha
      omega

theorem Incr.single {a : Nat} : Incr a (a + 1) [a] := by simp [Incr]

theorem Incr.lower {lo lo' hi : Nat} {l : List Nat} (h : Incr lo hi l) (h' : lo' ≤ lo) : Incr lo' hi l := by
  obtain ⟨h1, h2, h3⟩ := h
  exact ⟨by omega, h2, fun a ha => ⟨by have := h3 a ha; omega, (h3 a ha).2⟩⟩

theorem Strs.clone_incr (s : Strs) (n : Nat) : Incr n (s.clone n).2 ((s.clone n).1.collect (fun a => [a])) := by
  cases s <;> simp [Strs.clone, Strs.collect, Incr]
theorem cloneFloat_incr (s : Option (Nat × BigFloat)) (n : Nat) :
    Incr n (cloneFloat s n).2 (collectFloat (fun a => [a]) (cloneFloat s n).1) := by
  rcases s with _ | ⟨a, f⟩ <;> simp [cloneFloat, collectFloat, Incr]
theorem shallowHeredoc_incr (h : Node (.ptr .heredoc)) (n m : Nat) (hm : n ≤ m)
    (hk : Node.keptHeredoc (fun y => y.addrs) (fun _ => []) h = []) :
    Incr n (shallowHeredoc h m).2 (shallowHeredoc h m).1.addrs := by
  cases h with
  | nil => simpa [shallowHeredoc, Node.addrs, Node.collect, Incr]
  | ref y =>
    cases y
    simp only [Node.keptHeredoc, List.nil_append] at hk
    simp only [Node.addrs] at hk
    simp [shallowHeredoc, Node.addrs, Node.collect, Incr, hk]
    omega

theorem Node.clone_incr {k : Kind} (x : Node k) (n : Nat) (h : x.sharedAddrs = []) :
    Incr n (x.clone n).2 (x.clone n).1.addrs := by
  have sh := shallowHeredoc_incr
  have st := Strs.clone_incr
  have fl := cloneFloat_incr
  simp only [Node.addrs, Node.sharedAddrs] at sh h ⊢
  induction x generalizing n <;>
    simp only [Node.clone, Node.collect, Node.kept, Meta.clone_run, Alloc.bind_run, Alloc.pure_run, Alloc.new_run,
      List.append_eq_nil_iff] at h ⊢
  case value ih1 ih2 ih3 ih4 ih5 ih6 =>
    obtain ⟨⟨⟨⟨⟨h1, h2⟩, h3⟩, h4⟩, h5⟩, h6⟩ := h
    exact (((((Incr.single.append (ih1 _ h1)).append (ih2 _ h2)).append (ih3 _ h3)).append
      (sh _ _ _ (Node.clone_le _ _) h4)).append (ih5 _ h5)).append (ih6 _ h6)
  case funcDecl =>
    rw [h.1, List.append_nil]
    exact Incr.single.append (by apply_assumption; exact h.2)
  all_goals try with_reducible exact Incr.nil (Nat.le_refl _)
  all_goals repeat' (with_reducible apply Incr.append)
  all_goals first
    | (with_reducible exact Incr.single)
    | ((with_reducible apply_assumption) <;> simp [h])

theorem shallowHeredoc_parents (h : Node (.ptr .heredoc)) (n : Nat) :
    (shallowHeredoc h n).1.parents = Node.keptHeredoc (fun y => y.parents) (fun m => [m.parent]) h := by
  cases h with
  | nil => rfl
  | ref y => cases y; rfl

theorem Strs.collect_nil (s : Strs) : s.collect (fun _ => ([] : List (Option Nat))) = [] := by cases s <;> rfl
theorem collectFloat_nil (s : Option (Nat × BigFloat)) : collectFloat (fun _ => ([] : List (Option Nat))) s = [] := by
  rcases s with _ | ⟨a, f⟩ <;> rfl

theorem Node.clone_parents {k : Kind} (x : Node k) (n : Nat) :
    (x.clone n).1.parents.filter Option.isSome = x.keptParents.filter Option.isSome := by
  have sh := shallowHeredoc_parents
  simp only [Node.parents, Node.keptParents] at sh ⊢
  induction x generalizing n <;>
    simp only [Node.clone, Node.collect, Node.kept, Meta.clone_run, Alloc.bind_run, Alloc.pure_run, Alloc.new_run,
      List.filter_append, Strs.collect_nil, collectFloat_nil, List.filter_nil, List.append_nil, List.nil_append,
      List.filter_cons_of_neg (l := ([] : List (Option Nat))) (p := Option.isSome) (a := none) (by simp), *]

end Verif.Etx
