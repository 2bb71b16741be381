import Verif.Etx.CloneLemmas

/-!
# What a clone shares with its original
-/

namespace Verif.Etx

namespace Node

/-- See `kept`. -/
def keptHeredoc {β : Type} (g : {k : Kind} → Node k → List β) (gh : Meta → List β) : Node (.ptr .heredoc) → List β
  | .nil => []
  | .ref (.heredoc m _ _ fs) => gh m ++ g fs

/-- The parts of a value that its clone takes over instead of copying: the fragments of a heredoc
value (and, for `Parent`s, the heredoc itself), and the type of a declaration inside a function. `g` is
what to collect there. -/
def kept {β : Type} (g : {k : Kind} → Node k → List β) (gh : Meta → List β) : {k : Kind} → Node k → List β
  | _, .rootItem _ _ x1 x2 x3 x4 x5 x6 => x1.kept g gh ++ x2.kept g gh ++ x3.kept g gh ++ x4.kept g gh ++ x5.kept g gh ++ x6.kept g gh
  | _, .parameterType _ x1 x2 => x1.kept g gh ++ x2.kept g gh
  | _, .funcSignature _ x1 x2 => x1.kept g gh ++ x2.kept g gh
  | _, .ident _ _ => []
  | _, .comment _ _ _ => []
  | _, .attr _ _ x1 => x1.kept g gh
  | _, .block _ _ _ x1 => x1.kept g gh
  | _, .blockItem _ _ x1 x2 x3 => x1.kept g gh ++ x2.kept g gh ++ x3.kept g gh
  | _, .decl _ _ _ x1 x2 => x1.kept g gh ++ x2.kept g gh
  | _, .lambda _ x1 x2 x3 => x1.kept g gh ++ x2.kept g gh ++ x3.kept g gh
  | _, .lambdaParameter _ _ x1 => x1.kept g gh
  | _, .func _ _ x1 x2 x3 => x1.kept g gh ++ x2.kept g gh ++ x3.kept g gh
  | _, .funcParameter _ _ x1 => x1.kept g gh
  | _, .funcStatement _ _ x1 x2 x3 => x1.kept g gh ++ x2.kept g gh ++ x3.kept g gh
  | _, .funcDecl _ _ _ x1 x2 => g x1 ++ x2.kept g gh
  | _, .type _ _ x1 x2 => x1.kept g gh ++ x2.kept g gh
  | _, .typeEnum _ x1 => x1.kept g gh
  | _, .typeEnumItem _ _ x1 _ x2 => x1.kept g gh ++ x2.kept g gh
  | _, .typeObject _ x1 => x1.kept g gh
  | _, .typeObjectItem _ _ x1 _ x2 => x1.kept g gh ++ x2.kept g gh
  | _, .value _ _ x1 x2 x3 x4 x5 x6 => x1.kept g gh ++ x2.kept g gh ++ x3.kept g gh ++ keptHeredoc g gh x4 ++ x5.kept g gh ++ x6.kept g gh
  | _, .valueBool _ _ => []
  | _, .valueNumber _ _ _ => []
  | _, .heredoc _ _ _ x1 => x1.kept g gh
  | _, .heredocFragment _ x1 x2 _ => x1.kept g gh ++ x2.kept g gh
  | _, .valueString _ x1 => x1.kept g gh
  | _, .stringFragment _ _ _ x1 x2 _ => x1.kept g gh ++ x2.kept g gh
  | _, .valueList _ x1 => x1.kept g gh
  | _, .listItem _ _ x1 x2 => x1.kept g gh ++ x2.kept g gh
  | _, .valueMap _ x1 => x1.kept g gh
  | _, .mapItem _ _ x1 x2 x3 => x1.kept g gh ++ x2.kept g gh ++ x3.kept g gh
  | _, .mapKey _ x1 x2 => x1.kept g gh ++ x2.kept g gh
  | _, .expr _ x1 x2 x3 => x1.kept g gh ++ x2.kept g gh ++ x3.kept g gh
  | _, .exprIf _ x1 x2 x3 => x1.kept g gh ++ x2.kept g gh ++ x3.kept g gh
  | _, .exprSwitch _ x1 x2 => x1.kept g gh ++ x2.kept g gh
  | _, .exprCase _ x1 _ x2 => x1.kept g gh ++ x2.kept g gh
  | _, .conditional _ x1 _ x2 x3 => x1.kept g gh ++ x2.kept g gh ++ x3.kept g gh
  | _, .bin _ _ x1 _ x2 => x1.kept g gh ++ x2.kept g gh
  | _, .unary _ _ x1 => x1.kept g gh
  | _, .postfixE _ x1 x2 x3 => x1.kept g gh ++ x2.kept g gh ++ x3.kept g gh
  | _, .primary _ x1 x2 x3 x4 x5 => x1.kept g gh ++ x2.kept g gh ++ x3.kept g gh ++ x4.kept g gh ++ x5.kept g gh
  | _, .invocation _ x1 => x1.kept g gh
  | _, .nil => []
  | _, .ref x1 => x1.kept g gh
  | _, .nilSlice => []
  | _, .mkSlice _ x1 => x1.kept g gh
  | _, .empty => []
  | _, .cons x1 x2 => x1.kept g gh ++ x2.kept g gh

theorem kept_nil {β : Type} (g : {k : Kind} → Node k → List β) (gh : Meta → List β) {k : Kind} :
    (nil : Node (.ptr k)).kept g gh = [] := by simp only [kept]

/-- The addresses of the objects that a clone takes over from its original. -/
def sharedAddrs {k : Kind} (x : Node k) : List Nat := x.kept (fun y => y.addrs) (fun _ => [])

/-- The `Parent`s that a clone takes over from its original. -/
def keptParents {k : Kind} (x : Node k) : List (Option Nat) := x.kept (fun y => y.parents) (fun m => [m.parent])

end Node

/-- The addresses in `l` are newly allocated between `lo` and `hi`, or belong to `S`. -/
def FreshOr (lo hi : Nat) (S l : List Nat) : Prop := ∀ a ∈ l, (lo ≤ a ∧ a < hi) ∨ a ∈ S

namespace FreshOr

theorem nil {lo hi : Nat} {S : List Nat} : FreshOr lo hi S [] := by simp [FreshOr]

theorem append {lo hi : Nat} {S l l' : List Nat} (h : FreshOr lo hi S l) (h' : FreshOr lo hi S l') :
    FreshOr lo hi S (l ++ l') := by
  intro a ha
  rcases List.mem_append.mp ha with ha | ha
  · exact h a ha
  · exact h' a ha

theorem mono {lo hi lo' hi' : Nat} {S S' l : List Nat} (h : FreshOr lo hi S l) (h1 : lo' ≤ lo) (h2 : hi ≤ hi')
    (h3 : S ⊆ S') : FreshOr lo' hi' S' l := by
  intro a ha
  rcases h a ha with h | h
  · exact .inl ⟨by omega, by omega⟩
  · exact .inr (h3 h)

end FreshOr

theorem Strs.clone_le (s : Strs) (n : Nat) : n ≤ (s.clone n).2 := by
  cases s <;> simp [Strs.clone]
theorem cloneFloat_le (s : Option (Nat × BigFloat)) (n : Nat) : n ≤ (cloneFloat s n).2 := by
  rcases s with _ | ⟨a, f⟩ <;> simp [cloneFloat]
theorem shallowHeredoc_le (h : Node (.ptr .heredoc)) (n : Nat) : n ≤ (shallowHeredoc h n).2 := by
  cases h with
  | nil => exact Nat.le_refl _
  | ref y => cases y; exact Nat.le_succ _

theorem Node.clone_le {k : Kind} (x : Node k) (n : Nat) : n ≤ (x.clone n).2 := by
  induction x generalizing n <;>
    simp only [Node.clone, Meta.clone_run, Alloc.bind_run, Alloc.pure_run, Alloc.new_run] <;>
    grind [Strs.clone_le, cloneFloat_le, shallowHeredoc_le]

theorem Strs.clone_addrs (s : Strs) (n : Nat) : FreshOr n (s.clone n).2 [] ((s.clone n).1.collect (fun a => [a])) := by
  cases s <;> simp [Strs.clone, Strs.collect, FreshOr]
theorem cloneFloat_addrs (s : Option (Nat × BigFloat)) (n : Nat) :
    FreshOr n (cloneFloat s n).2 [] (collectFloat (fun a => [a]) (cloneFloat s n).1) := by
  rcases s with _ | ⟨a, f⟩ <;> simp [cloneFloat, collectFloat, FreshOr]
theorem shallowHeredoc_addrs (h : Node (.ptr .heredoc)) (n : Nat) :
    FreshOr n (shallowHeredoc h n).2 (Node.keptHeredoc (fun y => y.addrs) (fun _ => []) h) (shallowHeredoc h n).1.addrs := by
  cases h with
  | nil => simp [shallowHeredoc, Node.addrs, Node.collect, FreshOr]
  | ref y =>
    cases y
    simp [shallowHeredoc, Node.addrs, Node.collect, Node.keptHeredoc, FreshOr]
    grind

theorem FreshOr.single {lo hi a : Nat} {S : List Nat} (h1 : lo ≤ a) (h2 : a < hi) : FreshOr lo hi S [a] := by
  intro b hb
  simp only [List.mem_singleton] at hb
  subst hb
  exact .inl ⟨h1, h2⟩

theorem FreshOr.all {lo hi : Nat} {S l : List Nat} (h : l ⊆ S) : FreshOr lo hi S l := fun _ ha => .inr (h ha)

/-- Inequalities between successive values of the allocation counter. -/
macro "alloc_le" : tactic => `(tactic| repeat (with_reducible (first
  | exact Nat.le_refl _
  | exact Nat.le_succ _
  | refine Nat.le_trans ?_ (Node.clone_le _ _)
  | refine Nat.le_trans ?_ (Strs.clone_le _ _)
  | refine Nat.le_trans ?_ (cloneFloat_le _ _)
  | refine Nat.le_trans ?_ (shallowHeredoc_le _ _)
  | refine Nat.le_trans ?_ (Nat.le_succ _))))

/-- Inclusion of a list in a concatenation. -/
macro "sub_append" : tactic => `(tactic| (intro a ha; (try simp only [List.mem_append]); simp [ha]))

set_option maxHeartbeats 1000000 in
theorem Node.clone_fresh {k : Kind} (x : Node k) (n : Nat) :
    FreshOr n (x.clone n).2 x.sharedAddrs (x.clone n).1.addrs := by
  have sh := shallowHeredoc_addrs
  have st := Strs.clone_addrs
  have fl := cloneFloat_addrs
  simp only [Node.addrs, Node.sharedAddrs] at sh ⊢
  induction x generalizing n <;>
    simp only [Node.clone, Node.collect, Node.kept, Meta.clone_run, Alloc.bind_run, Alloc.pure_run, Alloc.new_run]
  all_goals
    repeat' with_reducible apply FreshOr.append
  all_goals first
    | ((with_reducible apply FreshOr.mono)
       · with_reducible apply_assumption
       all_goals first | (alloc_le; done) | (with_reducible exact List.nil_subset _) | sub_append)
    | (with_reducible exact FreshOr.nil)
    | (with_reducible refine FreshOr.single ?_ ?_) <;> (try simp only [Nat.lt_iff_add_one_le]) <;> alloc_le
    | ((with_reducible refine FreshOr.all ?_); sub_append; done)


end Verif.Etx
