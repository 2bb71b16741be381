import Verif.Etx.Children
import Mathlib.Tactic.SplitIfs

/-!
# Which nodes the parent update visits
-/

namespace Verif.Etx

namespace Node

/-- One element of the path of `Children` from a value: the struct itself, the struct pointed to, the
elements of a slice. -/
def kids : {k : Kind} → Node k → List (Option AnyNode)
  | _, .nil => []
  | _, .ref x => [some ⟨_, x⟩]
  | _, .nilSlice => []
  | _, .mkSlice _ xs => xs.elems
  | _, .empty => []
  | _, .cons x xs => x.elem :: xs.elems
  | k, x => [some ⟨k, x⟩]

theorem kids_ptr {k : Kind} (x : Node (.ptr k)) : x.opt = x.kids := by cases x <;> rfl
theorem kids_slice {k : Kind} (x : Node (.slice k)) : x.elems = x.kids := by cases x <;> rfl
theorem kids_items {k : Kind} (x : Node (.items k)) : x.elems = x.kids := by cases x <;> rfl
theorem kids_parameterType (x : Node .parameterType) : x.val = x.kids := by cases x; rfl
theorem kids_expr (x : Node .expr) : x.val = x.kids := by cases x; rfl
theorem kids_bin {l : Level} (x : Node (.bin l)) : x.val = x.kids := by cases x; rfl
theorem kids_unary (x : Node .unary) : x.val = x.kids := by cases x; rfl
theorem kids_postfix (x : Node .postfixE) : x.val = x.kids := by cases x; rfl
theorem kids_primary (x : Node .primary) : x.val = x.kids := by cases x; rfl
theorem kids_operand {l : Level} (x : Node l.operand) : x.val = x.kids := by
  cases l
  case multiplicative => exact kids_unary x
  all_goals exact kids_bin x

/-- The kinds of structs. -/
def _root_.Verif.Etx.Kind.isStruct : Kind → Bool
  | .ptr _ | .slice _ | .items _ => false
  | _ => true

/-- Structs, and pointers to and slices of structs. -/
def _root_.Verif.Etx.Kind.simple : Kind → Bool
  | .ptr k | .slice k | .items k => k.isStruct
  | _ => true

theorem operand_simple (l : Level) : l.operand.simple = true := by cases l <;> rfl

theorem isStruct_simple {k : Kind} (hk : k.isStruct = true) : k.simple = true := by
  cases k <;> first | rfl | cases hk

theorem kids_struct {k : Kind} (hk : k.isStruct = true) (x : Node k) : x.kids = [some ⟨k, x⟩] := by
  cases x <;> first | rfl | cases hk

/-- At most one alternative of a `RootItem`, `MapKey` or `Expr` is set, and no slice element is nil. -/
def plain : {k : Kind} → Node k → Bool
  | _, .rootItem _ _ x1 x2 x3 x4 x5 x6 =>
    decide ([x1.isRef, x2.isRef, x3.isRef, x4.isRef, x5.isRef, x6.isRef].count true ≤ 1)
  | _, .mapKey _ x1 x2 => !(x1.isRef && x2.isRef)
  | _, .expr _ x1 x2 x3 => decide ([x1.isRef, x2.isRef, x3.isRef].count true ≤ 1)
  | _, .cons x _ => x.isRef
  | _, _ => true

end Node

/-- The nodes `L` can be walked with this fuel, and the nodes visited are `S` in some order. -/
def Vis (n : Nat) (p : Option Nat) (L : List (Option AnyNode)) (S : List (Option Nat × AnyNode)) : Prop :=
  ∃ l, L.mapM (walk n p) = some l ∧ l.flatten.Perm S

namespace Vis

theorem nil {n : Nat} {p : Option Nat} : Vis n p [] [] := ⟨[], rfl, List.Perm.refl _⟩

theorem append {n : Nat} {p : Option Nat} {L L' : List (Option AnyNode)} {S S' : List (Option Nat × AnyNode)}
    (h : Vis n p L S) (h' : Vis n p L' S') : Vis n p (L ++ L') (S ++ S') := by
  obtain ⟨l, h1, h2⟩ := h
  obtain ⟨l', h1', h2'⟩ := h'
  refine ⟨l ++ l', ?_, ?_⟩
  · simp [List.mapM_append, h1, h1']
  · simpa using h2.append h2'

theorem perm {n : Nat} {p : Option Nat} {L : List (Option AnyNode)} {S S' : List (Option Nat × AnyNode)}
    (h : Vis n p L S) (h' : S.Perm S') : Vis n p L S' := by
  obtain ⟨l, h1, h2⟩ := h
  exact ⟨l, h1, h2.trans h'⟩

theorem of_eq {n : Nat} {p : Option Nat} {L L' : List (Option AnyNode)} {S : List (Option Nat × AnyNode)}
    (h : Vis n p L S) (h' : L = L') : Vis n p L' S := h' ▸ h

theorem struct {n : Nat} {p : Option Nat} {x : AnyNode} {S : List (Option Nat × AnyNode)}
    (h : Vis n (some x.addr) x.2.children S) : Vis (n + 1) p [some x] ((p, x) :: S) := by
  obtain ⟨l, h1, h2⟩ := h
  refine ⟨[(p, x) :: l.flatten], ?_, ?_⟩
  · simp [walk, h1]
  · simpa using h2

end Vis

open Node in
theorem Node.vis {k : Kind} (hk : k.simple = true) (x : Node k) (h : x.everywhere (fun y => y.plain) = true) (n : Nat) (hn : x.size ≤ n)
    (p : Option Nat) : Vis n p x.kids (x.storedBy false p) := by
  induction x generalizing n p
  case nil => exact Vis.nil
  case nilSlice => exact Vis.nil
  case empty => exact Vis.nil
  case ref x ih =>
    simp only [Node.size, Node.everywhere, Bool.and_eq_true] at hn h
    have h1 := ih (isStruct_simple hk) h.2 n (by omega) p
    rw [kids_struct hk] at h1
    exact h1
  case mkSlice a xs ih =>
    simp only [Node.size, Node.everywhere, Bool.and_eq_true] at hn h
    have h1 := ih hk h.2 n (by omega) p
    rw [← kids_items] at h1
    exact h1
  case cons x xs ihx ihxs =>
    simp only [Node.size, Node.everywhere, Bool.and_eq_true] at hn h
    have h1 := ihx hk h.1.2 n (by omega) p
    have h2 := ihxs hk h.2 n (by omega) p
    rw [← kids_items] at h2
    cases x with
    | nil => simp [plain, isRef] at h
    | ref x => exact h1.append h2
  all_goals
    obtain ⟨n, rfl⟩ : ∃ n', n = n' + 1 := ⟨n - 1, by simp only [Node.size] at hn; omega⟩
    simp only [Node.size, Node.everywhere, Bool.and_eq_true] at hn h
    refine Vis.struct ?_
    simp only [children, AnyNode.addr, Node.info, Node.kids_ptr, Node.kids_slice, kids_parameterType, kids_expr, kids_bin, kids_postfix,
      kids_primary, kids_operand]
  case rootItem x1 x2 x3 x4 x5 x6 i1 i2 i3 i4 i5 i6 =>
    obtain ⟨⟨⟨⟨⟨⟨h0, h1⟩, h2⟩, h3⟩, h4⟩, h5⟩, h6⟩ := h
    refine Vis.of_eq ((((((i1 rfl h1 n (by omega) _).append (i2 rfl h2 n (by omega) _)).append (i3 rfl h3 n (by omega) _)).append
      (i4 rfl h4 n (by omega) _)).append (i5 rfl h5 n (by omega) _)).append (i6 rfl h6 n (by omega) _)) ?_
    clear i1 i2 i3 i4 i5 i6 h1 h2 h3 h4 h5 h6 hn
    cases x1 <;> cases x2 <;> cases x3 <;> cases x4 <;> cases x5 <;> cases x6 <;>
      simp [plain, isRef] at h0 <;> simp [kids, isRef]
  case mapKey x1 x2 i1 i2 =>
    obtain ⟨⟨h0, h1⟩, h2⟩ := h
    refine Vis.of_eq ((i1 rfl h1 n (by omega) _).append (i2 rfl h2 n (by omega) _)) ?_
    clear i1 i2 h1 h2 hn
    cases x1 <;> cases x2 <;> simp [plain, isRef] at h0 <;> simp [kids, isRef]
  case expr x1 x2 x3 i1 i2 i3 =>
    obtain ⟨⟨⟨h0, h1⟩, h2⟩, h3⟩ := h
    refine Vis.of_eq (((i1 rfl h1 n (by omega) _).append (i2 rfl h2 n (by omega) _)).append (i3 rfl h3 n (by omega) _)) ?_
    clear i1 i2 i3 h1 h2 h3 hn
    cases x1 <;> cases x2 <;> cases x3 <;> simp [plain, isRef] at h0 <;> simp [kids, isRef]
  case postfixE x1 x2 x3 i1 i2 i3 =>
    obtain ⟨⟨⟨h0, h1⟩, h2⟩, h3⟩ := h
    simpa using (i1 rfl h1 n (by omega) _).append (i2 rfl h2 n (by omega) _)
  case blockItem x1 x2 x3 i1 i2 i3 =>
    obtain ⟨⟨⟨h0, h1⟩, h2⟩, h3⟩ := h
    refine (((i3 rfl h3 n (by omega) _).append (i1 rfl h1 n (by omega) _)).append (i2 rfl h2 n (by omega) _)).perm ?_
    rw [List.append_assoc]
    exact List.perm_append_comm
  case primary x1 x2 x3 x4 x5 i1 i2 i3 i4 i5 =>
    obtain ⟨⟨⟨⟨⟨h0, h1⟩, h2⟩, h3⟩, h4⟩, h5⟩ := h
    refine (((((i1 rfl h1 n (by omega) _).append (i3 rfl h3 n (by omega) _)).append (i4 rfl h4 n (by omega) _)).append
      (i5 rfl h5 n (by omega) _)).append (i2 rfl h2 n (by omega) _)).perm ?_
    classical
    rw [List.perm_iff_count]
    intro a
    simp only [List.count_append]
    omega
  all_goals repeat' with_reducible apply Vis.append
  all_goals first
    | with_reducible exact Vis.nil
    | ((with_reducible apply_assumption) <;> first | rfl | exact operand_simple _ | omega | simp only [h])


/-- An `ExprPostfix` has no `Post`. -/
def Node.noPost : {k : Kind} → Node k → Bool
  | _, .postfixE _ _ _ x3 => !x3.isRef
  | _, _ => true

theorem Node.storedBy_noPost {k : Kind} (x : Node k) (h : x.everywhere (fun y => y.noPost) = true) (p : Option Nat) :
    x.storedBy false p = x.stored p := by
  unfold Node.stored
  induction x generalizing p
  case postfixE x1 x2 x3 i1 i2 i3 =>
    simp only [Node.everywhere, Bool.and_eq_true] at h
    cases x3 with
    | nil => simp [Node.storedBy, i1 h.1.1.2, i2 h.1.2]
    | ref x => simp [noPost, isRef] at h
  all_goals
    simp only [Node.everywhere, Bool.and_eq_true] at h
    simp only [Node.storedBy]
    try simp only [*]

open Node in
theorem Node.elems_lt {c : AnyNode} {k : Kind} (y : Node k) (hy : some c ∈ y.elems) : c.2.size < y.size := by
  induction y
  case cons x xs ih1 ih2 =>
    simp only [elems, List.mem_cons] at hy
    simp only [size]
    rcases hy with hy | hy
    · cases x with
      | nil => simp [elem] at hy
      | ref x =>
        simp only [elem, Option.some.injEq] at hy
        subst hy
        simp only [size]
        omega
    · have := ih2 hy
      omega
  case mkSlice a xs ih =>
    have := ih hy
    simp only [size]
    omega
  all_goals simp [elems] at hy

open Node in
theorem AnyNode.child_lt (x : AnyNode) (c : AnyNode) (hc : some c ∈ x.2.children) : c.2.size < x.2.size := by
  have hopt : ∀ {k : Kind} (y : Node (.ptr k)), some c ∈ y.opt → c.2.size < y.size := by
    intro k y hy
    cases y with
    | nil => simp [opt] at hy
    | ref y =>
      simp only [opt, List.mem_singleton, Option.some.injEq] at hy
      subst hy
      simp only [size]
      omega
  have helem : ∀ {k : Kind} (y : Node k), some c ∈ y.elems → c.2.size < y.size := fun y hy => y.elems_lt hy
  have hval : ∀ {k : Kind} (y : Node k), some c ∈ y.val → c.2.size ≤ y.size := by
    intro k y hy
    simp only [val, List.mem_singleton, Option.some.injEq] at hy
    subst hy
    exact Nat.le_refl _
  obtain ⟨k, x⟩ := x
  cases x <;> simp only [children] at hc <;> simp only [size]
  all_goals (try split_ifs at hc) <;> (try simp only [List.mem_append, List.not_mem_nil] at hc) <;> grind

/-- More fuel than the size of the node makes no difference. -/
theorem walk_fuel (n m : Nat) (p : Option Nat) (x : AnyNode) (hn : x.2.size ≤ n) (hm : x.2.size ≤ m) :
    walk n p (some x) = walk m p (some x) := by
  have hpos : ∀ x : AnyNode, 0 < x.2.size := by
    intro ⟨k, x⟩
    cases x <;> simp only [Node.size] <;> omega
  induction n generalizing m p x with
  | zero => have := hpos x; omega
  | succ n ih =>
    cases m with
    | zero => have := hpos x; omega
    | succ m =>
      have : x.2.children.mapM (walk n (some x.addr)) = x.2.children.mapM (walk m (some x.addr)) := by
        have : ∀ L : List (Option AnyNode), (∀ c, some c ∈ L → c.2.size < x.2.size) →
            L.mapM (walk n (some x.addr)) = L.mapM (walk m (some x.addr)) := by
          intro L hL
          induction L with
          | nil => rfl
          | cons c L ihL =>
            rw [List.mapM_cons, List.mapM_cons, ihL (fun c hc => hL c (List.mem_cons_of_mem _ hc))]
            cases c with
            | none => cases n <;> cases m <;> rfl
            | some c =>
              have := hL c List.mem_cons_self
              rw [ih m _ c (by omega) (by omega)]
        exact this _ (fun c hc => AnyNode.child_lt x c hc)
      simp only [walk, this]

end Verif.Etx
