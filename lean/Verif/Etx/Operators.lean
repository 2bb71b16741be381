import Verif.Etx.Local
import Verif.Etx.Canon

/-!
# Operator trees

What the ten binary expression structs mean: a tree of operators over operands.
-/

namespace Verif.Etx

/-- A tree of binary operators. -/
inductive OpTree (α : Type) where
  | leaf (a : α)
  | node (l : OpTree α) (op : Str) (r : OpTree α)

/-- The rows of the table "Operators precedence" (`README.md:791-805`) with binary operators, from the bottom to the top:
operators that come later bind tighter. -/
def precedence : List (List Str) := [[c!"||"], [c!"&&"], [c!"|"], [c!"^"], [c!"&"], [c!"==", c!"!="],
  [c!"<", c!"<=", c!">", c!">="], [c!"<<", c!">>"], [c!"+", c!"-"], [c!"*", c!"/", c!"%"]]

/-- The row of an operator; ten if it is not in the table. -/
def prec (op : Str) : Nat := precedence.findIdx (·.contains op)

namespace OpTree

variable {α β : Type}

/-- The operators. -/
def ops : OpTree α → List Str
  | leaf _ => []
  | node l op r => l.ops ++ op :: r.ops

/-- The operands. -/
def leaves : OpTree α → List α
  | leaf a => [a]
  | node l _ r => l.leaves ++ r.leaves

/-- Every operator binds looser than those in its left operand, and not tighter than those in its right operand: a chain of
operators of one row is grouped from the right. -/
def Grouped : OpTree α → Prop
  | leaf _ => True
  | node l op r => op ∈ precedence.flatten ∧ (∀ w ∈ l.ops, prec op < prec w) ∧ (∀ w ∈ r.ops, prec op ≤ prec w) ∧
      l.Grouped ∧ r.Grouped

/-- The same from the left, as documented. -/
def GroupedLeft : OpTree α → Prop
  | leaf _ => True
  | node l op r => op ∈ precedence.flatten ∧ (∀ w ∈ l.ops, prec op ≤ prec w) ∧ (∀ w ∈ r.ops, prec op < prec w) ∧
      l.GroupedLeft ∧ r.GroupedLeft

/-- The operands changed. -/
def map (f : α → β) : OpTree α → OpTree β
  | leaf a => leaf (f a)
  | node l op r => node (l.map f) op (r.map f)

theorem leaves_length (t : OpTree α) : t.leaves.length = t.ops.length + 1 := by
  induction t with
  | leaf a => rfl
  | node l op r ihl ihr => simp only [leaves, ops, List.length_append, List.length_cons, ihl, ihr]; omega

theorem ops_map (f : α → β) (t : OpTree α) : (t.map f).ops = t.ops := by
  induction t with
  | leaf a => rfl
  | node l op r ihl ihr => simp only [map, ops, ihl, ihr]

theorem leaves_map (f : α → β) (t : OpTree α) : (t.map f).leaves = t.leaves.map f := by
  induction t with
  | leaf a => rfl
  | node l op r ihl ihr => simp only [map, leaves, ihl, ihr, List.map_append]

theorem split_unique {A B C D : List Str} {w v : Str} (h : A ++ w :: B = C ++ v :: D) (hA : ∀ z ∈ A, prec w < prec z)
    (hB : ∀ z ∈ B, prec w ≤ prec z) (hC : ∀ z ∈ C, prec v < prec z) (hD : ∀ z ∈ D, prec v ≤ prec z) :
    A = C ∧ w = v ∧ B = D := by
  rcases List.append_eq_append_iff.mp h with ⟨E, h1, h2⟩ | ⟨E, h1, h2⟩
  · cases E with
    | nil =>
      simp only [List.nil_append, List.cons.injEq] at h2
      exact ⟨by simpa using h1.symm, h2.1, h2.2⟩
    | cons e E =>
      simp only [List.cons_append, List.cons.injEq] at h2
      have := hC w (by simp [h1, h2.1])
      have := hB v (by simp [h2.2])
      omega
  · cases E with
    | nil =>
      simp only [List.nil_append, List.cons.injEq] at h2
      exact ⟨by simpa using h1, h2.1.symm, h2.2.symm⟩
    | cons e E =>
      simp only [List.cons_append, List.cons.injEq] at h2
      have := hA v (by simp [h1, h2.1])
      have := hD w (by simp [h2.2])
      omega

/-- There is one grouping of a sequence of operands and operators. -/
theorem Grouped.unique {a b : OpTree α} (ha : a.Grouped) (hb : b.Grouped) (ho : a.ops = b.ops) (hl : a.leaves = b.leaves) :
    a = b := by
  induction a generalizing b with
  | leaf x =>
    cases b with
    | leaf y => simpa [leaves] using hl
    | node l op r => simp [ops] at ho
  | node l op r ihl ihr =>
    cases b with
    | leaf y => simp [ops] at ho
    | node l' op' r' =>
      obtain ⟨-, h1, h2, h3, h4⟩ := ha
      obtain ⟨-, h1', h2', h3', h4'⟩ := hb
      obtain ⟨e1, e2, e3⟩ := split_unique ho h1 h2 h1' h2'
      obtain ⟨f1, f2⟩ := List.append_inj hl (by rw [leaves_length, leaves_length, e1])
      rw [ihl h3 h3' e1 f1, ihr h4 h4' e3 f2, e2]

end OpTree

/-! ## The structs -/

namespace Node

/-- The operators and operands of a binary expression; the operands are unary expressions. -/
def opTree : {k : Kind} → Node k → OpTree AnyNode
  | _, .bin _ _ x op y => if y.isRef then .node x.opTree op y.opTree else x.opTree
  | _, .ref x => x.opTree
  | k, x => .leaf ⟨k, x⟩

/-- The operator belongs to the struct. -/
def opOk : {k : Kind} → Node k → Bool
  | _, .bin l _ _ op y => !y.isRef || (levelOps l).contains op
  | _, _ => true

end Node

/-- The row of the operators of a struct. -/
def Level.rank : Level → Nat
  | .logicalOr => 0
  | .logicalAnd => 1
  | .bitwiseOr => 2
  | .bitwiseXor => 3
  | .bitwiseAnd => 4
  | .equality => 5
  | .relational => 6
  | .shift => 7
  | .additive => 8
  | .multiplicative => 9

/-- The lowest row of the operators in a struct. -/
def Kind.rank : Kind → Nat
  | .bin l => l.rank
  | .ptr k => k.rank
  | _ => 10

theorem rank_operand (l : Level) : l.operand.rank = l.rank + 1 := by cases l <;> rfl

theorem prec_level {l : Level} {op : Str} (h : op ∈ levelOps l) : prec op = l.rank ∧ op ∈ precedence.flatten := by
  have : ∀ l, (levelOps l).all (fun op => decide (prec op = l.rank) && precedence.flatten.contains op) = true := by
    intro l; cases l <;> decide +kernel
  have := List.all_eq_true.mp (this l) op h
  simpa using this

theorem level_prec {op : Str} (h : op ∈ precedence.flatten) : ∃ l : Level, l.rank = prec op ∧ op ∈ levelOps l := by
  have : precedence.flatten.all (fun op => [Level.logicalOr, .logicalAnd, .bitwiseOr, .bitwiseXor, .bitwiseAnd, .equality,
      .relational, .shift, .additive, .multiplicative].any fun l => decide (l.rank = prec op) && (levelOps l).contains op) = true := by
    decide +kernel
  have := List.all_eq_true.mp this op h
  simp only [List.any_eq_true, Bool.and_eq_true, decide_eq_true_eq, List.contains_iff_mem] at this
  obtain ⟨l, -, h⟩ := this
  exact ⟨l, h⟩

/-- If all operators belong to their structs, the tree is grouped by precedence. -/
theorem Node.opTree_grouped {k : Kind} (x : Node k) (h : x.everywhere Node.opOk = true) :
    x.opTree.Grouped ∧ ∀ w ∈ x.opTree.ops, k.rank ≤ prec w := by
  induction x with
  | bin l m x op y ihx ihy =>
    simp only [Node.everywhere, Bool.and_eq_true] at h
    obtain ⟨⟨h1, h2⟩, h3⟩ := h
    have hx := ihx h2
    rw [rank_operand] at hx
    cases y with
    | nil =>
      have : (Node.bin l m x op .nil).opTree = x.opTree := by simp [Node.opTree, Node.isRef]
      rw [this]
      exact ⟨hx.1, fun w hw => Nat.le_of_succ_le (hx.2 w hw)⟩
    | ref y =>
      have hop : op ∈ levelOps l := by simpa [Node.opOk, Node.isRef] using h1
      have ⟨hp, hm⟩ := prec_level hop
      have hy := ihy h3
      have hy' : y.opTree.Grouped ∧ ∀ w ∈ y.opTree.ops, l.rank ≤ prec w := by
        rw [Node.opTree] at hy
        exact hy
      rw [Node.opTree, Node.isRef, if_pos rfl, Node.opTree]
      refine ⟨⟨hm, fun w hw => ?_, fun w hw => ?_, hx.1, hy'.1⟩, fun w hw => ?_⟩
      · have := hx.2 w hw; omega
      · have := hy'.2 w hw; omega
      · simp only [OpTree.ops, List.mem_append, List.mem_cons] at hw
        show l.rank ≤ _
        rcases hw with hw | rfl | hw
        · have := hx.2 w hw; omega
        · omega
        · exact hy'.2 w hw
  | ref x ih =>
    simp only [Node.everywhere, Bool.and_eq_true] at h
    rw [Node.opTree]
    exact ih h.2
  | _ => simp [Node.opTree, OpTree.Grouped, OpTree.ops]

theorem Node.opTree_bare {k : Kind} (x : Node k) : x.bare.opTree = x.opTree.map fun y => ⟨y.1, y.2.bare⟩ := by
  have hr : ∀ {k : Kind} (y : Node (.ptr k)), y.bare.isRef = y.isRef := fun y => by cases y <;> rfl
  induction x with
  | bin l m x op y ihx ihy =>
    have : (Node.bin l m x op y).bare = .bin l noPos x.bare op y.bare := rfl
    rw [this, Node.opTree, Node.opTree, hr, ihx, ihy]
    split <;> rfl
  | ref x ih =>
    rw [bare_ref, Node.opTree, Node.opTree, ih]
  | _ => rfl

/-- Everything stored in a value has the properties that hold everywhere. -/
theorem Node.everywhere_stored {P : {k : Kind} → Node k → Bool} {k : Kind} (x : Node k) (h : x.everywhere P = true) (b : Bool)
    (p : Option Nat) : ∀ e ∈ x.storedBy b p, e.2.2.everywhere P = true := by
  induction x generalizing p with
  | nil => simp [storedBy]
  | nilSlice => simp [storedBy]
  | empty => simp [storedBy]
  | ref _ h1 =>
    simp only [everywhere, Bool.and_eq_true] at h
    exact h1 h.2 p
  | mkSlice _ _ h1 =>
    simp only [everywhere, Bool.and_eq_true] at h
    exact h1 h.2 p
  | cons _ _ h1 h2 =>
    simp only [everywhere, Bool.and_eq_true] at h
    exact List.forall_mem_append.mpr ⟨h1 h.1.2 p, h2 h.2 p⟩
  | rootItem _ _ _ _ _ _ _ _ h1 h2 h3 h4 h5 h6 =>
    have k := h
    simp only [everywhere, Bool.and_eq_true] at k
    exact List.forall_mem_cons.mpr ⟨h, (List.forall_mem_append.mpr ⟨(List.forall_mem_append.mpr ⟨(List.forall_mem_append.mpr ⟨(List.forall_mem_append.mpr ⟨(List.forall_mem_append.mpr ⟨(h1 k.1.1.1.1.1.2 _), (h2 k.1.1.1.1.2 _)⟩), (h3 k.1.1.1.2 _)⟩), (h4 k.1.1.2 _)⟩), (h5 k.1.2 _)⟩), (h6 k.2 _)⟩)⟩
  | parameterType _ _ _ h1 h2 =>
    have k := h
    simp only [everywhere, Bool.and_eq_true] at k
    exact List.forall_mem_cons.mpr ⟨h, (List.forall_mem_append.mpr ⟨(h1 k.1.2 _), (h2 k.2 _)⟩)⟩
  | funcSignature _ _ _ h1 h2 =>
    have k := h
    simp only [everywhere, Bool.and_eq_true] at k
    exact List.forall_mem_cons.mpr ⟨h, (List.forall_mem_append.mpr ⟨(h1 k.1.2 _), (h2 k.2 _)⟩)⟩
  | ident _ _ => exact List.forall_mem_cons.mpr ⟨h, by simp⟩
  | comment _ _ _ => exact List.forall_mem_cons.mpr ⟨h, by simp⟩
  | attr _ _ _ h1 =>
    have k := h
    simp only [everywhere, Bool.and_eq_true] at k
    exact List.forall_mem_cons.mpr ⟨h, (h1 k.2 _)⟩
  | block _ _ _ _ h1 =>
    have k := h
    simp only [everywhere, Bool.and_eq_true] at k
    exact List.forall_mem_cons.mpr ⟨h, (h1 k.2 _)⟩
  | blockItem _ _ _ _ _ h1 h2 h3 =>
    have k := h
    simp only [everywhere, Bool.and_eq_true] at k
    exact List.forall_mem_cons.mpr ⟨h, (List.forall_mem_append.mpr ⟨(List.forall_mem_append.mpr ⟨(h1 k.1.1.2 _), (h2 k.1.2 _)⟩), (h3 k.2 _)⟩)⟩
  | decl _ _ _ _ _ h1 h2 =>
    have k := h
    simp only [everywhere, Bool.and_eq_true] at k
    exact List.forall_mem_cons.mpr ⟨h, (List.forall_mem_append.mpr ⟨(h1 k.1.2 _), (h2 k.2 _)⟩)⟩
  | lambda _ _ _ _ h1 h2 h3 =>
    have k := h
    simp only [everywhere, Bool.and_eq_true] at k
    exact List.forall_mem_cons.mpr ⟨h, (List.forall_mem_append.mpr ⟨(List.forall_mem_append.mpr ⟨(h1 k.1.1.2 _), (h2 k.1.2 _)⟩), (h3 k.2 _)⟩)⟩
  | lambdaParameter _ _ _ h1 =>
    have k := h
    simp only [everywhere, Bool.and_eq_true] at k
    exact List.forall_mem_cons.mpr ⟨h, (h1 k.2 _)⟩
  | func _ _ _ _ _ h1 h2 h3 =>
    have k := h
    simp only [everywhere, Bool.and_eq_true] at k
    exact List.forall_mem_cons.mpr ⟨h, (List.forall_mem_append.mpr ⟨(List.forall_mem_append.mpr ⟨(h1 k.1.1.2 _), (h2 k.1.2 _)⟩), (h3 k.2 _)⟩)⟩
  | funcParameter _ _ _ h1 =>
    have k := h
    simp only [everywhere, Bool.and_eq_true] at k
    exact List.forall_mem_cons.mpr ⟨h, (h1 k.2 _)⟩
  | funcStatement _ _ _ _ _ h1 h2 h3 =>
    have k := h
    simp only [everywhere, Bool.and_eq_true] at k
    exact List.forall_mem_cons.mpr ⟨h, (List.forall_mem_append.mpr ⟨(List.forall_mem_append.mpr ⟨(h1 k.1.1.2 _), (h2 k.1.2 _)⟩), (h3 k.2 _)⟩)⟩
  | funcDecl _ _ _ _ _ h1 h2 =>
    have k := h
    simp only [everywhere, Bool.and_eq_true] at k
    exact List.forall_mem_cons.mpr ⟨h, (List.forall_mem_append.mpr ⟨(h1 k.1.2 _), (h2 k.2 _)⟩)⟩
  | type _ _ _ _ h1 h2 =>
    have k := h
    simp only [everywhere, Bool.and_eq_true] at k
    exact List.forall_mem_cons.mpr ⟨h, (List.forall_mem_append.mpr ⟨(h1 k.1.2 _), (h2 k.2 _)⟩)⟩
  | typeEnum _ _ h1 =>
    have k := h
    simp only [everywhere, Bool.and_eq_true] at k
    exact List.forall_mem_cons.mpr ⟨h, (h1 k.2 _)⟩
  | typeEnumItem _ _ _ _ _ h1 h2 =>
    have k := h
    simp only [everywhere, Bool.and_eq_true] at k
    exact List.forall_mem_cons.mpr ⟨h, (List.forall_mem_append.mpr ⟨(h1 k.1.2 _), (h2 k.2 _)⟩)⟩
  | typeObject _ _ h1 =>
    have k := h
    simp only [everywhere, Bool.and_eq_true] at k
    exact List.forall_mem_cons.mpr ⟨h, (h1 k.2 _)⟩
  | typeObjectItem _ _ _ _ _ h1 h2 =>
    have k := h
    simp only [everywhere, Bool.and_eq_true] at k
    exact List.forall_mem_cons.mpr ⟨h, (List.forall_mem_append.mpr ⟨(h1 k.1.2 _), (h2 k.2 _)⟩)⟩
  | value _ _ _ _ _ _ _ _ h1 h2 h3 h4 h5 h6 =>
    have k := h
    simp only [everywhere, Bool.and_eq_true] at k
    exact List.forall_mem_cons.mpr ⟨h, (List.forall_mem_append.mpr ⟨(List.forall_mem_append.mpr ⟨(List.forall_mem_append.mpr ⟨(List.forall_mem_append.mpr ⟨(List.forall_mem_append.mpr ⟨(h1 k.1.1.1.1.1.2 _), (h2 k.1.1.1.1.2 _)⟩), (h3 k.1.1.1.2 _)⟩), (h4 k.1.1.2 _)⟩), (h5 k.1.2 _)⟩), (h6 k.2 _)⟩)⟩
  | valueBool _ _ => exact List.forall_mem_cons.mpr ⟨h, by simp⟩
  | valueNumber _ _ _ => exact List.forall_mem_cons.mpr ⟨h, by simp⟩
  | heredoc _ _ _ _ h1 =>
    have k := h
    simp only [everywhere, Bool.and_eq_true] at k
    exact List.forall_mem_cons.mpr ⟨h, (h1 k.2 _)⟩
  | heredocFragment _ _ _ _ h1 h2 =>
    have k := h
    simp only [everywhere, Bool.and_eq_true] at k
    exact List.forall_mem_cons.mpr ⟨h, (List.forall_mem_append.mpr ⟨(h1 k.1.2 _), (h2 k.2 _)⟩)⟩
  | valueString _ _ h1 =>
    have k := h
    simp only [everywhere, Bool.and_eq_true] at k
    exact List.forall_mem_cons.mpr ⟨h, (h1 k.2 _)⟩
  | stringFragment _ _ _ _ _ _ h1 h2 =>
    have k := h
    simp only [everywhere, Bool.and_eq_true] at k
    exact List.forall_mem_cons.mpr ⟨h, (List.forall_mem_append.mpr ⟨(h1 k.1.2 _), (h2 k.2 _)⟩)⟩
  | valueList _ _ h1 =>
    have k := h
    simp only [everywhere, Bool.and_eq_true] at k
    exact List.forall_mem_cons.mpr ⟨h, (h1 k.2 _)⟩
  | listItem _ _ _ _ h1 h2 =>
    have k := h
    simp only [everywhere, Bool.and_eq_true] at k
    exact List.forall_mem_cons.mpr ⟨h, (List.forall_mem_append.mpr ⟨(h1 k.1.2 _), (h2 k.2 _)⟩)⟩
  | valueMap _ _ h1 =>
    have k := h
    simp only [everywhere, Bool.and_eq_true] at k
    exact List.forall_mem_cons.mpr ⟨h, (h1 k.2 _)⟩
  | mapItem _ _ _ _ _ h1 h2 h3 =>
    have k := h
    simp only [everywhere, Bool.and_eq_true] at k
    exact List.forall_mem_cons.mpr ⟨h, (List.forall_mem_append.mpr ⟨(List.forall_mem_append.mpr ⟨(h1 k.1.1.2 _), (h2 k.1.2 _)⟩), (h3 k.2 _)⟩)⟩
  | mapKey _ _ _ h1 h2 =>
    have k := h
    simp only [everywhere, Bool.and_eq_true] at k
    exact List.forall_mem_cons.mpr ⟨h, (List.forall_mem_append.mpr ⟨(h1 k.1.2 _), (h2 k.2 _)⟩)⟩
  | expr _ _ _ _ h1 h2 h3 =>
    have k := h
    simp only [everywhere, Bool.and_eq_true] at k
    exact List.forall_mem_cons.mpr ⟨h, (List.forall_mem_append.mpr ⟨(List.forall_mem_append.mpr ⟨(h1 k.1.1.2 _), (h2 k.1.2 _)⟩), (h3 k.2 _)⟩)⟩
  | exprIf _ _ _ _ h1 h2 h3 =>
    have k := h
    simp only [everywhere, Bool.and_eq_true] at k
    exact List.forall_mem_cons.mpr ⟨h, (List.forall_mem_append.mpr ⟨(List.forall_mem_append.mpr ⟨(h1 k.1.1.2 _), (h2 k.1.2 _)⟩), (h3 k.2 _)⟩)⟩
  | exprSwitch _ _ _ h1 h2 =>
    have k := h
    simp only [everywhere, Bool.and_eq_true] at k
    exact List.forall_mem_cons.mpr ⟨h, (List.forall_mem_append.mpr ⟨(h1 k.1.2 _), (h2 k.2 _)⟩)⟩
  | exprCase _ _ _ _ h1 h2 =>
    have k := h
    simp only [everywhere, Bool.and_eq_true] at k
    exact List.forall_mem_cons.mpr ⟨h, (List.forall_mem_append.mpr ⟨(h1 k.1.2 _), (h2 k.2 _)⟩)⟩
  | conditional _ _ _ _ _ h1 h2 h3 =>
    have k := h
    simp only [everywhere, Bool.and_eq_true] at k
    exact List.forall_mem_cons.mpr ⟨h, (List.forall_mem_append.mpr ⟨(List.forall_mem_append.mpr ⟨(h1 k.1.1.2 _), (h2 k.1.2 _)⟩), (h3 k.2 _)⟩)⟩
  | bin _ _ _ _ _ h1 h2 =>
    have k := h
    simp only [everywhere, Bool.and_eq_true] at k
    exact List.forall_mem_cons.mpr ⟨h, (List.forall_mem_append.mpr ⟨(h1 k.1.2 _), (h2 k.2 _)⟩)⟩
  | unary _ _ _ h1 =>
    have k := h
    simp only [everywhere, Bool.and_eq_true] at k
    exact List.forall_mem_cons.mpr ⟨h, (h1 k.2 _)⟩
  | postfixE _ _ _ _ h1 h2 h3 =>
    have k := h
    simp only [everywhere, Bool.and_eq_true] at k
    exact List.forall_mem_cons.mpr ⟨h, (List.forall_mem_append.mpr ⟨(List.forall_mem_append.mpr ⟨(h1 k.1.1.2 _), (h2 k.1.2 _)⟩), (fun e he => by
      split at he
      · exact h3 k.2 _ e he
      · simp at he)⟩)⟩
  | primary _ _ _ _ _ _ h1 h2 h3 h4 h5 =>
    have k := h
    simp only [everywhere, Bool.and_eq_true] at k
    exact List.forall_mem_cons.mpr ⟨h, (List.forall_mem_append.mpr ⟨(List.forall_mem_append.mpr ⟨(List.forall_mem_append.mpr ⟨(List.forall_mem_append.mpr ⟨(h1 k.1.1.1.1.2 _), (h2 k.1.1.1.2 _)⟩), (h3 k.1.1.2 _)⟩), (h4 k.1.2 _)⟩), (h5 k.2 _)⟩)⟩
  | invocation _ _ h1 =>
    have k := h
    simp only [everywhere, Bool.and_eq_true] at k
    exact List.forall_mem_cons.mpr ⟨h, (h1 k.2 _)⟩

variable [FloatValue]

/-! ## Sequences of operands and operators -/

/-- Operands, and operators in between, as tokens. -/
def seqToks (u : Node .unary) (l : List (Str × Node .unary)) : List Token :=
  u.toks ++ l.flatMap fun p => tk (symOf p.1) p.1 :: p.2.toks

/-- A node with the operands and operators. -/
def Spells {k : Kind} (x : Node k) (u : Node .unary) (l : List (Str × Node .unary)) : Prop :=
  x.canon = true ∧ x.set = true ∧ x.toks = seqToks u l ∧ x.opTree.ops = l.map Prod.fst ∧
    x.opTree.leaves = ⟨.unary, u⟩ :: l.map fun p => ⟨.unary, p.2⟩

omit [FloatValue] in
theorem _root_.List.exists_first {α : Type} {q : α → Prop} {l : List α} (h : ∃ x ∈ l, q x) :
    ∃ a x b, l = a ++ x :: b ∧ q x ∧ ∀ y ∈ a, ¬ q y := by
  classical
  induction l with
  | nil => simp at h
  | cons y l ih =>
    by_cases hy : q y
    · exact ⟨[], y, l, rfl, hy, by simp⟩
    · obtain ⟨a, x, b, e, hx, ha⟩ := ih (by simpa [hy] using h)
      exact ⟨y :: a, x, b, by simp [e], hx, by simpa [hy] using ha⟩

theorem canon_bin {l : Level} {m : Meta} {x : Node l.operand} {op : Str} {y : Node (.ptr (.bin l))} :
    (Node.bin l m x op y).canon =
      ((decide (op ≠ []) == y.isRef) && (decide (op = []) || (levelOps l).contains op) && x.canon && y.canon) := rfl

theorem canon_ref {k : Kind} {x : Node k} : (Node.ref x).canon = (x.set && x.canon) := by
  show ((x.set && true) && _) = _
  rw [Bool.and_true]
  rfl

theorem canon_nil {k : Kind} : (Node.nil : Node (.ptr k)).canon = true := rfl

theorem spells_level (l : Level)
    (ih : ∀ (u : Node .unary) (r : List (Str × Node .unary)), u.canon = true → (∀ p ∈ r, p.2.canon = true ∧
      p.1 ∈ precedence.flatten ∧ l.rank < prec p.1) → ∃ x : Node l.operand, Spells x u r)
    (u : Node .unary) (r : List (Str × Node .unary)) (hu : u.canon = true) (hr : ∀ p ∈ r, p.2.canon = true ∧
      p.1 ∈ precedence.flatten ∧ l.rank ≤ prec p.1) : ∃ x : Node (.bin l), Spells x u r := by
  by_cases h : ∃ p ∈ r, prec p.1 = l.rank
  · obtain ⟨a, p, b, rfl, he, ha⟩ := List.exists_first h
    obtain ⟨x, h1, h2, h3, h4, h5⟩ := ih u a hu fun q hq => by
      have := hr q (by simp [hq])
      refine ⟨this.1, this.2.1, ?_⟩
      rcases Nat.lt_or_eq_of_le this.2.2 with h' | h'
      · exact h'
      · exact absurd h'.symm (ha q hq)
    have hp := hr p (by simp)
    obtain ⟨y, k1, k2, k3, k4, k5⟩ := spells_level l ih p.2 b hp.1 fun q hq => hr q (by simp [hq])
    obtain ⟨l', hl', hop⟩ := level_prec hp.2.1
    have : l' = l := by
      rw [he] at hl'
      revert hl'
      cases l <;> cases l' <;> decide
    subst this
    have hne : p.1 ≠ [] := by
      intro h
      rw [h] at hop
      revert hop
      cases l' <;> decide
    refine ⟨.bin l' noPos x p.1 (.ref y), ?_, rfl, ?_, ?_, ?_⟩
    · rw [canon_bin, canon_ref]
      simp [Node.isRef, h1, k1, k2, hop, hne]
    · simp [Node.toks, Node.isRef, h3, k3, seqToks]
    · simp [Node.opTree, Node.isRef, OpTree.ops, h4, k4]
    · simp [Node.opTree, Node.isRef, OpTree.leaves, h5, k5]
  · obtain ⟨x, h1, h2, h3, h4, h5⟩ := ih u r hu fun p hp => by
      have := hr p hp
      refine ⟨this.1, this.2.1, ?_⟩
      rcases Nat.lt_or_eq_of_le this.2.2 with h' | h'
      · exact h'
      · exact absurd ⟨p, hp, h'.symm⟩ h
    refine ⟨.bin l noPos x [] .nil, ?_, rfl, ?_, ?_, ?_⟩
    · rw [canon_bin, canon_nil]
      simp [Node.isRef, h1]
    · simpa [Node.toks, Node.isRef] using h3
    · simpa [Node.opTree, Node.isRef] using h4
    · simpa [Node.opTree, Node.isRef] using h5
termination_by r.length

/-- Every sequence of operands and operators can be written as an expression. -/
theorem spells (u : Node .unary) (r : List (Str × Node .unary)) (hu : u.canon = true) (hr : ∀ p ∈ r, p.2.canon = true ∧
    p.1 ∈ precedence.flatten) : ∃ x : Node (.bin .logicalOr), Spells x u r := by
  have h10 : ∀ (u : Node .unary) (r : List (Str × Node .unary)), u.canon = true → (∀ p ∈ r, p.2.canon = true ∧
      p.1 ∈ precedence.flatten ∧ Level.multiplicative.rank < prec p.1) → ∃ x : Node Level.multiplicative.operand, Spells x u r := by
    intro u r hu hr
    cases r with
    | nil => 
      refine ⟨u, hu, ?_, ?_, ?_, ?_⟩ <;> cases u <;> first | rfl | exact (List.append_nil _).symm
    | cons p r =>
      obtain ⟨-, h1, h2⟩ := hr p (by simp)
      obtain ⟨l, h3, -⟩ := level_prec h1
      rw [← h3] at h2
      exfalso
      revert h2
      cases l <;> decide
  have step : ∀ l l' : Level, l.rank = l'.rank + 1 → (∀ (u : Node .unary) (r : List (Str × Node .unary)), u.canon = true →
      (∀ p ∈ r, p.2.canon = true ∧ p.1 ∈ precedence.flatten ∧ l.rank < prec p.1) → ∃ x : Node l.operand, Spells x u r) →
      ∀ (u : Node .unary) (r : List (Str × Node .unary)), u.canon = true →
      (∀ p ∈ r, p.2.canon = true ∧ p.1 ∈ precedence.flatten ∧ l'.rank < prec p.1) → ∃ x : Node l'.operand, Spells x u r := by
    intro l l' h ih u r hu hr
    have e : l'.operand = .bin l := by
      revert h
      cases l <;> cases l' <;> decide
    rw [e]
    exact spells_level l ih u r hu fun p hp => by
      have := hr p hp
      exact ⟨this.1, this.2.1, by omega⟩
  have h0 := step .logicalAnd .logicalOr rfl <| step .bitwiseOr .logicalAnd rfl <| step .bitwiseXor .bitwiseOr rfl <|
    step .bitwiseAnd .bitwiseXor rfl <| step .equality .bitwiseAnd rfl <| step .relational .equality rfl <|
    step .shift .relational rfl <| step .additive .shift rfl <| step .multiplicative .additive rfl h10
  exact spells_level .logicalOr h0 u r hu fun p hp => ⟨(hr p hp).1, (hr p hp).2, Nat.zero_le _⟩

end Verif.Etx
