import Verif.Etx.FormatsDoc

/-!
# The formatted text of every tidy tree is read as its tokens
-/

namespace Verif.Etx

variable [FloatText]

theorem fmts_nil {k : Kind} : Fmts (.ptr k) .nil := .inl rfl
theorem fmts_nilSlice {k : Kind} : Fmts (.slice k) .nilSlice := .inl rfl
theorem fmts_empty {k : Kind} : Fmts (.items k) .empty := ⟨[], rfl, by simp⟩

theorem fmts_ref {k : Kind} {x : Node k} (hs : (Node.ref x).shaped = true) (hx : Fmts k x) : Fmts (.ptr k) (.ref x) := by
  simp only [Node.shaped] at hs
  exact .inr ⟨x, rfl, hs, hx⟩

theorem fmts_mkSlice {k : Kind} {a : Nat} {xs : Node (.items k)} (hs : (Node.mkSlice a xs).shaped = true)
    (hx : Fmts (.items k) xs) : Fmts (.slice k) (.mkSlice a xs) := by
  obtain ⟨l, rfl, hl⟩ := hx
  refine .inr ⟨a, l, rfl, ?_, hl⟩
  rintro rfl
  simp [Node.shaped, Out.items, Node.len] at hs

theorem fmts_cons {k : Kind} {x : Node (.ptr k)} {xs : Node (.items k)} (hs : (Node.cons x xs).shaped = true)
    (hx : Fmts (.ptr k) x) (hxs : Fmts (.items k) xs) : Fmts (.items k) (.cons x xs) := by
  obtain ⟨l, rfl, hl⟩ := hxs
  rcases hx with rfl | ⟨y, rfl, hy⟩
  · simp [Node.shaped, isRef_nil] at hs
  · exact ⟨y :: l, rfl, by simpa using ⟨hy, hl⟩⟩

theorem fmts_of_neat [FloatValue] {k : Kind} (x : Node k) (hc : x.canon = true) (ht : x.neat = true) : Fmts k x := by
  induction x with
  | nil => exact fmts_nil
  | nilSlice => exact fmts_nilSlice
  | empty => exact fmts_empty
  | valueBool => exact fmts_valueBool
  | lambda => exact trivial
  | lambdaParameter => exact trivial
  | heredoc => exact trivial
  | heredocFragment => exact trivial
  | mapItem => exact trivial
  | mapKey => exact trivial
  | rootItem _ _ _ _ _ _ _ _ h1 h2 h3 h4 h5 h6 =>
    simp only [Node.canon, Node.everywhere, Bool.and_eq_true] at hc
    simp only [Node.neat, Node.everywhere, Bool.and_eq_true] at ht
    exact fmts_rootItem hc.1.1.1.1.1.1.1 hc.1.1.1.1.1.1.2 (h1 hc.1.1.1.1.1.2 ht.1.1.1.1.1.2) (h2 hc.1.1.1.1.2 ht.1.1.1.1.2) (h3 hc.1.1.1.2 ht.1.1.1.2) (h4 hc.1.1.2 ht.1.1.2) (h5 hc.1.2 ht.1.2) (h6 hc.2 ht.2)
  | parameterType _ _ _ h1 h2 =>
    simp only [Node.canon, Node.everywhere, Bool.and_eq_true] at hc
    simp only [Node.neat, Node.everywhere, Bool.and_eq_true] at ht
    exact fmts_parameterType (h1 hc.1.2 ht.1.2) (h2 hc.2 ht.2)
  | funcSignature _ _ _ h1 h2 =>
    simp only [Node.canon, Node.everywhere, Bool.and_eq_true] at hc
    simp only [Node.neat, Node.everywhere, Bool.and_eq_true] at ht
    exact fmts_funcSignature hc.1.1.1 (h1 hc.1.2 ht.1.2) (h2 hc.2 ht.2)
  | ident _ _ =>
    simp only [Node.canon, Node.everywhere, Bool.and_eq_true] at hc
    simp only [Node.neat, Node.everywhere] at ht
    exact fmts_ident hc.1 ht
  | comment _ _ _ =>
    simp only [Node.canon, Node.everywhere, Bool.and_eq_true] at hc
    simp only [Node.neat, Node.everywhere] at ht
    exact fmts_comment hc.1 ht
  | attr _ _ _ h1 =>
    simp only [Node.canon, Node.everywhere, Bool.and_eq_true] at hc
    simp only [Node.neat, Node.everywhere, Bool.and_eq_true] at ht
    exact fmts_attr ht.1
  | block _ _ _ _ h1 =>
    simp only [Node.canon, Node.everywhere, Bool.and_eq_true] at hc
    simp only [Node.neat, Node.everywhere, Bool.and_eq_true] at ht
    exact fmts_block ht.1 (h1 hc.2 ht.2)
  | blockItem _ _ _ _ _ h1 h2 h3 =>
    simp only [Node.canon, Node.everywhere, Bool.and_eq_true] at hc
    simp only [Node.neat, Node.everywhere, Bool.and_eq_true] at ht
    exact fmts_blockItem hc.1.1.1.1 (h1 hc.1.1.2 ht.1.1.2) (h2 hc.1.2 ht.1.2) (h3 hc.2 ht.2)
  | decl _ _ _ _ _ h1 h2 =>
    simp only [Node.canon, Node.everywhere, Bool.and_eq_true] at hc
    simp only [Node.neat, Node.everywhere, Bool.and_eq_true] at ht
    exact fmts_decl hc.1.1.2 ht.1.1 (h1 hc.1.2 ht.1.2) (h2 hc.2 ht.2)
  | func _ _ _ _ _ h1 h2 h3 =>
    simp only [Node.canon, Node.everywhere, Bool.and_eq_true] at hc
    simp only [Node.neat, Node.everywhere, Bool.and_eq_true] at ht
    exact fmts_func ht.1.1.1 (h1 hc.1.1.2 ht.1.1.2) (h2 hc.1.2 ht.1.2) (h3 hc.2 ht.2)
  | funcParameter _ _ _ h1 =>
    simp only [Node.canon, Node.everywhere, Bool.and_eq_true] at hc
    simp only [Node.neat, Node.everywhere, Bool.and_eq_true] at ht
    exact fmts_funcParameter ht.1 (h1 hc.2 ht.2)
  | funcStatement _ _ _ _ _ h1 h2 h3 =>
    simp only [Node.canon, Node.everywhere, Bool.and_eq_true] at hc
    simp only [Node.neat, Node.everywhere, Bool.and_eq_true] at ht
    exact fmts_funcStatement hc.1.1.1.1 hc.1.1.1.2 (h1 hc.1.1.2 ht.1.1.2) (h2 hc.1.2 ht.1.2) (h3 hc.2 ht.2)
  | funcDecl _ _ _ _ _ h1 h2 =>
    simp only [Node.canon, Node.everywhere, Bool.and_eq_true] at hc
    simp only [Node.neat, Node.everywhere, Bool.and_eq_true] at ht
    exact fmts_funcDecl hc.1.1.2 ht.1.1 (h1 hc.1.2 ht.1.2) (h2 hc.2 ht.2)
  | type _ _ _ _ h1 h2 =>
    simp only [Node.canon, Node.everywhere, Bool.and_eq_true] at hc
    simp only [Node.neat, Node.everywhere, Bool.and_eq_true] at ht
    exact fmts_type hc.1.1.1 ht.1.1 (h1 hc.1.2 ht.1.2) (h2 hc.2 ht.2)
  | typeEnum _ _ h1 =>
    simp only [Node.canon, Node.everywhere, Bool.and_eq_true] at hc
    simp only [Node.neat, Node.everywhere, Bool.and_eq_true] at ht
    exact fmts_typeEnum (h1 hc.2 ht.2)
  | typeEnumItem _ _ _ _ _ h1 h2 =>
    simp only [Node.canon, Node.everywhere, Bool.and_eq_true] at hc
    simp only [Node.neat, Node.everywhere, Bool.and_eq_true] at ht
    exact fmts_typeEnumItem hc.1.1.1 ht.1.1 (h2 hc.2 ht.2)
  | typeObject _ _ h1 =>
    simp only [Node.canon, Node.everywhere, Bool.and_eq_true] at hc
    simp only [Node.neat, Node.everywhere, Bool.and_eq_true] at ht
    exact fmts_typeObject (h1 hc.2 ht.2)
  | typeObjectItem _ _ _ _ _ h1 h2 =>
    simp only [Node.canon, Node.everywhere, Bool.and_eq_true] at hc
    simp only [Node.neat, Node.everywhere, Bool.and_eq_true] at ht
    exact fmts_typeObjectItem hc.1.1.1 ht.1.1 (h2 hc.2 ht.2)
  | value _ _ _ _ _ _ _ _ h1 h2 h3 h4 h5 h6 =>
    simp only [Node.canon, Node.everywhere, Bool.and_eq_true] at hc
    simp only [Node.neat, Node.everywhere, Bool.and_eq_true] at ht
    exact fmts_value hc.1.1.1.1.1.1.1 ht.1.1.1.1.1.1 (h1 hc.1.1.1.1.1.2 ht.1.1.1.1.1.2) (h2 hc.1.1.1.1.2 ht.1.1.1.1.2) (h3 hc.1.1.1.2 ht.1.1.1.2) (h5 hc.1.2 ht.1.2) (h6 hc.2 ht.2)
  | valueNumber _ _ _ =>
    simp only [Node.canon, Node.everywhere, Bool.and_eq_true] at hc
    simp only [Node.neat, Node.everywhere] at ht
    exact fmts_valueNumber ht
  | valueString _ _ h1 =>
    simp only [Node.canon, Node.everywhere, Bool.and_eq_true] at hc
    simp only [Node.neat, Node.everywhere, Bool.and_eq_true] at ht
    exact fmts_valueString ht.1 (h1 hc.2 ht.2)
  | stringFragment _ _ _ _ _ _ h1 h2 =>
    simp only [Node.canon, Node.everywhere, Bool.and_eq_true] at hc
    simp only [Node.neat, Node.everywhere, Bool.and_eq_true] at ht
    exact fmts_stringFragment hc.1.1.1 ht.1.1 (h1 hc.1.2 ht.1.2) (h2 hc.2 ht.2)
  | valueList _ _ h1 =>
    simp only [Node.canon, Node.everywhere, Bool.and_eq_true] at hc
    simp only [Node.neat, Node.everywhere, Bool.and_eq_true] at ht
    exact fmts_valueList (h1 hc.2 ht.2)
  | listItem _ _ _ _ h1 h2 =>
    simp only [Node.canon, Node.everywhere, Bool.and_eq_true] at hc
    simp only [Node.neat, Node.everywhere, Bool.and_eq_true] at ht
    exact fmts_listItem hc.1.1.1 hc.1.1.2 (h1 hc.1.2 ht.1.2) (h2 hc.2 ht.2)
  | valueMap _ _ h1 =>
    simp only [Node.canon, Node.everywhere, Bool.and_eq_true] at hc
    simp only [Node.neat, Node.everywhere, Bool.and_eq_true] at ht
    exact fmts_valueMap ht.1
  | expr _ _ _ _ h1 h2 h3 =>
    simp only [Node.canon, Node.everywhere, Bool.and_eq_true] at hc
    simp only [Node.neat, Node.everywhere, Bool.and_eq_true] at ht
    exact fmts_expr (h1 hc.1.1.2 ht.1.1.2) (h2 hc.1.2 ht.1.2) (h3 hc.2 ht.2)
  | exprIf _ _ _ _ h1 h2 h3 =>
    simp only [Node.canon, Node.everywhere, Bool.and_eq_true] at hc
    simp only [Node.neat, Node.everywhere, Bool.and_eq_true] at ht
    exact fmts_exprIf ht.1.1.1 (h1 hc.1.1.2 ht.1.1.2) (h2 hc.1.2 ht.1.2) (h3 hc.2 ht.2)
  | exprSwitch _ _ _ h1 h2 =>
    simp only [Node.canon, Node.everywhere, Bool.and_eq_true] at hc
    simp only [Node.neat, Node.everywhere, Bool.and_eq_true] at ht
    exact fmts_exprSwitch (h1 hc.1.2 ht.1.2) (h2 hc.2 ht.2)
  | exprCase _ _ _ _ h1 h2 =>
    simp only [Node.canon, Node.everywhere, Bool.and_eq_true] at hc
    simp only [Node.neat, Node.everywhere, Bool.and_eq_true] at ht
    exact fmts_exprCase hc.1.1.1 (h1 hc.1.2 ht.1.2) (h2 hc.2 ht.2)
  | conditional _ _ _ _ _ h1 h2 h3 =>
    simp only [Node.canon, Node.everywhere, Bool.and_eq_true] at hc
    simp only [Node.neat, Node.everywhere, Bool.and_eq_true] at ht
    exact fmts_conditional hc.1.1.1.1 (h1 hc.1.1.2 ht.1.1.2) (h2 hc.1.2 ht.1.2) (h3 hc.2 ht.2)
  | unary _ _ _ h1 =>
    simp only [Node.canon, Node.everywhere, Bool.and_eq_true] at hc
    simp only [Node.neat, Node.everywhere, Bool.and_eq_true] at ht
    exact fmts_unary hc.1.2 (h1 hc.2 ht.2)
  | postfixE _ _ _ _ h1 h2 h3 =>
    simp only [Node.canon, Node.everywhere, Bool.and_eq_true] at hc
    simp only [Node.neat, Node.everywhere, Bool.and_eq_true] at ht
    exact fmts_postfixE ht.1.1.1 (h1 hc.1.1.2 ht.1.1.2) (h2 hc.1.2 ht.1.2) (h3 hc.2 ht.2)
  | primary _ _ _ _ _ _ h1 h2 h3 h4 h5 =>
    simp only [Node.canon, Node.everywhere, Bool.and_eq_true] at hc
    simp only [Node.neat, Node.everywhere, Bool.and_eq_true] at ht
    exact fmts_primary hc.1.1.1.1.1.1 ht.1.1.1.1.1 (h2 hc.1.1.1.2 ht.1.1.1.2) (h3 hc.1.1.2 ht.1.1.2) (h4 hc.1.2 ht.1.2) (h5 hc.2 ht.2)
  | invocation _ _ h1 =>
    simp only [Node.canon, Node.everywhere, Bool.and_eq_true] at hc
    simp only [Node.neat, Node.everywhere, Bool.and_eq_true] at ht
    exact fmts_invocation (h1 hc.2 ht.2)
  | ref _ h1 =>
    simp only [Node.canon, Node.everywhere, Bool.and_eq_true] at hc
    simp only [Node.neat, Node.everywhere, Bool.and_eq_true] at ht
    exact fmts_ref hc.1.1 (h1 hc.2 ht.2)
  | mkSlice _ _ h1 =>
    simp only [Node.canon, Node.everywhere, Bool.and_eq_true] at hc
    simp only [Node.neat, Node.everywhere, Bool.and_eq_true] at ht
    exact fmts_mkSlice hc.1.1 (h1 hc.2 ht.2)
  | cons _ _ h1 h2 =>
    simp only [Node.canon, Node.everywhere, Bool.and_eq_true] at hc
    simp only [Node.neat, Node.everywhere, Bool.and_eq_true] at ht
    exact fmts_cons hc.1.1.1 (h1 hc.1.2 ht.1.2) (h2 hc.2 ht.2)
  | bin l _ _ _ _ h1 h2 =>
    simp only [Node.canon, Node.everywhere, Bool.and_eq_true] at hc
    simp only [Node.neat, Node.everywhere, Bool.and_eq_true] at ht
    have hl := h1 hc.1.2 ht.1.2
    exact fmts_bin hc.1.1.1 hc.1.1.2 (by cases l <;> exact hl) (h2 hc.2 ht.2)

end Verif.Etx
