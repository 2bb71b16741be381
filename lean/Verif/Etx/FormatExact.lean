import Verif.Etx.FormatTotal

/-!
# Which parsed documents can be formatted

Exactly those without a comment or an empty line as an item of an enum, an object type or a map, at a place that is formatted.
-/

namespace Verif.Etx
namespace Node

/-- `P` holds for the value and everything inside it, except the else branch of an if without then branch: this is the only part
of a parsed document that is never formatted (`expr.go:93-103`). -/
def shows (P : {k : Kind} → Node k → Bool) : {k : Kind} → Node k → Bool
  | _, .rootItem m s1 x1 x2 x3 x4 x5 x6 => P (.rootItem m s1 x1 x2 x3 x4 x5 x6) && x1.shows P && x2.shows P && x3.shows P && x4.shows P && x5.shows P && x6.shows P
  | _, .parameterType m x1 x2 => P (.parameterType m x1 x2) && x1.shows P && x2.shows P
  | _, .funcSignature m x1 x2 => P (.funcSignature m x1 x2) && x1.shows P && x2.shows P
  | _, .ident m s1 => P (.ident m s1)
  | _, .comment m s1 s2 => P (.comment m s1 s2)
  | _, .attr m s1 x1 => P (.attr m s1 x1) && x1.shows P
  | _, .block m s1 s2 x1 => P (.block m s1 s2 x1) && x1.shows P
  | _, .blockItem m s1 x1 x2 x3 => P (.blockItem m s1 x1 x2 x3) && x1.shows P && x2.shows P && x3.shows P
  | _, .decl m s1 s2 x1 x2 => P (.decl m s1 s2 x1 x2) && x1.shows P && x2.shows P
  | _, .lambda m x1 x2 x3 => P (.lambda m x1 x2 x3) && x1.shows P && x2.shows P && x3.shows P
  | _, .lambdaParameter m s1 x1 => P (.lambdaParameter m s1 x1) && x1.shows P
  | _, .func m s1 x1 x2 x3 => P (.func m s1 x1 x2 x3) && x1.shows P && x2.shows P && x3.shows P
  | _, .funcParameter m s1 x1 => P (.funcParameter m s1 x1) && x1.shows P
  | _, .funcStatement m s1 x1 x2 x3 => P (.funcStatement m s1 x1 x2 x3) && x1.shows P && x2.shows P && x3.shows P
  | _, .funcDecl m s1 s2 x1 x2 => P (.funcDecl m s1 s2 x1 x2) && x1.shows P && x2.shows P
  | _, .type m s1 x1 x2 => P (.type m s1 x1 x2) && x1.shows P && x2.shows P
  | _, .typeEnum m x1 => P (.typeEnum m x1) && x1.shows P
  | _, .typeEnumItem m s1 x1 s2 x2 => P (.typeEnumItem m s1 x1 s2 x2) && x1.shows P && x2.shows P
  | _, .typeObject m x1 => P (.typeObject m x1) && x1.shows P
  | _, .typeObjectItem m s1 x1 s2 x2 => P (.typeObjectItem m s1 x1 s2 x2) && x1.shows P && x2.shows P
  | _, .value m s1 x1 x2 x3 x4 x5 x6 => P (.value m s1 x1 x2 x3 x4 x5 x6) && x1.shows P && x2.shows P && x3.shows P && x4.shows P && x5.shows P && x6.shows P
  | _, .valueBool m s1 => P (.valueBool m s1)
  | _, .valueNumber m s1 s2 => P (.valueNumber m s1 s2)
  | _, .heredoc m s1 s2 x1 => P (.heredoc m s1 s2 x1) && x1.shows P
  | _, .heredocFragment m x1 x2 s1 => P (.heredocFragment m x1 x2 s1) && x1.shows P && x2.shows P
  | _, .valueString m x1 => P (.valueString m x1) && x1.shows P
  | _, .stringFragment m s1 s2 x1 x2 s3 => P (.stringFragment m s1 s2 x1 x2 s3) && x1.shows P && x2.shows P
  | _, .valueList m x1 => P (.valueList m x1) && x1.shows P
  | _, .listItem m s1 x1 x2 => P (.listItem m s1 x1 x2) && x1.shows P && x2.shows P
  | _, .valueMap m x1 => P (.valueMap m x1) && x1.shows P
  | _, .mapItem m s1 x1 x2 x3 => P (.mapItem m s1 x1 x2 x3) && x1.shows P && x2.shows P && x3.shows P
  | _, .mapKey m x1 x2 => P (.mapKey m x1 x2) && x1.shows P && x2.shows P
  | _, .expr m x1 x2 x3 => P (.expr m x1 x2 x3) && x1.shows P && x2.shows P && x3.shows P
  | _, .exprIf m x1 x2 x3 => P (.exprIf m x1 x2 x3) && x1.shows P && x2.shows P && (!x2.isRef || x3.shows P)
  | _, .exprSwitch m x1 x2 => P (.exprSwitch m x1 x2) && x1.shows P && x2.shows P
  | _, .exprCase m x1 s1 x2 => P (.exprCase m x1 s1 x2) && x1.shows P && x2.shows P
  | _, .conditional m x1 s1 x2 x3 => P (.conditional m x1 s1 x2 x3) && x1.shows P && x2.shows P && x3.shows P
  | _, .bin l m x1 s1 x2 => P (.bin l m x1 s1 x2) && x1.shows P && x2.shows P
  | _, .unary m s1 x1 => P (.unary m s1 x1) && x1.shows P
  | _, .postfixE m x1 x2 x3 => P (.postfixE m x1 x2 x3) && x1.shows P && x2.shows P && x3.shows P
  | _, .primary m x1 x2 x3 x4 x5 => P (.primary m x1 x2 x3 x4 x5) && x1.shows P && x2.shows P && x3.shows P && x4.shows P && x5.shows P
  | _, .invocation m x1 => P (.invocation m x1) && x1.shows P
  | _, .nil (k := k) => P (.nil (k := k))
  | _, .ref x1 => P (.ref x1) && x1.shows P
  | _, .nilSlice (k := k) => P (.nilSlice (k := k))
  | _, .mkSlice addr x1 => P (.mkSlice addr x1) && x1.shows P
  | _, .empty (k := k) => P (.empty (k := k))
  | _, .cons x1 x2 => P (.cons x1 x2) && x1.shows P && x2.shows P


theorem shows_nilptr {P : {k : Kind} → Node k → Bool} (hP : ∀ {k : Kind}, P (.nil (k := k)) = true) {k : Kind} (x : Node (.ptr k))
    (h : x.isRef = false) : x.shows P = true := by
  cases x with
  | nil => simp [shows, hP]
  | ref x => cases h

theorem shows_ptr {k : Kind} (x : Node (.ptr k)) (h : x.isRef = false) : x.shows tight = true := shows_nilptr rfl x h

theorem shows_len {k : Kind} (x : Node (.slice k)) (hs : x.everywhere shaped = true) (h : x.len = 0) : x.shows tight = true := by
  cases x with
  | nilSlice => rfl
  | mkSlice a x =>
    simp only [everywhere, Bool.and_eq_true, shaped, decide_eq_true_eq] at hs
    exact absurd h hs.1

theorem shows_nilSlice {k : Kind} (x : Node (.slice k)) (h : x.isNilSlice = true) : x.shows tight = true := by
  cases x with
  | nilSlice => rfl
  | mkSlice a x => cases h

variable [FloatText]

theorem fmt_ptr {k : Kind} (x : Node (.ptr k)) (h : x.isRef = false) : x.fmt = none := by
  cases x with
  | nil => simp only [fmt]
  | ref x => cases h

theorem fmt_unset_expr (x : Node .expr) (h : x.set = false) : x.fmt = none := by
  cases x
  simp only [set, Bool.or_eq_false_iff] at h
  simp [fmt, h]

theorem fmt_unset_type (x : Node .parameterType) (h : x.set = false) : x.fmt = none := by
  cases x
  simp only [set, Bool.or_eq_false_iff] at h
  simp [fmt, h]

omit [FloatText] in
theorem rowKind_operand (l : Level) : l.operand.rowKind = false := by cases l <;> rfl

/-- A parsed value can be formatted iff all of it that is formatted is `tight`. -/
theorem fmt_exact {k : Kind} (x : Node k) (hs : x.everywhere shaped = true) :
    (k.rowKind = false → x.set = true → x.fmt.isSome = x.shows tight) ∧
      (k.rowKind = false → x.listy = true → x.texts.isSome = x.shows tight) ∧
      (k.rowKind = true → x.isNil = false → x.rows.isSome = x.shows tight) := by
  induction x
  case ref x ih =>
    simp only [everywhere, Bool.and_eq_true, shaped] at hs
    have h := ih hs.2
    simp only [fmt, rows, shows, tight, listy, Bool.true_and, Bool.false_eq_true, false_imp_iff, implies_true, true_and]
    refine ⟨fun hk _ => h.1 hk hs.1, fun hk _ => h.2.2 hk ?_⟩
    revert hs
    cases x <;> simp [set, isNil]
  case cons x xs ih ih' =>
    simp only [everywhere, Bool.and_eq_true, shaped] at hs
    have h := ih hs.1.2
    have h' := ih' hs.2
    simp only [texts, rows, shows, tight, Bool.true_and, set, Bool.false_eq_true, false_imp_iff, implies_true, true_and]
    refine ⟨fun hk _ => ?_, fun hk _ => ?_⟩
    · have h1 := h.1 hk (by rw [ptr_set]; exact hs.1.1)
      have h2 := h'.2.1 hk (items_listy _)
      rw [← h1, ← h2]
      cases x.fmt <;> cases xs.texts <;> rfl
    · have h3 := h.2.2 hk (by rw [ptr_isNil, hs.1.1]; rfl)
      have h4 := h'.2.2 hk (items_isNil _)
      rw [← h3, ← h4]
      cases x.rows <;> cases xs.rows <;> rfl
  case valueNumber =>
    simp only [everywhere, Bool.and_eq_true, shaped, decide_eq_true_eq] at hs
    simp [fmt, fmtNumber, hs.2, listy, Kind.rowKind, shows, tight]
  case heredoc d _ ih =>
    simp only [everywhere, Bool.and_eq_true, shaped, decide_eq_true_eq] at hs
    have h := (ih hs.2).2.1 rfl (slice_listy _)
    have hd : ∀ b, (fmtDelimiter b d).isSome = true := by
      intro b
      cases b <;> simp [fmtDelimiter, hs.1]
    simp [fmt, cat_isSome, h, hd, listy, Kind.rowKind, shows, tight]
  case typeEnumItem _ e x l v _ ih =>
    simp only [everywhere, Bool.and_eq_true, shaped] at hs
    have h := ih hs.2
    have h1 := hs.1.1.1
    simp only [Kind.rowKind, set, listy, isNil, rows, shows, tight, true_imp_iff, reduceCtorEq, false_imp_iff, true_and]
    cases hv : v.set with
    | true =>
      have h := h.1 rfl hv
      rw [hv] at h1
      have he : decide (e ≠ []) = false ∧ x.isRef = false := by
        revert h1
        cases decide (e ≠ []) <;> cases x.isRef <;> decide
      simp only [decide_eq_false_iff_not, ne_eq, not_not] at he
      rw [shows_ptr x he.2, ← h]
      simp only [he.1, he.2]
      cases v.fmt <;> rfl
    | false =>
      rw [hv] at h1
      rw [fmt_unset_expr v hv]
      have he : decide (e ≠ []) = true ∨ x.isRef = true := by
        revert h1
        cases decide (e ≠ []) <;> cases x.isRef <;> decide
      rcases he with he | he
      · simp only [decide_eq_true_eq] at he
        simp [he]
      · simp [he]
  case typeObjectItem _ e x l v _ ih =>
    simp only [everywhere, Bool.and_eq_true, shaped] at hs
    have h := ih hs.2
    have h1 := hs.1.1.1
    simp only [Kind.rowKind, set, listy, isNil, rows, shows, tight, true_imp_iff, reduceCtorEq, false_imp_iff, true_and]
    cases hv : v.set with
    | true =>
      have h := h.1 rfl hv
      rw [hv] at h1
      have he : decide (e ≠ []) = false ∧ x.isRef = false := by
        revert h1
        cases decide (e ≠ []) <;> cases x.isRef <;> decide
      simp only [decide_eq_false_iff_not, ne_eq, not_not] at he
      rw [shows_ptr x he.2, ← h]
      simp only [he.1, he.2]
      cases v.fmt <;> rfl
    | false =>
      rw [hv] at h1
      rw [fmt_unset_type v hv]
      have he : decide (e ≠ []) = true ∨ x.isRef = true := by
        revert h1
        cases decide (e ≠ []) <;> cases x.isRef <;> decide
      rcases he with he | he
      · simp only [decide_eq_true_eq] at he
        simp [he]
      · simp [he]
  case mapItem _ e x1 x2 x3 ih1 ih2 _ =>
    simp only [everywhere, Bool.and_eq_true, shaped, beq_iff_eq] at hs
    have h1 := hs.1.1.1.1
    simp only [Kind.rowKind, set, listy, isNil, rows, shows, tight, true_imp_iff, reduceCtorEq, false_imp_iff, true_and]
    cases hr : x1.isRef with
    | true =>
      have hr' : x2.isRef = true := hs.1.1.1.2 ▸ hr
      have h2 := (ih1 hs.1.1.2).1 rfl (by rw [ptr_set]; exact hr)
      have h3 := (ih2 hs.1.2).1 rfl (by rw [ptr_set]; exact hr')
      rw [hr] at h1
      have he : decide (e ≠ []) = false ∧ x3.isRef = false := by
        revert h1
        cases decide (e ≠ []) <;> cases x3.isRef <;> decide
      simp only [decide_eq_false_iff_not, ne_eq, not_not] at he
      rw [shows_ptr x3 he.2, ← h2, ← h3]
      simp only [he.1, he.2]
      cases x1.fmt <;> cases x2.fmt <;> rfl
    | false =>
      rw [hr] at h1
      rw [fmt_ptr x1 hr]
      have he : decide (e ≠ []) = true ∨ x3.isRef = true := by
        revert h1
        cases decide (e ≠ []) <;> cases x3.isRef <;> decide
      rcases he with he | he
      · simp only [decide_eq_true_eq] at he
        simp [he]
      · simp [he]
  all_goals
    simp only [everywhere, Bool.and_eq_true, shaped, one, decide_eq_true_eq, beq_iff_eq] at hs
    simp only [set, listy, isNil]
    simp only [Kind.rowKind, Bool.false_eq_true, false_imp_iff, and_true, true_and, true_imp_iff, reduceCtorEq, implies_true] at *
    try simp only [ptr_set, slice_listy, items_listy, slice_isNil, items_isNil, true_imp_iff, set_bin,
      set_operand, set_postfixE, set_primary, rowKind_operand] at *
    try simp only [fmt, texts, rows, shows, tight]
    try simp only [apply_ite Option.isSome, cat_isSome, prefixed_isSome, Option.isSome_map, List.all_cons, List.all_nil]
    first
      | done
      | grind [shows_ptr, shows_len, shows_nilSlice]
      | (rw [if_neg hs.1.1.2]; grind [shows_ptr])

end Node

end Verif.Etx
