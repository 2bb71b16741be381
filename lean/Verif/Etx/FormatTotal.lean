import Verif.Etx.ParseDoc

/-!
# Formatting parsed documents does not panic

… unless a comment or an empty line is an item of an enum, an object type or a map.
-/

namespace Verif.Etx

theorem cat_isSome (l : List (Option Str)) : (cat l).isSome = l.all Option.isSome := by
  induction l with
  | nil => rfl
  | cons a l ih =>
    rw [List.all_cons, ← ih]
    cases a with
    | none => rfl
    | some a => rw [cat_some_cons, Option.isSome_map]; rfl

theorem prefixed_isSome (b : Bool) (p : Str) (t : Option Str) : (prefixed b p t).isSome = (!b || t.isSome) := by
  cases b <;> simp [prefixed, cat_isSome]

namespace Node

/-- The kinds whose formatting uses the rows of their items. -/
def _root_.Verif.Etx.Kind.rowKind : Kind → Bool
  | .typeEnumItem | .typeObjectItem | .mapItem => true
  | .ptr k | .slice k | .items k => k.rowKind
  | _ => false

/-- Not an item of an enum, an object type or a map that is a comment or an empty line. -/
def tight : {k : Kind} → Node k → Bool
  | _, .typeEnumItem _ e x _ _ => decide (e = []) && !x.isRef
  | _, .typeObjectItem _ e x _ _ => decide (e = []) && !x.isRef
  | _, .mapItem _ e _ _ x => decide (e = []) && !x.isRef
  | _, _ => true

/-- A slice. -/
def listy : {k : Kind} → Node k → Bool
  | _, .nilSlice => true
  | _, .mkSlice _ _ => true
  | _, .empty => true
  | _, .cons _ _ => true
  | _, _ => false

/-- A nil pointer. -/
def isNil : {k : Kind} → Node k → Bool
  | _, .nil => true
  | _, _ => false

variable [FloatText]

theorem ptr_set {k : Kind} (x : Node (.ptr k)) : x.set = x.isRef := by
  cases x <;> rfl

theorem slice_listy {k : Kind} (x : Node (.slice k)) : x.listy = true := by cases x <;> rfl
theorem items_listy {k : Kind} (x : Node (.items k)) : x.listy = true := by cases x <;> rfl
theorem slice_isNil {k : Kind} (x : Node (.slice k)) : x.isNil = false := by cases x <;> rfl
theorem items_isNil {k : Kind} (x : Node (.items k)) : x.isNil = false := by cases x <;> rfl
theorem ptr_isNil {k : Kind} (x : Node (.ptr k)) : x.isNil = !x.isRef := by cases x <;> rfl

theorem set_bin {l : Level} (x : Node (.bin l)) : x.set = true := by cases x; rfl
theorem set_operand {l : Level} (x : Node l.operand) : x.set = true := by
  cases l <;> first | exact set_bin x | (revert x; intro x; cases x; rfl)
theorem set_postfixE (x : Node .postfixE) : x.set = true := by cases x; rfl
theorem set_primary (x : Node .primary) : x.set = true := by cases x; rfl

theorem fmt_total {k : Kind} (x : Node k) (hs : x.everywhere shaped = true) (ht : x.everywhere tight = true) :
    (x.set = true → x.fmt.isSome = true) ∧ (x.listy = true → x.texts.isSome = true) ∧
      (k.rowKind = true → x.isNil = false → x.rows.isSome = true) := by
  induction x
  case ref x ih =>
    simp only [everywhere, Bool.and_eq_true, shaped, tight, true_and] at hs ht
    simp only [fmt, rows, listy, Bool.false_eq_true, false_imp_iff, true_and]
    have h := ih hs.2 ht
    refine ⟨fun _ => h.1 hs.1, fun hk _ => h.2.2 hk ?_⟩
    revert hs
    cases x <;> simp [set, isNil]
  case cons x xs ih ih' =>
    simp only [everywhere, Bool.and_eq_true, shaped, tight, true_and] at hs ht
    simp only [texts, rows, set, Bool.false_eq_true, false_imp_iff, true_and]
    have h := ih hs.1.2 ht.1
    have h' := ih' hs.2 ht.2
    have h1 := h.1 (by rw [ptr_set]; exact hs.1.1)
    have h2 := h'.2.1 (items_listy _)
    rw [Option.isSome_iff_exists] at h1 h2
    obtain ⟨a, h1⟩ := h1
    obtain ⟨b, h2⟩ := h2
    refine ⟨fun _ => by simp [h1, h2], fun hk _ => ?_⟩
    have h3 := h.2.2 hk (by rw [ptr_isNil, hs.1.1]; rfl)
    have h4 := h'.2.2 hk (items_isNil _)
    rw [Option.isSome_iff_exists] at h3 h4
    obtain ⟨a, h3⟩ := h3
    obtain ⟨b, h4⟩ := h4
    simp [h3, h4]
  case valueNumber =>
    simp only [everywhere, Bool.and_eq_true, shaped, decide_eq_true_eq] at hs
    simp [fmt, fmtNumber, hs.2, listy, Kind.rowKind]
  case heredoc d _ ih =>
    simp only [everywhere, Bool.and_eq_true, shaped, tight, decide_eq_true_eq, true_and] at hs ht
    have h := (ih hs.2 ht).2.1 (slice_listy _)
    have hd : ∀ b, (fmtDelimiter b d).isSome = true := by
      intro b
      cases b <;> simp [fmtDelimiter, hs.1]
    simp [fmt, cat_isSome, h, hd, listy, Kind.rowKind]
  case typeEnumItem _ _ x l v _ ih =>
    simp only [everywhere, Bool.and_eq_true, shaped, tight, decide_eq_true_eq, Bool.not_eq_true'] at hs ht
    have h := (ih hs.2 ht.2).1 (by
      have := hs.1.1.1
      revert this
      simp only [ht.1.1.1, ht.1.1.2]
      cases v.set <;> decide)
    have h' := h
    rw [Option.isSome_iff_exists] at h'
    obtain ⟨a, h'⟩ := h'
    simp [fmt, rows, h', ht.1.1.1, ht.1.1.2, cat_isSome, listy]
  case typeObjectItem _ _ x l v _ ih =>
    simp only [everywhere, Bool.and_eq_true, shaped, tight, decide_eq_true_eq, Bool.not_eq_true'] at hs ht
    have h := (ih hs.2 ht.2).1 (by
      have := hs.1.1.1
      revert this
      simp only [ht.1.1.1, ht.1.1.2]
      cases v.set <;> decide)
    have h' := h
    rw [Option.isSome_iff_exists] at h'
    obtain ⟨a, h'⟩ := h'
    simp [fmt, rows, h', ht.1.1.1, ht.1.1.2, cat_isSome, listy]
  case mapItem _ _ x1 x2 x3 ih1 ih2 _ =>
    simp only [everywhere, Bool.and_eq_true, shaped, tight, decide_eq_true_eq, Bool.not_eq_true', beq_iff_eq] at hs ht
    have hr : x1.isRef = true := by
      have := hs.1.1.1.1
      revert this
      simp only [ht.1.1.1.1, ht.1.1.1.2]
      cases x1.isRef <;> decide
    have hr' : x2.isRef = true := hs.1.1.1.2 ▸ hr
    have h1 := (ih1 hs.1.1.2 ht.1.1.2).1 (by rw [ptr_set]; exact hr)
    have h2 := (ih2 hs.1.2 ht.1.2).1 (by rw [ptr_set]; exact hr')
    rw [Option.isSome_iff_exists] at h1 h2
    obtain ⟨a, h1⟩ := h1
    obtain ⟨b, h2⟩ := h2
    simp [fmt, rows, h1, h2, hr, hr', ht.1.1.1.1, ht.1.1.1.2, cat_isSome, listy]
  all_goals
    simp only [everywhere, Bool.and_eq_true, shaped, tight, one, decide_eq_true_eq, beq_iff_eq] at hs ht
    simp only [set, listy, isNil, Kind.rowKind, Bool.false_eq_true, false_imp_iff, and_true, true_and, true_imp_iff, reduceCtorEq, implies_true]
    try simp only [ptr_set, slice_listy, items_listy, slice_isNil, items_isNil, ptr_isNil, true_imp_iff, set_bin,
      set_operand, set_postfixE, set_primary] at *
    try simp only [fmt, texts, rows]
    try simp only [apply_ite Option.isSome, cat_isSome, prefixed_isSome, Option.isSome_map, List.all_cons, List.all_nil]
    first
      | done
      | grind
      | (simp_all [Kind.rowKind]; done)
      | (simp_all [Kind.rowKind]; grind)

end Node

end Verif.Etx
