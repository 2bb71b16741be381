import Verif.Etx.Tidy

/-!
# The formatted text of a tree is read as its tokens: the statement, and expressions
-/

namespace Verif.Etx

/-- What a type begins with. -/
def typeC (c : Char) : Bool := isAlpha c || c = '('

/-- What may follow a value. -/
def endC (b : Bool) : Char → Bool := if b then stopN else stopI

theorem alpha_inked : ∀ c, isAlpha c = true → inked c = true := by
  intro c h
  simp only [inked, isBlank, Bool.not_eq_true', Bool.or_eq_false_iff, decide_eq_false_iff_not]
  constructor <;> rintro rfl <;> revert h <;> decide

theorem type_inked : ∀ c, typeC c = true → inked c = true := by
  intro c h
  simp only [inked, isBlank, Bool.not_eq_true', Bool.or_eq_false_iff, decide_eq_false_iff_not]
  constructor <;> rintro rfl <;> revert h <;> decide

theorem opening_inked : ∀ c, opening c = true → inked c = true := by
  intro c h
  simp only [inked, isBlank, Bool.not_eq_true', Bool.or_eq_false_iff, decide_eq_false_iff_not]
  constructor <;> rintro rfl <;> revert h <;> decide

theorem alpha_type : ∀ c, isAlpha c = true → typeC c = true := fun c h => by simp [typeC, h]
theorem alpha_operand : ∀ c, isAlpha c = true → operand c = true := fun c h => by simp [operand, h]
theorem operand_opening : ∀ c, operand c = true → opening c = true := fun c h => by simp [opening, h]
theorem alpha_opening : ∀ c, isAlpha c = true → opening c = true := fun c h => operand_opening c (alpha_operand c h)
theorem operand_inked : ∀ c, operand c = true → inked c = true := fun c h => opening_inked c (operand_opening c h)
theorem stop_le : ∀ c, stopN c = true → stopI c = true := fun _ h => stopN_stopI h
theorem any_stop {p : Char → Bool} : ∀ c, p c = true → anyC c = true := fun _ _ => rfl

theorem endC_le (b : Bool) : ∀ c, stopN c = true → endC b c = true := by
  cases b
  · exact stop_le
  · exact le_refl'

theorem isRef_nil {k : Kind} : (Node.nil : Node (.ptr k)).isRef = false := rfl

theorem endC_tab (b : Bool) : endC b '\t' = true := by cases b <;> decide

variable [FloatText]

/-- The formatted text is read as the tokens. -/
def Fine (f p : Char → Bool) {k : Kind} (x : Node k) : Prop := ∃ s, x.fmt = some s ∧ W f p s x.toks

/-- An item on a line of its own; `y` is written instead of `x`. -/
def LineOk {k : Kind} (x y : Node k) : Prop := ∃ s, x.fmt = some s ∧
  if x.blankOf ≠ [] ∨ x.isRemark = true then W anyC anyC s y.toks else ∃ us, W anyC stopN s us ∧ y.toks = us ++ [lfTok]

/-- The items of an enumeration or of an object. -/
def RowOk {k : Kind} (x : Node k) : Prop := ∃ l s us, x.rows = some [(l, s)] ∧ identOk l = true ∧ W inked stopN s us ∧
  x.toks = tk .ident l :: tk .opColon c!":" :: (us ++ [lfTok])

/-- An enumeration or an object. -/
def RowsOk {k : Kind} (x : Node k) : Prop := ∃ s, x.fmt = some s ∧
  ((s = [] ∧ x.toks = []) ∨ ∃ us, W (is '\n') stopN s (lfTok :: us) ∧ x.toks = us ++ [lfTok])

/-- The formatted text of everything is read as the tokens. -/
def Fmts : (k : Kind) → Node k → Prop
  | .ptr k, x => x = .nil ∨ ∃ y, x = .ref y ∧ y.set = true ∧ Fmts k y
  | .items k, x => ∃ l, x = Out.items l ∧ ∀ y ∈ l, y.set = true ∧ Fmts k y
  | .slice k, x => x = .nilSlice ∨ ∃ a l, x = .mkSlice a (Out.items l) ∧ l ≠ [] ∧ ∀ y ∈ l, y.set = true ∧ Fmts k y
  | .rootItem, x => LineOk x (respaceItem x)
  | .blockItem, x => x.blankOf = [] → LineOk x x
  | .funcStatement, x => LineOk x x
  | .parameterType, x => x.set = true → Fine typeC stopI x
  | .funcSignature, x => Fine typeC stopI x
  | .ident, x => Fine isAlpha stopI x
  | .comment, x => Fine anyC anyC x
  | .attr, x => Fine isAlpha stopN x
  | .block, x => Fine isAlpha stopN x
  | .decl, x => Fine isAlpha stopN x
  | .funcDecl, x => Fine isAlpha stopN x
  | .func, x => ∃ s, x.fmt = some s ∧ W isAlpha stopN s (respaceFunc x).toks
  | .funcParameter, x => Fine isAlpha stopI x
  | .type, x => Fine isAlpha stopN x
  | .typeEnum, x => RowsOk x
  | .typeObject, x => RowsOk x
  | .typeEnumItem, x => RowOk x
  | .typeObjectItem, x => RowOk x
  | .value, x => Fine operand (endC x.numLike) x
  | .valueBool, x => Fine operand stopI x
  | .valueNumber, x => Fine operand stopN x
  | .valueString, x => Fine operand stopI x
  | .valueList, x => Fine operand stopI x
  | .valueMap, x => Fine operand stopI x
  | .stringFragment, x => ∃ s, x.fmt = some s ∧ Frag (firstIs x.toks) x.fragP s x.toks ∧ x.fragP '"' = true
  | .listItem, x => Fine anyC anyC x
  | .expr, x => x.set = true → Fine opening stopN x
  | .exprIf, x => Fine isAlpha stopN x
  | .exprSwitch, x => Fine isAlpha stopN x
  | .exprCase, x => Fine isAlpha anyC x
  | .conditional, x => Fine opening stopN x
  | .bin _, x => Fine opening stopN x
  | .unary, x => Fine opening stopN x
  | .postfixE, x => Fine operand stopN x
  | .primary, x => Fine operand (endC x.numLike) x
  | .invocation, x => ∃ s, x.fmt = some s ∧ W₀ opening stopN s x.toks
  | _, _ => True

/-! ## Lists -/

theorem gather {k : Kind} {P : Str → List Token → Prop} {l : List (Node k)} (h : ∀ y ∈ l, ∃ s, y.fmt = some s ∧ P s y.toks) :
    ∃ m : List (Str × List Token), (Out.items l).texts = some (m.map (·.1)) ∧ (Out.items l).tokss = m.map (·.2) ∧
      (∀ z ∈ m, P z.1 z.2) ∧ m.length = l.length := by
  induction l with
  | nil => exact ⟨[], by simp [Out.items, Node.texts], by simp [Out.items, Node.tokss], by simp, rfl⟩
  | cons x l ih =>
    obtain ⟨s, hs, hp⟩ := h x (by simp)
    obtain ⟨m, h1, h2, h3, h4⟩ := ih fun y hy => h y (by simp [hy])
    refine ⟨(s, x.toks) :: m, ?_, ?_, ?_, by simp [h4]⟩
    · simp [Out.items, Node.texts, Node.fmt_ref, hs, h1]
    · simp [Out.items, Node.tokss, Node.toks, h2]
    · intro z hz
      rcases List.mem_cons.mp hz with rfl | hz
      · exact hp
      · exact h3 z hz

theorem gatherSlice {k : Kind} {P : Str → List Token → Prop} {x : Node (.slice k)} (hx : Fmts (.slice k) x)
    (hk : ∀ y : Node k, y.set = true → Fmts k y → ∃ s, y.fmt = some s ∧ P s y.toks) :
    ∃ m : List (Str × List Token), x.texts = some (m.map (·.1)) ∧ x.tokss = m.map (·.2) ∧ (∀ z ∈ m, P z.1 z.2) ∧
      x.len = m.length ∧ (x.isNilSlice = true ↔ m = []) := by
  rcases hx with rfl | ⟨a, l, rfl, hn, hl⟩
  · exact ⟨[], by simp [Node.texts], by simp [Node.tokss], by simp, rfl, by simp [Node.isNilSlice]⟩
  · obtain ⟨m, h1, h2, h3, h4⟩ := gather fun y hy => hk y (hl y hy).1 (hl y hy).2
    refine ⟨m, by simpa [Node.texts] using h1, by simpa [Node.tokss] using h2, h3, ?_, ?_⟩
    · simp [Node.len, Out.len_items, h4]
    · simp only [Node.isNilSlice, Bool.false_eq_true, false_iff]
      rintro rfl
      simp only [List.length_nil] at h4
      exact hn (List.length_eq_zero_iff.mp h4.symm)

theorem Fmts.ptr {k : Kind} {x : Node (.ptr k)} (hx : Fmts (.ptr k) x) (h : x.isRef = true) :
    ∃ y : Node k, x = .ref y ∧ y.set = true ∧ Fmts k y := by
  rcases hx with rfl | h'
  · simp [Node.isRef] at h
  · exact h'

theorem Fine.ref {f p : Char → Bool} {k : Kind} {x : Node k} (h : Fine f p x) : Fine f p (Node.ref x) := by
  obtain ⟨s, h1, h2⟩ := h
  exact ⟨s, by rw [Node.fmt_ref, h1], by simpa only [Node.toks] using h2⟩

theorem Fine.mono {f p g q : Char → Bool} {k : Kind} {x : Node k} (h : Fine f p x) (hf : ∀ c, f c = true → g c = true)
    (hp : ∀ c, q c = true → p c = true) : Fine g q x := by
  obtain ⟨s, h1, h2⟩ := h
  exact ⟨s, h1, h2.mono hf hp⟩

end Verif.Etx
