import Verif.Etx.JsonRead
import Verif.Etx.Shape
import Verif.Props.Number

/-!
# What parsed trees have in common that JSON needs

Slices that are not nil have elements, pointers point to structs, and the value of a number is the one of its source.
-/

namespace Verif.Etx

variable [FloatValue]

/-- The value of a number is the one `Capture` gives to its source. -/
def Node.sourced : {k : Kind} → Node k → Bool
  | _, .valueNumber _ v s => captureNumber s = v.map fun v => (v.2, s)
  | _, _ => true

/-- `filled` and `sourced`. -/
def Node.fits {k : Kind} (x : Node k) : Bool := x.filled && x.sourced

/-- Every captured node fits. -/
def Out.Fits (o : Out) : Prop := ∀ f k x, Capture.node f k x ∈ o.caps → x.everywhere Node.fits = true ∧ x.isStruct = true

namespace Out

variable {o : Out}

theorem Fits.ptr (h : o.Fits) (f : Field) (k : Kind) : (o.ptr f (k := k)).everywhere Node.fits = true := by
  unfold Out.ptr
  have hm := fun x => mem_nodes (o := o) (f := f) (k := k) (x := x)
  cases e : o.nodes f k with
  | nil => rfl
  | cons x l =>
    have := h _ _ _ (hm x (by simp [e]))
    simp [Node.everywhere, Node.fits, Node.filled, Node.sourced, this]

theorem Fits.items {k : Kind} {l : List (Node k)} (h : ∀ x ∈ l, x.everywhere Node.fits = true ∧ x.isStruct = true) :
    (items l).everywhere Node.fits = true := by
  induction l with
  | nil => rfl
  | cons x l ih =>
    have hx := h x (by simp)
    have hl := ih (fun y hy => h y (by simp [hy]))
    simp [Out.items, Node.everywhere, Node.fits, Node.filled, Node.sourced, hx, hl]

theorem Fits.slice (h : o.Fits) (f : Field) (k : Kind) : (o.slice f (k := k)).everywhere Node.fits = true := by
  unfold Out.slice
  have hm := fun x => mem_nodes (o := o) (f := f) (k := k) (x := x)
  cases e : o.nodes f k with
  | nil => rfl
  | cons x l =>
    have := Fits.items (l := x :: l) (fun y hy => h _ _ _ (hm y (by simpa [e] using hy)))
    simp only [Node.everywhere, this, Bool.and_true]
    rfl

theorem Fits.struct (h : o.Fits) {f : Field} {k : Kind} {x : Node k} (hx : o.struct f = some x) :
    x.everywhere Node.fits = true :=
  (h _ _ _ (mem_nodes (List.mem_of_head? hx))).1

theorem Fits.expr (h : o.Fits) (f : Field) : ((o.struct f).getD zeroExpr).everywhere Node.fits = true := by
  cases e : o.struct f (k := .expr) with
  | none => rfl
  | some x => exact h.struct e

theorem Fits.parameterType (h : o.Fits) (f : Field) : ((o.struct f).getD zeroParameterType).everywhere Node.fits = true := by
  cases e : o.struct f (k := .parameterType) with
  | none => rfl
  | some x => exact h.struct e

omit [FloatValue] in
theorem strs_ok (f : Field) : (o.strs f).ok = true := by
  unfold Out.strs
  cases o.toks f <;> rfl

end Out

theorem captureNumber_again {s src : Str} {v : BigFloat} (h : captureNumber s = some (v, src)) :
    captureNumber src = some (v, src) := by
  simp only [captureNumber, Option.map_eq_some_iff, Prod.mk.injEq] at h
  obtain ⟨f, h, rfl, rfl⟩ := h
  simp [captureNumber, C33_stable, h]

set_option linter.unusedSimpArgs false in
theorem build_fits {k : Kind} {o : Out} (ho : o.Fits) {m : Meta} {x : Node k} (hb : build m o k = some x) :
    x.everywhere Node.fits = true ∧ x.isStruct = true := by
  cases k
  case value =>
    simp only [build, Option.bind_eq_bind, Option.pure_def] at hb
    have hb' : ∀ b : Node (.ptr .valueBool), b = (match o.toks .bool with
        | [] => .nil
        | t :: _ => .ref (.valueBool noPos (t = c!"true"))) → b.everywhere Node.fits = true := by
      rintro b rfl
      cases o.toks .bool <;> rfl
    have hb' := hb' _ rfl
    cases e : o.toks .number with
    | nil =>
      rw [e] at hb
      cases hb
      refine ⟨?_, rfl⟩
      simp only [Node.everywhere, Node.fits, Node.filled, Node.sourced, Bool.and_eq_true, ho.ptr, and_true]
      exact ⟨trivial, hb'⟩
    | cons t l =>
      rw [e] at hb
      simp only [Option.bind_eq_some_iff] at hb
      obtain ⟨⟨f, src⟩, hc, n, hn, hb⟩ := hb
      cases hn
      cases hb
      refine ⟨?_, rfl⟩
      simp only [Node.everywhere, Node.fits, Node.filled, Node.sourced, Bool.and_eq_true, ho.ptr, and_true, Node.isStruct]
      exact ⟨⟨trivial, hb'⟩, by simp [captureNumber_again hc]⟩
  case heredoc =>
    simp only [build, Option.bind_eq_bind, Option.bind_eq_some_iff, Option.pure_def] at hb
    obtain ⟨y, -, hb⟩ := hb
    cases hb
    exact ⟨by simp [Node.everywhere, Node.fits, Node.filled, Node.sourced, ho.slice], rfl⟩
  case valueBool => cases hb
  case valueNumber => cases hb
  case ptr => cases hb
  case slice => cases hb
  case items => cases hb
  all_goals
    simp only [build, Option.bind_eq_bind, Option.bind_eq_some_iff, Option.pure_def, reduceCtorEq] at hb
    try
      obtain ⟨y, hy, hb⟩ := hb
      have hy := ho.struct hy
    cases hb
    refine ⟨?_, rfl⟩
    simp only [Node.everywhere, Node.fits, Node.filled, Node.sourced, Bool.and_eq_true, ho.ptr, ho.slice, ho.expr, ho.parameterType,
      Out.strs_ok, and_true, *]

theorem Derives.fits {g : Gram} {s : List Token} {o : Out} (h : Derives g s o) : o.Fits := by
  induction h with
  | lit | tok | skip | nil => intro f k x hx; cases hx
  | seq _ _ iha ihb | cons _ _ iha ihb | plus _ _ iha ihb =>
    intro f k x hx
    rcases List.mem_append.mp hx with hx | hx
    · exact iha _ _ _ hx
    · exact ihb _ _ _ hx
  | altL _ ih | altR _ ih | once _ ih => exact ih
  | cap _ ih => intro f k x hx; simp at hx
  | sub hd hb _ ih =>
    intro f k x hx
    simp only [List.mem_singleton, Capture.node.injEq] at hx
    obtain ⟨rfl, rfl, hx⟩ := hx
    cases hx
    exact build_fits ih hb

theorem parseTokens_fits {eof : Position} {s : List Token} {x : Node (.slice .rootItem)} (h : parseTokens eof s = some x) :
    x.everywhere Node.fits = true := by
  obtain ⟨o, hd, rfl⟩ := parseTokens_derives h
  exact hd.fits.slice _ _

end Verif.Etx
