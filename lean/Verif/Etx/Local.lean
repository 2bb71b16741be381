import Verif.Etx.Shape
import Verif.Etx.ParseDoc

/-!
# Properties of all structs of a parsed document

A property that every struct has that is built from what its production captured holds everywhere in a document.
-/

namespace Verif.Etx
open Node

variable [FloatValue]

/-- A property of structs that are parsed by a production; it says nothing about the rest. -/
structure OfStructs (P : {k : Kind} → Node k → Bool) : Prop where
  nil : ∀ k, P (.nil : Node (.ptr k)) = true
  ref : ∀ k (x : Node k), P (.ref x) = true
  nilSlice : ∀ k, P (.nilSlice : Node (.slice k)) = true
  mkSlice : ∀ k a (x : Node (.items k)), P (.mkSlice a x) = true
  empty : ∀ k, P (.empty : Node (.items k)) = true
  cons : ∀ k (x : Node (.ptr k)) (y : Node (.items k)), P (.cons x y) = true
  valueBool : ∀ b, P (.valueBool noPos b) = true
  valueNumber : ∀ v s, P (.valueNumber noPos v s) = true
  zeroExpr : P zeroExpr = true
  zeroParameterType : P zeroParameterType = true

/-- The captured structs and everything inside them have the property. -/
def Out.All (P : {k : Kind} → Node k → Bool) (o : Out) : Prop :=
  ∀ f k (x : Node k), Capture.node f k x ∈ o.caps → x.everywhere P = true

namespace Out

variable {P : {k : Kind} → Node k → Bool} {o : Out}

omit [FloatValue] in
theorem All.ptr (hP : OfStructs P) (h : o.All P) (f : Field) (k : Kind) : (o.ptr f (k := k)).everywhere P = true := by
  unfold Out.ptr
  have hm := fun x => mem_nodes (o := o) (f := f) (k := k) (x := x)
  cases e : o.nodes f k with
  | nil => exact hP.nil k
  | cons x l =>
    have := h _ _ _ (hm x (by simp [e]))
    simp [Node.everywhere, hP.ref, this]

omit [FloatValue] in
theorem All.slice (hP : OfStructs P) (h : o.All P) (f : Field) (k : Kind) : (o.slice f (k := k)).everywhere P = true := by
  unfold Out.slice
  have hm := fun x => mem_nodes (o := o) (f := f) (k := k) (x := x)
  have items : ∀ l : List (Node k), (∀ x ∈ l, x.everywhere P = true) → (items l).everywhere P = true := by
    intro l hl
    induction l with
    | nil => exact hP.empty k
    | cons x l ih =>
      have hx := hl x (by simp)
      have hl := ih (fun y hy => hl y (by simp [hy]))
      simp [Out.items, Node.everywhere, hP.cons, hP.ref, hx, hl]
  cases e : o.nodes f k with
  | nil => exact hP.nilSlice k
  | cons x l =>
    have := items (x :: l) (fun y hy => h _ _ _ (hm y (by simpa [e] using hy)))
    simp [Node.everywhere, hP.mkSlice, this]

omit [FloatValue] in
theorem All.struct (h : o.All P) {f : Field} {k : Kind} {x : Node k} (hx : o.struct f = some x) : x.everywhere P = true :=
  h _ _ _ (mem_nodes (List.mem_of_head? hx))

omit [FloatValue] in
theorem All.expr (hP : OfStructs P) (h : o.All P) (f : Field) : ((o.struct f).getD zeroExpr).everywhere P = true := by
  cases e : o.struct f (k := .expr) with
  | none =>
    have := hP.zeroExpr
    simp only [Verif.Etx.zeroExpr] at this
    simp [Verif.Etx.zeroExpr, Node.everywhere, hP.nil, this]
  | some x => exact h.struct e

omit [FloatValue] in
theorem All.parameterType (hP : OfStructs P) (h : o.All P) (f : Field) :
    ((o.struct f).getD zeroParameterType).everywhere P = true := by
  cases e : o.struct f (k := .parameterType) with
  | none =>
    have := hP.zeroParameterType
    simp only [Verif.Etx.zeroParameterType] at this
    simp [Verif.Etx.zeroParameterType, Node.everywhere, hP.nil, this]
  | some x => exact h.struct e

end Out

variable {P : {k : Kind} → Node k → Bool}

set_option linter.unusedSimpArgs false in
theorem build_everywhere (hP : OfStructs P) {o : Out} (ho : o.All P) {k : Kind} {m : Meta} {x : Node k}
    (hb : build m o k = some x) (hx : P x = true) : x.everywhere P = true := by
  cases k
  case value =>
    simp only [build, Option.bind_eq_bind, Option.pure_def] at hb
    cases e : o.toks .number with
    | nil =>
      cases e' : o.toks .bool <;>
        (rw [e, e'] at hb
         cases hb
         simp [Node.everywhere, hP.nil, hP.ref, hP.valueBool, hx, ho.ptr hP])
    | cons t l =>
      cases e' : o.toks .bool <;>
        (rw [e, e'] at hb
         simp only [Option.bind_eq_some_iff] at hb
         obtain ⟨⟨f, src⟩, hc, n, hn, hb⟩ := hb
         cases hn
         cases hb
         simp [Node.everywhere, hP.nil, hP.ref, hP.valueBool, hP.valueNumber, hx, ho.ptr hP])
  case heredoc =>
    simp only [build, Option.bind_eq_bind, Option.bind_eq_some_iff, Option.pure_def] at hb
    obtain ⟨⟨tabs, d⟩, hy, hb⟩ := hb
    cases hb
    simp [Node.everywhere, hx, ho.slice hP]
  case valueBool => cases hb
  case valueNumber => cases hb
  case ptr => cases hb
  case slice => cases hb
  case items => cases hb
  all_goals
    simp only [build, Option.bind_eq_bind, Option.bind_eq_some_iff, Option.pure_def, reduceCtorEq] at hb
    try
      obtain ⟨y, hy, hb⟩ := hb
      have hy := ho.struct hy
    cases hb
    simp only [Node.everywhere, Bool.and_eq_true, ho.ptr hP, ho.slice hP, ho.expr hP, ho.parameterType hP, hx, and_true, true_and, *]

/-- Every struct built from tokens with `Q` has the property, so all captured structs have it everywhere. -/
theorem Derives.all {Q : Token → Prop} (hP : OfStructs P)
    (hl : ∀ {k : Kind} {s : List Token} {o : Out} {m : Meta} {x : Node k}, Derives (Gram.of k) s o → (∀ t ∈ s, Q t) →
      o.All P → build m o k = some x → P x = true)
    {g : Gram} {s : List Token} {o : Out} (h : Derives g s o) (hs : ∀ t ∈ s, Q t) : o.All P := by
  induction h with
  | lit | tok | skip | nil => intro f k x hx; cases hx
  | seq _ _ iha ihb | cons _ _ iha ihb | plus _ _ iha ihb =>
    have ha := iha (fun t ht => hs t (by simp [ht]))
    have hb := ihb (fun t ht => hs t (by simp [ht]))
    intro f k x hx
    rcases List.mem_append.mp hx with hx | hx
    · exact ha _ _ _ hx
    · exact hb _ _ _ hx
  | altL _ ih | altR _ ih | once _ ih => exact ih hs
  | cap _ ih => intro f k x hx; simp at hx
  | sub hd hb hpos ih =>
    intro f k x hx
    simp only [List.mem_singleton, Capture.node.injEq] at hx
    obtain ⟨rfl, rfl, hx⟩ := hx
    cases hx
    exact build_everywhere hP (ih hs) hb (hl hd hs (ih hs) hb)

/-- The same for the whole document. -/
theorem parseTokens_all {Q : Token → Prop} (hP : OfStructs P)
    (hl : ∀ {k : Kind} {s : List Token} {o : Out} {m : Meta} {x : Node k}, Derives (Gram.of k) s o → (∀ t ∈ s, Q t) →
      o.All P → build m o k = some x → P x = true)
    {eof : Position} {s : List Token} {x : Node (.slice .rootItem)} (h : parseTokens eof s = some x) (hs : ∀ t ∈ s, Q t) :
    x.everywhere P = true := by
  obtain ⟨o, hd, rfl⟩ := parseTokens_derives h
  exact (hd.all hP hl hs).slice hP _ _

end Verif.Etx
