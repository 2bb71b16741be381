import Verif.Etx.ParserLemmas
import Verif.Etx.Tree

/-!
# Documents without blank lines

`Node.still` drops the items that stand for blank lines, everywhere in a document, and the line ends in comments; positions,
addresses and parents are erased.  What a struct is built from may differ in the same way without changing the struct more than
that (`build_still`).
-/

namespace Verif.Etx

/-- A text without line ends. -/
def unbroken (s : Str) : Str := s.filter fun c => c ≠ '\n' && c ≠ '\r'

/-- The field `EmptyLine` of an item, as far as it matters: whether it is set. -/
def stillGap (s : Str) : Str := if s = [] then [] else ['\n']

/-- Comment lines without line ends. -/
def stillStrs : Strs → Strs
  | .nil => .nil
  | .mk _ l => .mk 0 (l.map unbroken)

/-- A slice; a slice without elements is nil. -/
def stillSlice {k : Kind} : Node (.items k) → Node (.slice k)
  | .empty => .nilSlice
  | .cons x xs => .mkSlice 0 (.cons x xs)

namespace Node

/-- The field `EmptyLine` of an item: set for a blank line. -/
def gap : {k : Kind} → Node k → Str
  | _, .rootItem _ e _ _ _ _ _ _ => e
  | _, .blockItem _ e _ _ _ => e
  | _, .funcStatement _ e _ _ _ => e
  | _, .typeEnumItem _ e _ _ _ => e
  | _, .typeObjectItem _ e _ _ _ => e
  | _, .listItem _ e _ _ => e
  | _, .mapItem _ e _ _ _ => e
  | _, .ref x => x.gap
  | _, _ => []

/-- See above. -/
def still : {k : Kind} → Node k → Node k
  | _, .rootItem _ s1 x1 x2 x3 x4 x5 x6 => .rootItem noPos (stillGap s1) (x1.still) (x2.still) (x3.still) (x4.still) (x5.still) (x6.still)
  | _, .parameterType _ x1 x2 => .parameterType noPos (x1.still) (x2.still)
  | _, .funcSignature _ x1 x2 => .funcSignature noPos (x1.still) (x2.still)
  | _, .ident _ s1 => .ident noPos (s1.map fun _ => 0)
  | _, .comment _ s1 s2 => .comment noPos (stillStrs s1) (unbroken s2)
  | _, .attr _ s1 x1 => .attr noPos s1 (x1.still)
  | _, .block _ s1 s2 x1 => .block noPos s1 (s2.map fun _ => 0) (x1.still)
  | _, .blockItem _ s1 x1 x2 x3 => .blockItem noPos (stillGap s1) (x1.still) (x2.still) (x3.still)
  | _, .decl _ s1 s2 x1 x2 => .decl noPos s1 s2 (x1.still) (x2.still)
  | _, .lambda _ x1 x2 x3 => .lambda noPos (x1.still) (x2.still) (x3.still)
  | _, .lambdaParameter _ s1 x1 => .lambdaParameter noPos s1 (x1.still)
  | _, .func _ s1 x1 x2 x3 => .func noPos s1 (x1.still) (x2.still) (x3.still)
  | _, .funcParameter _ s1 x1 => .funcParameter noPos s1 (x1.still)
  | _, .funcStatement _ s1 x1 x2 x3 => .funcStatement noPos (stillGap s1) (x1.still) (x2.still) (x3.still)
  | _, .funcDecl _ s1 s2 x1 x2 => .funcDecl noPos s1 s2 (x1.still) (x2.still)
  | _, .type _ s1 x1 x2 => .type noPos s1 (x1.still) (x2.still)
  | _, .typeEnum _ x1 => .typeEnum noPos (x1.still)
  | _, .typeEnumItem _ s1 x1 s2 x2 => .typeEnumItem noPos (stillGap s1) (x1.still) s2 (x2.still)
  | _, .typeObject _ x1 => .typeObject noPos (x1.still)
  | _, .typeObjectItem _ s1 x1 s2 x2 => .typeObjectItem noPos (stillGap s1) (x1.still) s2 (x2.still)
  | _, .value _ s1 x1 x2 x3 x4 x5 x6 => .value noPos s1 (x1.still) (x2.still) (x3.still) (x4.still) (x5.still) (x6.still)
  | _, .valueBool _ s1 => .valueBool noPos s1
  | _, .valueNumber _ s1 s2 => .valueNumber noPos (mapFloat (fun _ => 0) s1) s2
  | _, .heredoc _ s1 s2 x1 => .heredoc noPos s1 s2 (x1.still)
  | _, .heredocFragment _ x1 x2 s1 => .heredocFragment noPos (x1.still) (x2.still) s1
  | _, .valueString _ x1 => .valueString noPos (x1.still)
  | _, .stringFragment _ s1 s2 x1 x2 s3 => .stringFragment noPos s1 s2 (x1.still) (x2.still) s3
  | _, .valueList _ x1 => .valueList noPos (x1.still)
  | _, .listItem _ s1 x1 x2 => .listItem noPos (stillGap s1) (x1.still) (x2.still)
  | _, .valueMap _ x1 => .valueMap noPos (x1.still)
  | _, .mapItem _ s1 x1 x2 x3 => .mapItem noPos (stillGap s1) (x1.still) (x2.still) (x3.still)
  | _, .mapKey _ x1 x2 => .mapKey noPos (x1.still) (x2.still)
  | _, .expr _ x1 x2 x3 => .expr noPos (x1.still) (x2.still) (x3.still)
  | _, .exprIf _ x1 x2 x3 => .exprIf noPos (x1.still) (x2.still) (x3.still)
  | _, .exprSwitch _ x1 x2 => .exprSwitch noPos (x1.still) (x2.still)
  | _, .exprCase _ x1 s1 x2 => .exprCase noPos (x1.still) s1 (x2.still)
  | _, .conditional _ x1 s1 x2 x3 => .conditional noPos (x1.still) s1 (x2.still) (x3.still)
  | _, .bin l _ x1 s1 x2 => .bin l noPos (x1.still) s1 (x2.still)
  | _, .unary _ s1 x1 => .unary noPos s1 (x1.still)
  | _, .postfixE _ x1 x2 x3 => .postfixE noPos (x1.still) (x2.still) (x3.still)
  | _, .primary _ x1 x2 x3 x4 x5 => .primary noPos (x1.still) (x2.still) (x3.still) (x4.still) (x5.still)
  | _, .invocation _ x1 => .invocation noPos (x1.still)
  | _, .nil => .nil
  | _, .ref x1 => .ref (x1.still)
  | _, .nilSlice => .nilSlice
  | _, .mkSlice _ x1 => stillSlice x1.still
  | _, .empty => .empty
  | _, .cons x1 x2 => if x1.gap = [] then .cons x1.still x2.still else x2.still

theorem gap_map (fm : Meta → Meta) (fa : Nat → Nat) {k : Kind} (x : Node k) : (x.map fm fa).gap = x.gap := by
  induction x <;> first | rfl | assumption

theorem stillStrs_map (fa : Nat → Nat) (x : Strs) : stillStrs (x.map fa) = stillStrs x := by cases x <;> rfl

theorem strs_map_map (fa : Nat → Nat) (x : Strs) : (x.map fa).map (fun _ => 0) = x.map fun _ => 0 := by cases x <;> rfl

theorem mapFloat_map (fa : Nat → Nat) (x : Option (Nat × BigFloat)) :
    mapFloat (fun _ => 0) (mapFloat fa x) = mapFloat (fun _ => 0) x := by
  cases x <;> rfl

/-- Positions, addresses and parents do not matter. -/
theorem still_map (fm : Meta → Meta) (fa : Nat → Nat) {k : Kind} (x : Node k) : (x.map fm fa).still = x.still := by
  induction x <;> simp only [map, still, stillStrs_map, strs_map_map, mapFloat_map, gap_map, *]

/-- A blank line is one in both. -/
theorem gap_still {k : Kind} (x : Node k) : x.still.gap = [] ↔ x.gap = [] := by
  induction x
  case ref ih => exact ih
  case mkSlice xs _ =>
    simp only [still]
    cases xs.still <;> exact Iff.rfl
  case cons x xs _ _ =>
    simp only [still]
    split
    · exact Iff.rfl
    · cases xs.still <;> exact Iff.rfl
  all_goals first
    | exact Iff.rfl
    | (simp only [still, gap, stillGap]; split <;> simp_all)

end Node

open Node

/-! ## Captures that differ in blank lines only -/

/-- Captures that differ in blank lines only. -/
structure Out.Like (o o' : Out) : Prop where
  toks : ∀ f, f ≠ .emptyLine → o.toks f = o'.toks f
  gap : o.str .emptyLine = [] ↔ o'.str .emptyLine = []
  nodes : ∀ f k, ((o.nodes f k).map still).filter (fun x => x.gap = []) = ((o'.nodes f k).map still).filter (fun x => x.gap = [])

namespace Out

theorem toks_append (a b : Out) (f : Field) : (a ++ b).toks f = a.toks f ++ b.toks f := List.flatMap_append
theorem nodes_append (a b : Out) (f : Field) (k : Kind) : (a ++ b).nodes f k = a.nodes f k ++ b.nodes f k := List.flatMap_append

theorem str_append' (a b : Out) (f : Field) : (a ++ b).str f = a.str f ++ b.str f := by
  simp only [Out.str, toks_append, List.flatten_append]

namespace Like

theorem refl (o : Out) : o.Like o := ⟨fun _ _ => rfl, Iff.rfl, fun _ _ => rfl⟩

theorem append {a a' b b' : Out} (ha : a.Like a') (hb : b.Like b') : (a ++ b).Like (a' ++ b') where
  toks f hf := by rw [toks_append, toks_append, ha.toks f hf, hb.toks f hf]
  gap := by simp only [str_append', List.append_eq_nil_iff, ha.gap, hb.gap]
  nodes f k := by simp only [nodes_append, List.map_append, List.filter_append, ha.nodes, hb.nodes]

variable {o o' : Out} (h : o.Like o')
include h

theorem str {f : Field} (hf : f ≠ .emptyLine) : o.str f = o'.str f := by rw [Out.str, Out.str, h.toks f hf]
theorem strs {f : Field} (hf : f ≠ .emptyLine) : o.strs f = o'.strs f := by rw [Out.strs, Out.strs, h.toks f hf]
theorem flag {f : Field} (hf : f ≠ .emptyLine) : o.flag f = o'.flag f := by rw [Out.flag, Out.flag, h.toks f hf]

theorem stillGap : stillGap (o.str .emptyLine) = stillGap (o'.str .emptyLine) := by
  unfold Verif.Etx.stillGap
  have := h.gap
  split <;> rename_i e
  · rw [if_pos (this.mp e)]
  · rw [if_neg (fun e' => e (this.mpr e'))]

end Like

/-- The kinds without blank lines among them. -/
def _root_.Verif.Etx.Kind.gapless : Kind → Bool
  | .rootItem | .blockItem | .funcStatement | .typeEnumItem | .typeObjectItem | .listItem | .mapItem | .ptr _ => false
  | _ => true

theorem _root_.Verif.Etx.Node.gap_struct {k : Kind} (x : Node k) (hk : k.gapless = true) : x.gap = [] := by
  cases x <;> first | rfl | cases hk

namespace Like

variable {o o' : Out} (h : o.Like o')
include h

theorem nodes_map (f : Field) (k : Kind) (hk : k.gapless = true) :
    (o.nodes f k).map still = (o'.nodes f k).map still := by
  have e (l : List (Node k)) : l.filter (fun x => x.gap = []) = l :=
    List.filter_eq_self.mpr fun x _ => by simp [x.gap_struct hk]
  have := h.nodes f k
  rwa [e, e] at this

theorem ptr (f : Field) {k : Kind} (hk : k.gapless = true) : (o.ptr f (k := k)).still = (o'.ptr f).still := by
  have := h.nodes_map f k hk
  unfold Out.ptr
  cases e : o.nodes f k <;> cases e' : o'.nodes f k <;> simp_all [still]

theorem struct (f : Field) {k : Kind} (hk : k.gapless = true) :
    (o.struct f (k := k)).map still = (o'.struct f).map still := by
  have := h.nodes_map f k hk
  unfold Out.struct
  cases e : o.nodes f k <;> cases e' : o'.nodes f k <;> simp_all

omit h in
theorem items_still {k : Kind} (l : List (Node k)) : (items l).still = items ((l.map still).filter fun x => x.gap = []) := by
  induction l with
  | nil => rfl
  | cons x l ih =>
    have e : (Node.ref x).gap = x.gap := rfl
    simp only [items, still, e, List.map_cons, List.filter_cons, gap_still, decide_eq_true_eq, ih]
    split <;> rfl

omit h in
theorem slice_still (o : Out) (f : Field) {k : Kind} :
    (o.slice f (k := k)).still = stillSlice (items (((o.nodes f k).map still).filter fun x => x.gap = [])) := by
  unfold Out.slice
  cases o.nodes f k with
  | nil => rfl
  | cons x l => simp only [still, items_still]

theorem slice (f : Field) {k : Kind} : (o.slice f (k := k)).still = (o'.slice f).still := by
  rw [slice_still, slice_still, h.nodes]

end Like

end Out

variable [FloatValue]

set_option linter.unusedSimpArgs false in
theorem build_still {o o' : Out} (h : o.Like o') (m m' : Meta) (k : Kind) :
    (build m o k).map still = (build m' o' k).map still := by
  have hp {f : Field} {k : Kind} (hk : k.gapless = true) := h.ptr f hk
  cases k
  case value =>
    simp only [build, h.toks .bool (by decide), h.toks .number (by decide), h.flag (f := .null) (by decide)]
    cases o'.toks .number with
    | nil =>
      simp only [Option.pure_def, Option.bind_eq_bind, Option.bind_some, Option.map_some, still]
      rw [h.ptr .str rfl, h.ptr .heredoc rfl, h.ptr .list rfl, h.ptr .map rfl]
    | cons t l =>
      simp only [Option.pure_def, Option.bind_eq_bind, Option.bind_some]
      cases captureNumber t with
      | none => rfl
      | some c =>
        simp only [Option.bind_some, Option.map_some, still, mapFloat]
        rw [h.ptr .str rfl, h.ptr .heredoc rfl, h.ptr .list rfl, h.ptr .map rfl]
  case heredoc =>
    simp only [build, h.str (f := .delimiter) (by decide)]
    cases captureDelimiter (o'.str .delimiter) with
    | none => rfl
    | some c => simp only [Option.pure_def, Option.bind_eq_bind, Option.bind_some, Option.map_some, still, h.slice]
  case typeEnumItem =>
    have hs := h.struct .value (k := .expr) rfl
    simp only [build, Option.map_some, still, h.stillGap, h.ptr .comment (k := .comment) rfl,
      h.str (f := .label) (by decide)]
    cases e : o.struct .value (k := .expr) <;> cases e' : o'.struct .value (k := .expr) <;> simp_all
  case typeObjectItem =>
    have hs := h.struct .type (k := .parameterType) rfl
    simp only [build, Option.map_some, still, h.stillGap, h.ptr .comment (k := .comment) rfl,
      h.str (f := .label) (by decide)]
    cases e : o.struct .type (k := .parameterType) <;> cases e' : o'.struct .type (k := .parameterType) <;> simp_all
  case funcSignature =>
    have hs := h.struct .ret (k := .parameterType) rfl
    simp only [build]
    cases e : o.struct .ret (k := .parameterType) <;> cases e' : o'.struct .ret (k := .parameterType) <;>
      simp_all [still, h.slice .parameters (k := .parameterType)]
  case lambda =>
    have hs := h.struct .expr (k := .expr) rfl
    have h1 := h.ptr .comment (k := .comment) rfl
    have h2 := h.slice .parameters (k := .lambdaParameter)
    simp only [build]
    cases e : o.struct .expr (k := .expr) <;> cases e' : o'.struct .expr (k := .expr) <;> simp_all [still]
  case exprIf =>
    have hs := h.struct .condition (k := .bin .logicalOr) rfl
    have h1 := h.ptr .left (k := .expr) rfl
    have h2 := h.ptr .right (k := .expr) rfl
    simp only [build]
    cases e : o.struct .condition (k := .bin .logicalOr) <;> cases e' : o'.struct .condition (k := .bin .logicalOr) <;>
      simp_all [still]
  case exprSwitch =>
    have hs := h.struct .selector (k := .bin .logicalOr) rfl
    have h2 := h.slice .cases (k := .exprCase)
    simp only [build]
    cases e : o.struct .selector (k := .bin .logicalOr) <;> cases e' : o'.struct .selector (k := .bin .logicalOr) <;>
      simp_all [still]
  case conditional =>
    have hs := h.struct .condition (k := .bin .logicalOr) rfl
    have h1 := h.ptr .trueExpr (k := .expr) rfl
    have h2 := h.ptr .falseExpr (k := .expr) rfl
    simp only [build, h.flag (f := .conditionOp) (by decide)]
    cases e : o.struct .condition (k := .bin .logicalOr) <;> cases e' : o'.struct .condition (k := .bin .logicalOr) <;>
      simp_all [still]
  case bin l =>
    have hs := h.struct .left (k := l.operand) (by cases l <;> rfl)
    have h1 := h.ptr .right (k := .bin l) rfl
    simp only [build, h.str (f := .op) (by decide)]
    cases e : o.struct .left (k := l.operand) <;> cases e' : o'.struct .left (k := l.operand) <;> simp_all [still]
  case unary =>
    have hs := h.struct .right (k := .postfixE) rfl
    simp only [build, h.str (f := .op) (by decide)]
    cases e : o.struct .right (k := .postfixE) <;> cases e' : o'.struct .right (k := .postfixE) <;> simp_all [still]
  case postfixE =>
    have hs := h.struct .value (k := .primary) rfl
    have h1 := h.ptr .index (k := .expr) rfl
    have h2 := h.ptr .post (k := .postfixE) rfl
    simp only [build]
    cases e : o.struct .value (k := .primary) <;> cases e' : o'.struct .value (k := .primary) <;> simp_all [still]
  all_goals
    simp only [build, Option.map_some, Option.map_none, still, h.stillGap, h.slice]
    try simp (discharger := first | rfl | decide) only [h.str, h.strs, h.flag, hp]

end Verif.Etx
