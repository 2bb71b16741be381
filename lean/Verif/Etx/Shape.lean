import Verif.Etx.Derive
import Verif.Etx.Format
import Verif.Etx.RegexLemmas
import Mathlib.Tactic.Tauto
import Mathlib.Data.List.Basic

/-!
# The shape of parsed structs

Which fields of a parsed struct can be set together: the sets of fields that a derivation of a production captures
are computed from the production.
-/

namespace Verif.Etx

/-- A field, with the kind of the nodes captured into it (`none`: tokens). -/
abbrev Slot := Field × Option Kind

/-- Something was captured into the slot. -/
def Out.has (o : Out) : Slot → Bool
  | (f, none) => !(o.toks f).isEmpty
  | (f, some k) => !(o.nodes f k).isEmpty

namespace Gram

/-- The union of any number of the sets. -/
def unions : List (List Slot) → List (List Slot)
  | [] => [[]]
  | p :: ps => unions ps ++ (unions ps).map (p ++ ·)

/-- The possible sets of slots captured by a production. -/
def profiles : Gram → List (List Slot)
  | lit _ => [[]]
  | tok _ => [[]]
  | seq a b => a.profiles.flatMap fun p => b.profiles.map (p ++ ·)
  | alt a b => a.profiles ++ b.profiles
  | opt a => [] :: a.profiles
  | star a => unions a.profiles
  | plus a => a.profiles.flatMap fun p => (unions a.profiles).map (p ++ ·)
  | cap f _ => [[(f, none)]]
  | sub f k => [[(f, some k)]]

/-- A production that always reads a token. -/
def reads : Gram → Bool
  | lit _ => true
  | tok _ => true
  | seq a b => a.reads || b.reads
  | alt a b => a.reads && b.reads
  | opt _ => false
  | star _ => false
  | plus a => a.reads
  | cap _ a => a.reads
  | sub _ _ => false

/-- Every capture of tokens captures at least one. -/
def capsRead : Gram → Bool
  | lit _ => true
  | tok _ => true
  | seq a b => a.capsRead && b.capsRead
  | alt a b => a.capsRead && b.capsRead
  | opt a => a.capsRead
  | star a => a.capsRead
  | plus a => a.capsRead
  | cap _ a => a.reads
  | sub _ _ => true

theorem capsRead_of (k : Kind) : (of k).capsRead = true := by
  cases k
  case bin l => cases l <;> rfl
  all_goals rfl

theorem mem_unions {p : List Slot} {ps : List (List Slot)} (hp : p ∈ ps) {q : List Slot} (hq : q ∈ unions ps) :
    ∃ r ∈ unions ps, ∀ sl, sl ∈ r ↔ sl ∈ p ∨ sl ∈ q := by
  induction ps generalizing q with
  | nil => cases hp
  | cons p' ps ih =>
    simp only [unions, List.mem_append, List.mem_map] at hq ⊢
    rcases List.mem_cons.mp hp with rfl | hp
    · rcases hq with hq | ⟨q', hq', rfl⟩
      · exact ⟨p ++ q, .inr ⟨q, hq, rfl⟩, fun sl => by simp⟩
      · exact ⟨p ++ q', .inr ⟨q', hq', rfl⟩, fun sl => by simp⟩
    · rcases hq with hq | ⟨q', hq', rfl⟩
      · obtain ⟨r, hr, h⟩ := ih hp hq
        exact ⟨r, .inl hr, h⟩
      · obtain ⟨r, hr, h⟩ := ih hp hq'
        refine ⟨p' ++ r, .inr ⟨r, hr, rfl⟩, fun sl => ?_⟩
        simp only [List.mem_append, h]
        tauto

theorem nil_mem_unions (ps : List (List Slot)) : [] ∈ unions ps := by
  induction ps with
  | nil => simp [unions]
  | cons p ps ih => simp [unions, ih]

end Gram

@[simp] theorem Out.has_append (a b : Out) (sl : Slot) : (a ++ b).has sl = (a.has sl || b.has sl) := by
  obtain ⟨f, _ | k⟩ := sl
  · show (!((a ++ b).toks f).isEmpty) = (!(a.toks f).isEmpty || !(b.toks f).isEmpty)
    rw [Out.toks_append]
    cases a.toks f <;> rfl
  · show (!((a ++ b).nodes f k).isEmpty) = (!(a.nodes f k).isEmpty || !(b.nodes f k).isEmpty)
    rw [Out.nodes_append]
    cases a.nodes f k <;> rfl

variable [FloatValue]

theorem Derives.reads {g : Gram} {s : List Token} {o : Out} (h : Derives g s o) (hg : g.reads = true) : o.txt ≠ [] := by
  induction h with
  | lit => simp
  | tok => simp
  | seq _ _ iha ihb =>
    simp only [Gram.reads, Bool.or_eq_true] at hg
    simp only [Out.txt_append, ne_eq, List.append_eq_nil_iff, not_and_or]
    rcases hg with hg | hg
    · exact .inl (iha hg)
    · exact .inr (ihb hg)
  | altL _ ih => simp only [Gram.reads, Bool.and_eq_true] at hg; exact ih hg.1
  | altR _ ih => simp only [Gram.reads, Bool.and_eq_true] at hg; exact ih hg.2
  | skip => cases hg
  | once _ _ => cases hg
  | nil => cases hg
  | cons _ _ _ _ => cases hg
  | plus _ _ iha _ =>
    simp only [Out.txt_append, ne_eq, List.append_eq_nil_iff, not_and_or]
    exact .inl (iha hg)
  | cap _ ih => exact ih hg
  | sub _ _ _ _ => cases hg

/-- What a derivation captures is one of the computed sets. -/
theorem Derives.profile {g : Gram} {s : List Token} {o : Out} (h : Derives g s o) (hg : g.capsRead = true) :
    ∃ p ∈ g.profiles, ∀ sl, o.has sl = decide (sl ∈ p) := by
  induction h with
  | lit => exact ⟨[], by simp [Gram.profiles], fun sl => by obtain ⟨f, _ | k⟩ := sl <;> rfl⟩
  | tok => exact ⟨[], by simp [Gram.profiles], fun sl => by obtain ⟨f, _ | k⟩ := sl <;> rfl⟩
  | seq _ _ iha ihb =>
    simp only [Gram.capsRead, Bool.and_eq_true] at hg
    obtain ⟨p, hp, h⟩ := iha hg.1
    obtain ⟨q, hq, h'⟩ := ihb hg.2
    exact ⟨p ++ q, List.mem_flatMap.mpr ⟨p, hp, List.mem_map.mpr ⟨q, hq, rfl⟩⟩, fun sl => by simp [h, h']⟩
  | altL _ ih =>
    simp only [Gram.capsRead, Bool.and_eq_true] at hg
    obtain ⟨p, hp, h⟩ := ih hg.1
    exact ⟨p, List.mem_append_left _ hp, h⟩
  | altR _ ih =>
    simp only [Gram.capsRead, Bool.and_eq_true] at hg
    obtain ⟨p, hp, h⟩ := ih hg.2
    exact ⟨p, List.mem_append_right _ hp, h⟩
  | skip => exact ⟨[], by simp [Gram.profiles], fun sl => by obtain ⟨f, _ | k⟩ := sl <;> rfl⟩
  | once _ ih =>
    obtain ⟨p, hp, h⟩ := ih hg
    exact ⟨p, List.mem_cons_of_mem _ hp, h⟩
  | nil => exact ⟨[], Gram.nil_mem_unions _, fun sl => by obtain ⟨f, _ | k⟩ := sl <;> rfl⟩
  | cons _ _ iha ihb =>
    obtain ⟨p, hp, h⟩ := iha hg
    obtain ⟨q, hq, h'⟩ := ihb hg
    obtain ⟨r, hr, h''⟩ := Gram.mem_unions hp hq
    exact ⟨r, hr, fun sl => by simp [h, h', h'']⟩
  | plus _ _ iha ihb =>
    obtain ⟨p, hp, h⟩ := iha hg
    obtain ⟨q, hq, h'⟩ := ihb hg
    exact ⟨p ++ q, List.mem_flatMap.mpr ⟨p, hp, List.mem_map.mpr ⟨q, hq, rfl⟩⟩, fun sl => by simp [h, h']⟩
  | @cap f a s o h _ =>
    refine ⟨[(f, none)], by simp [Gram.profiles], fun sl => ?_⟩
    have hr := h.reads hg
    obtain ⟨f', _ | k⟩ := sl
    · by_cases e : f = f'
      · subst e; simp [Out.has, Out.toks, hr]
      · simp [Out.has, Out.toks, e, Ne.symm e]
    · simp [Out.has, Out.nodes]
  | @sub f k s o pos x _ _ _ _ =>
    refine ⟨[(f, some k)], by simp [Gram.profiles], fun sl => ?_⟩
    obtain ⟨f', _ | k'⟩ := sl
    · simp [Out.has, Out.toks]
    · by_cases e : f = f'
      · subst e
        by_cases e : k = k'
        · subst e; simp [Out.has, Out.nodes]
        · simp [Out.has, Out.nodes, e, Ne.symm e]
      · by_cases e' : k = k'
        · subst e'; simp [Out.has, Out.nodes, e, Ne.symm e]
        · simp [Out.has, Out.nodes, e, e', Ne.symm e']

/-! ## Shapes -/

/-- No token has an empty text. -/
def Solid (s : List Token) : Prop := ∀ t ∈ s, t.txt ≠ []

theorem Derives.solid {g : Gram} {s : List Token} {o : Out} (h : Derives g s o) (hs : Solid s) :
    (∀ w ∈ o.txt, w ≠ []) ∧ ∀ f, ∀ w ∈ o.toks f, w ≠ [] := by
  induction h with
  | lit => exact ⟨by simpa [Solid] using hs, by simp [Out.toks]⟩
  | tok => exact ⟨by simpa [Solid] using hs, by simp [Out.toks]⟩
  | seq _ _ iha ihb | cons _ _ iha ihb | plus _ _ iha ihb =>
    have ha := iha (fun t ht => hs t (by simp [ht]))
    have hb := ihb (fun t ht => hs t (by simp [ht]))
    simp only [Out.txt_append, Out.toks_append, List.mem_append]
    exact ⟨fun w hw => hw.elim (ha.1 w) (hb.1 w), fun f w hw => hw.elim (ha.2 f w) (hb.2 f w)⟩
  | altL _ ih | altR _ ih | once _ ih => exact ih hs
  | skip | nil => simp [Out.toks]
  | cap _ ih =>
    refine ⟨(ih hs).1, fun f w hw => ?_⟩
    simp only [Out.toks, List.flatMap_cons, List.flatMap_nil, List.append_nil] at hw
    split at hw
    · exact (ih hs).1 w hw
    · cases hw
  | sub _ _ _ _ => simp [Out.toks]

theorem Out.str_ne {o : Out} {f : Field} (h : ∀ w ∈ o.toks f, w ≠ []) : decide (o.str f ≠ []) = o.has (f, none) := by
  show _ = !(o.toks f).isEmpty
  unfold Out.str
  cases e : o.toks f with
  | nil => rfl
  | cons w l =>
    have hw := h w (by simp [e])
    simp [hw]

theorem Out.list_strs (o : Out) (f : Field) : (o.strs f).list = o.toks f := by
  unfold Out.strs
  split
  · rename_i h; rw [h]; rfl
  · rfl

theorem Out.isRef_ptr (o : Out) (f : Field) (k : Kind) : (o.ptr f (k := k)).isRef = o.has (f, some k) := by
  show _ = !(o.nodes f k).isEmpty
  unfold Out.ptr
  cases o.nodes f k <;> rfl

theorem Out.isNilSlice_slice (o : Out) (f : Field) (k : Kind) : (o.slice f (k := k)).isNilSlice = !o.has (f, some k) := by
  show _ = !!(o.nodes f k).isEmpty
  unfold Out.slice
  cases o.nodes f k <;> rfl

namespace Node

/-- A struct; an `Expr` or `ParameterType` must not be zero. -/
def set : {k : Kind} → Node k → Bool
  | _, .nil => false
  | _, .nilSlice => false
  | _, .mkSlice _ _ => false
  | _, .empty => false
  | _, .cons _ _ => false
  | _, .expr _ left ifE switch => left.isRef || ifE.isRef || switch.isRef
  | _, .parameterType _ ident' func' => ident'.isRef || func'.isRef
  | _, _ => true

/-- Exactly one. -/
def one (l : List Bool) : Bool := l.count true == 1

/-- The fields set in a parsed struct. -/
def shaped : {k : Kind} → Node k → Bool
  | _, .rootItem _ e x1 x2 x3 x4 x5 x6 =>
    one [decide (e ≠ []), x1.isRef, x2.isRef, x3.isRef, x4.isRef, x5.isRef, x6.isRef]
  | _, .parameterType _ x1 x2 => !(x1.isRef && x2.isRef)
  | _, .funcSignature _ _ x2 => x2.set
  | _, .ident _ parts => decide (parts.list ≠ [])
  | _, .comment _ s m => one [decide (s.list ≠ []), decide (m ≠ [])]
  | _, .attr _ key _ => decide (key ≠ [])
  | _, .block _ name _ _ => decide (name ≠ [])
  | _, .blockItem _ e x1 x2 x3 => one [decide (e ≠ []), x1.isRef, x2.isRef, x3.isRef]
  | _, .decl _ t l _ _ => decide (t ≠ []) && decide (l ≠ [])
  | _, .lambda _ _ _ x3 => x3.set
  | _, .lambdaParameter _ l _ => decide (l ≠ [])
  | _, .func _ l _ _ _ => decide (l ≠ [])
  | _, .funcParameter _ l _ => decide (l ≠ [])
  | _, .funcStatement _ e x1 x2 x3 => one [decide (e ≠ []), x1.isRef, x2.isRef, x3.isRef]
  | _, .funcDecl _ t l _ _ => decide (t ≠ []) && decide (l ≠ [])
  | _, .type _ l x1 x2 => decide (l ≠ []) && one [x1.isRef, x2.isRef]
  | _, .typeEnumItem _ e x1 l x2 => one [decide (e ≠ []), x1.isRef, x2.set] && (decide (l ≠ []) == x2.set)
  | _, .typeObjectItem _ e x1 l x2 => one [decide (e ≠ []), x1.isRef, x2.set] && (decide (l ≠ []) == x2.set)
  | _, .value _ n x1 x2 x3 x4 x5 x6 => one [n, x1.isRef, x2.isRef, x3.isRef, x4.isRef, x5.isRef, x6.isRef]
  | _, .valueNumber _ v s => v.isSome && decide (s ≠ [])
  | _, .heredoc _ _ d _ => decide (d ≠ [])
  | _, .heredocFragment _ x1 x2 t => one [x1.isRef, x2.isRef, decide (t ≠ [])]
  | _, .stringFragment _ e u x1 x2 t => one [decide (e ≠ []), decide (u ≠ []), x1.isRef, x2.isRef, decide (t ≠ [])]
  | _, .listItem _ e x1 x2 => one [decide (e ≠ []), x1.isRef, x2.isRef]
  | _, .mapItem _ e x1 x2 x3 => one [decide (e ≠ []), x1.isRef, x3.isRef] && (x1.isRef == x2.isRef)
  | _, .mapKey _ x1 x2 => one [x1.isRef, x2.isRef]
  | _, .expr _ x1 x2 x3 => decide ([x1.isRef, x2.isRef, x3.isRef].count true ≤ 1)
  | _, .exprCase _ x1 d x2 => one [!x1.isNilSlice, d] && x2.isRef
  | _, .conditional _ _ c x1 x2 => (c == x1.isRef) && (c == x2.isRef)
  | _, .bin _ _ _ op x => decide (op ≠ []) == x.isRef
  | _, .primary _ x1 x2 x3 x4 x5 =>
    one [x1.isRef, x2.isRef, x3.isRef] && (x3.isRef || (x4.isNilSlice && !x5.isRef))
  | _, .ref x => x.set
  | _, .mkSlice _ x => decide (x.len ≠ 0)
  | _, .cons x _ => x.isRef
  | _, _ => true

end Node


/-- Every captured node is set and has the shape of a parsed one. -/
def Out.Good (o : Out) : Prop := ∀ f k x, Capture.node f k x ∈ o.caps → x.everywhere Node.shaped = true ∧ x.set = true

namespace Out

variable {o : Out}

omit [FloatValue] in
theorem Good.ptr (h : o.Good) (f : Field) (k : Kind) : (o.ptr f (k := k)).everywhere Node.shaped = true := by
  unfold Out.ptr
  have hm := fun x => mem_nodes (o := o) (f := f) (k := k) (x := x)
  cases e : o.nodes f k with
  | nil => rfl
  | cons x l =>
    have := h _ _ _ (hm x (by simp [e]))
    simp [Node.everywhere, Node.shaped, this]

omit [FloatValue] in
theorem Good.items {k : Kind} {l : List (Node k)} (h : ∀ x ∈ l, x.everywhere Node.shaped = true ∧ x.set = true) :
    (items l).everywhere Node.shaped = true := by
  induction l with
  | nil => rfl
  | cons x l ih =>
    have hx := h x (by simp)
    have hl := ih (fun y hy => h y (by simp [hy]))
    simp [Out.items, Node.everywhere, Node.shaped, Node.isRef, hx, hl]

omit [FloatValue] in
theorem len_items {k : Kind} (l : List (Node k)) : (items l).len = l.length := by
  induction l with
  | nil => rfl
  | cons x l ih => simp [items, Node.len, ih]

omit [FloatValue] in
theorem Good.slice (h : o.Good) (f : Field) (k : Kind) : (o.slice f (k := k)).everywhere Node.shaped = true := by
  unfold Out.slice
  have hm := fun x => mem_nodes (o := o) (f := f) (k := k) (x := x)
  cases e : o.nodes f k with
  | nil => rfl
  | cons x l =>
    have := Good.items (l := x :: l) (fun y hy => h _ _ _ (hm y (by simpa [e] using hy)))
    simp [Node.everywhere, Node.shaped, this, len_items]

omit [FloatValue] in
theorem Good.struct (h : o.Good) {f : Field} {k : Kind} {x : Node k} (hx : o.struct f = some x) :
    x.everywhere Node.shaped = true ∧ x.set = true :=
  h _ _ _ (mem_nodes (List.mem_of_head? hx))

omit [FloatValue] in
theorem Good.expr (h : o.Good) (f : Field) :
    ((o.struct f).getD zeroExpr).everywhere Node.shaped = true ∧
      ((o.struct f).getD zeroExpr).set = o.has (f, some .expr) := by
  show _ ∧ _ = !(o.nodes f .expr).isEmpty
  cases e : o.nodes f .expr with
  | nil => simp [Out.struct, e]; exact ⟨rfl, rfl⟩
  | cons x l =>
    have := h.struct (f := f) (x := x) (by simp [Out.struct, e])
    simp [Out.struct, e, this]

omit [FloatValue] in
theorem Good.parameterType (h : o.Good) (f : Field) :
    ((o.struct f).getD zeroParameterType).everywhere Node.shaped = true ∧
      ((o.struct f).getD zeroParameterType).set = o.has (f, some .parameterType) := by
  show _ ∧ _ = !(o.nodes f .parameterType).isEmpty
  cases e : o.nodes f .parameterType with
  | nil => simp [Out.struct, e]; exact ⟨rfl, rfl⟩
  | cons x l =>
    have := h.struct (f := f) (x := x) (by simp [Out.struct, e])
    simp [Out.struct, e, this]

end Out

theorem captureNumber_ne {s src : Str} {v : BigFloat} (h : captureNumber s = some (v, src)) : src ≠ [] := by
  unfold captureNumber at h
  simp only [Option.map_eq_some_iff, Prod.mk.injEq] at h
  obtain ⟨f, hf, _, rfl⟩ := h
  intro e
  rw [e] at hf
  cases hf

omit [FloatValue] in
open Re in
theorem captureDelimiter_ne {s d : Str} {tabs : Bool} (h : captureDelimiter s = some (tabs, d)) : d ≠ [] := by
  unfold captureDelimiter at h
  split at h
  · cases h
  · rename_i m hm
    cases h
    have hm := List.mem_of_head? hm
    simp only [heredocDelimiter, Re.run, List.mem_flatMap, List.mem_map] at hm
    obtain ⟨m1, h1, m2, ⟨m3, h3, m4, ⟨m5, h5, m6, ⟨m7, ⟨m8, h8, rfl⟩, m9, ⟨m10, h10, m11, h11, rfl⟩, rfl⟩, rfl⟩, rfl⟩, rfl⟩ := hm
    have hc : m10.cap = none := by
      by_cases hp : c!"\n" <+: m8.rest
      · obtain ⟨t, ht⟩ := hp
        rw [← ht, run_lit] at h10
        simp only [List.mem_singleton] at h10
        rw [h10]
      · rw [run_lit_fail _ _ _ hp] at h10
        cases h10
    have hc' : m11.cap = none := by
      revert h11
      cases m10.rest <;> simp [Re.run, Match.nothing]
      rintro rfl
      rfl
    have hn := (run_start _ _ _ _ h8).1
    simp only [Match.andThen, hc, hc', Option.none_or, Option.some_or, Option.or_some, Option.getD_some]
    intro h
    have := hn h
    simp [nullable, plus] at this

set_option linter.unusedSimpArgs false in
theorem build_shaped {k : Kind} {s : List Token} {o : Out} (hd : Derives (Gram.of k) s o) (hs : Solid s) (ho : o.Good)
    {m : Meta} {x : Node k} (hb : build m o k = some x) : x.everywhere Node.shaped = true ∧ x.set = true := by
  obtain ⟨p, hp, h⟩ := hd.profile (Gram.capsRead_of k)
  have hne := fun f => Out.str_ne ((hd.solid hs).2 f)
  have hls : ∀ f, decide ((o.strs f).list ≠ []) = o.has (f, none) := by
    intro f
    rw [Out.list_strs]
    show _ = !(o.toks f).isEmpty
    cases o.toks f <;> rfl
  have hfl : ∀ f, o.flag f = o.has (f, none) := fun f => rfl
  cases k
  case bin l =>
    simp only [build, Option.bind_eq_bind, Option.bind_eq_some_iff, Option.pure_def] at hb
    obtain ⟨y, hy, hb⟩ := hb
    cases hb
    have hy := ho.struct hy
    simp only [Node.everywhere, Node.set, Node.shaped, Bool.and_eq_true, ho.ptr, hy, hne, Out.isRef_ptr, h, and_true]
    clear hne hls hfl h hd ho
    revert p
    cases l <;> decide +kernel
  case value =>
    have : ∃ n : Node (.ptr .valueNumber), (n.everywhere Node.shaped = true ∧ n.isRef = o.has (.number, none)) ∧
        x = .value m (o.flag .null) (match o.toks .bool with
        | [] => .nil
        | t :: _ => .ref (.valueBool noPos (t = c!"true"))) n (o.ptr .str) (o.ptr .heredoc) (o.ptr .list) (o.ptr .map) := by
      show ∃ n : Node (.ptr .valueNumber), (_ ∧ _ = !(o.toks .number).isEmpty) ∧ _
      simp only [build, Option.bind_eq_bind, Option.pure_def] at hb
      cases e : o.toks .number with
      | nil =>
        rw [e] at hb
        cases hb
        exact ⟨.nil, ⟨rfl, rfl⟩, rfl⟩
      | cons t l =>
        rw [e] at hb
        simp only [Option.bind_eq_some_iff] at hb
        obtain ⟨⟨f, src⟩, hc, n, hn, hb⟩ := hb
        cases hn
        cases hb
        have := captureNumber_ne hc
        exact ⟨_, by simp [Node.everywhere, Node.shaped, Node.isRef, Node.set, this], rfl⟩
    obtain ⟨n, hn', rfl⟩ := this
    have hb' : ∀ b : Node (.ptr .valueBool), b = (match o.toks .bool with
        | [] => .nil
        | t :: _ => .ref (.valueBool noPos (t = c!"true"))) →
        b.everywhere Node.shaped = true ∧ b.isRef = o.has (.bool, none) := by
      rintro b rfl
      show _ ∧ _ = !(o.toks .bool).isEmpty
      cases o.toks .bool <;> exact ⟨rfl, rfl⟩
    have hb' := hb' _ rfl
    simp only [Node.everywhere, Node.set, Node.shaped, Bool.and_eq_true, ho.ptr, hn', hb', hfl, Out.isRef_ptr, h, and_true]
    clear hne hls hfl h hd ho hn' hb' hb n
    revert p
    decide +kernel
  case heredoc =>
    simp only [build, Option.bind_eq_bind, Option.bind_eq_some_iff, Option.pure_def] at hb
    obtain ⟨⟨tabs, d⟩, hy, hb⟩ := hb
    cases hb
    have hy := captureDelimiter_ne hy
    simp [Node.everywhere, Node.set, Node.shaped, ho.slice, hy]
  case typeEnumItem =>
    cases hb
    simp only [Node.everywhere, Node.shaped, Bool.and_eq_true, ho.ptr, ho.expr, hne, Out.isRef_ptr, h, and_true, true_and]
    refine ⟨?_, rfl⟩
    clear hne hls hfl h hd ho
    revert p
    decide +kernel
  case typeObjectItem =>
    cases hb
    simp only [Node.everywhere, Node.shaped, Bool.and_eq_true, ho.ptr, ho.parameterType, hne, Out.isRef_ptr, h, and_true, true_and]
    refine ⟨?_, rfl⟩
    clear hne hls hfl h hd ho
    revert p
    decide +kernel
  case valueBool => cases hb
  case valueNumber => cases hb
  case ptr => cases hb
  case slice => cases hb
  case items => cases hb
  all_goals
    simp only [build, Option.bind_eq_bind, Option.bind_eq_some_iff, Option.pure_def, reduceCtorEq] at hb
    try
      obtain ⟨y, hy, hb⟩ := hb
      have hy := ho.struct hy
    cases hb
    simp only [Node.everywhere, Node.set, Node.shaped, Bool.and_eq_true, ho.ptr, ho.slice, ho.expr, ho.parameterType, hne, hls, hfl,
      Out.isRef_ptr, Out.isNilSlice_slice, h, and_true, true_and, *]
    try exact hy.2
    try
      clear hne hls hfl h hd ho
      revert p
      decide +kernel


theorem Derives.good {g : Gram} {s : List Token} {o : Out} (h : Derives g s o) (hs : Solid s) : o.Good := by
  induction h with
  | lit | tok | skip | nil => intro f k x hx; cases hx
  | seq _ _ iha ihb | cons _ _ iha ihb | plus _ _ iha ihb =>
    have ha := iha (fun t ht => hs t (by simp [ht]))
    have hb := ihb (fun t ht => hs t (by simp [ht]))
    intro f k x hx
    rcases List.mem_append.mp hx with hx | hx
    · exact ha _ _ _ hx
    · exact hb _ _ _ hx
  | altL _ ih | altR _ ih | once _ ih => exact ih hs
  | cap _ ih => intro f k x hx; simp at hx
  | sub hd hb _ ih =>
    intro f k x hx
    simp only [List.mem_singleton, Capture.node.injEq] at hx
    obtain ⟨rfl, rfl, hx⟩ := hx
    cases hx
    exact build_shaped hd hs (ih hs) hb

/-- Every parsed struct has the shape given by `Node.shaped`. -/
theorem DerivesKind.shaped {k : Kind} {s : List Token} {x : Node k} (h : DerivesKind k s x) (hs : Solid s) :
    x.everywhere Node.shaped = true ∧ x.set = true := by
  obtain ⟨o, pos, hd, hb, -⟩ := h
  exact build_shaped hd hs (hd.good hs) hb

theorem parseTokens_shaped {eof : Position} {s : List Token} {x : Node (.slice .rootItem)}
    (h : parseTokens eof s = some x) (hs : Solid s) : x.everywhere Node.shaped = true := by
  obtain ⟨o, hd, rfl⟩ := parseTokens_derives h
  exact (hd.good hs).slice _ _

end Verif.Etx
