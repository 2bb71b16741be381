import Verif.Etx.Located
import Mathlib.Data.List.Flatten

/-!
# The structs of a document are in the order of the text
-/

namespace Verif.Etx
open Node Gram

/-- The struct has a place in the text: some token belongs to it, and it has a position. -/
def placed (e : AnyNode) : Bool := !e.1.captured && decide (e.2.toks ≠ [])

/-- The offsets of some structs, where these have a place. -/
def offsets (l : List AnyNode) : List Nat := (l.filter placed).map fun e => e.2.info.pos.offset

theorem offsets_append (a b : List AnyNode) : offsets (a ++ b) = offsets a ++ offsets b := by simp [offsets]

theorem offsets_cons (a : AnyNode) (b : List AnyNode) : offsets (a :: b) = offsets [a] ++ offsets b := offsets_append [a] b

/-- The structs stored in a value. -/
def Node.parts {k : Kind} (x : Node k) : List AnyNode := (x.stored none).map (·.2)

theorem Node.parts_eq {k : Kind} (x : Node k) (p : Option Nat) : (x.storedBy true p).map (·.2) = x.parts := by
  unfold parts stored
  induction x generalizing p <;> simp only [storedBy, List.map_cons, List.map_append, List.map_nil, *]

/-- The offsets of the structs stored in a value. -/
def Node.places {k : Kind} (x : Node k) : List Nat := offsets x.parts

theorem Node.places_def {k : Kind} (x : Node k) : offsets x.parts = x.places := rfl

/-- The offset of a struct, if it has a place. -/
def Node.here {k : Kind} (x : Node k) : List Nat := offsets [⟨k, x⟩]

theorem Node.here_def {k : Kind} (x : Node k) : offsets [⟨k, x⟩] = x.here := rfl

/-- Offsets of the captured structs, in the order in which they were captured. -/
def Capture.places : Capture → List Nat
  | .toks _ _ => []
  | .node _ _ x => x.places

/-- The field of a captured struct. -/
def Capture.isNode (f : Field) : Capture → Bool
  | .toks _ _ => false
  | .node g _ _ => g = f

/-- Offsets of the structs captured for a field. -/
def Out.places (o : Out) (f : Field) : List Nat := (o.caps.filter (·.isNode f)).flatMap Capture.places

/-! ## What is stored in a field -/

theorem Out.nodes_places (o : Out) (f : Field) (k : Kind) :
    ((o.nodes f k).flatMap fun x => x.places).Sublist (o.places f) := by
  unfold Out.nodes Out.places
  induction o.caps with
  | nil => exact .slnil
  | cons c l ih =>
    rw [List.flatMap_cons, List.flatMap_append]
    cases c with
    | toks g w => exact ih
    | node g k' x =>
      by_cases hg : g = f
      · rw [List.filter_cons_of_pos (by simp [Capture.isNode, hg]), List.flatMap_cons]
        refine List.Sublist.append ?_ ih
        by_cases hk : k' = k
        · subst hk hg; simp [Capture.places]
        · simp [hk]
      · rw [List.filter_cons_of_neg (by simp [Capture.isNode, hg])]
        simpa [hg] using ih

theorem places_ref {k : Kind} (x : Node k) : (Node.ref x).places = x.places := rfl

theorem places_items {k : Kind} (l : List (Node k)) : (Out.items l).places = l.flatMap fun x => x.places := by
  induction l with
  | nil => rfl
  | cons x l ih =>
    rw [List.flatMap_cons, ← ih]
    rw [Node.places, Node.parts, Node.stored, Out.items, Node.storedBy, List.map_append, parts_eq, parts_eq, offsets_append,
      places_def, places_def, places_ref]

theorem Out.ptr_places (o : Out) (f : Field) (k : Kind) : (o.ptr f (k := k)).places.Sublist (o.places f) := by
  refine List.Sublist.trans ?_ (o.nodes_places f k)
  unfold Out.ptr
  cases o.nodes f k with
  | nil => exact List.nil_sublist _
  | cons x l => rw [List.flatMap_cons, places_ref]; exact List.sublist_append_left _ _

theorem Out.slice_places (o : Out) (f : Field) (k : Kind) : (o.slice f (k := k)).places.Sublist (o.places f) := by
  refine List.Sublist.trans ?_ (o.nodes_places f k)
  unfold Out.slice
  cases e : o.nodes f k with
  | nil => exact List.nil_sublist _
  | cons x l =>
    rw [← places_items]
    exact List.Sublist.refl _

theorem Out.struct_places {o : Out} {f : Field} {k : Kind} {x : Node k} (h : o.struct f = some x) :
    x.places.Sublist (o.places f) := by
  refine List.Sublist.trans ?_ (o.nodes_places f k)
  unfold Out.struct at h
  cases e : o.nodes f k with
  | nil => rw [e] at h; cases h
  | cons y l =>
    rw [e] at h
    cases h
    rw [List.flatMap_cons]
    exact List.sublist_append_left _ _

theorem Out.expr_places (o : Out) (f : Field) : ((o.struct f).getD zeroExpr).places.Sublist (o.places f) := by
  cases e : o.struct f (k := .expr) with
  | none =>
    have : zeroExpr.places = [] := by decide +kernel
    rw [Option.getD_none, this]
    exact List.nil_sublist _
  | some x => exact o.struct_places e

theorem Out.parameterType_places (o : Out) (f : Field) :
    ((o.struct f).getD zeroParameterType).places.Sublist (o.places f) := by
  cases e : o.struct f (k := .parameterType) with
  | none =>
    have : zeroParameterType.places = [] := by decide +kernel
    rw [Option.getD_none, this]
    exact List.nil_sublist _
  | some x => exact o.struct_places e

/-- The fields of a struct that hold structs, in order. -/
def fieldsOf : Kind → List Field
  | .rootItem => [.decl, .func, .type, .block, .attr, .comment]
  | .parameterType => [.ident, .func]
  | .funcSignature => [.parameters, .ret]
  | .attr => [.value]
  | .block => [.body]
  | .blockItem => [.block, .attr, .comment]
  | .decl => [.type, .value]
  | .lambda => [.comment, .parameters, .expr]
  | .lambdaParameter => [.type]
  | .func => [.parameters, .ret, .body]
  | .funcParameter => [.type]
  | .funcStatement => [.comment, .decl, .expr]
  | .funcDecl => [.type, .value]
  | .type => [.enum, .object]
  | .typeEnum => [.items]
  | .typeEnumItem => [.comment, .value]
  | .typeObject => [.items]
  | .typeObjectItem => [.comment, .type]
  | .value => [.str, .heredoc, .list, .map]
  | .heredoc => [.fragments]
  | .heredocFragment => [.expr, .directive]
  | .valueString => [.fragment]
  | .stringFragment => [.expr, .directive]
  | .valueList => [.items]
  | .listItem => [.value, .comment]
  | .valueMap => [.items]
  | .mapItem => [.key, .value, .comment]
  | .mapKey => [.ident, .str]
  | .expr => [.left, .ifE, .switch]
  | .exprIf => [.condition, .left, .right]
  | .exprSwitch => [.selector, .cases]
  | .exprCase => [.conditions, .expr]
  | .conditional => [.condition, .trueExpr, .falseExpr]
  | .bin _ => [.left, .right]
  | .unary => [.right]
  | .postfixE => [.value, .index, .post]
  | .primary => [.subExpression, .value, .ident, .monads, .post]
  | .invocation => [.values]
  | _ => []

variable [FloatValue]

/-- What is stored in a parsed struct is what was captured, in the order of the fields. -/
theorem build_places {m : Meta} {o : Out} {k : Kind} {x : Node k} (h : build m o k = some x) :
    x.places.Sublist (x.here ++ (fieldsOf k).flatMap o.places) := by
  have key : ∀ {x : Node k} {l : List Nat}, x.places = x.here ++ l → l.Sublist ((fieldsOf k).flatMap o.places) →
      x.places.Sublist (x.here ++ (fieldsOf k).flatMap o.places) := by
    intro x l h1 h2
    rw [h1]
    exact List.Sublist.append (List.Sublist.refl _) h2
  cases k
  case value =>
    have hb : ∀ (n : Node (.ptr .valueNumber)) (b : Node (.ptr .valueBool)), n.places = [] → b.places = [] →
        some (Node.value m (o.flag .null) b n (o.ptr .str) (o.ptr .heredoc) (o.ptr .list) (o.ptr .map)) = some x →
        x.places.Sublist (x.here ++ (fieldsOf .value).flatMap o.places) := by
      intro n b hn hb h
      cases h
      refine key (l := (o.ptr .str (k := .valueString)).places ++ ((o.ptr .heredoc (k := .heredoc)).places ++
        ((o.ptr .list (k := .valueList)).places ++ (o.ptr .map (k := .valueMap)).places))) ?_ ?_
      · rw [Node.places, Node.parts, Node.stored, Node.storedBy, List.map_cons, offsets_cons]
        simp only [List.map_append, parts_eq, offsets_append, places_def, here_def, hn, hb, List.nil_append, List.append_assoc]
      · simp only [fieldsOf, List.flatMap_cons, List.flatMap_nil, List.append_nil]
        exact (o.ptr_places _ _).append ((o.ptr_places _ _).append ((o.ptr_places _ _).append (o.ptr_places _ _)))
    simp only [build, Option.bind_eq_bind, Option.pure_def] at h
    have hnb : (match o.toks .bool with
      | [] => (.nil : Node (.ptr .valueBool))
      | t :: _ => .ref (.valueBool noPos (t = c!"true"))).places = [] := by split <;> rfl
    cases e : o.toks .number with
    | nil => rw [e] at h; exact hb .nil _ rfl hnb h
    | cons t l =>
      rw [e] at h
      simp only [Option.bind_eq_some_iff] at h
      obtain ⟨f, -, n, h1, h⟩ := h
      cases h1
      exact hb _ _ (by rfl) hnb h
  case valueBool | valueNumber | ptr | slice | items => cases h
  all_goals
    first
    | cases h
    | (simp only [build, Option.bind_eq_bind, Option.bind_eq_some_iff, Option.pure_def] at h
       obtain ⟨y, hy, h⟩ := h
       try have hs := Out.struct_places hy
       cases h)
  all_goals
    rw [Node.places, Node.parts, Node.stored, Node.storedBy, List.map_cons, offsets_cons]
    simp only [if_true, List.map_append, List.map_nil, parts_eq, offsets_append, places_def, here_def, List.append_assoc]
    refine List.Sublist.append (List.Sublist.refl _) ?_
    simp only [fieldsOf, List.flatMap_cons, List.flatMap_nil, List.append_nil]
    repeat' with_reducible apply List.Sublist.append
    all_goals first
      | assumption
      | exact o.ptr_places _ _
      | exact o.slice_places _ _
      | exact o.expr_places _
      | exact o.parameterType_places _
      | exact List.nil_sublist _

/-! ## The order of the captures -/

/-- The fields for which a production captures structs. -/
def subFields : Gram → List Field
  | lit _ => []
  | tok _ => []
  | seq a b => subFields a ++ subFields b
  | alt a b => subFields a ++ subFields b
  | Gram.opt a => subFields a
  | Gram.star a => subFields a
  | plus a => subFields a
  | cap _ _ => []
  | sub f _ => [f]

/-- Structs are captured in the order of their fields. -/
def inOrder (r : Field → Nat) : Gram → Bool
  | lit _ => true
  | tok _ => true
  | seq a b => inOrder r a && inOrder r b && (subFields a).all fun f => (subFields b).all fun g => r f ≤ r g
  | alt a b => inOrder r a && inOrder r b
  | Gram.opt a => inOrder r a
  | Gram.star a => inOrder r a && (subFields a).all fun f => (subFields a).all fun g => r f ≤ r g
  | plus a => inOrder r a && (subFields a).all fun f => (subFields a).all fun g => r f ≤ r g
  | cap _ _ => true
  | sub _ _ => true

/-- The number of a field of a struct. -/
def fieldRank (k : Kind) (f : Field) : Nat := (fieldsOf k).idxOf f

theorem inOrder_of (k : Kind) : inOrder (fieldRank k) (of k) = true ∧ ((subFields (of k)).all fun f => f ∈ fieldsOf k) = true ∧
    (fieldsOf k).Pairwise (fun f g => fieldRank k f < fieldRank k g) := by
  cases k
  case bin l => cases l <;> decide +kernel
  case ptr | slice | items => exact ⟨rfl, rfl, .nil⟩
  all_goals decide +kernel

/-- The fields of the captured structs. -/
def Out.subs (o : Out) : List (Field × List Nat) :=
  o.caps.filterMap fun c => match c with
    | .toks _ _ => none
    | .node f _ x => some (f, x.places)

omit [FloatValue] in
theorem Out.subs_append (o o' : Out) : (o ++ o').subs = o.subs ++ o'.subs := List.filterMap_append ..

omit [FloatValue] in
theorem Out.places_subs (o : Out) (f : Field) : o.places f = (o.subs.filter (·.1 = f)).flatMap (·.2) := by
  unfold Out.places Out.subs
  induction o.caps with
  | nil => rfl
  | cons c l ih =>
    cases c with
    | toks => exact ih
    | node g k x =>
      by_cases h : g = f
      · simpa [Capture.isNode, h, Capture.places] using ih
      · simpa [Capture.isNode, h] using ih

theorem Strict.inOrder {r : Field → Nat} {g : Gram} {s : List Token} {o : Out} (h : Strict g s o) (hg : inOrder r g = true) :
    (∀ e ∈ o.subs, e.1 ∈ subFields g) ∧ o.subs.Pairwise (fun e e' => r e.1 ≤ r e'.1) := by
  induction h with
  | lit | tok | skip | nil | cap => exact ⟨nofun, .nil⟩
  | seq _ _ iha ihb =>
    simp only [Etx.inOrder, Bool.and_eq_true, List.all_eq_true, decide_eq_true_eq] at hg
    obtain ⟨a1, a2⟩ := iha hg.1.1
    obtain ⟨b1, b2⟩ := ihb hg.1.2
    rw [Out.subs_append]
    refine ⟨fun e he => ?_, List.pairwise_append.mpr ⟨a2, b2, fun e he e' he' => hg.2 _ (a1 e he) _ (b1 e' he')⟩⟩
    rw [subFields, List.mem_append]
    exact (List.mem_append.mp he).imp (a1 e) (b1 e)
  | altL _ ih =>
    simp only [Etx.inOrder, Bool.and_eq_true] at hg
    exact ⟨fun e he => List.mem_append_left _ ((ih hg.1).1 e he), (ih hg.1).2⟩
  | altR _ ih =>
    simp only [Etx.inOrder, Bool.and_eq_true] at hg
    exact ⟨fun e he => List.mem_append_right _ ((ih hg.2).1 e he), (ih hg.2).2⟩
  | once _ ih => exact ih hg
  | cons _ _ iha ihb | plus _ _ iha ihb =>
    have hg' := hg
    simp only [Etx.inOrder, Bool.and_eq_true, List.all_eq_true, decide_eq_true_eq] at hg'
    obtain ⟨a1, a2⟩ := iha hg'.1
    obtain ⟨b1, b2⟩ := ihb hg
    rw [Out.subs_append]
    refine ⟨fun e he => ?_, List.pairwise_append.mpr ⟨a2, b2, fun e he e' he' => hg'.2 _ (a1 e he) _ (b1 e' he')⟩⟩
    exact (List.mem_append.mp he).elim (a1 e) (b1 e)
  | sub => exact ⟨fun e he => by simpa [Out.subs, subFields] using congrArg Prod.fst (List.mem_singleton.mp he), List.pairwise_singleton _ _⟩

omit [FloatValue] in
/-- Sorting by field changes nothing that is in the order of the fields. -/
theorem fields_sublist {α : Type} (r : Field → Nat) (F : List Field) (hF : F.Pairwise fun f g => r f < r g)
    (l : List (Field × α)) (hl : l.Pairwise fun e e' => r e.1 ≤ r e'.1) :
    (F.flatMap fun f => l.filter (·.1 = f)).Sublist l := by
  induction F generalizing l with
  | nil => exact List.nil_sublist _
  | cons f F ih =>
    have hsplit : l = l.filter (fun e => r e.1 ≤ r f) ++ l.filter (fun e => !decide (r e.1 ≤ r f)) := by
      clear ih
      induction l with
      | nil => rfl
      | cons e l ih =>
        have hl' := List.pairwise_cons.mp hl
        by_cases h : r e.1 ≤ r f
        · simp only [List.filter_cons, h, decide_true, if_true, Bool.not_true, Bool.false_eq_true, if_false, List.cons_append]
          rw [← ih hl'.2]
        · have e1 : l.filter (fun e => r e.1 ≤ r f) = [] := by
            rw [List.filter_eq_nil_iff]
            intro e' he'
            have := hl'.1 e' he'
            simp; omega
          have e2 : l.filter (fun e => !decide (r e.1 ≤ r f)) = l := by
            rw [List.filter_eq_self]
            intro e' he'
            have := hl'.1 e' he'
            simp; omega
          simp [h, e1, e2]
    have hF' := List.pairwise_cons.mp hF
    rw [List.flatMap_cons]
    have h2 := ih hF'.2 (l.filter (fun e => !decide (r e.1 ≤ r f))) (hl.filter _)
    have h3 : (F.flatMap fun g => l.filter (·.1 = g)) =
        F.flatMap fun g => (l.filter (fun e => !decide (r e.1 ≤ r f))).filter (·.1 = g) := by
      have : ∀ g ∈ F, l.filter (fun e => decide (e.1 = g)) =
          (l.filter (fun e => !decide (r e.1 ≤ r f))).filter (fun e => decide (e.1 = g)) := by
        intro g hg
        rw [List.filter_filter]
        refine List.filter_congr fun e _ => ?_
        by_cases h : e.1 = g
        · have := hF'.1 g hg
          subst h
          simp; omega
        · simp [h]
      rw [List.flatMap_def, List.flatMap_def, List.map_congr_left this]
    rw [h3]
    have h4 : (l.filter (fun e => decide (e.1 = f))).Sublist (l.filter (fun e => r e.1 ≤ r f)) := by
      refine List.monotone_filter_right _ fun e => ?_
      intro h
      simp only [decide_eq_true_eq] at h ⊢
      rw [h]
    have := h4.append h2
    rwa [← hsplit] at this

/-- What is stored in a parsed struct is what was captured, in the order of the text. -/
theorem struct_places {k : Kind} {s : List Token} {o : Out} {m : Meta} {x : Node k} (h : Strict (of k) s o)
    (hb : build m o k = some x) : x.places.Sublist (x.here ++ o.subs.flatMap (·.2)) := by
  refine (build_places hb).trans (List.Sublist.append (List.Sublist.refl _) ?_)
  obtain ⟨h1, h2, h3⟩ := inOrder_of k
  have := fields_sublist (fieldRank k) (fieldsOf k) h3 o.subs (h.inOrder h1).2
  have e : (fieldsOf k).flatMap o.places = ((fieldsOf k).flatMap fun f => o.subs.filter (·.1 = f)).flatMap (·.2) := by
    rw [List.flatMap_assoc]
    congr 1
    funext f
    exact o.places_subs f
  rw [e]
  exact this.flatMap _

/-! ## Tokens in order -/

/-- Tokens with growing offsets. -/
def Rising (s : List Token) : Prop := s.Pairwise fun t t' => t.pos.offset < t'.pos.offset

theorem strict_order {g : Gram} {s : List Token} {o : Out} (h : Strict g s o) (hs : Rising s) :
    (∀ n ∈ o.subs.flatMap (·.2), ∃ t ∈ s, t.pos.offset = n) ∧ (o.subs.flatMap (·.2)).Pairwise (· ≤ ·) := by
  have two : ∀ {s s' : List Token} {o o' : Out}, Rising (s ++ s') →
      ((∀ n ∈ o.subs.flatMap (·.2), ∃ t ∈ s, t.pos.offset = n) ∧ (o.subs.flatMap (·.2)).Pairwise (· ≤ ·)) →
      ((∀ n ∈ o'.subs.flatMap (·.2), ∃ t ∈ s', t.pos.offset = n) ∧ (o'.subs.flatMap (·.2)).Pairwise (· ≤ ·)) →
      (∀ n ∈ (o ++ o').subs.flatMap (·.2), ∃ t ∈ s ++ s', t.pos.offset = n) ∧ ((o ++ o').subs.flatMap (·.2)).Pairwise (· ≤ ·) := by
    intro s s' o o' hs ⟨a1, a2⟩ ⟨b1, b2⟩
    rw [Out.subs_append, List.flatMap_append]
    refine ⟨fun n hn => ?_, List.pairwise_append.mpr ⟨a2, b2, fun n hn n' hn' => ?_⟩⟩
    · rcases List.mem_append.mp hn with hn | hn
      · obtain ⟨t, ht, e⟩ := a1 n hn; exact ⟨t, List.mem_append_left _ ht, e⟩
      · obtain ⟨t, ht, e⟩ := b1 n hn; exact ⟨t, List.mem_append_right _ ht, e⟩
    · obtain ⟨t, ht, rfl⟩ := a1 n hn
      obtain ⟨t', ht', rfl⟩ := b1 n' hn'
      exact Nat.le_of_lt ((List.pairwise_append.mp hs).2.2 t ht t' ht')
  induction h with
  | lit | tok | skip | nil | cap => exact ⟨nofun, .nil⟩
  | seq _ _ iha ihb | cons _ _ iha ihb | plus _ _ iha ihb =>
    have := List.pairwise_append.mp hs
    exact two hs (iha this.1) (ihb this.2.1)
  | altL _ ih | altR _ ih | once _ ih => exact ih hs
  | @sub f k s o pos x hd hb hpos ih =>
    obtain ⟨h1, h2⟩ := ih hs
    have hx := struct_places hd hb
    have key : (∀ n ∈ x.places, ∃ t ∈ s, t.pos.offset = n) ∧ x.places.Pairwise (· ≤ ·) := by
      cases s with
      | nil =>
        have e1 : x.here = [] := by simp [Node.here, offsets, placed, toks_empty hd hb]
        have e2 : o.subs.flatMap (·.2) = [] := by
          rw [List.eq_nil_iff_forall_not_mem]
          intro n hn
          obtain ⟨t, ht, -⟩ := h1 n hn
          cases ht
        rw [e1, e2] at hx
        rw [List.sublist_nil.mp hx]
        exact ⟨nofun, .nil⟩
      | cons t s =>
        have e1 : ∀ n ∈ x.here, n = t.pos.offset := by
          intro n hn
          simp only [Node.here, offsets, List.mem_map, List.mem_filter, List.mem_singleton] at hn
          obtain ⟨e, ⟨rfl, -⟩, rfl⟩ := hn
          simp only [build_pos hb, hpos t (by simp)]
        have e3 : x.here.length ≤ 1 := by
          simp only [Node.here, offsets, List.length_map]
          exact List.length_filter_le _ _
        refine ⟨fun n hn => ?_, List.Pairwise.sublist hx (List.pairwise_append.mpr ⟨?_, h2, fun n hn n' hn' => ?_⟩)⟩
        · rcases List.mem_append.mp (hx.subset hn) with hn | hn
          · exact ⟨t, by simp, (e1 n hn).symm⟩
          · exact h1 n hn
        · match hh : x.here, e3 with
          | [], _ => exact .nil
          | [n], _ => exact List.pairwise_singleton _ _
        · rw [e1 n hn]
          obtain ⟨t', ht', rfl⟩ := h1 n' hn'
          rcases List.mem_cons.mp ht' with rfl | ht'
          · exact Nat.le_refl _
          · exact Nat.le_of_lt ((List.pairwise_cons.mp hs).1 t' ht')
    simpa [Out.subs] using key

/-! ## The order of the visits -/

omit [FloatValue]

/-- The nodes `L` can be walked with this fuel, and the nodes visited are `S`. -/
def VisEq (n : Nat) (p : Option Nat) (L : List (Option AnyNode)) (S : List (Option Nat × AnyNode)) : Prop :=
  ∃ l, L.mapM (walk n p) = some l ∧ l.flatten = S

namespace VisEq

theorem nil {n : Nat} {p : Option Nat} : VisEq n p [] [] := ⟨[], rfl, rfl⟩

theorem append {n : Nat} {p : Option Nat} {L L' : List (Option AnyNode)} {S S' : List (Option Nat × AnyNode)}
    (h : VisEq n p L S) (h' : VisEq n p L' S') : VisEq n p (L ++ L') (S ++ S') := by
  obtain ⟨l, h1, h2⟩ := h
  obtain ⟨l', h1', h2'⟩ := h'
  refine ⟨l ++ l', ?_, ?_⟩
  · simp [List.mapM_append, h1, h1']
  · simp [h2, h2']

theorem of_eq {n : Nat} {p : Option Nat} {L L' : List (Option AnyNode)} {S : List (Option Nat × AnyNode)}
    (h : VisEq n p L S) (h' : L = L') : VisEq n p L' S := h' ▸ h

theorem struct {n : Nat} {p : Option Nat} {x : AnyNode} {S : List (Option Nat × AnyNode)}
    (h : VisEq n (some x.addr) x.2.children S) : VisEq (n + 1) p [some x] ((p, x) :: S) := by
  obtain ⟨l, h1, h2⟩ := h
  refine ⟨[(p, x) :: l.flatten], ?_, ?_⟩
  · simp [walk, h1]
  · simp [h2]

end VisEq

theorem Node.vis_eq {k : Kind} (hk : k.simple = true) (x : Node k) (h : x.everywhere (fun y => y.shaped) = true) (n : Nat)
    (hn : x.size ≤ n) (p : Option Nat) : VisEq n p x.kids (x.storedBy false p) := by
  induction x generalizing n p
  case nil => exact VisEq.nil
  case nilSlice => exact VisEq.nil
  case empty => exact VisEq.nil
  case ref x ih =>
    simp only [Node.size, Node.everywhere, Bool.and_eq_true] at hn h
    have h1 := ih (isStruct_simple hk) h.2 n (by omega) p
    rw [kids_struct hk] at h1
    exact h1
  case mkSlice a xs ih =>
    simp only [Node.size, Node.everywhere, Bool.and_eq_true] at hn h
    have h1 := ih hk h.2 n (by omega) p
    rw [← kids_items] at h1
    exact h1
  case cons x xs ihx ihxs =>
    simp only [Node.size, Node.everywhere, Bool.and_eq_true] at hn h
    have h1 := ihx hk h.1.2 n (by omega) p
    have h2 := ihxs hk h.2 n (by omega) p
    rw [← kids_items] at h2
    cases x with
    | nil => simp [shaped, isRef] at h
    | ref x => exact h1.append h2
  all_goals
    obtain ⟨n, rfl⟩ : ∃ n', n = n' + 1 := ⟨n - 1, by simp only [Node.size] at hn; omega⟩
    simp only [Node.size, Node.everywhere, Bool.and_eq_true] at hn h
    refine VisEq.struct ?_
    simp only [children, AnyNode.addr, Node.info, Node.kids_ptr, Node.kids_slice, kids_parameterType, kids_expr, kids_bin, kids_postfix,
      kids_primary, kids_operand]
  case rootItem x1 x2 x3 x4 x5 x6 i1 i2 i3 i4 i5 i6 =>
    obtain ⟨⟨⟨⟨⟨⟨h0, h1⟩, h2⟩, h3⟩, h4⟩, h5⟩, h6⟩ := h
    refine VisEq.of_eq ((((((i1 rfl h1 n (by omega) _).append (i2 rfl h2 n (by omega) _)).append (i3 rfl h3 n (by omega) _)).append
      (i4 rfl h4 n (by omega) _)).append (i5 rfl h5 n (by omega) _)).append (i6 rfl h6 n (by omega) _)) ?_
    clear i1 i2 i3 i4 i5 i6 h1 h2 h3 h4 h5 h6 hn
    replace h0 := plain_of_shaped _ h0
    cases x1 <;> cases x2 <;> cases x3 <;> cases x4 <;> cases x5 <;> cases x6 <;>
      simp [plain, isRef] at h0 <;> simp [kids, isRef]
  case mapKey x1 x2 i1 i2 =>
    obtain ⟨⟨h0, h1⟩, h2⟩ := h
    refine VisEq.of_eq ((i1 rfl h1 n (by omega) _).append (i2 rfl h2 n (by omega) _)) ?_
    clear i1 i2 h1 h2 hn
    cases x1 <;> cases x2 <;> simp [shaped, one, isRef] at h0 <;> simp [kids, isRef]
  case expr x1 x2 x3 i1 i2 i3 =>
    obtain ⟨⟨⟨h0, h1⟩, h2⟩, h3⟩ := h
    refine VisEq.of_eq (((i1 rfl h1 n (by omega) _).append (i2 rfl h2 n (by omega) _)).append (i3 rfl h3 n (by omega) _)) ?_
    clear i1 i2 i3 h1 h2 h3 hn
    cases x1 <;> cases x2 <;> cases x3 <;> simp [shaped, isRef] at h0 <;> simp [kids, isRef]
  case postfixE x1 x2 x3 i1 i2 i3 =>
    obtain ⟨⟨⟨h0, h1⟩, h2⟩, h3⟩ := h
    simpa using (i1 rfl h1 n (by omega) _).append (i2 rfl h2 n (by omega) _)
  case blockItem e x1 x2 x3 i1 i2 i3 =>
    obtain ⟨⟨⟨h0, h1⟩, h2⟩, h3⟩ := h
    refine VisEq.of_eq (((i1 rfl h1 n (by omega) _).append (i2 rfl h2 n (by omega) _)).append (i3 rfl h3 n (by omega) _)) ?_
    clear i1 i2 i3 h1 h2 h3 hn
    by_cases he : e = [] <;> cases x1 <;> cases x2 <;> cases x3 <;> simp [shaped, one, isRef, he] at h0 <;> simp [kids]
  case primary x1 x2 x3 x4 x5 i1 i2 i3 i4 i5 =>
    obtain ⟨⟨⟨⟨⟨h0, h1⟩, h2⟩, h3⟩, h4⟩, h5⟩ := h
    refine VisEq.of_eq (((((i1 rfl h1 n (by omega) _).append (i2 rfl h2 n (by omega) _)).append (i3 rfl h3 n (by omega) _)).append
      (i4 rfl h4 n (by omega) _)).append (i5 rfl h5 n (by omega) _)) ?_
    clear i1 i2 i3 i4 i5 h1 h2 h3 h4 h5 hn
    cases x1 <;> cases x2 <;> cases x3 <;> cases x4 <;> cases x5 <;> simp [shaped, one, isRef, isNilSlice] at h0 <;> simp [kids]
  all_goals repeat' with_reducible apply VisEq.append
  all_goals first
    | with_reducible exact VisEq.nil
    | ((with_reducible apply_assumption) <;> first | rfl | exact operand_simple _ | omega | simp only [h])

theorem AST.visits_eq (t : AST) (h : t.items.everywhere (fun y => y.shaped) = true) :
    t.visits = some (t.items.storedBy false none) := by
  obtain ⟨l, h1, h2⟩ := t.items.vis_eq (p := none) (by rfl) h _ (Nat.le_refl _)
  rw [← kids_slice] at h1
  simp [AST.visits, AST.children, h1, h2]

theorem Node.storedBy_sublist {k : Kind} (x : Node k) (p : Option Nat) : (x.storedBy false p).Sublist (x.stored p) := by
  unfold Node.stored
  induction x generalizing p
  case postfixE x1 x2 x3 i1 i2 i3 =>
    simp only [storedBy, Bool.false_eq_true, if_false, if_true, List.append_nil]
    exact ((i1 _).append (i2 _)).trans (List.sublist_append_left _ _) |>.cons_cons _
  all_goals
    simp only [storedBy]
    try apply List.Sublist.cons_cons
    repeat' with_reducible apply List.Sublist.append
    all_goals first
      | exact List.Sublist.refl _
      | (with_reducible apply_assumption)

theorem Node.parts_map (f : Meta → Meta) (fa : Nat → Nat) {k : Kind} (x : Node k) :
    (x.map f fa).parts = x.parts.map (fun e => ⟨e.1, e.2.map f fa⟩) := by
  induction x
  case nil | nilSlice | empty => rfl
  all_goals
    rw [← parts_eq _ none, ← parts_eq _ none]
    simp only [Node.map, storedBy, if_true, List.map_cons, List.map_append, List.map_nil, parts_eq, *]

theorem Node.places_erase {k : Kind} (x : Node k) : x.erase.places = x.places := by
  unfold Node.places Node.erase
  rw [parts_map, offsets, List.filter_map, List.map_map, offsets]
  have h1 : (placed ∘ fun e : AnyNode => (⟨e.1, e.2.map (fun m => { addr := 0, pos := m.pos, parent := none }) (fun _ => 0)⟩ : AnyNode)) = placed := by
    funext e
    have := (toks_erase e.2).1
    unfold Node.erase at this
    simp only [Function.comp, placed, this]
  rw [h1]
  refine List.map_congr_left fun e he => ?_
  obtain ⟨k, e⟩ := e
  cases e <;> rfl

end Verif.Etx
