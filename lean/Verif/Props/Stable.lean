import Verif.Props.RoundTrip

/-! # Property C62: formatting formatted text -/

namespace Verif.Etx
open Node

/-! ## Specification -/

section
variable [FloatValue] [FloatText]

/-- A formatting tool: the text is parsed and formatted.  `none`: it cannot be read, or formatting panics. -/
def reprint (s : Str) : Option Str :=
  match parseString s with
  | .ok t => t.fmt
  | _ => none

/-- The tool is used `n` more times on its own output. -/
def reprints : Nat → Str → Option Str
  | 0, s => some s
  | n + 1, s => (reprint s).bind (reprints n)

/-- **C62** in full: formatting formatted text changes nothing. -/
def C62_full : Prop := ∀ s u, reprint s = some u → reprint u = some u

end

/-- A statement that is neither a blank line nor a comment. -/
def solidStatement : Node .funcStatement → Bool
  | .funcStatement _ e c _ _ => decide (e = []) && !c.isRef

/-- Statements without blank lines and comments between them. -/
def solidBody : Node (.slice .funcStatement) → Bool
  | .nilSlice => true
  | .mkSlice _ xs => xs.structs.all solidStatement

/-- A function with such statements. -/
def solidFunc : Node .func → Bool
  | .func _ _ _ _ body => solidBody body

/-- No function, or such a one. -/
def solidRef : Node (.ptr .func) → Bool
  | .nil => true
  | .ref f => solidFunc f

/-- An item that is neither a blank line nor a comment, nor a function with such statements. -/
def solidItem : Node .rootItem → Bool
  | .rootItem _ e _ f _ _ _ c => decide (e = []) && !c.isRef && solidRef f

/-- Exactly one item, and that is solid. -/
def solidItems : List (Node .rootItem) → Bool
  | [x] => solidItem x
  | _ => false

/-- A document without items, or with a single one that is solid. -/
def solidDoc : Node (.slice .rootItem) → Bool
  | .nilSlice => true
  | .mkSlice _ xs => solidItems xs.structs

/-- A line end. -/
def isEol (c : Char) : Bool := c = '\n' || c = '\r'

/-- The number of line ends. -/
def lineEnds (s : Str) : Nat := s.countP isEol

/-! ## Counting line ends -/

theorem lineEnds_append (s t : Str) : lineEnds (s ++ t) = lineEnds s + lineEnds t := List.countP_append

theorem lineEnds_indent (s : Str) : lineEnds (indent s tab) = lineEnds s := by
  have h : ∀ b, lineEnds (indentFrom '\n' tab b s) = lineEnds s := by
    induction s with
    | nil => intro b; rfl
    | cons c s ih =>
      intro b
      rw [indentFrom, lineEnds_append, lineEnds, lineEnds, lineEnds, List.countP_cons, List.countP_cons]
      have := ih (decide (c = '\n'))
      simp only [lineEnds] at this
      rw [this]
      have h0 : List.countP isEol (if b = true ∧ c ≠ '\n' then tab else []) = 0 := by split <;> decide
      omega
  exact h true

theorem lineEnds_blank {e : Str} (h : Node.blank e = true) : lineEnds e = e.length := by
  simpa [lineEnds, Node.blank, List.countP_eq_length, isEol] using h

section
variable [FloatText]

/-- The number of line ends in the formatted text of a node. -/
def ends {k : Kind} (x : Node k) : Nat := lineEnds (x.fmt.getD [])

theorem ends_texts {k : Kind} {l : List (Node k)} {ss : List Str} (h : (Out.items l).texts = some ss) :
    (ss.map lineEnds).sum = (l.map ends).sum ∧ ss.length = l.length := by
  induction l generalizing ss with
  | nil => simp [Out.items, Node.texts] at h; simp [h]
  | cons x l ih =>
    simp only [Out.items, Node.texts, Node.fmt_ref] at h
    cases h1 : x.fmt with
    | none => simp [h1] at h
    | some s =>
      cases h2 : (Out.items l).texts with
      | none => simp [h1, h2] at h
      | some ts =>
        simp only [h1, h2] at h
        obtain rfl : s :: ts = ss := by simpa using h
        obtain ⟨e1, e2⟩ := ih h2
        simp [ends, h1, e1, e2]

omit [FloatText] in
theorem lineEnds_join (ss : List Str) (h : ss ≠ []) :
    lineEnds (join c!"\n\n" ss ++ c!"\n") + 1 = (ss.map lineEnds).sum + 2 * ss.length := by
  rw [← lined_join _ h]
  induction ss with
  | nil => exact absurd rfl h
  | cons s ss ih =>
    cases ss with
    | nil => simp [lined, lineEnds_append]; simp [lineEnds, isEol]
    | cons t ss =>
      have := ih (by simp)
      rw [lined, lineEnds_append]
      simp only [List.isEmpty_cons, Bool.false_eq_true, if_false]
      have e : lineEnds ('\n' :: (c!"\n" ++ lined c!"\n" (t :: ss))) = 2 + lineEnds (lined c!"\n" (t :: ss)) := by
        simp [lineEnds, isEol]; omega
      rw [e]
      simp only [List.map_cons, List.sum_cons, List.length_cons] at this ⊢
      omega

/-- The text of a document. -/
theorem ends_doc {a b : Nat} {l : List (Node .rootItem)} {s : Str} (hl : l ≠ [])
    (h : AST.fmt ⟨a, .mkSlice b (Out.items l)⟩ = some s) : lineEnds s + 1 = (l.map ends).sum + 2 * l.length := by
  have hn : (Node.mkSlice b (Out.items l)).len ≠ 0 := by simp [Node.len, Out.len_items, hl]
  simp only [AST.fmt, if_neg hn, Node.texts] at h
  cases h1 : (Out.items l).texts with
  | none => simp [h1] at h
  | some ss =>
    obtain ⟨e1, e2⟩ := ends_texts h1
    simp only [h1, Option.map_some, Option.some.injEq] at h
    rw [← h, lineEnds_join, e1, e2]
    rintro rfl
    exact hl (by simpa using e2.symm)

/-- An item that ends with the line feed after it. -/
def lone {k : Kind} (x : Node k) : Nat := if x.blankOf = [] ∧ x.isRemark = false then 1 else 0

/-- Reading keeps the line ends: those of the items, with one after each, and those between them. -/
theorem respace_ends {k : Kind} {mk : Str → Node k} {re : Node k → Node k} {more : Str}
    (hmk : ∀ e, e ≠ [] → Node.blank e = true → ends (mk e) = e.length ∧ (mk e).blankOf = e)
    (hre : ∀ x, (re x).blankOf = x.blankOf ∧ (re x).isRemark = x.isRemark) (hm : Node.blank more = true)
    (l : List (Node k)) (hl : ∀ x ∈ l, Node.blank x.blankOf = true ∧ (x.blankOf ≠ [] → ends (re x) = x.blankOf.length)) (pend : Str)
    (hp : Node.blank pend = true) :
    ((respace mk re more pend l).map fun y => ends y + lone y).sum + (if l = [] then 0 else more.length) =
      pend.length + (l.map fun x => ends (re x) + 1).sum + more.length * l.length := by
  have hflush : ∀ pend, Node.blank pend = true → ((flush mk pend).map fun y => ends y + lone y).sum = pend.length := by
    intro pend hp
    unfold flush
    split
    · rename_i h; simp [h]
    · rename_i h
      obtain ⟨h1, h2⟩ := hmk _ h hp
      simp [h1, lone, h2, h]
  induction l generalizing pend with
  | nil => simp [respace, hflush pend hp]
  | cons x l ih =>
    have ih := ih fun y hy => hl y (by simp [hy])
    obtain ⟨hx, hx'⟩ := hl x (by simp)
    have hs : Node.blank (if l.isEmpty then [] else more) = true := by split <;> [rfl; exact hm]
    have hb : ∀ s, Node.blank s = true → Node.blank ('\n' :: s) = true := by intro s h; simpa [Node.blank] using h
    have ha : ∀ s t, Node.blank s = true → Node.blank t = true → Node.blank (s ++ t) = true := by
      intro s t h1 h2; simp only [Node.blank, List.all_append, Bool.and_eq_true] at *; exact ⟨h1, h2⟩
    have hlen : (if l.isEmpty then ([] : Str) else more).length = if l = [] then 0 else more.length := by cases l <;> rfl
    simp only [respace]
    split
    · rename_i h
      have := ih _ (ha _ _ (ha _ _ hp hx) (hb _ hs))
      simp only [List.length_append, List.length_cons, hlen] at this
      simp only [List.map_cons, List.sum_cons, List.length_cons, hx' h, reduceCtorEq, if_false, Nat.mul_add, Nat.mul_one]
      omega
    · rename_i h
      simp only [ne_eq, not_not] at h
      split
      · rename_i hr
        have := ih _ (hb _ hs)
        have hlone : lone (re x) = 0 := by simp [lone, (hre x).2, hr]
        simp only [List.length_cons, hlen] at this
        simp only [List.map_append, List.sum_append, List.map_cons, List.sum_cons, List.length_cons, reduceCtorEq, if_false, Nat.mul_add, Nat.mul_one,
          hflush pend hp, hlone]
        omega
      · rename_i hr
        have := ih _ hs
        have hlone : lone (re x) = 1 := by simp [lone, (hre x).1, (hre x).2, h, hr]
        simp only [hlen] at this
        simp only [List.map_append, List.sum_append, List.map_cons, List.sum_cons, List.length_cons, reduceCtorEq, if_false, Nat.mul_add, Nat.mul_one,
          hflush pend hp, hlone]
        omega

omit [FloatText] in
/-- If no item is a blank line or a comment afterwards, there was none, and nothing came between them. -/
theorem respace_lone {k : Kind} {mk : Str → Node k} {re : Node k → Node k} {more : Str} (hmk : ∀ e, (mk e).blankOf = e)
    (hre : ∀ x, (re x).blankOf = x.blankOf ∧ (re x).isRemark = x.isRemark) (l : List (Node k)) (pend : Str)
    (h : ∀ y ∈ respace mk re more pend l, lone y = 1) : pend = [] ∧ (∀ x ∈ l, lone x = 1) ∧ (more = [] ∨ l.length ≤ 1) := by
  have hflush : ∀ pend, (∀ y ∈ flush mk pend, lone y = 1) → pend = [] := by
    intro pend h
    by_contra hp
    have := h (mk pend) (by simp [flush, hp])
    simp [lone, hmk, hp] at this
  induction l generalizing pend with
  | nil => exact ⟨hflush pend (by simpa [respace] using h), by simp, by simp⟩
  | cons x l ih =>
    simp only [respace] at h
    split at h
    · have := (ih _ h).1
      simp at this
    · rename_i hb
      simp only [ne_eq, not_not] at hb
      split at h
      · rename_i hr
        have := h (re x) (by simp)
        simp [lone, (hre x).2, hr] at this
      · rename_i hr
        obtain ⟨h1, h2, h3⟩ := ih _ fun y hy => h y (List.mem_append_right _ (List.mem_cons_of_mem _ hy))
        refine ⟨hflush pend fun y hy => h y (by simp [hy]), fun y hy => ?_, ?_⟩
        · rcases List.mem_cons.mp hy with rfl | hy
          · simp [lone, hb, hr]
          · exact h2 y hy
        · cases l with
          | nil => simp
          | cons z l => exact .inl (by simpa using h1)

omit [FloatText] in
theorem lone_iff {k : Kind} (x : Node k) : lone x = 1 ↔ x.blankOf = [] ∧ x.isRemark = false := by
  unfold lone; split <;> simp [*]

omit [FloatText] in
theorem lone_le {k : Kind} (x : Node k) : lone x ≤ 1 := by unfold lone; split <;> omega

omit [FloatText] in
theorem sum_lone {k : Kind} (l : List (Node k)) (f : Node k → Nat) :
    (l.map fun y => f y + lone y).sum ≤ (l.map f).sum + l.length ∧
      ((l.map f).sum + l.length ≤ (l.map fun y => f y + lone y).sum → ∀ y ∈ l, lone y = 1) := by
  induction l with
  | nil => simp
  | cons x l ih =>
    have := lone_le x
    simp only [List.map_cons, List.sum_cons, List.length_cons, List.mem_cons, forall_eq_or_imp]
    refine ⟨by omega, fun h => ⟨by omega, ih.2 (by omega)⟩⟩

omit [FloatText] in
theorem sum_le {α : Type} (l : List α) (f g : α → Nat) (h : ∀ x ∈ l, f x ≤ g x) : (l.map f).sum ≤ (l.map g).sum := by
  induction l with
  | nil => simp
  | cons x l ih =>
    have h1 := h x (by simp)
    have h2 := ih fun y hy => h y (by simp [hy])
    simp only [List.map_cons, List.sum_cons]
    omega

/-! ## Functions -/

omit [FloatText] in
theorem lineEnds_body (ss : List Str) :
    lineEnds (ss.map fun t => indent t tab ++ c!"\n").flatten = (ss.map lineEnds).sum + ss.length := by
  induction ss with
  | nil => rfl
  | cons s ss ih =>
    simp only [List.map_cons, List.flatten_cons, lineEnds_append, lineEnds_indent, ih, List.sum_cons, List.length_cons]
    have : lineEnds c!"\n" = 1 := rfl
    omega

/-- The text of a function. -/
theorem ends_func (m : Meta) (w : Str) (x : Node (.slice .funcParameter)) (y : Node (.slice .parameterType)) :
    ∃ n, ∀ a l s, l ≠ [] → (Node.func m w x y (.mkSlice a (Out.items l))).fmt = some s → lineEnds s = n + ((l.map ends).sum + l.length) := by
  refine ⟨lineEnds (c!"def " ++ w ++ c!"(") + (lineEnds ((x.texts.map (join c!", ")).getD []) + (lineEnds ((if y.len = 1 then cat [some c!" ", y.texts.map (join c!", ")]
      else if 1 < y.len then cat [some c!" (", y.texts.map (join c!", "), some c!")"]
      else some []).getD []) + 1)), ?_⟩
  intro a l s hl h
  have hn : (Node.mkSlice a (Out.items l)).len ≠ 0 := by simp [Node.len, Out.len_items, hl]
  simp only [Node.fmt, if_pos hn, cat_cons_iff, cat_nil_iff, Option.some.injEq, exists_and_left] at h
  obtain ⟨-, rfl, -, ⟨t1, h1, -, ⟨-, rfl, -, ⟨t3, h3, -, ⟨-, ⟨-, rfl, -, ⟨t6, h6, -, ⟨-, rfl, -, rfl, rfl⟩, rfl⟩, rfl⟩, -, rfl, rfl⟩, rfl⟩, rfl⟩, rfl⟩, rfl⟩ := h
  rw [h1, h3]
  cases h7 : (Out.items l).texts with
  | none => simp [Node.texts, h7] at h6
  | some ss =>
    obtain ⟨e1, e2⟩ := ends_texts h7
    simp only [Node.texts, h7, Option.map_some, Option.some.injEq] at h6
    rw [← e1, ← e2, ← lineEnds_body, h6]
    have c1 : lineEnds c!")" = 0 := rfl
    have c2 : lineEnds c!" {\n" = 1 := rfl
    have c3 : lineEnds c!"}" = 0 := rfl
    have c4 : lineEnds [] = 0 := rfl
    simp only [lineEnds_append, Option.getD_some, c1, c2, c3, c4]
    omega

variable [FloatValue]

/-- The blank lines of items are written as they are. -/
theorem ends_blankStatement {x : Node .funcStatement} (hc : x.canon = true) :
    Node.blank x.blankOf = true ∧ (x.blankOf ≠ [] → ends x = x.blankOf.length) := by
  cases x with
  | funcStatement m e c d y =>
    simp only [Node.canon, Node.everywhere, Node.shaped, Node.writable, Bool.and_eq_true] at hc
    obtain ⟨⟨⟨⟨hs, hw, -⟩, -⟩, -⟩, -⟩ := hc
    refine ⟨hw, fun he => ?_⟩
    simp only [Node.blankOf] at he ⊢
    have hr : c.isRef = false ∧ d.isRef = false ∧ y.isRef = false := by
      cases e1 : c.isRef <;> cases e2 : d.isRef <;> cases e3 : y.isRef <;>
        simp [Node.one, he, e1, e2, e3] at hs ⊢
    simp only [ends, Node.fmt, hr, Bool.false_eq_true, if_false, Option.getD_some]
    exact lineEnds_blank hw

theorem ends_blankItem {x : Node .rootItem} (hc : x.canon = true) :
    Node.blank x.blankOf = true ∧ (x.blankOf ≠ [] → ends (respaceItem x) = x.blankOf.length) := by
  cases x with
  | rootItem m e d f t b a c =>
    simp only [Node.canon, Node.everywhere, Node.shaped, Node.writable, Bool.and_eq_true] at hc
    obtain ⟨⟨⟨⟨⟨⟨⟨hs, hw⟩, -⟩, -⟩, -⟩, -⟩, -⟩, -⟩ := hc
    refine ⟨hw, fun he => ?_⟩
    simp only [Node.blankOf] at he ⊢
    have hr : d.isRef = false ∧ f.isRef = false ∧ t.isRef = false ∧ b.isRef = false ∧ a.isRef = false ∧ c.isRef = false := by
      cases e1 : d.isRef <;> cases e2 : f.isRef <;> cases e3 : t.isRef <;> cases e4 : b.isRef <;> cases e5 : a.isRef <;> cases e6 : c.isRef <;>
        simp [Node.one, he, e1, e2, e3, e4, e5, e6] at hs ⊢
    simp only [ends, respaceItem, Node.fmt, isRef_mapRef, hr, Bool.false_eq_true, if_false, Option.getD_some, if_pos he]
    exact lineEnds_blank hw

omit [FloatText] [FloatValue] in
theorem slice_neat {k : Kind} {l : List (Node k)} {a : Nat} (h : ∀ x ∈ l, x.neat = true) : (Node.mkSlice a (Out.items l)).neat = true := by
  have e : (Node.mkSlice a (Out.items l)).neat = (true && (Out.items l).neat) := rfl
  rw [e, Bool.true_and]
  clear e
  induction l with
  | nil => rfl
  | cons x l ih =>
    have e : (Out.items (x :: l)).neat = ((true && (true && x.neat)) && (Out.items l).neat) := rfl
    rw [e, h x (by simp), ih fun y hy => h y (by simp [hy])]
    rfl

omit [FloatText] in
theorem neat_respaceFunc {f : Node .func} (hc : f.canon = true) (hn : f.neat = true) : (respaceFunc f).neat = true := by
  cases f with
  | func m w x y z =>
    have hz : Reads (.slice .funcStatement) z := by
      have hk := hc
      simp only [Node.canon, Node.everywhere, Node.shaped, Node.writable, Bool.and_eq_true] at hk
      exact reads_of_canon z hk.2
    rcases hz with rfl | ⟨a, l, rfl, hl, hy⟩
    · exact hn
    have e : ∀ z : Node (.slice .funcStatement), (Node.func m w x y z).neat =
      (((Node.tidy (.func m w x y z) && x.neat) && y.neat) && z.neat) := fun _ => rfl
    rw [e, Bool.and_eq_true] at hn
    simp only [respaceFunc, mapSlice, structs_items]
    rw [e, Bool.and_eq_true]
    refine ⟨hn.1, slice_neat (mem_respace (P := fun x => x.neat = true) (fun e he hb => rfl) rfl l (fun s hs => ⟨?_, fun _ => neat_slice hn.2 s hs⟩) [] rfl)⟩
    have := (hy s hs).2.1
    cases s with
    | funcStatement m e c d y =>
      simp only [Node.canon, Node.everywhere, Node.shaped, Node.writable, Bool.and_eq_true] at this
      exact this.1.1.1.2.1

/-- A function is not shorter after it has been read again, and longer if it has blank lines or comments. -/
theorem ends_respaceFunc {f : Node .func} (hc : f.canon = true) (hn : f.neat = true) :
    ends f ≤ ends (respaceFunc f) ∧ (solidFunc f = false → ends f < ends (respaceFunc f)) := by
  have hc' : (respaceFunc f).canon = true := by cases f; exact respace_body hc hn
  obtain ⟨s, hs, -⟩ := fmts_of_neat f hc hn
  obtain ⟨s', hs', -⟩ := fmts_of_neat _ hc' (neat_respaceFunc hc hn)
  cases f with
  | func m w x y z =>
    have hz : Reads (.slice .funcStatement) z := by
      have hk := hc
      simp only [Node.canon, Node.everywhere, Node.shaped, Node.writable, Bool.and_eq_true] at hk
      exact reads_of_canon z hk.2
    rcases hz with rfl | ⟨a, l, rfl, hl, hy⟩
    · exact ⟨le_refl _, by simp [solidFunc, solidBody]⟩
    obtain ⟨n, hn'⟩ := ends_func m w x y
    have e1 : ends (Node.func m w x y (.mkSlice a (Out.items l))) = lineEnds s := by rw [ends, hs]; rfl
    have e2 : ends (respaceFunc (Node.func m w x y (.mkSlice a (Out.items l)))) = lineEnds s' := by rw [ends, hs']; rfl
    rw [e1, e2, hn' a l s hl hs]
    simp only [respaceFunc, mapSlice, structs_items] at hs'
    rw [hn' a _ s' (respace_ne l [] (.inl hl)) hs']
    have h1 := respace_ends (mk := blankStatement) (re := id) (more := []) (fun e he hb => ⟨(ends_blankStatement (blankStatement_canon he hb)).2 he, rfl⟩)
      (fun x => ⟨rfl, rfl⟩) rfl l (fun x hx => ends_blankStatement (hy x hx).2.1) [] rfl
    have h2 := sum_lone (respace blankStatement id [] [] l) ends
    have h3 : (l.map fun x => ends (id x) + 1).sum = (l.map ends).sum + l.length := by
      clear hl hy hs hs' hc hn hc' e1 e2 h1 h2
      induction l with
      | nil => rfl
      | cons x l ih =>
        simp only [List.map_cons, List.sum_cons, List.length_cons, ih]
        simp only [id]
        omega
    simp only [List.length_nil, ite_self, Nat.add_zero, Nat.zero_mul, Nat.zero_add] at h1
    refine ⟨by omega, fun hf => ?_⟩
    by_contra hle
    have h4 := (respace_lone (mk := blankStatement) (re := id) (more := []) (fun e => rfl) (fun x => ⟨rfl, rfl⟩) l [] (h2.2 (by omega))).2.1
    have h5 : solidFunc (Node.func m w x y (.mkSlice a (Out.items l))) = true := by
      simp only [solidFunc, solidBody, structs_items, List.all_eq_true]
      intro x hx
      have := (lone_iff x).mp (h4 x hx)
      cases x with
      | funcStatement m e c d y => simpa [solidStatement, Node.blankOf, Node.isRemark] using this
    rw [hf] at h5
    cases h5

/-! ## Documents -/

theorem ends_respaceItem {x : Node .rootItem} (hc : x.canon = true) (hn : x.neat = true) :
    ends x ≤ ends (respaceItem x) ∧ (solidItem x = false → lone x = 1 → ends x < ends (respaceItem x)) := by
  cases x with
  | rootItem m e d f t b a c =>
    cases f with
    | nil =>
      refine ⟨le_refl _, fun h1 h2 => ?_⟩
      rw [lone_iff] at h2
      simp [solidItem, Node.blankOf, Node.isRemark, solidRef] at h1 h2
      simp [h1 h2.1] at h2
    | ref f =>
      have hf : f.canon = true ∧ f.neat = true ∧ d.isRef = false := by
        have e1 : (Node.rootItem m e d (.ref f) t b a c).canon = (((((((Node.one [decide (e ≠ []), d.isRef, true, t.isRef, b.isRef, a.isRef, c.isRef] &&
          Node.blank e) && d.canon) && (((Node.ref f).shaped && (Node.ref f).writable) && f.canon)) && t.canon) && b.canon) && a.canon) && c.canon) := rfl
        have e2 : (Node.rootItem m e d (.ref f) t b a c).neat = (((((((Node.rootItem m e d (.ref f) t b a c).tidy && d.neat) &&
          ((Node.ref f).tidy && f.neat)) && t.neat) && b.neat) && a.neat) && c.neat) := rfl
        rw [e1] at hc
        rw [e2] at hn
        simp only [Bool.and_eq_true] at hc hn
        refine ⟨hc.1.1.1.1.2.2, hn.1.1.1.1.2.2, ?_⟩
        have hs := hc.1.1.1.1.1.1.1
        cases e1 : d.isRef with
        | false => rfl
        | true =>
          simp only [Node.one, List.count_cons, e1, beq_self_eq_true, if_true, beq_iff_eq] at hs
          omega
      obtain ⟨h1, h2, h3⟩ := hf
      have h4 := ends_respaceFunc h1 h2
      have e1 : ends (Node.rootItem m e d (.ref f) t b a c) = ends f := by simp [ends, Node.fmt, h3, Node.isRef_ref]
      have e2 : ends (respaceItem (Node.rootItem m e d (.ref f) t b a c)) = ends (respaceFunc f) := by
        simp [ends, respaceItem, mapRef, Node.fmt, h3, Node.isRef_ref]
      rw [e1, e2]
      refine ⟨h4.1, fun h5 h6 => h4.2 ?_⟩
      rw [lone_iff] at h6
      simp [solidItem, Node.blankOf, Node.isRemark, solidRef] at h5 h6
      exact h5 h6.1 h6.2

omit [FloatText] in
theorem neat_respaceDoc {x : Node (.slice .rootItem)} (hc : x.canon = true) (hn : x.neat = true) : (respaceDoc x).neat = true := by
  rcases reads_of_canon x hc with rfl | ⟨a, l, rfl, hl, hy⟩
  · exact hn
  simp only [respaceDoc, mapSlice, structs_items]
  refine slice_neat (mem_respace (P := fun x => x.neat = true) (fun e he hb => rfl) rfl l (fun s hs => ⟨?_, fun _ => ?_⟩) [] rfl)
  · have := (hy s hs).2.1
    cases s with
    | rootItem m e d f t b a c =>
      simp only [Node.canon, Node.everywhere, Node.shaped, Node.writable, Bool.and_eq_true] at this
      exact this.1.1.1.1.1.1.2
  · have h1 := (hy s hs).2.1
    have h2 := neat_slice hn s hs
    cases s with
    | rootItem m e d f t b a c =>
      cases f with
      | nil => exact h2
      | ref f =>
        have hf : (respaceFunc f).neat = true := by
          simp only [Node.canon, Node.neat, Node.everywhere, Bool.and_eq_true] at h1 h2
          refine neat_respaceFunc ?_ ?_ <;> simp only [Node.canon, Node.neat] <;> tauto
        simp only [respaceItem, mapRef, Node.neat, Node.everywhere, Bool.and_eq_true] at h2 hf ⊢
        tauto

omit [FloatText] in
/-- A solid document is read again as it was written. -/
theorem respaceDoc_solid {x : Node (.slice .rootItem)} (hc : x.canon = true) (h : solidDoc x = true) : respaceDoc x = x := by
  rcases reads_of_canon x hc with rfl | ⟨a, l, rfl, hl, hy⟩
  · rfl
  simp only [solidDoc, structs_items] at h
  simp only [respaceDoc, mapSlice, structs_items]
  match l, h with
  | [x], h =>
    have hx := (hy x (by simp)).2.1
    clear hy hl
    cases x with
    | rootItem m e d f t b a' c =>
      simp only [solidItems, solidItem, Bool.and_eq_true, decide_eq_true_eq, Bool.not_eq_true'] at h
      obtain ⟨⟨rfl, hr⟩, hf⟩ := h
      have e : respaceItem (Node.rootItem m [] d f t b a' c) = Node.rootItem m [] d f t b a' c := by
        cases f with
        | nil => rfl
        | ref f =>
          cases f with
          | func m' w x y z =>
            have hz : z.canon = true := by
              simp only [Node.canon, Node.everywhere, Bool.and_eq_true] at hx
              simp only [Node.canon]
              tauto
            rcases reads_of_canon z hz with rfl | ⟨a, l, rfl, hl, hy⟩
            · rfl
            simp only [solidRef, solidFunc, solidBody, structs_items, List.all_eq_true] at hf
            simp only [respaceItem, mapRef, respaceFunc, mapSlice, structs_items]
            have : respace blankStatement id [] [] l = l := by
              clear hl hy hz hx hc
              induction l with
              | nil => rfl
              | cons x l ih =>
                have h1 := hf x (by simp)
                have h2 := ih fun y hy => hf y (by simp [hy])
                cases x with
                | funcStatement m e c d y =>
                  simp only [solidStatement, Bool.and_eq_true, decide_eq_true_eq, Bool.not_eq_true'] at h1
                  obtain ⟨rfl, h1⟩ := h1
                  simp [respace, Node.blankOf, Node.isRemark, h1, flush, h2]
            rw [this]
      simp [respace, Node.blankOf, Node.isRemark, hr, flush, e]

/-- Any other document has more lines when it is formatted again. -/
theorem grows {a b : Nat} {x : Node (.slice .rootItem)} (hc : x.canon = true) (hn : x.neat = true) (h : solidDoc x = false) {s s' : Str}
    (hs : AST.fmt ⟨a, x⟩ = some s) (hs' : AST.fmt ⟨b, respaceDoc x⟩ = some s') : lineEnds s < lineEnds s' := by
  rcases reads_of_canon x hc with rfl | ⟨i, l, rfl, hl, hy⟩
  · cases h
  have hneat := neat_slice hn
  simp only [solidDoc, structs_items] at h
  simp only [respaceDoc, mapSlice, structs_items] at hs'
  have e1 := ends_doc hl hs
  have e2 := ends_doc (respace_ne l [] (.inl hl)) hs'
  have h1 := respace_ends (mk := blankItem) (re := respaceItem) (more := c!"\n")
    (fun e he hb => ⟨(ends_blankItem (blankItem_canon he hb)).2 he, rfl⟩)
    (fun x => by cases x; exact ⟨rfl, rfl⟩) rfl l (fun x hx => ends_blankItem (hy x hx).2.1) [] rfl
  have h2 := sum_lone (respace blankItem respaceItem c!"\n" [] l) ends
  have h3 := sum_le l (fun x => ends x + 1) (fun x => ends (respaceItem x) + 1) fun x hx => by
    have := (ends_respaceItem (hy x hx).2.1 (hneat x hx)).1
    omega
  have h4 : (l.map fun x => ends x + 1).sum = (l.map ends).sum + l.length := by
    clear hl hy hs hs' hc hn e1 e2 h1 h2 h3 h hneat
    induction l with
    | nil => rfl
    | cons x l ih =>
      simp only [List.map_cons, List.sum_cons, List.length_cons, ih]
      omega
  simp only [if_neg hl, List.length_nil, List.length_cons, Nat.zero_add, Nat.one_mul] at h1
  have h5 : 0 < (respace blankItem respaceItem c!"\n" [] l).length := List.length_pos_iff.mpr (respace_ne l [] (.inl hl))
  by_contra hle
  obtain ⟨-, h6, h7⟩ := respace_lone (mk := blankItem) (re := respaceItem) (more := c!"\n") (fun e => rfl)
    (fun x => by cases x; exact ⟨rfl, rfl⟩) l [] (h2.2 (by omega))
  have h8 : l.length ≤ 1 := by simpa using h7
  match l, hl, h8 with
  | [x], _, _ =>
    have := (ends_respaceItem (hy x (by simp)).2.1 (hneat x (by simp))).2 h (h6 x (by simp))
    simp only [List.map_cons, List.map_nil, List.sum_cons, List.sum_nil, List.length_cons, List.length_nil] at *
    omega

/-! ## C62 -/

/-- The formatted text is read as the respaced document, and formatted accordingly. -/
theorem reprint_fmt {a : Nat} {x : Node (.slice .rootItem)} (hc : x.canon = true) (hn : x.neat = true) {s : Str}
    (hs : AST.fmt ⟨a, x⟩ = some s) (b : Nat) : reprint s = AST.fmt ⟨b, respaceDoc x⟩ := by
  obtain ⟨s', us, h1, h2, h3⟩ := fmt_doc (t := ⟨a, x⟩) hc hn
  obtain rfl : s' = s := Option.some.inj (h1.symm.trans hs)
  obtain ⟨h4, h5⟩ := respaceDoc_ok hc hn
  obtain ⟨t', h6, h7⟩ := C53_read_back _ h4 h5 s' us h2 h3
  rw [reprint, h6]
  have e1 := (Node.fmt_map (fun _ => ⟨0, {}, none⟩) (fun _ => 0) t'.items).2.1
  have e2 := (Node.fmt_map (fun _ => ⟨0, {}, none⟩) (fun _ => 0) (respaceDoc x)).2.1
  have e3 := Node.len_map (fun _ => ⟨0, {}, none⟩) (fun _ => 0) t'.items
  have e4 := Node.len_map (fun _ => ⟨0, {}, none⟩) (fun _ => 0) (respaceDoc x)
  have h8 : t'.items.map (fun _ => ⟨0, {}, none⟩) (fun _ => 0) = (respaceDoc x).map (fun _ => ⟨0, {}, none⟩) (fun _ => 0) := h7
  simp only [AST.fmt]
  rw [← e1, ← e2, ← e3, ← e4, h8]

omit [FloatText] in
/-- A document that is not solid does not become so. -/
theorem not_solid {x : Node (.slice .rootItem)} (hc : x.canon = true) (h : solidDoc x = false) : solidDoc (respaceDoc x) = false := by
  rcases reads_of_canon x hc with rfl | ⟨i, l, rfl, hl, hy⟩
  · cases h
  simp only [solidDoc, structs_items] at h
  simp only [respaceDoc, mapSlice, solidDoc, structs_items]
  rw [Bool.eq_false_iff]
  intro hs
  have hlone : ∀ y ∈ respace blankItem respaceItem c!"\n" [] l, lone y = 1 := by
    match respace blankItem respaceItem c!"\n" [] l, hs with
    | [y], hs =>
      intro z hz
      obtain rfl : z = y := by simpa using hz
      cases z with
      | rootItem m e d f t b a c =>
        simp only [solidItems, solidItem, Bool.and_eq_true, decide_eq_true_eq, Bool.not_eq_true'] at hs
        exact (lone_iff _).mpr hs.1
  obtain ⟨-, h6, h7⟩ := respace_lone (mk := blankItem) (re := respaceItem) (more := c!"\n") (fun e => rfl)
    (fun x => by cases x; exact ⟨rfl, rfl⟩) l [] hlone
  have h8 : l.length ≤ 1 := by simpa using h7
  match l, hl, h8 with
  | [x], _, _ =>
    have h9 := (lone_iff x).mp (h6 x (by simp))
    simp only [respace, h9.1, h9.2, flush, ne_eq, not_true_eq_false, if_false, if_true, Bool.false_eq_true, List.nil_append, List.isEmpty_nil, solidItems] at hs h
    have hx := (hy x (by simp)).2.1
    cases x with
    | rootItem m e d f t b a c =>
      simp only [Node.blankOf, Node.isRemark] at h9
      cases f with
      | nil => simp [solidItem, h9, solidRef] at h
      | ref f =>
        cases f with
        | func m' w x y z =>
          have hz : z.canon = true := by
            simp only [Node.canon, Node.everywhere, Bool.and_eq_true] at hx
            simp only [Node.canon]
            tauto
          rcases reads_of_canon z hz with rfl | ⟨i', l', rfl, hl', hy'⟩
          · simp [solidItem, h9, solidRef, solidFunc, solidBody] at h
          simp [solidItem, respaceItem, mapRef, h9, solidRef, respaceFunc, mapSlice, structs_items, solidFunc, solidBody] at h hs
          obtain ⟨-, h10, -⟩ := respace_lone (mk := blankStatement) (re := id) (more := []) (fun e => rfl) (fun x => ⟨rfl, rfl⟩) l' []
            (fun y hy => by
              have := hs y hy
              cases y with
              | funcStatement m e c d y =>
                simp only [solidStatement, Bool.and_eq_true, decide_eq_true_eq, Bool.not_eq_true'] at this
                exact (lone_iff _).mpr this)
          obtain ⟨y, h11, h12⟩ := h
          have h13 := (lone_iff y).mp (h10 y h11)
          cases y with
          | funcStatement m e c d y =>
            simp only [Node.blankOf, Node.isRemark] at h13
            simp [solidStatement, h13] at h12

/-- What formatting `n` more times gives. -/
theorem reprints_fmt (n : Nat) {a : Nat} {x : Node (.slice .rootItem)} (hc : x.canon = true) (hn : x.neat = true) {s : Str}
    (hs : AST.fmt ⟨a, x⟩ = some s) : ∃ y s', y.canon = true ∧ y.neat = true ∧ AST.fmt ⟨0, y⟩ = some s' ∧ reprints n s = some s' ∧
      tightDoc y = tightDoc x ∧ (solidDoc x = false → lineEnds s + n ≤ lineEnds s') := by
  induction n generalizing a x s with
  | zero => exact ⟨x, s, hc, hn, hs, rfl, rfl, fun _ => le_refl _⟩
  | succ n ih =>
    have h1 := (respaceDoc_ok hc hn).1
    have h2 := neat_respaceDoc hc hn
    obtain ⟨s1, -, h3, -, -⟩ := fmt_doc (t := ⟨0, respaceDoc x⟩) h1 h2
    obtain ⟨y, s', h4, h5, h6, h7, h8, h9⟩ := ih h1 h2 h3
    refine ⟨y, s', h4, h5, h6, ?_, h8.trans (tightDoc_respaceDoc x), fun h => ?_⟩
    · rw [reprints, reprint_fmt hc hn hs 0, h3, Option.bind_some, h7]
    · have := grows hc hn h hs h3
      have := h9 (not_solid hc h)
      omega

/-- C62 fails already for two declarations: a line is added each time. -/
theorem C62_full_false : ¬ C62_full := by
  intro h
  have h1 : reprint c!"val x = a\nval y = b\n" = some c!"val x = a\n\nval y = b\n" := by kernel_rfl
  have h2 : reprint c!"val x = a\n\nval y = b\n" = some c!"val x = a\n\n\n\n\nval y = b\n" := by kernel_rfl
  have := h _ _ h1
  rw [h2] at this
  exact absurd this (by decide)

/-- **C62**, exactly when it is true, among the documents that are written as they are read: formatting the formatted
text changes nothing if and only if the document has at most one item, which is neither a comment nor a blank line nor a
function with comments or blank lines.  Otherwise the text becomes longer. -/
theorem C62_once_partial (s : Str) (t : AST) (hp : parseString s = .ok t) (hc : t.items.canon = true) (hn : t.items.neat = true) :
    ∃ u v, reprint s = some u ∧ reprint u = some v ∧ (v = u ↔ solidDoc t.items = true) ∧
      (solidDoc t.items = false → lineEnds u < lineEnds v) := by
  obtain ⟨u, -, h1, -, -⟩ := fmt_doc hc hn
  obtain ⟨v, -, h2, -, -⟩ := fmt_doc (t := ⟨t.addr, respaceDoc t.items⟩) (respaceDoc_ok hc hn).1 (neat_respaceDoc hc hn)
  refine ⟨u, v, by rw [reprint, hp]; exact h1, (reprint_fmt (a := t.addr) hc hn h1 _).trans h2, ⟨fun h => ?_, fun h => ?_⟩, fun h => grows hc hn h h1 h2⟩
  · rw [← Bool.not_eq_false]
    intro h3
    have := grows (a := t.addr) hc hn h3 h1 h2
    rw [h] at this
    omega
  · rw [respaceDoc_solid hc h] at h2
    exact Option.some.inj (h2.symm.trans h1)

/-- **C62**, for any number of times: the text can always be read and formatted again, nothing but blank lines changes, and unless
the document is solid every time adds at least one line. -/
theorem C62_again_partial (s : Str) (t : AST) (hp : parseString s = .ok t) (hc : t.items.canon = true) (hn : t.items.neat = true) (n : Nat) :
    ∃ u v t', reprint s = some u ∧ reprints n u = some v ∧ parseString v = .ok t' ∧
      tightDoc t'.items.bare = tightDoc t.items.bare ∧
      (solidDoc t.items = false → lineEnds u + n ≤ lineEnds v) ∧ (solidDoc t.items = true → v = u) := by
  obtain ⟨u, -, h1, -, -⟩ := fmt_doc hc hn
  obtain ⟨y, v, h2, h3, h4, h5, h6, h7⟩ := reprints_fmt n (a := t.addr) hc hn h1
  obtain ⟨v', h8, t', h9, h10⟩ := C29_round_trip_partial ⟨0, y⟩ h2 h3
  obtain rfl : v' = v := Option.some.inj (h8.symm.trans h4)
  refine ⟨u, v', t', by rw [reprint, hp]; exact h1, h5, h9, ?_, h7, fun h => ?_⟩
  · rw [h10, tightDoc_bare, tightDoc_bare, h6]
  · have hstep : reprint u = some u := by
      rw [reprint_fmt (a := t.addr) hc hn h1 t.addr, respaceDoc_solid hc h]
      exact h1
    have hall : ∀ n, reprints n u = some u := by
      intro n
      induction n with
      | zero => rfl
      | succ n ih => rw [reprints, hstep, Option.bind_some, ih]
    exact Option.some.inj (h5.symm.trans (hall n))

/-! ## Cases -/

/-- The text is read as a writable, neat document; whether that is solid. -/
def solidText (s : Str) : Option Bool :=
  match parseString s with
  | .ok t => if t.items.canon && t.items.neat then some (solidDoc t.items) else none
  | _ => none

example : solidText c!"def f(a: b, c) (d, e) {\nval y = a ? b : c\nif a {\nb\n}\n}\n" = some true := by kernel_rfl
example : solidText c!"type t enum {\na: b\n}\n" = some true := by kernel_rfl
example : solidText c!"def f(a) {\n# foo\na\n}\n" = some false := by kernel_rfl
example : solidText c!"val x = a\n# foo\ninput y\n" = some false := by kernel_rfl
example : (reprint c!"def f(a) {\n# foo\na\n}\n").bind (reprints 2) = some c!"def f(a) {\n\t# foo\n\n\n\n\n\n\ta\n}\n" := by kernel_rfl

end

end Verif.Etx
