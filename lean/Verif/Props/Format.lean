import Verif.Etx.FormatLemmas
import Verif.Etx.Samples
import Verif.Etx.IndentLemmas
import Mathlib.Data.List.Forall2

/-! # Properties C31, C47, C48, C49: formatting -/

namespace Verif.Etx
open Node

variable [FloatText]

/-! ## C31 -/

/-- **C31.** The clone of any node formats to the same text as the node, and panics iff the node does. -/
theorem C31_format_clone {k : Kind} (x : Node k) (n : Nat) : (x.clone n).1.fmt = x.fmt := by
  have h1 := (fmt_map (fun m => { addr := 0, pos := m.pos, parent := none }) (fun _ => 0) x).1
  have h2 := (fmt_map (fun m => { addr := 0, pos := m.pos, parent := none }) (fun _ => 0) (x.clone n).1).1
  have h3 := x.clone_erase n
  unfold erase at h3
  rw [← h1, ← h2, h3]

/-- **C31** for documents. -/
theorem C31_format_clone_ast (t : AST) (n : Nat) :
    (AST.clone (some t) n).1.map AST.fmt = some t.fmt := by
  have h1 := fmt_map (fun m => { addr := 0, pos := m.pos, parent := none }) (fun _ => 0) t.items
  have h2 := fmt_map (fun m => { addr := 0, pos := m.pos, parent := none }) (fun _ => 0) (t.items.clone (n + 1)).1
  have l1 := len_map (fun m => { addr := 0, pos := m.pos, parent := none }) (fun _ => 0) t.items
  have l2 := len_map (fun m => { addr := 0, pos := m.pos, parent := none }) (fun _ => 0) (t.items.clone (n + 1)).1
  have h3 := t.items.clone_erase (n + 1)
  unfold erase at h3
  simp only [AST.clone, Alloc.bind_run, Alloc.pure_run, Alloc.new_run, Option.map_some]
  unfold AST.fmt
  simp only
  rw [← h1.2.1, ← h2.2.1, ← l1, ← l2, h3]

/-- Neither does formatting depend on the `Parent`s and positions. -/
theorem C31_format_any {k : Kind} (x y : Node k) (f g : Meta → Meta) (fa ga : Nat → Nat)
    (h : x.map f fa = y.map g ga) : x.fmt = y.fmt := by
  rw [← (fmt_map f fa x).1, h, (fmt_map g ga y).1]

omit [FloatText] in
example : @AST.fmt ⟨fun _ => []⟩ Sample.heredocDoc = some c!"x: <<Et\nE\n" := by decide +kernel

/-! ## C47 -/

/-- The elements of a slice. -/
def Node.toList {k : Kind} : Node (.items k) → List (Node (.ptr k))
  | .empty => []
  | .cons x xs => x :: xs.toList

omit [FloatText] in
theorem byteLen_append (s t : Str) : byteLen (s ++ t) = byteLen s + byteLen t := by simp [byteLen]

omit [FloatText] in
theorem byteLen_spaces (n : Nat) : byteLen (spaces n) = n := by
  have : ' '.utf8Size = 1 := by decide +kernel
  simp [byteLen, spaces, this]

omit [FloatText] in
theorem foldl_max (rows : List (Str × Str)) (m : Nat) :
    let r := rows.foldl (fun m r => if m < byteLen r.1 then byteLen r.1 else m) m
    m ≤ r ∧ (∀ x ∈ rows, byteLen x.1 ≤ r) ∧ (r = m ∨ ∃ x ∈ rows, byteLen x.1 = r) := by
  induction rows generalizing m with
  | nil => simp
  | cons x rows ih =>
    simp only [List.foldl_cons]
    have hm : ∃ m', (if m < byteLen x.1 then byteLen x.1 else m) = m' ∧ m ≤ m' ∧ byteLen x.1 ≤ m' ∧
        (m' = m ∨ byteLen x.1 = m') := by
      split
      · exact ⟨_, rfl, by omega, by omega, .inr rfl⟩
      · exact ⟨_, rfl, by omega, by omega, .inl rfl⟩
    obtain ⟨m', hm', h4, h5, h6⟩ := hm
    rw [hm']
    obtain ⟨h1, h2, h3⟩ := ih m'
    refine ⟨by omega, List.forall_mem_cons.mpr ⟨by omega, h2⟩, ?_⟩
    rcases h3 with h3 | ⟨y, hy, h3⟩
    · rw [h3]
      rcases h6 with h6 | h6
      · exact .inl h6
      · exact .inr ⟨x, List.mem_cons_self, h6⟩
    · exact .inr ⟨y, List.mem_cons_of_mem _ hy, h3⟩

/-- `x` is an enum or object item with this label whose value or type formats to `t`. -/
inductive IsRow : {k : Kind} → Node (.ptr k) → Str → Str → Prop
  | enum (m : Meta) (e : Str) (c : Node (.ptr .comment)) (label : Str) (v : Node .expr) (t : Str) (h : v.fmt = some t) :
    IsRow (.ref (.typeEnumItem m e c label v)) label t
  | object (m : Meta) (e : Str) (c : Node (.ptr .comment)) (label : Str) (v : Node .parameterType) (t : Str)
    (h : v.fmt = some t) : IsRow (.ref (.typeObjectItem m e c label v)) label t

/-- `body` is an aligned body for the items `xs`: one line per item, in order, consisting of the label, a colon, one or
more spaces and the text of the value or type, which starts at column `w` of every line; at least one line has only
one space. -/
def AlignedBody {k : Kind} (xs : List (Node (.ptr k))) (body : Str) : Prop :=
  ∃ (w : Nat) (lines : List (Str × Nat × Str)),
    body = (lines.map fun l => c!"\n" ++ (l.1 ++ c!":" ++ spaces l.2.1) ++ l.2.2).flatten ∧
    List.Forall₂ (fun x l => IsRow x l.1 l.2.2) xs lines ∧
    (∀ l ∈ lines, 1 ≤ l.2.1 ∧ byteLen (l.1 ++ c!":" ++ spaces l.2.1) = w) ∧
    (xs ≠ [] → ∃ l ∈ lines, l.2.1 = 1)

theorem rows_enum : (xs : Node (.items .typeEnumItem)) → (rs : List (Str × Str)) → xs.rows = some rs →
    List.Forall₂ (fun x r => IsRow x r.1 r.2) xs.toList rs
  | .empty, rs, h => by
    simp only [rows, Option.some.injEq] at h
    subst h
    simp only [toList]
    exact .nil
  | .cons .nil xs, rs, h => by simp [rows] at h
  | .cons (.ref (.typeEnumItem m e c label v)) xs, rs, h => by
    simp only [rows, Option.bind_eq_bind, Option.pure_def, Option.bind_eq_some_iff, Option.some.injEq] at h
    obtain ⟨_, ⟨t, ht, rfl⟩, rs', h', rfl⟩ := h
    simp only [toList]
    refine List.Forall₂.cons ?_ (rows_enum xs rs' h')
    exact .enum m e c label v t ht

theorem rows_object : (xs : Node (.items .typeObjectItem)) → (rs : List (Str × Str)) → xs.rows = some rs →
    List.Forall₂ (fun x r => IsRow x r.1 r.2) xs.toList rs
  | .empty, rs, h => by
    simp only [rows, Option.some.injEq] at h
    subst h
    simp only [toList]
    exact .nil
  | .cons .nil xs, rs, h => by simp [rows] at h
  | .cons (.ref (.typeObjectItem m e c label v)) xs, rs, h => by
    simp only [rows, Option.bind_eq_bind, Option.pure_def, Option.bind_eq_some_iff, Option.some.injEq] at h
    obtain ⟨_, ⟨t, ht, rfl⟩, rs', h', rfl⟩ := h
    simp only [toList]
    refine List.Forall₂.cons ?_ (rows_object xs rs' h')
    exact .object m e c label v t ht

theorem aligned_body {k : Kind} (xs : List (Node (.ptr k))) (rs : List (Str × Str))
    (h : List.Forall₂ (fun x r => IsRow x r.1 r.2) xs rs) : AlignedBody xs (aligned rs) := by
  obtain ⟨-, h2, h3⟩ := foldl_max rs 0
  refine ⟨maxLabel rs + 2, rs.map (fun r => (r.1, maxLabel rs - byteLen r.1 + 1, r.2)), ?_, ?_, ?_, ?_⟩
  · have hs : ∀ n, spaces (n + 1) = spaces n ++ c!" " := fun n => List.replicate_succ'
    simp only [aligned, List.map_map, Function.comp_def, hs, List.append_assoc]
    congr 1
    apply List.map_congr_left
    intro r _
    simp only [alignedRow, List.append_assoc]
  · rw [List.forall₂_map_right_iff]
    exact h
  · intro l hl
    obtain ⟨r, hr, rfl⟩ := List.mem_map.mp hl
    have := h2 r hr
    have hc : byteLen c!":" = 1 := by decide +kernel
    simp only [byteLen_append, byteLen_spaces, hc]
    unfold maxLabel at *
    omega
  · intro hx
    have : ∃ r ∈ rs, byteLen r.1 = maxLabel rs := by
      rcases h3 with h3 | h3
      · cases h with
        | nil => exact absurd rfl hx
        | @cons x r xs rs _ _ =>
          have := h2 r List.mem_cons_self
          refine ⟨r, List.mem_cons_self, ?_⟩
          unfold maxLabel
          omega
      · exact h3
    obtain ⟨r, hr, hl⟩ := this
    exact ⟨_, List.mem_map_of_mem hr, by simp [hl]⟩

/-- **C47** for enums. -/
theorem C47_enum (m : Meta) (a : Nat) (xs : Node (.items .typeEnumItem)) (s : Str)
    (h : (Node.typeEnum m (.mkSlice a xs)).fmt = some s) : AlignedBody xs.toList s := by
  simp only [fmt, rows, Option.map_eq_some_iff] at h
  obtain ⟨rs, hr, rfl⟩ := h
  exact aligned_body _ _ (rows_enum xs rs hr)

/-- **C47** for objects. -/
theorem C47_object (m : Meta) (a : Nat) (xs : Node (.items .typeObjectItem)) (s : Str)
    (h : (Node.typeObject m (.mkSlice a xs)).fmt = some s) : AlignedBody xs.toList s := by
  simp only [fmt, rows, Option.map_eq_some_iff] at h
  obtain ⟨rs, hr, rfl⟩ := h
  exact aligned_body _ _ (rows_object xs rs hr)

omit [FloatText] in
theorem indentFrom_prefix (pre p t : Str) (hp : p ≠ []) (hn : '\n' ∉ p) :
    indentFrom '\n' pre true (p ++ t) = pre ++ p ++ indentFrom '\n' pre false t := by
  have hf : ∀ p : Str, '\n' ∉ p → indentFrom '\n' pre false (p ++ t) = p ++ indentFrom '\n' pre false t := by
    intro p hp
    induction p with
    | nil => rfl
    | cons c p ih =>
      simp only [List.mem_cons, not_or] at hp
      have : ¬ c = '\n' := fun h => hp.1 h.symm
      simp [indentFrom, this, ih hp.2]
  cases p with
  | nil => exact absurd rfl hp
  | cons c p =>
    simp only [List.mem_cons, not_or] at hn
    have : ¬ c = '\n' := fun h => hn.1 h.symm
    simp [indentFrom, this, hf p hn.2]

/-- `body` is the aligned body of a type declaration: as `AlignedBody`, with a tab in front of each line and in front of
the further lines of each value. -/
def AlignedType {k : Kind} (xs : List (Node (.ptr k))) (body : Str) : Prop :=
  ∃ (w : Nat) (lines : List (Str × Nat × Str)),
    body = (lines.map fun l => c!"\n\t" ++ (l.1 ++ c!":" ++ spaces l.2.1) ++ indentFrom '\n' tab false l.2.2).flatten ∧
    List.Forall₂ (fun x l => IsRow x l.1 l.2.2) xs lines ∧
    (∀ l ∈ lines, 1 ≤ l.2.1 ∧ byteLen (l.1 ++ c!":" ++ spaces l.2.1) = w) ∧
    (xs ≠ [] → ∃ l ∈ lines, l.2.1 = 1)

/-- Labels without line breaks, as all identifiers. -/
def PlainLabels {k : Kind} (xs : List (Node (.ptr k))) : Prop := ∀ x ∈ xs, ∀ label t, IsRow x label t → '\n' ∉ label

theorem AlignedBody.indent {k : Kind} {xs : List (Node (.ptr k))} {s : Str} (h : AlignedBody xs s) (hl : PlainLabels xs) :
    AlignedType xs (indent s tab) := by
  obtain ⟨w, lines, rfl, h2, h3, h4⟩ := h
  refine ⟨w, lines, ?_, h2, h3, h4⟩
  have hl' : ∀ l ∈ lines, '\n' ∉ l.1 := by
    clear h3 h4
    induction h2 with
    | nil => simp
    | @cons x l xs ls hx _ ih =>
      rw [List.forall_mem_cons]
      exact ⟨hl x List.mem_cons_self _ _ hx, ih (fun y hy => hl y (List.mem_cons_of_mem _ hy))⟩
  clear h2 h3 h4
  unfold Etx.indent
  have key : ∀ (b : Bool) (ls : List (Str × Nat × Str)), (∀ l ∈ ls, '\n' ∉ l.1) →
      indentFrom '\n' tab b (ls.map fun l => c!"\n" ++ (l.1 ++ c!":" ++ spaces l.2.1) ++ l.2.2).flatten =
        (ls.map fun l => c!"\n\t" ++ (l.1 ++ c!":" ++ spaces l.2.1) ++ indentFrom '\n' tab false l.2.2).flatten := by
    intro b ls
    induction ls generalizing b with
    | nil => intro _; rfl
    | cons l ls ih =>
      intro hls
      rw [List.forall_mem_cons] at hls
      have hnl : '\n' ∉ l.1 ++ c!":" ++ spaces l.2.1 := by simp [hls.1, spaces]
      have hne : l.1 ++ c!":" ++ spaces l.2.1 ≠ [] := by simp
      have ha : ∀ (b : Bool) (t r : Str), indentFrom '\n' tab b (t ++ '\n' :: r) =
          indentFrom '\n' tab b t ++ indentFrom '\n' tab false ('\n' :: r) := by
        intro b t r
        rw [indentFrom_append]
        simp [indentFrom]
      have hrest : ∀ t : Str, indentFrom '\n' tab false (t ++ (ls.map fun l => c!"\n" ++ (l.1 ++ c!":" ++ spaces l.2.1) ++ l.2.2).flatten) =
          indentFrom '\n' tab false t ++ (ls.map fun l => c!"\n\t" ++ (l.1 ++ c!":" ++ spaces l.2.1) ++ indentFrom '\n' tab false l.2.2).flatten := by
        intro t
        rw [← ih false hls.2]
        cases ls with
        | nil => simp [indentFrom]
        | cons l' ls =>
          simp only [List.map_cons, List.flatten_cons, List.cons_append, List.nil_append]
          exact ha _ _ _
      simp only [List.map_cons, List.flatten_cons, List.cons_append, List.nil_append, List.append_assoc]
      have := indentFrom_prefix tab _ (l.2.2 ++ (ls.map fun l => c!"\n" ++ (l.1 ++ c!":" ++ spaces l.2.1) ++ l.2.2).flatten) hne hnl
      rw [hrest] at this
      simp only [List.append_assoc, List.cons_append, List.nil_append] at this
      rw [indentFrom]
      simp only [ne_eq, not_true_eq_false, and_false, if_false, List.nil_append, decide_true]
      rw [this]
      rfl
  exact key _ _ hl'

/-- **C47.** The text of an enum declaration is its head, the aligned body and a closing brace. -/
theorem C47_aligned_enum (m me : Meta) (label : Str) (a : Nat) (xs : Node (.items .typeEnumItem))
    (object : Node (.ptr .typeObject)) (s : Str)
    (h : (Node.type m label (.ref (.typeEnum me (.mkSlice a xs))) object).fmt = some s) (hl : PlainLabels xs.toList) :
    ∃ body, AlignedType xs.toList body ∧ s = c!"type " ++ label ++ c!" enum {" ++ body ++ c!"\n}" := by
  rw [fmt] at h
  simp only [isRef, if_true, fmt_ref, cat_cons_iff, cat_nil_iff, Option.some.injEq, Option.map_eq_some_iff] at h
  obtain ⟨_, _, rfl, ⟨_, _, ⟨_, _, rfl, ⟨_, _, ⟨b, hb, rfl⟩, ⟨_, _, rfl, rfl, rfl⟩, rfl⟩, rfl⟩, rfl, rfl⟩, rfl⟩ := h
  exact ⟨_, (C47_enum me a xs b hb).indent hl, by simp⟩

/-- **C47.** The text of an object declaration is its head, the aligned body and a closing brace. -/
theorem C47_aligned_object (m me : Meta) (label : Str) (a : Nat) (xs : Node (.items .typeObjectItem)) (s : Str)
    (h : (Node.type m label .nil (.ref (.typeObject me (.mkSlice a xs)))).fmt = some s) (hl : PlainLabels xs.toList) :
    ∃ body, AlignedType xs.toList body ∧ s = c!"type " ++ label ++ c!" object {" ++ body ++ c!"\n}" := by
  rw [fmt] at h
  simp only [isRef, if_true, fmt_ref, cat_cons_iff, cat_nil_iff, Option.some.injEq, Option.map_eq_some_iff,
    Bool.false_eq_true, if_false] at h
  obtain ⟨_, _, rfl, ⟨_, _, ⟨_, _, rfl, ⟨_, _, ⟨b, hb, rfl⟩, ⟨_, _, rfl, rfl, rfl⟩, rfl⟩, rfl⟩, rfl, rfl⟩, rfl⟩ := h
  exact ⟨_, (C47_object me a xs b hb).indent hl, by simp⟩

omit [FloatText] in
/-- Two enum items with labels of different lengths. -/
example : @fmt ⟨fun _ => []⟩ _ (.type (Sample.at_ 0) c!"T" (.ref (.typeEnum (Sample.at_ 1) (.mkSlice 2
      (.cons (.ref (.typeEnumItem (Sample.at_ 3) [] .nil c!"a" (Sample.ofIdent 4 c!"x")))
      (.cons (.ref (.typeEnumItem (Sample.at_ 3) [] .nil c!"bcd" (Sample.ofIdent 4 c!"y"))) .empty))))) .nil) =
    some c!"type T enum {\n\ta:   x\n\tbcd: y\n}" := by decide +kernel

/-! ## C48 -/

/-- **C48** in full: the text of an if expression contains the text of the condition and those of the two branches
(indented) as far as they are present. -/
def C48_full : Prop := ∀ (m : Meta) (c : Node (.bin .logicalOr)) (l r : Node (.ptr .expr)) (s : Str),
  (Node.exprIf m c l r).fmt = some s → (∃ t, c.fmt = some t ∧ t <:+: s) ∧
    (∀ x, l = .ref x → ∃ t, x.fmt = some t ∧ indent t tab <:+: s) ∧
    (∀ x, r = .ref x → ∃ t, x.fmt = some t ∧ indent t tab <:+: s)

/-- The condition `c` of the samples. -/
def Sample.cond (a : Nat) (s : Str) : Node (.bin .logicalOr) :=
  match Sample.ofIdent a s with
  | .expr _ (.ref (.conditional _ c _ _ _)) _ _ => c
  | _ => .bin .logicalOr (Sample.at_ a) (.bin .logicalAnd (Sample.at_ (a + 3)) (.bin .bitwiseOr (Sample.at_ (a + 4))
      (.bin .bitwiseXor (Sample.at_ (a + 5)) (.bin .bitwiseAnd (Sample.at_ (a + 6)) (.bin .equality (Sample.at_ (a + 7))
        (.bin .relational (Sample.at_ (a + 8)) (.bin .shift (Sample.at_ (a + 9)) (.bin .additive (Sample.at_ (a + 10))
          (.bin .multiplicative (Sample.at_ (a + 11)) (.unary (Sample.at_ (a + 12)) []
            (.postfixE (Sample.at_ 0) (.primary (Sample.at_ 0) .nil .nil .nil .nilSlice .nil) .nil .nil)) [] .nil)
        [] .nil) [] .nil) [] .nil) [] .nil) [] .nil) [] .nil) [] .nil) [] .nil) [] .nil

/-- C48 fails: `if c { } else { x }` is formatted as `if c { }`. -/
theorem C48_else_dropped : ¬ C48_full := by
  intro h
  have h1 : (Node.exprIf (Sample.at_ 0) (Sample.cond 1 c!"c") .nil (.ref (Sample.ofIdent 30 c!"x"))).fmt =
      some c!"if c { }" := by
    rfl
  obtain ⟨t, ht, hin⟩ := (h _ _ _ _ _ h1).2.2 _ rfl
  have : t = c!"x" := by
    have h2 : (Sample.ofIdent 30 c!"x").fmt = some c!"x" := by rfl
    rw [h2] at ht
    exact (Option.some.inj ht).symm
  subst this
  have h3 := hin.subset (a := '\t') (by decide +kernel)
  revert h3
  decide +kernel

/-- **C48** as far as it is true: when there is a then-branch, or no else-branch.  Missing: an else-branch after an empty
then-branch is dropped. -/
theorem C48_branches_partial (m : Meta) (c : Node (.bin .logicalOr)) (l r : Node (.ptr .expr)) (s : Str)
    (hlr : l.isRef = true ∨ r.isRef = false) (h : (Node.exprIf m c l r).fmt = some s) :
    (∃ t, c.fmt = some t ∧ t <:+: s) ∧
      (∀ x, l = .ref x → ∃ t, x.fmt = some t ∧ indent t tab <:+: s) ∧
      (∀ x, r = .ref x → ∃ t, x.fmt = some t ∧ indent t tab <:+: s) := by
  have inf : ∀ (a b c : Str), b <:+: a ++ (b ++ c) := fun a b c => ⟨a, c, by simp⟩
  rw [fmt] at h
  cases l with
  | nil =>
    cases r with
    | ref r => simp [isRef] at hlr
    | nil =>
      simp only [isRef, Bool.false_eq_true, if_false, cat_cons_iff, cat_nil_iff, Option.some.injEq] at h
      obtain ⟨_, _, rfl, ⟨t, _, ht, ⟨_, _, rfl, rfl, rfl⟩, rfl⟩, rfl⟩ := h
      exact ⟨⟨t, ht, inf _ _ _⟩, by simp, by simp⟩
  | ref l =>
    cases r with
    | nil =>
      simp only [isRef, Bool.false_eq_true, if_false, if_true, fmt_ref, cat_cons_iff, cat_nil_iff, Option.some.injEq,
        Option.map_eq_some_iff] at h
      obtain ⟨_, _, rfl, ⟨t, _, ht, ⟨_, _, rfl, ⟨_, _, ⟨t', ht', rfl⟩, ⟨_, _, rfl, rfl, rfl⟩, rfl⟩, rfl⟩, rfl⟩, rfl⟩ := h
      refine ⟨⟨t, ht, inf _ _ _⟩, ?_, by simp⟩
      rintro x hx
      cases hx
      exact ⟨t', ht', by rw [← List.append_assoc, ← List.append_assoc]; exact inf _ _ _⟩
    | ref r =>
      simp only [isRef, if_true, fmt_ref, cat_cons_iff, cat_nil_iff, Option.some.injEq, Option.map_eq_some_iff] at h
      obtain ⟨_, _, rfl, ⟨t, _, ht, ⟨_, _, rfl, ⟨_, _, ⟨t', ht', rfl⟩, ⟨_, _, rfl,
        ⟨_, _, ⟨t'', ht'', rfl⟩, ⟨_, _, rfl, rfl, rfl⟩, rfl⟩, rfl⟩, rfl⟩, rfl⟩, rfl⟩, rfl⟩ := h
      refine ⟨⟨t, ht, inf _ _ _⟩, ?_, ?_⟩
      · rintro x hx
        cases hx
        exact ⟨t', ht', by rw [← List.append_assoc, ← List.append_assoc]; exact inf _ _ _⟩
      · rintro x hx
        cases hx
        refine ⟨t'', ht'', ?_⟩
        rw [← List.append_assoc, ← List.append_assoc, ← List.append_assoc, ← List.append_assoc]
        exact inf _ _ _

example : (Node.exprIf (Sample.at_ 0) (Sample.cond 1 c!"c") (.ref (Sample.ofIdent 30 c!"x")) (.ref (Sample.ofIdent 50 c!"y"))).fmt =
    some c!"if c {\n\tx\n} else {\n\ty\n}" := by rfl

/-! ## C49 -/

/-- **C49** in full, as a line count: a block has a line for its head, one for its closing brace, and at least one for each
item whose text is not empty. -/
def C49_full : Prop := ∀ (m : Meta) (name : Str) (labels : Strs) (a : Nat) (xs : Node (.items .blockItem)) (ts : List Str)
    (s : Str), name ≠ [] → xs.texts = some ts → (Node.block m name labels (.mkSlice a xs)).fmt = some s → ts ≠ [] →
  (ts.filter (fun t => t ≠ [])).length + 2 ≤ (s.splitOn '\n').length

/-- What a block with a body is formatted to. -/
theorem block_fmt (m : Meta) (name : Str) (labels : Strs) (a : Nat) (xs : Node (.items .blockItem)) (ts : List Str)
    (hn : name ≠ []) (ht : xs.texts = some ts) (hne : ts ≠ []) :
    (Node.block m name labels (.mkSlice a xs)).fmt =
      some (name ++ fmtLabels labels ++ c!" {\n" ++ (ts.map (indent · tab)).flatten ++ c!"\n}") := by
  have hlen : (Node.mkSlice a xs).len ≠ 0 := by
    cases xs with
    | empty =>
      simp only [texts, Option.some.injEq] at ht
      exact absurd ht.symm hne
    | cons x xs => simp [len]
  have ht' : (Node.mkSlice a xs).texts = some ts := by rw [texts]; exact ht
  rw [fmt, if_neg hn, if_pos hlen, ht']
  simp [cat]

/-- C49 fails in general: two consecutive attributes without a line break inside end up on one line. -/
theorem C49_same_line (m : Meta) (name : Str) (labels : Strs) (a : Nat) (xs : Node (.items .blockItem)) (t₁ t₂ : Str)
    (hn : name ≠ []) (ht : xs.texts = some [t₁, t₂]) (h₁ : t₁ ≠ [] ∧ '\n' ∉ t₁) (h₂ : t₂ ≠ [] ∧ '\n' ∉ t₂)
    (hh : '\n' ∉ name ++ fmtLabels labels) :
    ∃ s, (Node.block m name labels (.mkSlice a xs)).fmt = some s ∧
      s.splitOn '\n' = [name ++ fmtLabels labels ++ c!" {", c!"\t" ++ t₁ ++ c!"\t" ++ t₂, c!"}"] := by
  refine ⟨_, block_fmt m name labels a xs _ hn ht (by simp), ?_⟩
  have e1 : indent t₁ tab = c!"\t" ++ t₁ := by
    rw [indent, indentFrom_one _ _ _ h₁.2, indentLine, if_neg h₁.1, tab]
  have e2 : indent t₂ tab = c!"\t" ++ t₂ := by
    rw [indent, indentFrom_one _ _ _ h₂.2, indentLine, if_neg h₂.1, tab]
  have : name ++ fmtLabels labels ++ c!" {\n" ++ ([t₁, t₂].map (indent · tab)).flatten ++ c!"\n}" =
      (name ++ fmtLabels labels ++ c!" {") ++ '\n' :: ((c!"\t" ++ t₁ ++ c!"\t" ++ t₂) ++ '\n' :: c!"}") := by
    simp [e1, e2]
  rw [this, List.splitOn_append_cons_self_of_not_mem, List.splitOn_append_cons_self_of_not_mem, List.splitOn_eq_singleton]
  · decide
  · simp [h₁.2, h₂.2]
  · simpa using hh

/-- An attribute `k` without a value as a block item. -/
def Sample.flag (a : Nat) (k : Str) : Node (.ptr .blockItem) :=
  .ref (.blockItem (Sample.at_ a) [] .nil (.ref (.attr (Sample.at_ (a + 1)) k .nil)) .nil)

/-- C49 fails. -/
theorem C49_items_joined : ¬ C49_full := by
  intro h
  obtain ⟨s, h1, h2⟩ := C49_same_line (Sample.at_ 0) c!"n" .nil 1 (.cons (Sample.flag 2 c!"a") (.cons (Sample.flag 4 c!"b") .empty))
    c!"a" c!"b" (by decide) rfl (by decide) (by decide) (by decide)
  have := h _ _ _ _ _ _ s (by decide) rfl h1 (by decide)
  rw [h2] at this
  revert this
  decide

/-- **C49** as far as it is true: if all items but the last end in a line break (as comments do), the lines of the
block are its head, the indented lines of the items in order, and the closing brace.  Missing: items that do not
end in a line break are followed by the next item on the same line. -/
theorem C49_separate_partial (m : Meta) (name : Str) (labels : Strs) (a : Nat) (xs : Node (.items .blockItem))
    (us : List Str) (t : Str) (hn : name ≠ []) (ht : xs.texts = some (us.map (· ++ c!"\n") ++ [t]))
    (hh : '\n' ∉ name ++ fmtLabels labels) :
    ∃ s, (Node.block m name labels (.mkSlice a xs)).fmt = some s ∧
      s.splitOn '\n' = [name ++ fmtLabels labels ++ c!" {"] ++
        (us ++ [t]).flatMap (fun u => (u.splitOn '\n').map (indentLine tab)) ++ [c!"}"] := by
  refine ⟨_, block_fmt m name labels a xs _ hn ht (by simp), ?_⟩
  have hu : ∀ u : Str, indent (u ++ c!"\n") tab = indent u tab ++ c!"\n" := by
    intro u
    rw [indent, indentFrom_append]
    simp [indentFrom, indent]
  have htab : '\n' ∉ tab := by decide
  have hlines : ∀ us : List Str, (((us.map (· ++ c!"\n") ++ [t]).map (indent · tab)).flatten ++ c!"\n}").splitOn '\n' =
      (us ++ [t]).flatMap (fun u => (u.splitOn '\n').map (indentLine tab)) ++ [c!"}"] := by
    intro us
    induction us with
    | nil =>
      have : (([].map (· ++ c!"\n") ++ [t]).map (indent · tab)).flatten ++ c!"\n}" = indent t tab ++ '\n' :: c!"}" := by simp
      rw [this, List.splitOn_append_cons_self, indent, indentFrom_splitOn _ _ _ htab]
      have : (c!"}").splitOn '\n' = [c!"}"] := by decide
      simp [this]
    | cons u us ih =>
      have : (((u :: us).map (· ++ c!"\n") ++ [t]).map (indent · tab)).flatten ++ c!"\n}" =
          indent u tab ++ '\n' :: (((us.map (· ++ c!"\n") ++ [t]).map (indent · tab)).flatten ++ c!"\n}") := by
        simp [hu]
      rw [this, List.splitOn_append_cons_self, ih, indent, indentFrom_splitOn _ _ _ htab]
      simp
  have : name ++ fmtLabels labels ++ c!" {\n" ++ ((us.map (· ++ c!"\n") ++ [t]).map (indent · tab)).flatten ++ c!"\n}" =
      (name ++ fmtLabels labels ++ c!" {") ++ '\n' :: (((us.map (· ++ c!"\n") ++ [t]).map (indent · tab)).flatten ++ c!"\n}") := by
    simp
  rw [this, List.splitOn_append_cons_self_of_not_mem _ _, hlines]
  · simp
  · simpa using hh

/-- A comment followed by an attribute. -/
example : let xs : Node (.items .blockItem) :=
      .cons (.ref (.blockItem (Sample.at_ 2) [] .nil .nil (.ref (.comment (Sample.at_ 3) (.mk 4 [c!"# c"]) [])))) (.cons (Sample.flag 5 c!"b") .empty)
    xs.texts = some ([c!"# c"].map (· ++ c!"\n") ++ [c!"b"]) ∧
    (Node.block (Sample.at_ 0) c!"n" (.mk 9 [c!"l"]) (.mkSlice 1 xs)).fmt = some c!"n \"l\" {\n\t# c\n\tb\n}" := ⟨rfl, rfl⟩

end Verif.Etx
