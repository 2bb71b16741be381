import Verif.Etx.Respaced
import Verif.Props.ParseBack

/-! # Properties C29 and C30: formatted text can be read -/

namespace Verif.Etx
open Node

/-! ## Without blank lines -/

/-- The items without the blank lines. -/
def nonBlank {k : Kind} (l : List (Node k)) : List (Node k) := l.filter fun x => x.blankOf = []

/-- A function without blank lines between its statements. -/
def tightFunc : Node .func → Node .func
  | .func m l ps ret body => .func m l ps ret (mapSlice nonBlank body)

/-- An item without blank lines. -/
def tightItem : Node .rootItem → Node .rootItem
  | .rootItem m e d f t b a c => .rootItem m e d (mapRef tightFunc f) t b a c

/-- The items of a document without blank lines. -/
def tightDoc : Node (.slice .rootItem) → List (Node .rootItem)
  | .nilSlice => []
  | .mkSlice _ xs => (nonBlank xs.structs).map tightItem

theorem tightItem_respaceItem (x : Node .rootItem) : tightItem (respaceItem x) = tightItem x := by
  cases x with
  | rootItem m e d f t b a c =>
    cases f with
    | nil => rfl
    | ref f =>
      cases f with
      | func m' w x y z =>
        cases z with
        | nilSlice => rfl
        | mkSlice a' xs =>
          simp only [respaceItem, tightItem, mapRef, respaceFunc, tightFunc, mapSlice, structs_items, nonBlank]
          rw [filter_respace (re := id) (mk := blankStatement) (fun _ => rfl) (fun _ => rfl), List.map_id]

/-- Formatting changes blank lines only. -/
theorem tightDoc_respaceDoc (x : Node (.slice .rootItem)) : tightDoc (respaceDoc x) = tightDoc x := by
  cases x with
  | nilSlice => rfl
  | mkSlice a xs =>
    simp only [respaceDoc, tightDoc, mapSlice, structs_items, nonBlank]
    rw [filter_respace (fun _ => rfl) (fun x => by cases x; rfl), List.map_map]
    exact List.map_congr_left fun x _ => tightItem_respaceItem x


/-! ## Positions and addresses -/

theorem structs_bare {k : Kind} : (xs : Node (.items k)) → xs.bare.structs = xs.structs.map Node.bare
  | .empty => by simp [Node.bare, Node.map, Node.structs]
  | .cons .nil xs => by
    have := structs_bare xs
    simp only [Node.bare, Node.map, Node.structs] at *
    exact this
  | .cons (.ref x) xs => by
    have := structs_bare xs
    simp only [Node.bare, Node.map, Node.structs, List.map_cons] at *
    rw [this]

theorem nonBlank_bare {k : Kind} (l : List (Node k)) : nonBlank (l.map Node.bare) = (nonBlank l).map Node.bare := by
  have h : ∀ {k : Kind} (x : Node k), x.bare.blankOf = x.blankOf := by
    intro k x
    induction x with
    | ref x ih => simpa [Node.bare, Node.map, Node.blankOf] using ih
    | _ => rfl
  rw [nonBlank, nonBlank, List.filter_map]
  congr 1
  exact List.filter_congr fun x _ => by simp [h]

theorem tightItem_bare (x : Node .rootItem) : tightItem x.bare = (tightItem x).bare := by
  cases x with
  | rootItem m e d f t b a c =>
    cases f with
    | nil => rfl
    | ref f =>
      cases f with
      | func m' w x y z =>
        cases z with
        | nilSlice => rfl
        | mkSlice a' xs =>
          have h := structs_bare xs
          have h' := nonBlank_bare xs.structs
          have h'' := bare_items (nonBlank xs.structs)
          simp only [Node.bare] at h h' h''
          simp only [tightItem, mapRef, tightFunc, mapSlice, Node.bare, Node.map, h, h', h'']

theorem tightDoc_bare (x : Node (.slice .rootItem)) : tightDoc x.bare = (tightDoc x).map Node.bare := by
  cases x with
  | nilSlice => rfl
  | mkSlice a xs =>
    have h : (Node.mkSlice a xs).bare = .mkSlice 0 xs.bare := by simp only [Node.bare, Node.map]
    rw [h, tightDoc, tightDoc, structs_bare, nonBlank_bare, List.map_map, List.map_map]
    exact List.map_congr_left fun x _ => tightItem_bare x

/-! ## C29 -/

section

variable [FloatValue] [FloatText]

/-- Formatting and parsing gives the same document, up to positions, addresses and blank lines. -/
def RoundTrips (t : AST) : Prop :=
  ∃ s, t.fmt = some s ∧ ∃ t', parseString s = .ok t' ∧ tightDoc t'.items.bare = tightDoc t.items.bare

/-- **C29** in full. -/
def C29_full : Prop := ∀ s t, parseString s = .ok t → RoundTrips t

/-- The formatted text of a text, and whether it can be read. -/
def reformat (s : Str) : Option (Str × Bool) :=
  match parseString s with
  | .ok t => t.fmt.map fun u => (u, match parseString u with | .ok _ => true | _ => false)
  | _ => none

theorem C29_witness {s u : Str} (h : reformat s = some (u, false)) : ¬ C29_full := by
  intro hf
  unfold reformat at h
  split at h
  · rename_i t ht
    obtain ⟨v, h1, t', h2, -⟩ := hf s t ht
    rw [h1, Option.map_some, h2] at h
    simp at h
  · cases h

/-- C29 fails for every attribute with a value: `x = a` is formatted as `x: a`, which cannot be read … -/
theorem C29_attribute_fails : ¬ C29_full := C29_witness (s := c!"x = a\n") (u := c!"x: a\n") (by kernel_rfl)

/-- … for maps … -/
theorem C29_map_fails : ¬ C29_full :=
  C29_witness (s := c!"val x = {\na = b\n}\n") (u := c!"val x = {\n\ta: b,\n}\n") (by kernel_rfl)

/-- … and for heredocs, … -/
theorem C29_heredoc_fails : ¬ C29_full :=
  C29_witness (s := c!"val x = <<E\na\nE\n") (u := c!"val x = <<Ea\n\nE\n") (by kernel_rfl)

/-- What the document and its formatted text contain. -/
def respelt (s : Str) : Option (Option (List (Sym × Str) × List (Sym × Str))) :=
  match parseString s with
  | .ok t => some (t.fmt.bind fun u => match parseString u with
    | .ok t' => some (sig ((tightDoc t.items.bare).map Node.toks).flatten, sig ((tightDoc t'.items.bare).map Node.toks).flatten)
    | _ => none)
  | _ => none

/-- … and an escaped character in a string becomes two characters. -/
theorem C29_escape_fails : ¬ C29_full := by
  intro hf
  have h : respelt c!"val x = \"\\n\"\n" = some (some (
      [(.ident, c!"val"), (.ident, c!"x"), (.opAssign, c!"="), (.string, c!"\""), (.escaped, c!"\\n"), (.stringEnd, c!"\""), (.lf, c!"\n")],
      [(.ident, c!"val"), (.ident, c!"x"), (.opAssign, c!"="), (.string, c!"\""), (.escaped, c!"\\\\"), (.char, c!"n"), (.stringEnd, c!"\""),
        (.lf, c!"\n")])) := by kernel_rfl
  unfold respelt at h
  split at h
  · rename_i t ht
    obtain ⟨u, h1, t', h2, h3⟩ := hf _ t ht
    simp only [h1, Option.bind_some, h2, h3, Option.some.injEq, Prod.mk.injEq] at h
    exact absurd (h.1.symm.trans h.2) (by decide)
  · cases h

/-- **C29** as far as it is true: a document that can be written as tokens and is `neat` is formatted, the text can be
read, and what is read is the same document up to positions, addresses and blank lines.  Missing: what `Node.tidy` excludes. -/
theorem C29_round_trip_partial (t : AST) (hc : t.items.canon = true) (hn : t.items.neat = true) : RoundTrips t := by
  obtain ⟨s, us, h1, h2, h3⟩ := fmt_doc hc hn
  obtain ⟨h4, h5⟩ := respaceDoc_ok hc hn
  obtain ⟨t', h6, h7⟩ := C53_read_back _ h4 h5 s us h2 h3
  exact ⟨s, h1, t', h6, by rw [h7, tightDoc_bare, tightDoc_respaceDoc, tightDoc_bare]⟩

/-! ## C30 -/

end

section

variable [FloatValue]

/-- The expression in the document `val x = …`, and nothing else. -/
def valueOf : Node (.slice .rootItem) → Option (Node .expr)
  | .mkSlice _ (.cons (.ref (.rootItem _ [] (.ref (.decl _ _ _ .nil (.ref e))) .nil .nil .nil .nil .nil)) .empty) => some e
  | _ => none

/-- The text as an expression. -/
def readExpr (s : Str) : Option (Node .expr) :=
  match parseString (c!"val x = " ++ s ++ c!"\n") with
  | .ok t => valueOf t.items
  | _ => none

theorem readExpr_of {u : Str} {t : AST} (h : parseString (c!"val x = " ++ u ++ c!"\n") = .ok t) : readExpr u = valueOf t.items := by
  unfold readExpr
  rw [h]

variable [FloatText]

/-- The formatted text of an expression is read as the same expression: the operators have the same operands. -/
def KeepsGrouping (e : Node .expr) : Prop := ∃ s, e.fmt = some s ∧ ∃ e', readExpr s = some e' ∧ e'.bare = e.bare

/-- **C30** in full. -/
def C30_full : Prop := ∀ s e, readExpr s = some e → KeepsGrouping e

/-- The expression, its text, and the expression that the text is read as, without positions. -/
def regroup (s : Str) : Option (Option (Str × Bool)) :=
  match readExpr s with
  | some e => some (e.fmt.map fun u => (u, match readExpr u with | some e' => decide (e'.bare.toks = e.bare.toks) | none => false))
  | none => none

/-- C30 fails: `(a + b) * c` is formatted as `a + b * c`. -/
theorem C30_parentheses_fails : ¬ C30_full := by
  intro hf
  have h : regroup c!"(a + b) * c" = some (some (c!"a + b * c", false)) := by kernel_rfl
  unfold regroup at h
  split at h
  · rename_i e he
    obtain ⟨u, h1, e', h2, h3⟩ := hf _ e he
    rw [h1, Option.map_some, h2] at h
    simp [h3] at h
  · cases h

/-- The document `val x = …`. -/
def valDoc (e : Node .expr) : Node (.slice .rootItem) :=
  .mkSlice 0 (Out.items [.rootItem ⟨0, {}, none⟩ [] (.ref (.decl ⟨0, {}, none⟩ c!"val" c!"x" .nil (.ref e))) .nil .nil .nil .nil .nil])

omit [FloatValue] [FloatText] in
theorem valueOf_bare {x : Node (.slice .rootItem)} {e : Node .expr} (h : x.bare = (valDoc e).bare) :
    ∃ e', valueOf x = some e' ∧ e'.bare = e.bare := by
  simp only [valDoc, Out.items, Node.bare, Node.map] at h ⊢
  cases x with
  | nilSlice => simp only [Node.map] at h; cases h
  | mkSlice a xs =>
    simp only [Node.map, Node.mkSlice.injEq] at h
    replace h := h.2
    cases xs with
    | empty => simp only [Node.map] at h; cases h
    | cons x xs =>
      simp only [Node.map, Node.cons.injEq] at h
      obtain ⟨h1, h2⟩ := h
      cases xs with
      | cons => simp only [Node.map] at h2; cases h2
      | empty =>
      cases x with
      | nil => simp only [Node.map] at h1; cases h1
      | ref x =>
        simp only [Node.map, Node.ref.injEq] at h1
        cases x with
        | rootItem m e' d f t b a c =>
          simp only [Node.map, Node.rootItem.injEq] at h1
          obtain ⟨-, rfl, hd, hf, ht, hb, ha, hc⟩ := h1
          cases f <;> simp only [Node.map] at hf <;> try cases hf
          cases t <;> simp only [Node.map] at ht <;> try cases ht
          cases b <;> simp only [Node.map] at hb <;> try cases hb
          cases a <;> simp only [Node.map] at ha <;> try cases ha
          cases c <;> simp only [Node.map] at hc <;> try cases hc
          cases d with
          | nil => simp only [Node.map] at hd; cases hd
          | ref d =>
            simp only [Node.map, Node.ref.injEq] at hd
            cases d with
            | decl m w l t v =>
              simp only [Node.map, Node.decl.injEq] at hd
              obtain ⟨-, -, -, ht, hv⟩ := hd
              cases t <;> simp only [Node.map] at ht <;> try cases ht
              cases v <;> simp only [Node.map] at hv <;> try cases hv
              exact ⟨_, rfl, by simpa using hv⟩

/-- **C30** as far as it is true: the formatted text of an expression that can be written as tokens and is `neat` (in
particular, has no parentheses) is read as this expression.  Missing: what `Node.tidy` excludes. -/
theorem C30_grouping_partial (e : Node .expr) (hs : e.set = true) (hc : e.canon = true) (hn : e.neat = true) : KeepsGrouping e := by
  have hdc : (Node.decl ⟨0, {}, none⟩ c!"val" c!"x" .nil (.ref e)).canon = true := by
    have h' : ∀ v : Node (.ptr .expr), (Node.decl ⟨0, {}, none⟩ c!"val" c!"x" .nil v).canon = (true && v.canon) := fun _ => rfl
    have h'' : (Node.ref e).canon = ((e.set && true) && e.canon) := rfl
    rw [h', h'', hs, hc]; rfl
  have hdn : (Node.decl ⟨0, {}, none⟩ c!"val" c!"x" .nil (.ref e)).neat = true := by
    have h' : ∀ v : Node (.ptr .expr), (Node.decl ⟨0, {}, none⟩ c!"val" c!"x" .nil v).neat = (true && v.neat) := fun _ => rfl
    have h'' : (Node.ref e).neat = (true && e.neat) := rfl
    rw [h', h'', hn]; rfl
  have hxc : (valDoc e).canon = true := by
    refine canon_slice 0 (by simp) fun x hx => ?_
    rw [List.mem_singleton] at hx
    subst hx
    refine ⟨rfl, ?_⟩
    have h' : ∀ d : Node .decl, (Node.rootItem ⟨0, {}, none⟩ [] (.ref d) .nil .nil .nil .nil .nil).canon =
      (((((((true && true) && ((d.set && true) && d.canon)) && true) && true) && true) && true) && true) := fun _ => rfl
    rw [h', hdc]; rfl
  obtain ⟨s, h1, h2⟩ := fmts_of_neat _ hdc hdn
  obtain ⟨u, h3, -⟩ := fmts_of_neat e hc hn hs
  have h4 : s = c!"val x = " ++ u := by
    simp [Node.fmt, isRef_nil, Node.isRef_ref, prefixed, h3, cat] at h1
    rw [← h1]
    rfl
  have h5 : W isAlpha anyC (s ++ c!"\n") (valDoc e).tokss.flatten := by
    have := h2.append W.newline (is_le (by decide))
    simpa [valDoc, Out.items, Node.tokss, Node.toks, isRef_nil, Node.isRef_ref] using this
  obtain ⟨us, h6, h7⟩ := h5.lex
  obtain ⟨t, h8, h9⟩ := C53_read_back (valDoc e) hxc (by simp [valDoc, Out.items, Node.chain, Node.follow, Node.tokss, isRef_nil, headNot]) _ us h6 h7
  obtain ⟨e', h10, h11⟩ := valueOf_bare h9
  rw [h4] at h8
  exact ⟨u, h3, e', (readExpr_of h8).trans h10, h11⟩

/-! ## Cases -/

/-- A text that is parsed to a document that can be written and is neat. -/
def plain (s : Str) : Bool :=
  match parseString s with
  | .ok t => t.items.canon && t.items.neat
  | _ => false

example : plain c!"def f(a: b, c) (d, e) {\nval y = a ? b : c\n\n# foo\nif a {\nb\n}\n\n}\n" = true := by kernel_rfl
example : plain c!"\n\n/* foo */\nval x: a.b = a(b)[c].d + -e * \"foo ${ bar }\"\ninput y\n" = true := by kernel_rfl
example : plain c!"type t enum {\na: b\n}\ntype u object {\na: (b) -> c\n}\nval z = [\na, b]\nx\nb \"l\" {\n# foo\nd {\n}\n}\n" = true := by
  kernel_rfl

/-- A text that is read as an expression that can be written and is neat. -/
def plainExpr (s : Str) : Bool :=
  match readExpr s with
  | some e => e.set && e.canon && e.neat
  | none => false

example : plainExpr c!"a + b * c - d == !e[f] && g ? h : i.j(k, l)" = true := by kernel_rfl
example : plainExpr c!"if a { b } else { switch c { case d, e: { f } default: { g } } }" = true := by kernel_rfl

end

end Verif.Etx
