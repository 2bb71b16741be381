import Verif.Etx.Order
import Verif.Etx.Operators
import Verif.Props.LexCore

/-!
# C55: positions

Where the nodes of a parsed document are in the text.
-/

namespace Verif.Etx
open Node

variable [FloatValue]

/-- **C55** in full: every node of a parsed document is a part of the tokens of the text, and has the position of the first of
these (`Located`). -/
def C55_full : Prop := ∀ (s : Str) (t : AST), parseString s = .ok t →
  ∃ ts, lex s = some ts ∧ Pieces [] s ts ∧ ∀ e ∈ t.items.stored none, Located ts e.2.2

/-- **C55** for all nodes that are parsed by a production; missing are `ValueBool` and `ValueNumber`. -/
theorem C55_position_partial (s : Str) (t : AST) (h : parseString s = .ok t) :
    ∃ ts, lex s = some ts ∧ Pieces [] s ts ∧ ∀ e ∈ t.items.stored none, e.2.1.captured = false → Located ts e.2.2 := by
  rcases parseString_eq s with ⟨-, h'⟩ | ⟨x, t', f, hx, h', -, -, h3, -⟩
  · rw [h] at h'; cases h'
  · rw [h] at h'
    cases h'
    obtain ⟨ts, h1, h2⟩ := parseTree_located hx
    refine ⟨ts, h1, C39_lossless s ts h1, ?_⟩
    rintro ⟨p, k, y⟩ he hc
    have he' : ∀ (k : Kind) (y : Node k), locatedIn ts y.erase = locatedIn ts y := fun k y => locatedIn_erase ts y
    have h4 : t.items.everywhere (locatedIn ts) = true := by
      rw [← everywhere_map (P := locatedIn ts) (fun m => { addr := 0, pos := m.pos, parent := none }) (fun _ => 0) he' t.items]
      have e1 := everywhere_map (P := locatedIn ts) (fun m => { addr := 0, pos := m.pos, parent := none }) (fun _ => 0) he' x
      rw [← h2, ← e1]
      exact congrArg _ h3
    have h5 := everywhere_stored t.items h4 true none _ he
    have h6 : locatedIn ts y = true := by
      cases y <;> simp only [everywhere, Bool.and_eq_true] at h5 <;> simp only [h5]
    have hs := storedBy_struct true t.items none _ he
    simp only at hs hc
    simpa [locatedIn, hs, hc] using h6

omit [FloatValue] in
/-- The text at a token. -/
theorem Pieces.at {pre s : Str} {ts : List Token} (h : Pieces pre s ts) : ∀ t ∈ ts,
    ∃ a b, s = a ++ t.txt ++ b ∧ t.pos = specPosition (pre ++ a) := by
  induction h with
  | done => nofun
  | blank pre w rest ts _ _ ih =>
    intro t ht
    obtain ⟨a, b, rfl, h2⟩ := ih t ht
    exact ⟨w ++ a, b, by simp, by rw [h2]; simp⟩
  | token pre u rest ts _ hp _ ih =>
    intro t ht
    rcases List.mem_cons.mp ht with rfl | ht
    · exact ⟨[], rest, by simp, by simpa using hp⟩
    · obtain ⟨a, b, rfl, h2⟩ := ih t ht
      exact ⟨u.txt ++ a, b, by simp, by rw [h2]; simp⟩

omit [FloatValue] in
theorem Pieces.solid {pre s : Str} {ts : List Token} (h : Pieces pre s ts) : ∀ t ∈ ts, t.txt ≠ [] := by
  induction h with
  | done => nofun
  | blank _ _ _ _ _ _ ih => exact ih
  | token _ _ _ _ h _ _ ih => exact List.forall_mem_cons.mpr ⟨h, ih⟩

omit [FloatValue] in
theorem SameWords.ident {a b : List Word} {w : Str} (h : SameWords a ((.ident, w) :: b)) : ∃ c, a = (.ident, w) :: c := by
  cases h with
  | cons _ => exact ⟨_, rfl⟩
  | block _ _ => exact ⟨_, rfl⟩

omit [FloatValue] in
theorem word_ident {y : Sym} {v w : Str} {a b : List Word} (hy : y.layout = false) (hv : y = .body → v ≠ [])
    (h : word y v ++ a = (.ident, w) :: b) : y = .ident ∧ v = w := by
  by_cases h1 : y = .body
  · subst h1
    cases v with
    | nil => exact absurd rfl (hv rfl)
    | cons c v => simp [word] at h
  · cases y <;> first | (exact absurd rfl h1) | (simp [word] at h; done) | (cases hy; done) | (simp only [word, List.cons_append, List.cons.injEq, Prod.mk.injEq, true_and] at h; exact ⟨rfl, h.1⟩)

/-- A node that begins with a name (an identifier, an attribute, a block) has the position where this name is written:
offset, line and column of its first character. -/
theorem C55_name_partial (s : Str) (t : AST) (h : parseString s = .ok t) (e : Option Nat × AnyNode)
    (he : e ∈ t.items.stored none) (hc : e.2.1.captured = false) (hk : e.2.1.listing = false) (w : Str) (r : List Word)
    (hw : words e.2.2.toks = (.ident, w) :: r) :
    ∃ pre rest, s = pre ++ w ++ rest ∧ e.2.2.info.pos = specPosition pre := by
  obtain ⟨ts, h1, h2, h3⟩ := C55_position_partial s t h
  obtain ⟨p, k, y⟩ := e
  simp only at hc hk hw
  obtain ⟨a, b, c, rfl, h4, h5, h6, -⟩ := h3 _ he hc
  rw [hw] at h4
  obtain ⟨r', h7⟩ := h4.ident
  cases b with
  | nil => cases h7
  | cons u b =>
    have h8 := h5 u rfl
    have hu : u ∈ a ++ u :: b ++ c := by simp
    have hg := (lex_genuine h1) u hu
    have hl : u.sym.layout = false := by
      cases hl : u.sym.layout with
      | false => rfl
      | true =>
        rcases h8.2 hl with hb | hb
        · exfalso
          revert hw hb
          cases y <;> simp only [blankLines, ne_eq, not_true_eq_false, false_implies, implies_true] <;>
            intro hw hb <;> simp [toks, hb, words_blank] at hw
        · rw [hb] at hk; cases hk
    rw [words_cons] at h7
    obtain ⟨-, rfl⟩ := word_ident hl (fun _ => h2.solid u hu) h7
    obtain ⟨pre, rest, h9, h10⟩ := h2.at u hu
    exact ⟨pre, rest, h9, by rw [h8.1, h10]; rfl⟩

/-! ## Order -/

omit [FloatValue] in
theorem Pieces.rising {pre s : Str} {ts : List Token} (h : Pieces pre s ts) :
    Rising ts ∧ ∀ t ∈ ts, byteLen pre ≤ t.pos.offset := by
  induction h with
  | done => exact ⟨.nil, nofun⟩
  | blank pre w rest ts _ _ ih =>
    refine ⟨ih.1, fun t ht => ?_⟩
    have := ih.2 t ht
    simp only [byteLen, List.map_append, List.sum_append] at this ⊢
    omega
  | token pre u rest ts hu hp _ ih =>
    have hpos : 0 < byteLen u.txt := by
      obtain ⟨c, w, e⟩ := List.exists_cons_of_ne_nil hu
      rw [e]
      have := c.utf8Size_pos
      simp only [byteLen, List.map_cons, List.sum_cons]
      omega
    have e : byteLen (pre ++ u.txt) = byteLen pre + byteLen u.txt := by simp [byteLen]
    have eu : u.pos.offset = byteLen pre := by rw [hp]; rfl
    refine ⟨List.pairwise_cons.mpr ⟨fun t ht => ?_, ih.1⟩, List.forall_mem_cons.mpr ⟨by omega, fun t ht => ?_⟩⟩
    · have := ih.2 t ht; omega
    · have := ih.2 t ht; omega

/-- The nodes of a parsed document are visited in the order of the text: the walk along `Children` meets nodes with growing
offsets, a node before all nodes inside it (nodes without a token, and those without a position, left out). -/
theorem C55_order_partial (s : Str) (t : AST) (h : parseString s = .ok t) :
    ∃ l, t.visits = some l ∧ (offsets (l.map (·.2))).Pairwise (· ≤ ·) := by
  rcases parseString_eq s with ⟨-, h'⟩ | ⟨x, t', f, hx, h', -, -, h3, h4, -⟩
  · rw [h] at h'; cases h'
  · rw [h] at h'
    cases h'
    refine ⟨_, t.visits_eq h4, ?_⟩
    have hs : (offsets ((t.items.storedBy false none).map (·.2))).Sublist t.items.places :=
      (((storedBy_sublist t.items none).map _).filter _).map _
    refine List.Pairwise.sublist hs ?_
    rw [← places_erase, h3, places_erase]
    unfold parseTree at hx
    simp only [Option.bind_eq_bind, Option.bind_eq_some_iff] at hx
    obtain ⟨ts, h1, h2⟩ := hx
    obtain ⟨o, hd, rfl⟩ := parseTokens_strict h1 h2
    refine List.Pairwise.sublist (o.slice_places .items .rootItem) ?_
    rw [o.places_subs]
    exact List.Pairwise.sublist (List.filter_sublist.flatMap _) (strict_order hd (C39_lossless s ts h1).rising.1).2

/-- The offsets of the nodes that the parent update visits. -/
def offsetsOf (s : Str) : Option (List Nat) :=
  match parseString s with
  | .ok t => t.visits.map fun l => offsets (l.map (·.2))
  | _ => none

/-- A document with all kinds of items. -/
def samplePositions : Str := c!"# c\nb l {\n  x = f(y) + 'z'\n}\n\ntype T enum {\n\n\n  A: y\n}\n"

example : (offsetsOf samplePositions).map List.eraseDups = some [0, 4, 12, 16, 18, 23, 24, 29, 30, 48, 51] := by kernel_rfl

/-- The attributes and blocks of a text: the first token and the position. -/
def namesIn (s : Str) : List (Option Word × Position) :=
  match parseString s with
  | .ok t => ((t.items.stored none).filter fun e => e.2.1 = .attr ∨ e.2.1 = .block).map fun e =>
      ((words e.2.2.toks).head?, e.2.2.info.pos)
  | _ => []

example : namesIn samplePositions = [(some (.ident, c!"b"), ⟨[], 4, 2, 1⟩), (some (.ident, c!"x"), ⟨[], 12, 3, 3⟩)] := by kernel_rfl

/-! ## Values without a position -/

/-- The boolean and number values in the document of a text, with their positions. -/
def capturedIn (s : Str) : List (Position × Nat) :=
  match parseString s with
  | .ok t => ((t.items.stored none).filter fun e => e.2.1.captured).map fun e => (e.2.2.info.pos, e.2.2.toks.length)
  | _ => []

/-- The position of `true` in `x = true` is not set. -/
theorem C55_no_position : ¬ C55_full := by
  intro hf
  have h : capturedIn c!"x = true" = [({}, 1)] := by kernel_rfl
  unfold capturedIn at h
  cases e : parseString c!"x = true" with
  | ok t =>
    rw [e] at h
    simp only at h
    obtain ⟨ts, h1, h2, h3⟩ := hf _ t e
    obtain ⟨x, hx, hx'⟩ := List.mem_map.mp (by rw [h]; exact List.mem_singleton.mpr rfl :
      (({}, 1) : Position × Nat) ∈ ((t.items.stored none).filter fun e => e.2.1.captured).map fun e => (e.2.2.info.pos, e.2.2.toks.length))
    simp only [Prod.mk.injEq] at hx'
    obtain ⟨a, b, c, rfl, -, h5, h6, -⟩ := h3 x (List.mem_filter.mp hx).1
    cases b with
    | nil => rw [h6 rfl] at hx'; cases hx'.2
    | cons u b =>
      have h7 := (h5 u rfl).1
      rw [hx'.1] at h7
      obtain ⟨pre, rest, -, h8⟩ := h2.at u (by simp)
      rw [h8] at h7
      have : 0 = 1 + _ := congrArg Position.line h7
      omega
  | error => rw [e] at h; cases h
  | panic => rw [e] at h; cases h

end Verif.Etx
