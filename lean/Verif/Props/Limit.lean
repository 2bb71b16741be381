import Verif.Etx.Limit
import Verif.Props.ParseBack
import Verif.Props.ParseDepth
import Verif.Etx.Respaced

/-! # Property C65: the limit on repetitions -/

namespace Verif.Etx
open Node

variable [FloatValue]

/-- **C65** in full: `ParseString` reads every document, however long it is. -/
def C65_full : Prop := ∀ s t, parseString s = .ok t → parseStringL maxIterations s = some (.ok t)

/-- **C65** for texts of less than 10^6 tokens: the limit has no effect, also on errors.  What is proved about `parseString`
is true of the parser with the limit. -/
theorem C65_small_partial (s : Str) (ts : List Token) (hl : lex s = some ts) (h : ts.length < 1000000) :
    parseStringL maxIterations s = some (parseString s) := by
  rcases parseStringL_agree (b := true) (M := maxIterations) s (fun _ ts' h' => by rw [hl] at h'; cases h'; exact h) with h | ⟨hb, -⟩
  · exact h
  · cases hb

/-- … in particular for texts of less than 10^6 characters. -/
theorem C65_chars_partial (s : Str) (h : s.length < 1000000) : parseStringL maxIterations s = some (parseString s) := by
  cases hl : lex s with
  | none =>
    rcases parseStringL_agree (b := true) (M := maxIterations) s (fun _ ts' h' => by rw [hl] at h'; cases h') with h | ⟨hb, -⟩
    · exact h
    · cases hb
  | some ts =>
    have := (C39_lossless s ts hl).length_le
    exact C65_small_partial s ts hl (by omega)

/-- For every text: if participle does not give up, the limit has had no effect. -/
theorem C65_restricts (M : Nat) (s : Str) (r : Outcome AST) (h : parseStringL M s = some r) : r = parseString s := by
  rcases parseStringL_agree (b := false) (M := M) s (fun hb => by cases hb) with h' | ⟨-, h'⟩
  · rw [h] at h'; exact Option.some.inj h'
  · rw [h] at h'; cases h'

omit [FloatValue] in
theorem Node.elems_length_map (f : Meta → Meta) (fa : Nat → Nat) {k : Kind} (x : Node k) : (x.map f fa).elems.length = x.elems.length := by
  induction x <;> simp_all [Node.map, Node.elems]

/-- A document with too many items is not read. -/
theorem C65_too_many (M : Nat) (s : Str) (t : AST) (h : parseString s = .ok t) (hM : M ≤ t.children.length) : parseStringL M s = none := by
  rcases parseString_eq s with ⟨h', h''⟩ | ⟨x, t', f, h1, h2, -, -, h3, -⟩
  · rw [h''] at h; cases h
  · rw [h] at h2
    cases h2
    have hx : M ≤ x.elems.length := by
      have e := congrArg (fun y : Node (.slice .rootItem) => y.elems.length) h3
      simp only [Node.erase, Node.elems_length_map] at e
      unfold AST.children at hM
      omega
    unfold parseStringL parseTreeL
    unfold parseTree at h1
    cases hl : lex s with
    | none => rw [hl] at h1; cases h1
    | some ts =>
      rw [hl] at h1
      simp only
      rw [parseTokensL_too_many _ ts x h1 hx]

/-! ## A long document -/

/-- `a`, a line feed, and so on. -/
def longText : Nat → Str
  | 0 => []
  | n + 1 => c!"a\n" ++ longText n

/-- An attribute `a` without value. -/
def attrItem : Node .rootItem := .rootItem noPos [] .nil .nil .nil .nil (.ref (.attr noPos c!"a" .nil)) .nil

/-- `n` of them. -/
def longItems : Nat → Node (.items .rootItem)
  | 0 => .empty
  | n + 1 => .cons (.ref attrItem) (longItems n)

theorem longText_reads (n : Nat) : ∃ t, parseString (longText (n + 1)) = .ok t ∧ t.children.length = n + 1 := by
  have hcanon : ∀ n, (longItems n).canon = true := by
    intro n
    induction n with
    | zero => kernel_rfl
    | succ n ih =>
      have h1 : (Node.ref attrItem).canon = true := by kernel_rfl
      have h2 : ((Node.cons (Node.ref attrItem) (longItems n)).shaped && (Node.cons (Node.ref attrItem) (longItems n)).writable) = true := rfl
      show ((Node.cons (Node.ref attrItem) (longItems n)).shaped && (Node.cons (Node.ref attrItem) (longItems n)).writable &&
        (Node.ref attrItem).canon && (longItems n).canon) = true
      rw [h1, h2, ih]; rfl
  have hchain : ∀ n c, (longItems n).chain c = true := by
    intro n c
    induction n with
    | zero => rfl
    | succ n ih =>
      show ((Node.ref attrItem).follow _ && (longItems n).chain c) = true
      rw [ih]; rfl
  have hW : ∀ n, W isAlpha anyC (longText (n + 1)) (longItems (n + 1)).tokss.flatten := by
    have one : W isAlpha anyC c!"a\n" [tk .ident c!"a", lfTok] :=
      (W.ident (by kernel_rfl)).append W.newline (is_le (by decide))
    intro n
    induction n with
    | zero => exact one
    | succ n ih => exact one.append ih any_le
  have hlen : ∀ n, (longItems n).elems.length = n := by
    intro n
    induction n with
    | zero => rfl
    | succ n ih => show (longItems n).elems.length + 1 = n + 1; rw [ih]
  obtain ⟨us, hus, hsig⟩ := (hW n).lex
  obtain ⟨t, ht, hb⟩ := C53_read_back (.mkSlice 0 (longItems (n + 1))) (by
    have h2 : ((Node.mkSlice 0 (longItems (n + 1))).shaped && (Node.mkSlice 0 (longItems (n + 1))).writable) = true := rfl
    show ((Node.mkSlice 0 (longItems (n + 1))).shaped && (Node.mkSlice 0 (longItems (n + 1))).writable && (longItems (n + 1)).canon) = true
    rw [h2, hcanon]; rfl) (hchain (n + 1) []) _ us hus hsig
  refine ⟨t, ht, ?_⟩
  have e := congrArg (fun y : Node (.slice .rootItem) => y.elems.length) hb
  simp only [Node.bare, Node.elems_length_map] at e
  exact e.trans (hlen (n + 1))

/-- A document with a million items or more is not read. -/
theorem C65_million (s : Str) (t : AST) (h : parseString s = .ok t) (hn : 1000000 ≤ t.children.length) :
    parseStringL maxIterations s = none := C65_too_many _ s t h hn

/-- **C65** is false in full: a document of a million lines is not read. -/
theorem C65_full_false : ¬ C65_full := by
  intro h
  obtain ⟨t, ht, hl⟩ := longText_reads (maxIterations - 1)
  have h1 := h _ t ht
  rw [C65_too_many _ _ t ht (by rw [hl]; decide)] at h1
  cases h1

/-- The hypotheses of `C65_small_partial`, and the parser with the limit at work: with a limit of 3 two attributes are read,
three are not. -/
example : parseStringL 3 c!"a\na\n" = some (parseString c!"a\na\n") ∧ (parseStringL 3 c!"a\na\na\n").isNone = true := by
  constructor <;> kernel_rfl

end Verif.Etx
