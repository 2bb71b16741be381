import Verif.Etx.ReadsFunc
import Verif.Etx.Relocate
import Verif.Etx.ParseDoc

/-!
# The parser reads back every tree that can be written
-/

namespace Verif.Etx
open Gram

variable [FloatValue]

theorem reads_of_canon {k : Kind} (x : Node k) (hc : x.canon = true) : Reads k x := by
  induction x with
  | nil => exact reads_nil
  | nilSlice => exact reads_nilSlice
  | empty => exact reads_empty
  | rootItem _ _ _ _ _ _ _ _ h1 h2 h3 h4 h5 h6 =>
    have hk := hc
    simp only [Node.canon, Node.everywhere, Bool.and_eq_true] at hk
    exact reads_rootItem hc (h1 hk.1.1.1.1.1.2) (h2 hk.1.1.1.1.2) (h3 hk.1.1.1.2) (h4 hk.1.1.2) (h5 hk.1.2) (h6 hk.2)
  | parameterType _ _ _ h1 h2 =>
    have hk := hc
    simp only [Node.canon, Node.everywhere, Bool.and_eq_true] at hk
    exact reads_parameterType hc (h1 hk.1.2) (h2 hk.2)
  | funcSignature _ _ _ h1 h2 =>
    have hk := hc
    simp only [Node.canon, Node.everywhere, Bool.and_eq_true] at hk
    exact reads_funcSignature hc (h1 hk.1.2) (h2 hk.2)
  | ident _ _ => exact reads_ident hc
  | comment _ _ _ => exact reads_comment hc
  | attr _ _ _ h1 =>
    have hk := hc
    simp only [Node.canon, Node.everywhere, Bool.and_eq_true] at hk
    exact reads_attr (h1 hk.2)
  | block _ _ _ _ h1 =>
    have hk := hc
    simp only [Node.canon, Node.everywhere, Bool.and_eq_true] at hk
    exact reads_block hc (h1 hk.2)
  | blockItem _ _ _ _ _ h1 h2 h3 =>
    have hk := hc
    simp only [Node.canon, Node.everywhere, Bool.and_eq_true] at hk
    exact reads_blockItem hc (h1 hk.1.1.2) (h2 hk.1.2) (h3 hk.2)
  | decl _ _ _ _ _ h1 h2 =>
    have hk := hc
    simp only [Node.canon, Node.everywhere, Bool.and_eq_true] at hk
    exact reads_decl hc (h1 hk.1.2) (h2 hk.2)
  | lambda => simp [Node.canon, Node.everywhere, Node.writable] at hc
  | lambdaParameter => simp [Node.canon, Node.everywhere, Node.writable] at hc
  | func _ _ _ _ _ h1 h2 h3 =>
    have hk := hc
    simp only [Node.canon, Node.everywhere, Bool.and_eq_true] at hk
    exact reads_func hc (h1 hk.1.1.2) (h2 hk.1.2) (h3 hk.2)
  | funcParameter _ _ _ h1 =>
    have hk := hc
    simp only [Node.canon, Node.everywhere, Bool.and_eq_true] at hk
    exact reads_funcParameter (h1 hk.2)
  | funcStatement _ _ _ _ _ h1 h2 h3 =>
    have hk := hc
    simp only [Node.canon, Node.everywhere, Bool.and_eq_true] at hk
    exact reads_funcStatement hc (h1 hk.1.1.2) (h2 hk.1.2) (h3 hk.2)
  | funcDecl _ _ _ _ _ h1 h2 =>
    have hk := hc
    simp only [Node.canon, Node.everywhere, Bool.and_eq_true] at hk
    exact reads_funcDecl hc (h1 hk.1.2) (h2 hk.2)
  | type _ _ _ _ h1 h2 =>
    have hk := hc
    simp only [Node.canon, Node.everywhere, Bool.and_eq_true] at hk
    exact reads_type hc (h1 hk.1.2) (h2 hk.2)
  | typeEnum _ _ h1 =>
    have hk := hc
    simp only [Node.canon, Node.everywhere, Bool.and_eq_true] at hk
    exact reads_typeEnum hc (h1 hk.2)
  | typeEnumItem _ _ _ _ _ h1 h2 =>
    have hk := hc
    simp only [Node.canon, Node.everywhere, Bool.and_eq_true] at hk
    exact reads_typeEnumItem hc (h1 hk.1.2) (h2 hk.2)
  | typeObject _ _ h1 =>
    have hk := hc
    simp only [Node.canon, Node.everywhere, Bool.and_eq_true] at hk
    exact reads_typeObject hc (h1 hk.2)
  | typeObjectItem _ _ _ _ _ h1 h2 =>
    have hk := hc
    simp only [Node.canon, Node.everywhere, Bool.and_eq_true] at hk
    exact reads_typeObjectItem hc (h1 hk.1.2) (h2 hk.2)
  | value _ _ _ _ _ _ _ _ h1 h2 h3 h4 h5 h6 =>
    have hk := hc
    simp only [Node.canon, Node.everywhere, Bool.and_eq_true] at hk
    exact reads_value hc (h1 hk.1.1.1.1.1.2) (h2 hk.1.1.1.1.2) (h3 hk.1.1.1.2) (h4 hk.1.1.2) (h5 hk.1.2) (h6 hk.2)
  | valueBool => exact trivial
  | valueNumber => exact trivial
  | heredoc _ _ _ _ h1 =>
    have hk := hc
    simp only [Node.canon, Node.everywhere, Bool.and_eq_true] at hk
    exact reads_heredoc hc (h1 hk.2)
  | heredocFragment _ _ _ _ h1 h2 =>
    have hk := hc
    simp only [Node.canon, Node.everywhere, Bool.and_eq_true] at hk
    exact reads_heredocFragment hc (h1 hk.1.2) (h2 hk.2)
  | valueString _ _ h1 =>
    have hk := hc
    simp only [Node.canon, Node.everywhere, Bool.and_eq_true] at hk
    exact reads_valueString (h1 hk.2)
  | stringFragment _ _ _ _ _ _ h1 h2 =>
    have hk := hc
    simp only [Node.canon, Node.everywhere, Bool.and_eq_true] at hk
    exact reads_stringFragment hc (h1 hk.1.2) (h2 hk.2)
  | valueList _ _ h1 =>
    have hk := hc
    simp only [Node.canon, Node.everywhere, Bool.and_eq_true] at hk
    exact reads_valueList hc (h1 hk.2)
  | listItem _ _ _ _ h1 h2 =>
    have hk := hc
    simp only [Node.canon, Node.everywhere, Bool.and_eq_true] at hk
    exact reads_listItem hc (h1 hk.1.2) (h2 hk.2)
  | valueMap _ _ h1 =>
    have hk := hc
    simp only [Node.canon, Node.everywhere, Bool.and_eq_true] at hk
    exact reads_valueMap hc (h1 hk.2)
  | mapItem _ _ _ _ _ h1 h2 h3 =>
    have hk := hc
    simp only [Node.canon, Node.everywhere, Bool.and_eq_true] at hk
    exact reads_mapItem hc (h1 hk.1.1.2) (h2 hk.1.2) (h3 hk.2)
  | mapKey _ _ _ h1 h2 =>
    have hk := hc
    simp only [Node.canon, Node.everywhere, Bool.and_eq_true] at hk
    exact reads_mapKey hc (h1 hk.1.2) (h2 hk.2)
  | expr _ _ _ _ h1 h2 h3 =>
    have hk := hc
    simp only [Node.canon, Node.everywhere, Bool.and_eq_true] at hk
    exact reads_expr hc (h1 hk.1.1.2) (h2 hk.1.2) (h3 hk.2)
  | exprIf _ _ _ _ h1 h2 h3 =>
    have hk := hc
    simp only [Node.canon, Node.everywhere, Bool.and_eq_true] at hk
    exact reads_if (h1 hk.1.1.2) (h2 hk.1.2) (h3 hk.2)
  | exprSwitch _ _ _ h1 h2 =>
    have hk := hc
    simp only [Node.canon, Node.everywhere, Bool.and_eq_true] at hk
    exact reads_switch (h1 hk.1.2) (h2 hk.2)
  | exprCase _ _ _ _ h1 h2 =>
    have hk := hc
    simp only [Node.canon, Node.everywhere, Bool.and_eq_true] at hk
    exact reads_case hc (h1 hk.1.2) (h2 hk.2)
  | conditional _ _ _ _ _ h1 h2 h3 =>
    have hk := hc
    simp only [Node.canon, Node.everywhere, Bool.and_eq_true] at hk
    exact reads_conditional hc (h1 hk.1.1.2) (h2 hk.1.2) (h3 hk.2)
  | bin _ _ _ _ _ h1 h2 =>
    have hk := hc
    simp only [Node.canon, Node.everywhere, Bool.and_eq_true] at hk
    exact reads_bin hc (h1 hk.1.2) (h2 hk.2)
  | unary _ _ _ h1 =>
    have hk := hc
    simp only [Node.canon, Node.everywhere, Bool.and_eq_true] at hk
    exact reads_unary hc (h1 hk.2)
  | postfixE _ _ _ _ h1 h2 h3 =>
    have hk := hc
    simp only [Node.canon, Node.everywhere, Bool.and_eq_true] at hk
    exact reads_postfix hc (h1 hk.1.1.2) (h2 hk.1.2) (h3 hk.2)
  | primary _ _ _ _ _ _ h1 h2 h3 h4 h5 =>
    have hk := hc
    simp only [Node.canon, Node.everywhere, Bool.and_eq_true] at hk
    exact reads_primary hc (h1 hk.1.1.1.1.2) (h2 hk.1.1.1.2) (h3 hk.1.1.2) (h4 hk.1.2) (h5 hk.2)
  | invocation _ _ h1 =>
    have hk := hc
    simp only [Node.canon, Node.everywhere, Bool.and_eq_true] at hk
    exact reads_invocation (h1 hk.2)
  | ref _ h1 =>
    have hk := hc
    simp only [Node.canon, Node.everywhere, Bool.and_eq_true] at hk
    exact reads_ref hc (h1 hk.2)
  | mkSlice _ _ h1 =>
    have hk := hc
    simp only [Node.canon, Node.everywhere, Bool.and_eq_true] at hk
    exact reads_mkSlice hc (h1 hk.2)
  | cons _ _ h1 h2 =>
    have hk := hc
    simp only [Node.canon, Node.everywhere, Bool.and_eq_true] at hk
    exact reads_cons hc (h1 hk.1.2) (h2 hk.2)

/-- The items of a document. -/
theorem parseTokens_toks (x : Node (.slice .rootItem)) (hc : x.canon = true) (hch : x.chain [] = true) :
    parseTokens {} x.tokss.flatten = some x.bare := by
  have hx := reads_of_canon x hc
  have hs : Soft {} (.sub .items .rootItem) [] := (Bare.of (by simp [NoFirst]) rfl rfl).soft
  have key : ∃ l, x.bare = sliceOf l ∧ Takes (.star (.sub .items .rootItem)) x.tokss.flatten (capNodes .items l) [] := by
    rcases hx with rfl | ⟨a, l, rfl, hl, hy⟩
    · exact ⟨[], bare_nilSlice, Takes.nil hs⟩
    · refine ⟨l.map Node.bare, bare_slice a hl, ?_⟩
      rw [Node.tokss, tokss_items]
      have hg : ∀ y ∈ l, Good y := fun y hm => (hy y hm).2.2 (hy y hm).1
      have := Takes.items (f := .items) (c := []) (fun y hm u hu => (hg y hm).ok hu) (fun y hm => ((hg y hm).1 rfl).ne) hch hs
      simpa using this
  obtain ⟨l, hl, txt, hk⟩ := key
  unfold Ok at hk
  rw [parseTokens, hk, hl]
  simp

omit [FloatValue] in
theorem Strs.map_zero (fa : Nat → Nat) (s : Strs) : (s.map fa).map (fun _ => 0) = s.map (fun _ => 0) := by cases s <;> rfl

omit [FloatValue] in
/-- Renaming addresses, positions and parents does not matter. -/
theorem Node.bare_map (f : Meta → Meta) (fa : Nat → Nat) {k : Kind} (x : Node k) : (x.map f fa).bare = x.bare := by
  unfold Node.bare
  induction x <;> simp only [Node.map, Strs.map_zero, *]
  case valueNumber m v s => rcases v with _ | ⟨a, v⟩ <;> rfl

omit [FloatValue] in
theorem Node.bare_bare {k : Kind} (x : Node k) : x.bare.bare = x.bare := x.bare_map _ _

omit [FloatValue] in
theorem Node.bare_erase {k : Kind} {x y : Node k} (h : x.erase = y.erase) : x.bare = y.bare := by
  have hx : x.erase.bare = x.bare := x.bare_map _ _
  have hy : y.erase.bare = y.bare := y.bare_map _ _
  rw [← hx, h, hy]

/-- The same with positions in the tokens. -/
theorem parseTokens_at_toks {eof : Position} {s : List Token} {x : Node (.slice .rootItem)} (hc : x.canon = true)
    (hch : x.chain [] = true) (hs : s.map (fun t => (t.sym, t.txt)) = x.tokss.flatten.map fun t => (t.sym, t.txt)) :
    ∃ y, parseTokens eof s = some y ∧ y.bare = x.bare := by
  have key : ∀ l : List Token, l.map (Token.at fun _ => {}) = (l.map fun t => (t.sym, t.txt)).map fun p => ⟨p.1, p.2, {}⟩ := by
    intro l
    rw [List.map_map]
    rfl
  have h := parseTokens_at (f := fun _ => {}) rfl eof s
  have h' := parseTokens_at (f := fun _ => {}) rfl {} x.tokss.flatten
  rw [key, hs, ← key, h', parseTokens_toks x hc hch] at h
  cases hp : parseTokens eof s with
  | none => rw [hp] at h; cases h
  | some y =>
    rw [hp] at h
    simp only [Option.map_some, Option.some.injEq] at h
    refine ⟨y, rfl, ?_⟩
    rw [← x.bare_bare, ← x.bare.bare_map (Meta.at fun _ => {}) id]
    refine (y.bare_map (Meta.at fun _ => {}) id).symm.trans ?_
    exact congrArg Node.bare h.symm

end Verif.Etx
