import Verif.Etx.Peg
import Verif.Etx.Still

/-!
# More line ends

`Spread b s s'`: the tokens `s'` are those of `s` with every line end once or several times, except for a line end right after a
comment that ends with the line (`b`: such a comment comes before); texts of comments may differ in line ends.  Whatever the
grammar, read as a parsing expression grammar, gives for `s` it gives for `s'`, but for blank lines (`Peg.spread`).
-/

namespace Verif.Etx
open Gram Node

/-- The text begins like a comment or a line end. -/
def marked : Str → Bool
  | c :: _ => c = '#' || c = '/' || c = '\n' || c = '\r'
  | [] => false

namespace Token

/-- A line end. -/
structure LineEnd (t : Token) : Prop where
  sym : t.sym = .lf
  marked : marked t.txt = true
  txt : unbroken t.txt = []

/-- The same token, up to line ends in comments. -/
def Same (t t' : Token) : Prop :=
  t.sym = t'.sym ∧ ((t.LineEnd ∧ t'.LineEnd) ∨
    ((t.sym = .singleLineComment ∨ t.sym = .multilineComment) ∧ marked t.txt = true ∧ marked t'.txt = true ∧
      unbroken t.txt = unbroken t'.txt) ∨
    (t.sym ≠ .lf ∧ t.sym ≠ .singleLineComment ∧ t.sym ≠ .multilineComment ∧ t.txt = t'.txt))

theorem LineEnd.ne {t : Token} (h : t.LineEnd) : t.txt ≠ [] := by
  intro e
  have := h.marked
  rw [e] at this
  cases this

theorem Same.lineEnd {t t' : Token} (h : t.Same t') (e : t.sym = .lf) : t.LineEnd ∧ t'.LineEnd := by
  obtain ⟨-, h | ⟨h | h, -⟩ | ⟨h, -⟩⟩ := h
  · exact h
  · rw [e] at h; cases h
  · rw [e] at h; cases h
  · exact absurd e h

theorem Same.txt_iff {t t' : Token} (h : t.Same t') {w : Str} (hw : Verif.Etx.marked w = false) : t.txt = w ↔ t'.txt = w := by
  have no {u : Token} (hu : Verif.Etx.marked u.txt = true) : u.txt ≠ w := by
    intro e
    rw [e, hw] at hu
    cases hu
  obtain ⟨-, ⟨h, h'⟩ | ⟨-, h, h', -⟩ | ⟨-, -, -, h⟩⟩ := h
  · simp [no h.marked, no h'.marked]
  · simp [no h, no h']
  · rw [h]

theorem Same.sym_ne {t t' : Token} (h : t.Same t') (hm : Verif.Etx.marked t.txt = false) : t.sym ≠ .lf := by
  intro e
  have := (h.lineEnd e).1.marked
  rw [hm] at this
  cases this

end Token

/-- See above. -/
inductive Spread : Bool → List Token → List Token → Prop
  | nil {b : Bool} : Spread b [] []
  | keep {b : Bool} {t t' : Token} {s s' : List Token} : t.Same t' → Spread (decide (t.sym = .singleLineComment)) s s' →
      Spread b (t :: s) (t' :: s')
  | more {t t' : Token} {s s' : List Token} : t.LineEnd → t'.LineEnd → Spread false (t :: s) s' → Spread false (t :: s) (t' :: s')

/-- The first token is no line end. -/
def NoLf (s : List Token) : Prop := ∀ t ∈ s.head?, t.sym ≠ .lf

/-- Line ends, then `Spread`. -/
def Rest (s s' : List Token) : Prop := ∃ L q, (∀ t ∈ L, t.LineEnd) ∧ s' = L ++ q ∧ Spread false s q

namespace Spread

theorem weaken {b : Bool} {s s' : List Token} (h : Spread b s s') : Spread false s s' := by
  cases h with
  | nil => exact .nil
  | keep h h' => exact .keep h h'
  | more h h' h'' => exact .more h h' h''

theorem rest {s s' : List Token} (h : Spread false s s') : Rest s s' := ⟨[], s', by simp, rfl, h⟩

theorem of_nil {b : Bool} {s' : List Token} (h : Spread b [] s') : s' = [] := by cases h; rfl

theorem head {b : Bool} {t : Token} {s s' : List Token} (h : Spread b (t :: s) s') : ∃ t' s'', s' = t' :: s'' ∧ t.Same t' := by
  cases h with
  | keep h h' => exact ⟨_, _, rfl, h⟩
  | more h h' h'' => exact ⟨_, _, rfl, h.sym.trans h'.sym.symm, .inl ⟨h, h'⟩⟩

theorem tail {b : Bool} {t : Token} {s s' : List Token} (h : Spread b (t :: s) s') (ht : b = true ∨ t.sym ≠ .lf) :
    ∃ t' s'', s' = t' :: s'' ∧ t.Same t' ∧ Spread (decide (t.sym = .singleLineComment)) s s'' := by
  cases h with
  | keep h h' => exact ⟨_, _, rfl, h, h'⟩
  | more h h' h'' =>
    rcases ht with ht | ht
    · cases ht
    · exact absurd h.sym ht

theorem lf {b : Bool} {t : Token} {s s' : List Token} (h : Spread b (t :: s) s') (ht : t.sym = .lf) :
    ∃ t' L q, t'.LineEnd ∧ (∀ u ∈ L, u.LineEnd) ∧ s' = t' :: (L ++ q) ∧ Spread false s q ∧ t.LineEnd := by
  generalize e : t :: s = u at h
  induction h with
  | nil => cases e
  | keep h h' =>
    cases e
    exact ⟨_, [], _, (h.lineEnd ht).2, by simp, rfl, h'.weaken, (h.lineEnd ht).1⟩
  | more h h' h'' ih =>
    cases e
    obtain ⟨t', L, q, h1, h2, h3, h4, -⟩ := ih rfl
    exact ⟨_, t' :: L, q, h', by simpa using ⟨h1, h2⟩, by rw [h3]; rfl, h4, h⟩

theorem split {L s s' : List Token} (hL : ∀ t ∈ L, t.sym = .lf) (h : Spread false (L ++ s) s') :
    ∃ M q, (∀ t ∈ M, t.LineEnd) ∧ s' = M ++ q ∧ Spread false s q ∧ (L = [] ↔ M = []) ∧ ∀ t ∈ L, t.LineEnd := by
  induction L generalizing s' with
  | nil => exact ⟨[], s', by simp, rfl, h, by simp, by simp⟩
  | cons t L ih =>
    obtain ⟨t', N, q, h1, h2, h3, h4, h8⟩ := h.lf (hL t (by simp))
    obtain ⟨M, p, h5, h6, h7, -, h9⟩ := ih (fun u hu => hL u (by simp [hu])) h4
    refine ⟨t' :: (N ++ M), p, ?_, by rw [h3, h6]; simp, h7, by simp, by simpa using ⟨h8, h9⟩⟩
    intro u hu
    simp only [List.mem_cons, List.mem_append] at hu
    rcases hu with rfl | hu | hu
    · exact h1
    · exact h2 u hu
    · exact h5 u hu

theorem noLf {b : Bool} {s s' : List Token} (h : Spread b s s') (hs : NoLf s) : NoLf s' := by
  cases s with
  | nil => rw [h.of_nil]; exact hs
  | cons t s =>
    obtain ⟨t', s'', rfl, h, -⟩ := h.head
    intro u hu
    cases hu
    rw [← h]
    exact hs t rfl

end Spread

theorem lf_split (s : List Token) : ∃ L r, s = L ++ r ∧ (∀ t ∈ L, t.sym = .lf) ∧ NoLf r := by
  induction s with
  | nil => exact ⟨[], [], rfl, by simp, by simp [NoLf]⟩
  | cons t s ih =>
    by_cases ht : t.sym = .lf
    · obtain ⟨L, r, h1, h2, h3⟩ := ih
      exact ⟨t :: L, r, by rw [h1]; rfl, by simpa using ⟨ht, h2⟩, h3⟩
    · exact ⟨[], t :: s, rfl, by simp, by simpa [NoLf] using ht⟩

/-! ## Which productions do not mind -/

/-- The kinds of items that may be blank lines. -/
def Kind.gappy : Kind → Bool
  | .rootItem | .blockItem | .funcStatement | .typeEnumItem | .typeObjectItem | .listItem | .mapItem => true
  | _ => false

/-- `@@` for items that may be blank lines. -/
def itemSub : Gram → Bool
  | .sub _ k => k.gappy
  | _ => false

/-- Types of tokens that are neither line ends nor comments. -/
def plainSym (y : Sym) : Bool := y ≠ .lf && y ≠ .singleLineComment && y ≠ .multilineComment

/-- Tokens, none of which is a line end or a comment. -/
def lineless : Gram → Bool
  | .lit w => !marked w
  | .tok y => plainSym y
  | .seq a b | .alt a b => lineless a && lineless b
  | _ => false

mutual

/-- The production reads line ends only where any number of them is read. -/
def spreadTight : Gram → Bool
  | .lit w => !marked w
  | .tok y => plainSym y
  | .seq a b => (spreadTight a && spreadTight b) || (decide (a = lf?) && spreadBody b)
  | .alt a b => spreadTight a && spreadTight b
  | .opt a => spreadTight a
  | .star a => spreadTight a || itemSub a
  | .plus a => spreadTight a || decide (a = .tok .lf)
  | .cap f a => decide (f ≠ .emptyLine) && lineless a
  | .sub _ k => k.gapless && k ≠ .comment && k ≠ .lambda

/-- The production begins with items. -/
def spreadBody : Gram → Bool
  | .star a => itemSub a
  | .seq a b => spreadBody a && spreadTight b
  | _ => false

end

/-- The production reads line ends where any number is read, or at its end. -/
def spreadLoose : Gram → Bool
  | .lit w => spreadTight (.lit w)
  | .tok y => spreadTight (.tok y)
  | .seq a b => spreadTight a && spreadLoose b
  | .alt a b => spreadLoose a && spreadLoose b
  | .opt a => decide (a = .tok .lf) || spreadTight a
  | .star a => spreadTight (.star a)
  | .plus a => decide (a = .cap .emptyLine (.tok .lf)) || spreadTight a
  | .cap f a => spreadTight (.cap f a)
  | .sub f k => decide (k = .comment) || itemSub (.sub f k) || spreadTight (.sub f k)

theorem tight_of_lineless {g : Gram} (h : lineless g = true) : spreadTight g = true := by
  induction g with
  | lit | tok => exact h
  | seq a b iha ihb | alt a b iha ihb =>
    simp only [lineless, Bool.and_eq_true] at h
    simp [spreadTight, iha h.1, ihb h.2]
  | _ => cases h

theorem tight_of (k : Kind) (hk : k.gapless = true) (hc : k ≠ .comment) (hl : k ≠ .lambda) : spreadTight (Gram.of k) = true := by
  cases k
  case bin l => cases l <;> decide
  case comment => exact absurd rfl hc
  case lambda => exact absurd rfl hl
  all_goals first | rfl | cases hk

theorem loose_of (k : Kind) (hk : k.gappy = true) : spreadLoose (Gram.of k) = true := by
  cases k <;> first | rfl | cases hk

/-! ## Line ends -/

section

variable [FloatValue] {eof eof' : Position}

theorem peg_noTok {r : List Token} (hr : NoLf r) : Peg eof (.tok .lf) r none := .noTok hr

theorem peg_lfs {L r : List Token} (hL : ∀ t ∈ L, t.sym = .lf) (hr : NoLf r) :
    Peg eof (.star (.tok .lf)) (L ++ r) (some (⟨L.map Token.txt, []⟩, r)) := by
  induction L with
  | nil => exact .nil (peg_noTok hr)
  | cons t L ih => exact .cons (.tok (hL t (by simp))) (ih fun u hu => hL u (by simp [hu]))

theorem peg_gaps {L r : List Token} (hL : ∀ t ∈ L, t.sym = .lf) (hr : NoLf r) :
    Peg eof (.star (.cap .emptyLine (.tok .lf))) (L ++ r)
      (some (⟨L.map Token.txt, L.map fun t => .toks .emptyLine [t.txt]⟩, r)) := by
  induction L with
  | nil => exact .nil (.noCap (peg_noTok hr))
  | cons t L ih => exact .cons (.cap (.tok (hL t (by simp)))) (ih fun u hu => hL u (by simp [hu]))

theorem peg_lfPlus {L r : List Token} (hL : ∀ t ∈ L, t.sym = .lf) (hr : NoLf r) :
    Peg eof (.plus (.tok .lf)) (L ++ r) (if L = [] then none else some (⟨L.map Token.txt, []⟩, r)) := by
  cases L with
  | nil => exact .noPlus (peg_noTok hr)
  | cons t L => exact .plus (.tok (hL t (by simp))) (peg_lfs (fun u hu => hL u (by simp [hu])) hr)

theorem peg_gapPlus {L r : List Token} (hL : ∀ t ∈ L, t.sym = .lf) (hr : NoLf r) :
    Peg eof (.plus (.cap .emptyLine (.tok .lf))) (L ++ r)
      (if L = [] then none else some (⟨L.map Token.txt, L.map fun t => .toks .emptyLine [t.txt]⟩, r)) := by
  cases L with
  | nil => exact .noPlus (.noCap (peg_noTok hr))
  | cons t L => exact .plus (.cap (.tok (hL t (by simp)))) (peg_gaps (fun u hu => hL u (by simp [hu])) hr)

omit [FloatValue] in
theorem str_gaps (L : List Token) (l : List Str) :
    Out.str ⟨l, L.map fun t => .toks .emptyLine [t.txt]⟩ .emptyLine = (L.map Token.txt).flatten := by
  unfold Out.str Out.toks
  congr 1
  simp only
  induction L with
  | nil => rfl
  | cons t L ih => simp only [List.map_cons, List.flatMap_cons, ih, if_true, List.singleton_append]

/-- A blank line is read as an item. -/
theorem peg_blank {k : Kind} (hk : k.gappy = true) (f : Field) {L r : List Token} (hL : ∀ t ∈ L, t.sym = .lf) (hn : L ≠ []) (hr : NoLf r) :
    ∃ x : Node k, Peg eof (.sub f k) (L ++ r) (some (⟨[], [.node f k x]⟩, r)) ∧ x.gap = (L.map Token.txt).flatten := by
  have h := peg_gapPlus (eof := eof) hL hr
  rw [if_neg hn] at h
  have e := str_gaps L (L.map Token.txt)
  cases k <;> first | exact ⟨_, .sub (.altL h) rfl, e⟩ | cases hk

omit [FloatValue] in
theorem gap_ne {L : List Token} (hL : ∀ t ∈ L, t.LineEnd) (hn : L ≠ []) : (L.map Token.txt).flatten ≠ [] := by
  cases L with
  | nil => exact absurd rfl hn
  | cons t L =>
    intro e
    simp only [List.map_cons, List.flatten_cons, List.append_eq_nil_iff] at e
    exact (hL t (by simp)).ne e.1

omit [FloatValue] in
theorem nodes_node (f f' : Field) (k k' : Kind) (x : Node k) (l : List Str) :
    Out.nodes ⟨l, [.node f k x]⟩ f' k' = if h : k = k' then if f = f' then [h ▸ x] else [] else [] := by
  simp [Out.nodes]

omit [FloatValue] in
theorem toks_node (f f' : Field) (k : Kind) (x : Node k) (l : List Str) : Out.toks ⟨l, [.node f k x]⟩ f' = [] := by
  simp [Out.toks]

omit [FloatValue] in
theorem like_node (f : Field) {k : Kind} {x x' : Node k} (h : x.still = x'.still) :
    Out.Like ⟨[], [.node f k x]⟩ ⟨[], [.node f k x']⟩ where
  toks g _ := by rw [toks_node, toks_node]
  gap := by rw [Out.str, Out.str, toks_node, toks_node]
  nodes g j := by
    rw [nodes_node, nodes_node]
    split
    · rename_i e
      subst e
      split
      · simp only [List.map_cons, h]
      · rfl
    · rfl

omit [FloatValue] in
theorem like_blank (f : Field) {k : Kind} {x : Node k} (h : x.gap ≠ []) : Out.Like {} ⟨[], [.node f k x]⟩ where
  toks g _ := by rw [toks_node]; rfl
  gap := by rw [Out.str, Out.str, toks_node]; rfl
  nodes g j := by
    rw [nodes_node]
    split
    · rename_i e
      subst e
      split
      · have e : Out.nodes {} g k = [] := rfl
        simp [gap_still, h, e]
      · rfl
    · rfl

omit [FloatValue] in
theorem like_blanks (f : Field) {k : Kind} {x x' : Node k} (h : x.gap ≠ []) (h' : x'.gap ≠ []) :
    Out.Like ⟨[], [.node f k x]⟩ ⟨[], [.node f k x']⟩ where
  toks g _ := by rw [toks_node, toks_node]
  gap := by rw [Out.str, Out.str, toks_node, toks_node]
  nodes g j := by rw [← (like_blank f h).nodes, ← (like_blank f h').nodes]

omit [FloatValue] in
theorem like_gaps {L M : List Token} (hL : ∀ t ∈ L, t.LineEnd) (hl : L ≠ []) (hM : ∀ t ∈ M, t.LineEnd) (hm : M ≠ []) :
    Out.Like ⟨L.map Token.txt, L.map fun t => .toks .emptyLine [t.txt]⟩
      ⟨M.map Token.txt, M.map fun t => .toks .emptyLine [t.txt]⟩ where
  toks f hf := by
    have e (L : List Token) (l : List Str) : Out.toks ⟨l, L.map fun t => .toks .emptyLine [t.txt]⟩ f = [] := by
      unfold Out.toks
      simp only [List.flatMap_eq_nil_iff, List.mem_map]
      rintro c ⟨t, -, rfl⟩
      exact if_neg (Ne.symm hf)
    rw [e, e]
  gap := by
    rw [str_gaps, str_gaps]
    exact ⟨fun e => absurd e (gap_ne hL hl), fun e => absurd e (gap_ne hM hm)⟩
  nodes f k := by
    have e (L : List Token) (l : List Str) : Out.nodes ⟨l, L.map fun t => .toks .emptyLine [t.txt]⟩ f k = [] := by
      unfold Out.nodes
      simp only [List.flatMap_eq_nil_iff, List.mem_map]
      rintro c ⟨t, -, rfl⟩
      rfl
    rw [e, e]

/-! ## Comments -/

/-- One line of a comment. -/
abbrev commentLine : Gram := .seq (.cap .singleLine (.tok .singleLineComment)) lf?

/-- Lines of comments that differ in line ends only. -/
def LineLike (o o' : Out) : Prop :=
  ∃ l l' : List Str, o.caps = l.map (fun t => .toks .singleLine [t]) ∧ o'.caps = l'.map (fun t => .toks .singleLine [t]) ∧
    l.map unbroken = l'.map unbroken

omit [FloatValue] in
theorem LineLike.append {a a' b b' : Out} (h : LineLike a a') (h' : LineLike b b') : LineLike (a ++ b) (a' ++ b') := by
  obtain ⟨l, l', h1, h2, h3⟩ := h
  obtain ⟨m, m', h4, h5, h6⟩ := h'
  refine ⟨l ++ m, l' ++ m', ?_, ?_, by simp [h3, h6]⟩
  · show a.caps ++ b.caps = _
    rw [h1, h4, List.map_append]
  · show a'.caps ++ b'.caps = _
    rw [h2, h5, List.map_append]

theorem commentLine_some {s r s' : List Token} {o : Out} (h : Peg eof commentLine s (some (o, r))) (hs : Spread false s s') :
    ∃ o' r', Peg eof' commentLine s' (some (o', r')) ∧ LineLike o o' ∧ Spread false r r' := by
  cases h with
  | seq h1 h2 =>
    cases h1 with
    | cap h1 =>
      cases h1 with
      | tok e =>
        rename_i q t
        obtain ⟨t', s'', rfl, hS, hs⟩ := hs.tail (.inr (by rw [e]; decide))
        have e' : t'.sym = .singleLineComment := hS.1.symm.trans e
        have hu : unbroken t.txt = unbroken t'.txt := by
          obtain ⟨-, ⟨h, -⟩ | ⟨-, -, -, h⟩ | ⟨-, h, -⟩⟩ := hS
          · rw [h.sym] at e; cases e
          · exact h
          · exact absurd e h
        simp only [e, decide_true] at hs
        cases h2 with
        | once h2 =>
          cases h2 with
          | tok e2 =>
            obtain ⟨u, q', rfl, hS', hs⟩ := hs.tail (.inl rfl)
            exact ⟨_, q', .seq (.cap (.tok e')) (.once (.tok (hS'.1.symm.trans e2))), ⟨[t.txt], [t'.txt], rfl, rfl, by simp [hu]⟩, hs.weaken⟩
        | skip h2 =>
          cases h2 with
          | noTok h2 =>
            exact ⟨_, s'', .seq (.cap (.tok e')) (.skip (.noTok (hs.noLf h2))), ⟨[t.txt], [t'.txt], rfl, rfl, by simp [hu]⟩, hs.weaken⟩

omit [FloatValue] in
theorem noTok_spread {y : Sym} {b : Bool} {s s' : List Token} (h : ∀ t ∈ s.head?, t.sym ≠ y) (hs : Spread b s s') :
    ∀ t ∈ s'.head?, t.sym ≠ y := by
  cases s with
  | nil => rw [hs.of_nil]; simp
  | cons t s =>
    obtain ⟨t', s'', rfl, hS, -⟩ := hs.head
    intro u hu
    cases hu
    rw [← hS]
    exact h t rfl

theorem commentLine_none {s s' : List Token} (h : Peg eof commentLine s none) (hs : Spread false s s') : Peg eof' commentLine s' none := by
  cases h with
  | seqL h =>
    cases h with
    | noCap h =>
      cases h with
      | noTok h => exact .seqL (.noCap (.noTok (noTok_spread h hs)))
  | seqR h h' => cases h'

theorem commentLines {s r s' : List Token} {o : Out} (h : Peg eof (.star commentLine) s (some (o, r))) (hs : Spread false s s') :
    ∃ o' r', Peg eof' (.star commentLine) s' (some (o', r')) ∧ LineLike o o' ∧ Spread false r r' := by
  generalize eg : Gram.star commentLine = g at h
  generalize ex : some (o, r) = x at h
  induction h generalizing o r s' with
  | nil h =>
    cases eg
    cases ex
    exact ⟨_, s', .nil (commentLine_none h hs), ⟨[], [], rfl, rfl, rfl⟩, hs⟩
  | cons h _ _ ih =>
    cases eg
    cases ex
    obtain ⟨o1, r1, h1, h2, h3⟩ := commentLine_some (eof' := eof') h hs
    obtain ⟨o2, r2, h4, h5, h6⟩ := ih h3 rfl rfl
    exact ⟨_, r2, .cons h1 h4, h2.append h5, h6⟩
  | _ => cases eg

omit [FloatValue] in
theorem LineLike.still {o o' : Out} (h : LineLike o o') : stillStrs (o.strs .singleLine) = stillStrs (o'.strs .singleLine) ∧
    o.str .multiline = [] ∧ o'.str .multiline = [] := by
  obtain ⟨l, l', h1, h2, h3⟩ := h
  have e (o : Out) (l : List Str) (h : o.caps = l.map (fun t => .toks .singleLine [t])) : o.toks .singleLine = l ∧ o.toks .multiline = [] := by
    unfold Out.toks
    rw [h]
    constructor
    · clear h
      induction l <;> simp_all
    · clear h
      induction l <;> simp_all
  obtain ⟨e1, e2⟩ := e o l h1
  obtain ⟨e3, e4⟩ := e o' l' h2
  refine ⟨?_, by simp [Out.str, e2], by simp [Out.str, e4]⟩
  unfold Out.strs
  rw [e1, e3]
  cases l <;> cases l' <;> simp_all [stillStrs]

/-- A comment is read as a comment. -/
theorem comment_some {s r s' : List Token} {o : Out} {f : Field} (h : Peg eof (.sub f .comment) s (some (o, r))) (hs : Spread false s s') :
    ∃ o' r', Peg eof' (.sub f .comment) s' (some (o', r')) ∧ o.Like o' ∧ Rest r r' := by
  cases h with
  | sub h hb =>
    cases hb
    cases h with
    | altL h =>
      cases h with
      | plus h1 h2 =>
        obtain ⟨o1, r1, h3, h4, h5⟩ := commentLine_some (eof' := eof') h1 hs
        obtain ⟨o2, r2, h6, h7, h8⟩ := commentLines (eof' := eof') h2 h5
        obtain ⟨e1, e2, e3⟩ := (h4.append h7).still
        exact ⟨_, r2, .sub (.altL (.plus h3 h6)) rfl, like_node f (by simp only [still, e1, e2, e3]), h8.rest⟩
    | altR h h' =>
      have h0 : Peg eof' (.plus commentLine) s' none := by
        cases h with
        | noPlus h => exact .noPlus (commentLine_none h hs)
      cases h' with
      | cap h' =>
        cases h' with
        | seq h1 h2 =>
          cases h1 with
          | tok e =>
            rename_i q t
            obtain ⟨t', s'', rfl, hS, hs⟩ := hs.tail (.inr (by rw [e]; decide))
            have e' : t'.sym = .multilineComment := hS.1.symm.trans e
            have hu : unbroken t.txt = unbroken t'.txt := by
              obtain ⟨-, ⟨h, -⟩ | ⟨-, -, -, h⟩ | ⟨-, -, h, -⟩⟩ := hS
              · rw [h.sym] at e; cases e
              · exact h
              · exact absurd e h
            have hm (a b : Str) : unbroken (a ++ b) = unbroken a ++ unbroken b := List.filter_append ..
            cases h2 with
            | once h2 =>
              cases h2 with
              | tok e2 =>
                obtain ⟨u', L, p, hu', hL, rfl, hs2, hu0⟩ := hs.lf e2
                have hu2 := hu0.txt.trans hu'.txt.symm
                refine ⟨_, _, .sub (.altR h0 (.cap (.seq (.tok e') (.once (.tok hu'.sym))))) rfl, like_node f ?_, L, p, hL, rfl, hs2⟩
                show Node.comment noPos .nil (unbroken (t.txt ++ (_ ++ []))) = Node.comment noPos .nil (unbroken (t'.txt ++ (u'.txt ++ [])))
                simp only [hm, hu, hu2]
            | skip h2 =>
              cases h2 with
              | noTok h2 =>
                refine ⟨_, _, .sub (.altR h0 (.cap (.seq (.tok e') (.skip (.noTok (hs.noLf h2)))))) rfl, like_node f ?_, hs.weaken.rest⟩
                show Node.comment noPos .nil (unbroken (t.txt ++ [])) = Node.comment noPos .nil (unbroken (t'.txt ++ []))
                simp only [hm, hu]

/-- No comment is read as no comment. -/
theorem comment_none {s s' : List Token} {f : Field} (h : Peg eof (.sub f .comment) s none) (hs : Spread false s s') :
    Peg eof' (.sub f .comment) s' none := by
  cases h with
  | noBuild h hb => cases hb
  | noSub h =>
    cases h with
    | altR h h' =>
      refine .noSub (.altR ?_ ?_)
      · cases h with
        | noPlus h => exact .noPlus (commentLine_none h hs)
      · cases h' with
        | noCap h' =>
          cases h' with
          | seqL h' =>
            cases h' with
            | noTok h' => exact .noCap (.seqL (.noTok (noTok_spread h' hs)))
          | seqR h' h'' => cases h''

/-! ## The grammar -/

/-- `g` gives the same, up to blank lines. -/
def Tightly (eof : Position) (g : Gram) (s : List Token) : Option (Out × List Token) → Prop
  | none => Peg eof g s none
  | some (o, r) => ∃ o' r', Peg eof g s (some (o', r')) ∧ o.Like o' ∧ (lineless g = true → o.txt = o'.txt) ∧ Spread false r r'

/-- `g` gives the same, up to blank lines, and may leave more line ends over. -/
def Loosely (eof : Position) (g : Gram) (s : List Token) : Option (Out × List Token) → Prop
  | none => Peg eof g s none
  | some (o, r) => ∃ o' r', Peg eof g s (some (o', r')) ∧ o.Like o' ∧ Rest r r'

theorem Tightly.loosely {g : Gram} {s : List Token} {x : Option (Out × List Token)} (h : Tightly eof g s x) : Loosely eof g s x := by
  cases x with
  | none => exact h
  | some x =>
    obtain ⟨o, r, h1, h2, -, h3⟩ := h
    exact ⟨o, r, h1, h2, h3.rest⟩

theorem build_some {o o' : Out} {k : Kind} {m : Meta} {x : Node k} (h : o.Like o') (hb : build m o k = some x) (m' : Meta) :
    ∃ x', build m' o' k = some x' ∧ x.still = x'.still := by
  have := build_still h m m' k
  rw [hb] at this
  cases e : build m' o' k with
  | none => rw [e] at this; cases this
  | some x' => rw [e] at this; exact ⟨x', rfl, Option.some.inj this⟩

theorem build_none {o o' : Out} {k : Kind} {m : Meta} (h : o.Like o') (hb : build m o k = none) (m' : Meta) : build m' o' k = none := by
  have := build_still h m m' k
  rw [hb] at this
  cases e : build m' o' k with
  | none => rfl
  | some x' => rw [e] at this; cases this

/-- What holds of a result. -/
structure Spreads (eof : Position) (g : Gram) (s : List Token) (x : Option (Out × List Token)) : Prop where
  tight : spreadTight g = true → ∀ s', Spread false s s' → Tightly eof g s' x
  loose : spreadLoose g = true → ∀ s', Spread false s s' → Loosely eof g s' x
  body : spreadBody g = true → ∀ s', Rest s s' → Tightly eof g s' x

/-- Spreading line ends changes blank lines only. -/
theorem Peg.spread {g : Gram} {s : List Token} {x : Option (Out × List Token)} (h : Peg eof g s x) : Spreads eof' g s x := by
  have simple {g : Gram} {s : List Token} {x : Option (Out × List Token)} (h1 : Verif.Etx.spreadLoose g = Verif.Etx.spreadTight g)
      (h2 : Verif.Etx.spreadBody g = false) (h : Verif.Etx.spreadTight g = true → ∀ s', Spread false s s' → Tightly eof' g s' x) : Spreads eof' g s x :=
    ⟨h, fun hl s' hs => (h (h1 ▸ hl) s' hs).loosely, fun hb => by rw [h2] at hb; cases hb⟩
  induction h with
  | @lit w t r e =>
    refine simple rfl rfl fun ht s' hs => ?_
    simp only [Verif.Etx.spreadTight, Bool.not_eq_true'] at ht
    obtain ⟨t1, s1, rfl, hS⟩ := hs.head
    obtain ⟨t', s'', h1, hS, hs⟩ := hs.tail (.inr (hS.sym_ne (e ▸ ht)))
    cases h1
    have e' := (hS.txt_iff ht).mp e
    exact ⟨_, _, .lit e', by rw [e, e']; exact .refl _, fun _ => by rw [e, e'], hs.weaken⟩
  | @noLit w s h =>
    refine simple rfl rfl fun ht s' hs => ?_
    simp only [Verif.Etx.spreadTight, Bool.not_eq_true'] at ht
    refine .noLit ?_
    cases s with
    | nil => rw [hs.of_nil]; simp
    | cons t s =>
      obtain ⟨t', s'', rfl, hS⟩ := hs.head
      intro u hu
      cases hu
      exact fun e => h t rfl ((hS.txt_iff ht).mpr e)
  | @tok y t r e =>
    refine simple rfl rfl fun ht s' hs => ?_
    simp only [Verif.Etx.spreadTight, plainSym, Bool.and_eq_true, decide_eq_true_eq] at ht
    obtain ⟨t', s'', rfl, hS, hs⟩ := hs.tail (.inr (e ▸ ht.1.1))
    have e' : t.txt = t'.txt := by
      obtain ⟨-, ⟨h, -⟩ | ⟨h | h, -⟩ | ⟨-, -, -, h⟩⟩ := hS
      · exact absurd (e.symm.trans h.sym) ht.1.1
      · exact absurd (e.symm.trans h) ht.1.2
      · exact absurd (e.symm.trans h) ht.2
      · exact h
    exact ⟨_, _, .tok (hS.1.symm.trans e), by rw [e']; exact .refl _, fun _ => by rw [e'], hs.weaken⟩
  | noTok h => exact simple rfl rfl fun _ s' hs => .noTok (noTok_spread h hs)
  | @seq a b s r r' o o' h1 h2 ih1 ih2 =>
    refine ⟨fun ht s' hs => ?_, fun ht s' hs => ?_, fun ht s' hs => ?_⟩
    · simp only [Verif.Etx.spreadTight, Bool.or_eq_true, Bool.and_eq_true, decide_eq_true_eq] at ht
      rcases ht with ht | ⟨ha, hb⟩
      · obtain ⟨o1, r1, h3, h4, h5, h6⟩ := ih1.tight ht.1 s' hs
        obtain ⟨o2, r2, h7, h8, h9, h10⟩ := ih2.tight ht.2 r1 h6
        refine ⟨_, _, .seq h3 h7, h4.append h8, fun hp => ?_, h10⟩
        simp only [lineless, Bool.and_eq_true] at hp
        show o.txt ++ o'.txt = o1.txt ++ o2.txt
        rw [h5 hp.1, h9 hp.2]
      · subst ha
        obtain ⟨o1, r1, h3, h4, h6⟩ := ih1.loose rfl s' hs
        obtain ⟨o2, r2, h7, h8, h9, h10⟩ := ih2.body hb r1 h6
        refine ⟨_, _, .seq h3 h7, h4.append h8, fun hp => ?_, h10⟩
        cases hp
    · simp only [Verif.Etx.spreadLoose, Bool.and_eq_true] at ht
      obtain ⟨o1, r1, h3, h4, h5, h6⟩ := ih1.tight ht.1 s' hs
      obtain ⟨o2, r2, h7, h8, h10⟩ := ih2.loose ht.2 r1 h6
      exact ⟨_, _, .seq h3 h7, h4.append h8, h10⟩
    · simp only [Verif.Etx.spreadBody, Bool.and_eq_true] at ht
      obtain ⟨o1, r1, h3, h4, h5, h6⟩ := ih1.body ht.1 s' hs
      obtain ⟨o2, r2, h7, h8, h9, h10⟩ := ih2.tight ht.2 r1 h6
      refine ⟨_, _, .seq h3 h7, h4.append h8, fun hp => ?_, h10⟩
      simp only [lineless, Bool.and_eq_true] at hp
      show o.txt ++ o'.txt = o1.txt ++ o2.txt
      rw [h5 hp.1, h9 hp.2]
  | @seqL a b s h ih =>
    refine ⟨fun ht s' hs => ?_, fun ht s' hs => ?_, fun ht s' hs => ?_⟩
    · simp only [Verif.Etx.spreadTight, Bool.or_eq_true, Bool.and_eq_true, decide_eq_true_eq] at ht
      rcases ht with ht | ⟨ha, hb⟩
      · exact .seqL (ih.tight ht.1 s' hs)
      · subst ha
        exact .seqL (ih.loose rfl s' hs)
    · simp only [Verif.Etx.spreadLoose, Bool.and_eq_true] at ht
      exact .seqL (ih.tight ht.1 s' hs)
    · simp only [Verif.Etx.spreadBody, Bool.and_eq_true] at ht
      exact .seqL (ih.body ht.1 s' hs)
  | @seqR a b s r o h1 h2 ih1 ih2 =>
    refine ⟨fun ht s' hs => ?_, fun ht s' hs => ?_, fun ht s' hs => ?_⟩
    · simp only [Verif.Etx.spreadTight, Bool.or_eq_true, Bool.and_eq_true, decide_eq_true_eq] at ht
      rcases ht with ht | ⟨ha, hb⟩
      · obtain ⟨o1, r1, h3, h4, h5, h6⟩ := ih1.tight ht.1 s' hs
        exact .seqR h3 (ih2.tight ht.2 r1 h6)
      · subst ha
        obtain ⟨o1, r1, h3, h4, h6⟩ := ih1.loose rfl s' hs
        exact .seqR h3 (ih2.body hb r1 h6)
    · simp only [Verif.Etx.spreadLoose, Bool.and_eq_true] at ht
      obtain ⟨o1, r1, h3, h4, h5, h6⟩ := ih1.tight ht.1 s' hs
      exact .seqR h3 (ih2.loose ht.2 r1 h6)
    · simp only [Verif.Etx.spreadBody, Bool.and_eq_true] at ht
      obtain ⟨o1, r1, h3, h4, h5, h6⟩ := ih1.body ht.1 s' hs
      exact .seqR h3 (ih2.tight ht.2 r1 h6)
  | @altL a b s r o h ih =>
    refine ⟨fun ht s' hs => ?_, fun ht s' hs => ?_, fun ht s' hs => ?_⟩
    · simp only [Verif.Etx.spreadTight, Bool.and_eq_true] at ht
      obtain ⟨o1, r1, h3, h4, h5, h6⟩ := ih.tight ht.1 s' hs
      refine ⟨_, _, .altL h3, h4, fun hp => h5 ?_, h6⟩
      simp only [lineless, Bool.and_eq_true] at hp
      exact hp.1
    · simp only [Verif.Etx.spreadLoose, Bool.and_eq_true] at ht
      obtain ⟨o1, r1, h3, h4, h6⟩ := ih.loose ht.1 s' hs
      exact ⟨_, _, .altL h3, h4, h6⟩
    · cases ht
  | @altR a b s x h1 h2 ih1 ih2 =>
    refine ⟨fun ht s' hs => ?_, fun ht s' hs => ?_, fun ht s' hs => ?_⟩
    · simp only [Verif.Etx.spreadTight, Bool.and_eq_true] at ht
      have h3 := ih2.tight ht.2 s' hs
      cases x with
      | none => exact .altR (ih1.tight ht.1 s' hs) h3
      | some x =>
        obtain ⟨o1, r1, h3, h4, h5, h6⟩ := h3
        refine ⟨_, _, .altR (ih1.tight ht.1 s' hs) h3, h4, fun hp => h5 ?_, h6⟩
        simp only [lineless, Bool.and_eq_true] at hp
        exact hp.2
    · simp only [Verif.Etx.spreadLoose, Bool.and_eq_true] at ht
      have h3 := ih2.loose ht.2 s' hs
      cases x with
      | none => exact .altR (ih1.loose ht.1 s' hs) h3
      | some x =>
        obtain ⟨o1, r1, h3, h4, h6⟩ := h3
        exact ⟨_, _, .altR (ih1.loose ht.1 s' hs) h3, h4, h6⟩
    · cases ht
  | @once a s r o h ih =>
    have ht (ht : Verif.Etx.spreadTight a = true) (s' : List Token) (hs : Spread false s s') : Tightly eof' (.opt a) s' (some (o, r)) := by
      obtain ⟨o1, r1, h3, h4, h5, h6⟩ := ih.tight ht s' hs
      exact ⟨_, _, .once h3, h4, fun hp => (by cases hp), h6⟩
    refine ⟨ht, fun hl s' hs => ?_, fun ht s' hs => ?_⟩
    · simp only [Verif.Etx.spreadLoose, Bool.or_eq_true, decide_eq_true_eq] at hl
      rcases hl with rfl | hl
      · cases h with
        | tok e =>
          obtain ⟨t', L, q, h1, h2, rfl, h4, -⟩ := hs.lf e
          exact ⟨_, _, .once (.tok h1.sym), ⟨fun _ _ => rfl, Iff.rfl, fun _ _ => rfl⟩, L, q, h2, rfl, h4⟩
      · exact (ht hl s' hs).loosely
    · cases ht
  | @skip a s h ih =>
    have ht (ht : Verif.Etx.spreadTight a = true) (s' : List Token) (hs : Spread false s s') : Tightly eof' (.opt a) s' (some ({}, s)) :=
      ⟨_, _, .skip (ih.tight ht s' hs), .refl _, fun hp => (by cases hp), hs⟩
    refine ⟨ht, fun hl s' hs => ?_, fun ht s' hs => ?_⟩
    · simp only [Verif.Etx.spreadLoose, Bool.or_eq_true, decide_eq_true_eq] at hl
      rcases hl with rfl | hl
      · cases h with
        | noTok h => exact ⟨_, _, .skip (.noTok (hs.noLf h)), .refl _, hs.rest⟩
      · exact (ht hl s' hs).loosely
    · cases ht
  | @nil a s h ih =>
    have hb (hb : itemSub a = true) (s' : List Token) (hs : Rest s s') : Tightly eof' (.star a) s' (some ({}, s)) := by
      cases a with
      | sub f k =>
        obtain ⟨L, q, hL, rfl, hs⟩ := hs
        have h0 := ih.loose (by simp only [Verif.Etx.spreadLoose, hb, Bool.or_true, Bool.true_or]) q hs
        by_cases hn : L = []
        · subst hn
          exact ⟨_, _, .nil h0, .refl _, fun hp => (by cases hp), hs⟩
        · obtain ⟨M, r, rfl, hM, hr⟩ := lf_split s
          by_cases hm : M = []
          · subst hm
            obtain ⟨x, hx, hg⟩ := peg_blank (eof := eof') hb f (fun t ht => (hL t ht).sym) hn (hs.noLf hr)
            refine ⟨_, _, .cons hx (.nil h0), ?_, fun hp => (by cases hp), hs⟩
            exact (Out.Like.append (like_blank f (by rw [hg]; exact gap_ne hL hn)) (.refl {}))
          · obtain ⟨x, hx, hg⟩ := peg_blank (eof := eof) hb f hM hm hr
            cases h.unique hx
      | _ => cases hb
    have ht (ht : Verif.Etx.spreadTight (.star a) = true) (s' : List Token) (hs : Spread false s s') : Tightly eof' (.star a) s' (some ({}, s)) := by
      simp only [Verif.Etx.spreadTight, Bool.or_eq_true] at ht
      rcases ht with ht | ht
      · exact ⟨_, _, .nil (ih.tight ht s' hs), .refl _, fun hp => (by cases hp), hs⟩
      · exact hb ht s' hs.rest
    exact ⟨ht, fun hl s' hs => (ht hl s' hs).loosely, hb⟩
  | @cons a s r r' o o' h h' ih ih' =>
    have hb (hb : itemSub a = true) (s' : List Token) (hs : Rest s s') : Tightly eof' (.star a) s' (some (o ++ o', r')) := by
      cases a with
      | sub f k =>
        obtain ⟨L, q, hL, rfl, hs⟩ := hs
        have hplain : ∀ hp : lineless (.star (.sub f k)) = true, False := fun hp => by cases hp
        obtain ⟨o1, r1, h1, h2, h3⟩ := ih.loose (by simp only [Verif.Etx.spreadLoose, hb, Bool.or_true, Bool.true_or]) q hs
        obtain ⟨o2, r2, h4, h5, -, h6⟩ := ih'.body hb r1 h3
        by_cases hn : L = []
        · subst hn
          exact ⟨_, _, .cons h1 h4, h2.append h5, fun hp => (hplain hp).elim, h6⟩
        · obtain ⟨M, p, rfl, hM, hp⟩ := lf_split s
          by_cases hm : M = []
          · subst hm
            obtain ⟨x, hx, hg⟩ := peg_blank (eof := eof') hb f (fun t ht => (hL t ht).sym) hn (hs.noLf hp)
            refine ⟨_, _, .cons hx (.cons h1 h4), ?_, fun hp => (hplain hp).elim, h6⟩
            exact (Out.Like.append (a := {}) (like_blank f (by rw [hg]; exact gap_ne hL hn)) (h2.append h5))
          · obtain ⟨x, hx, hg⟩ := peg_blank (eof := eof) hb f hM hm hp
            cases h.unique hx
            obtain ⟨M', q', hM', rfl, hs', -, hM0⟩ := hs.split hM
            have hLM : ∀ t ∈ L ++ M', t.LineEnd := fun t ht => (List.mem_append.mp ht).elim (hL t) (hM' t)
            have hne : L ++ M' ≠ [] := by simp [hn]
            obtain ⟨y, hy, hg'⟩ := peg_blank (eof := eof') hb f (fun t ht => (hLM t ht).sym) hne (hs'.noLf hp)
            obtain ⟨o3, r3, h7, h8, -, h9⟩ := ih'.body hb q' hs'.rest
            rw [← List.append_assoc]
            refine ⟨_, _, .cons hy h7, ?_, fun hp => (hplain hp).elim, h9⟩
            exact (like_blanks f (by rw [hg]; exact gap_ne hM0 hm) (by rw [hg']; exact gap_ne hLM hne)).append h8
      | _ => cases hb
    have ht (ht : Verif.Etx.spreadTight (.star a) = true) (s' : List Token) (hs : Spread false s s') :
        Tightly eof' (.star a) s' (some (o ++ o', r')) := by
      have ht' := ht
      simp only [Verif.Etx.spreadTight, Bool.or_eq_true] at ht
      rcases ht with ht | ht
      · obtain ⟨o1, r1, h1, h2, -, h3⟩ := ih.tight ht s' hs
        obtain ⟨o2, r2, h4, h5, -, h6⟩ := ih'.tight ht' r1 h3
        exact ⟨_, _, .cons h1 h4, h2.append h5, fun hp => (by cases hp), h6⟩
      · exact hb ht s' hs.rest
    exact ⟨ht, fun hl s' hs => (ht hl s' hs).loosely, hb⟩
  | @plus a s r r' o o' h h' ih ih' =>
    have ht (ht : Verif.Etx.spreadTight a = true) (s' : List Token) (hs : Spread false s s') :
        Tightly eof' (.plus a) s' (some (o ++ o', r')) := by
      obtain ⟨o1, r1, h1, h2, -, h3⟩ := ih.tight ht s' hs
      obtain ⟨o2, r2, h4, h5, -, h6⟩ := ih'.tight (by simp [Verif.Etx.spreadTight, ht]) r1 h3
      exact ⟨_, _, .plus h1 h4, h2.append h5, fun hp => (by cases hp), h6⟩
    refine ⟨fun hh s' hs => ?_, fun hl s' hs => ?_, fun hb => by cases hb⟩
    · simp only [Verif.Etx.spreadTight, Bool.or_eq_true, decide_eq_true_eq] at hh
      rcases hh with hh | rfl
      · exact ht hh s' hs
      · obtain ⟨L, p, rfl, hL, hp⟩ := lf_split s
        obtain ⟨M, q, hM, rfl, hs', hLM, -⟩ := hs.split hL
        have e := (Peg.plus h h').unique (peg_lfPlus hL hp)
        have e' := peg_lfPlus (eof := eof') (fun t ht => (hM t ht).sym) (hs'.noLf hp)
        split at e
        · cases e
        · rename_i hn
          rw [if_neg (fun hm => hn (hLM.mpr hm))] at e'
          rw [e]
          exact ⟨_, _, e', ⟨fun _ _ => rfl, Iff.rfl, fun _ _ => rfl⟩, fun hp => (by cases hp), hs'⟩
    · simp only [Verif.Etx.spreadLoose, Bool.or_eq_true, decide_eq_true_eq] at hl
      rcases hl with rfl | hl
      · obtain ⟨L, p, rfl, hL, hp⟩ := lf_split s
        obtain ⟨M, q, hM, rfl, hs', hLM, hL0⟩ := hs.split hL
        have e := (Peg.plus h h').unique (peg_gapPlus hL hp)
        have e' := peg_gapPlus (eof := eof') (fun t ht => (hM t ht).sym) (hs'.noLf hp)
        split at e
        · cases e
        · rename_i hn
          have hm : M ≠ [] := fun hm => hn (hLM.mpr hm)
          rw [if_neg hm] at e'
          rw [e]
          exact ⟨_, _, e', like_gaps hL0 hn hM hm, hs'.rest⟩
      · exact (ht hl s' hs).loosely
  | @noPlus a s h ih =>
    refine ⟨fun hh s' hs => ?_, fun hl s' hs => ?_, fun hb => by cases hb⟩
    · simp only [Verif.Etx.spreadTight, Bool.or_eq_true, decide_eq_true_eq] at hh
      rcases hh with hh | rfl
      · exact .noPlus (ih.tight hh s' hs)
      · cases h with
        | noTok h => exact .noPlus (.noTok (hs.noLf h))
    · simp only [Verif.Etx.spreadLoose, Bool.or_eq_true, decide_eq_true_eq] at hl
      rcases hl with rfl | hl
      · cases h with
        | noCap h =>
          cases h with
          | noTok h => exact .noPlus (.noCap (.noTok (hs.noLf h)))
      · exact .noPlus (ih.tight hl s' hs)
  | @cap f a s r o h ih =>
    refine simple rfl rfl fun ht s' hs => ?_
    simp only [Verif.Etx.spreadTight, Bool.and_eq_true] at ht
    obtain ⟨o1, r1, h1, h2, h3, h4⟩ := ih.tight (tight_of_lineless ht.2) s' hs
    refine ⟨_, _, .cap h1, ?_, fun hp => (by cases hp), h4⟩
    rw [h3 ht.2]
    exact .refl _
  | @noCap f a s h ih =>
    refine simple rfl rfl fun ht s' hs => ?_
    simp only [Verif.Etx.spreadTight, Bool.and_eq_true] at ht
    exact .noCap (ih.tight (tight_of_lineless ht.2) s' hs)
  | @sub f k s r o x h hbuild ih =>
    have ht (ht : Verif.Etx.spreadTight (.sub f k) = true) (s' : List Token) (hs : Spread false s s') :
        Tightly eof' (.sub f k) s' (some (⟨[], [.node f k x]⟩, r)) := by
      simp only [Verif.Etx.spreadTight, Bool.and_eq_true, decide_eq_true_eq] at ht
      obtain ⟨o1, r1, h1, h2, -, h4⟩ := ih.tight (tight_of k ht.1.1 ht.1.2 ht.2) s' hs
      obtain ⟨x', hx, hx'⟩ := build_some h2 hbuild _
      exact ⟨_, _, .sub h1 hx, like_node f hx', fun hp => (by cases hp), h4⟩
    refine ⟨ht, fun hl s' hs => ?_, fun hb => by cases hb⟩
    simp only [Verif.Etx.spreadLoose, Bool.or_eq_true, decide_eq_true_eq] at hl
    rcases hl with (rfl | hl) | hl
    · exact comment_some (.sub h hbuild) hs
    · obtain ⟨o1, r1, h1, h2, h4⟩ := ih.loose (loose_of k hl) s' hs
      obtain ⟨x', hx, hx'⟩ := build_some h2 hbuild _
      exact ⟨_, _, .sub h1 hx, like_node f hx', h4⟩
    · exact (ht hl s' hs).loosely
  | @noSub f k s h ih =>
    refine ⟨fun ht s' hs => ?_, fun hl s' hs => ?_, fun hb => by cases hb⟩
    · simp only [Verif.Etx.spreadTight, Bool.and_eq_true, decide_eq_true_eq] at ht
      exact .noSub (ih.tight (tight_of k ht.1.1 ht.1.2 ht.2) s' hs)
    · simp only [Verif.Etx.spreadLoose, Bool.or_eq_true, decide_eq_true_eq] at hl
      rcases hl with (rfl | hl) | hl
      · exact comment_none (.noSub h) hs
      · exact .noSub (ih.loose (loose_of k hl) s' hs)
      · simp only [Verif.Etx.spreadTight, Bool.and_eq_true, decide_eq_true_eq] at hl
        exact .noSub (ih.tight (tight_of k hl.1.1 hl.1.2 hl.2) s' hs)
  | @noBuild f k s r o h hbuild ih =>
    have ht (ht : Verif.Etx.spreadTight (.sub f k) = true) (s' : List Token) (hs : Spread false s s') : Peg eof' (.sub f k) s' none := by
      simp only [Verif.Etx.spreadTight, Bool.and_eq_true, decide_eq_true_eq] at ht
      obtain ⟨o1, r1, h1, h2, -, h4⟩ := ih.tight (tight_of k ht.1.1 ht.1.2 ht.2) s' hs
      exact .noBuild h1 (build_none h2 hbuild _)
    refine ⟨ht, fun hl s' hs => ?_, fun hb => by cases hb⟩
    simp only [Verif.Etx.spreadLoose, Bool.or_eq_true, decide_eq_true_eq] at hl
    rcases hl with (rfl | hl) | hl
    · exact comment_none (.noBuild h hbuild) hs
    · obtain ⟨o1, r1, h1, h2, h4⟩ := ih.loose (loose_of k hl) s' hs
      exact .noBuild h1 (build_none h2 hbuild _)
    · exact ht hl s' hs

end

end Verif.Etx
