import Verif.Etx.Peg
import Verif.Props.ParseDoc
import Verif.KernelRfl

/-! # Property C56: the limit of the lookahead -/

namespace Verif.Etx
open Gram

variable [FloatValue]

/-- The document that the grammar, read as a parsing expression grammar (alternatives in order, greedy repetitions, no limit of
the lookahead), gives for a text; addresses and parents do not matter. -/
def PegDoc (s : Str) (x : Node (.slice .rootItem)) : Prop :=
  ∃ ts o, lex s = some ts ∧ Peg (Position.start.advance s) (.star (.sub .items .rootItem)) ts (some (o, [])) ∧
    x.erase = (o.slice .items).erase

/-- **C56, the full claim.** Every text that the grammar admits is accepted, with the document that the grammar says. -/
def C56_full : Prop := ∀ s x, PegDoc s x → ∃ t, parseString s = .ok t ∧ t.items.erase = x.erase

/-- The grammar gives at most one document. -/
theorem C56_unique (s : Str) (x y : Node (.slice .rootItem)) (hx : PegDoc s x) (hy : PegDoc s y) : x.erase = y.erase := by
  obtain ⟨ts, o, h1, h2, h3⟩ := hx
  obtain ⟨ts', o', h1', h2', h3'⟩ := hy
  rw [h1] at h1'
  cases h1'
  cases h2.unique h2'
  rw [h3, h3']

theorem parseTree_peg (s : Str) (ts : List Token) (hl : lex s = some ts) :
    (∃ x, parseTree s = some x ∧ PegDoc s x) ∨ (parseTree s = none ∧
      ((∀ x, ¬ PegDoc s x) ∨ ∃ r, run (parseKind (Position.start.advance s)) (.star (.sub .items .rootItem)) ts = .err r ∧
        r <:+ ts ∧ r.length + lookahead < ts.length)) := by
  have h := asPeg (eof := Position.start.advance s) (g := .star (.sub .items .rootItem)) rfl ts
  have hs := run_suffix (parseKind_suffix (Position.start.advance s)) (.star (.sub .items .rootItem)) ts
  have hp : parseTree s = parseTokens (Position.start.advance s) ts := by
    unfold parseTree
    rw [hl]
    rfl
  rw [hp]
  unfold parseTokens
  have none_of {x : Option (Out × List Token)} (hx : ∀ o, x ≠ some (o, []))
      (h : Peg (Position.start.advance s) (.star (.sub .items .rootItem)) ts x) : ∀ y, ¬ PegDoc s y := by
    rintro y ⟨ts', o, h1, h2, -⟩
    rw [hl] at h1
    cases h1
    exact hx o (h.unique h2)
  cases e : run (parseKind (Position.start.advance s)) (.star (.sub .items .rootItem)) ts with
  | miss =>
    rw [e] at h
    cases h
  | err r =>
    rw [e] at h hs
    refine .inr ⟨rfl, ?_⟩
    cases hst : stops ts r with
    | false => exact .inl (none_of (by simp) (h hst))
    | true => exact .inr ⟨r, rfl, hs, by simpa [stops] using hst⟩
  | ok o r =>
    rw [e] at h
    cases r with
    | nil => exact .inl ⟨_, rfl, ts, o, hl, h, rfl⟩
    | cons t r => exact .inr ⟨rfl, .inl (none_of (by simp) h)⟩

/-- **C56.** The limit never changes what an accepted text means: whatever `ParseString` returns is the document of the
grammar. -/
theorem C56_sound_partial (s : Str) (t : AST) (h : parseString s = .ok t) : PegDoc s t.items := by
  rcases parseString_eq s with ⟨-, h'⟩ | ⟨x, t', f, h1, h2, -, -, h3, -⟩
  · rw [h] at h'; cases h'
  · rw [h] at h2
    cases h2
    cases hl : lex s with
    | none => simp [parseTree, hl] at h1
    | some ts =>
      rcases parseTree_peg s ts hl with ⟨y, hy, ts', o, h4, h5, h6⟩ | ⟨hn, -⟩
      · rw [h1] at hy
        cases hy
        exact ⟨ts', o, h4, h5, h3.trans h6⟩
      · rw [h1] at hn
        cases hn

/-- A text that the grammar admits is only rejected for an error more than 50 tokens after the beginning. -/
theorem C56_far (s : Str) (ts : List Token) (hl : lex s = some ts) (x : Node (.slice .rootItem)) (hx : PegDoc s x) :
    (∃ t, parseString s = .ok t ∧ t.items.erase = x.erase) ∨
    (parseString s = .error ∧ ∃ r, run (parseKind (Position.start.advance s)) (.star (.sub .items .rootItem)) ts = .err r ∧
      r <:+ ts ∧ r.length + 50 < ts.length) := by
  rcases parseString_eq s with ⟨h, h'⟩ | ⟨y, t, f, h1, h2, -, -, h3, -⟩
  · refine .inr ⟨h', ?_⟩
    rcases parseTree_peg s ts hl with ⟨y, hy, -⟩ | ⟨-, h | h⟩
    · rw [h] at hy; cases hy
    · exact absurd hx (h x)
    · exact h
  · exact .inl ⟨t, h2, C56_unique s _ _ (C56_sound_partial s t h2) hx⟩

/-- Texts of at most 50 tokens are accepted exactly if the grammar admits them. -/
theorem C56_short_partial (s : Str) (ts : List Token) (hl : lex s = some ts) (hn : ts.length ≤ 50)
    (x : Node (.slice .rootItem)) : PegDoc s x ↔ ∃ t, parseString s = .ok t ∧ t.items.erase = x.erase := by
  constructor
  · intro h
    rcases C56_far s ts hl x h with h | ⟨-, r, -, -, h⟩
    · exact h
    · omega
  · rintro ⟨t, h, e⟩
    obtain ⟨ts, o, h1, h2, h3⟩ := C56_sound_partial s t h
    exact ⟨ts, o, h1, h2, e.symm.trans h3⟩

/-! ## The limit rejects documents -/

/-- An evaluator of parsing expressions, used for the witnesses only; `none` if `n` does not suffice. -/
def peval (eof : Position) : Nat → Gram → List Token → Option (Option (Out × List Token))
  | 0, _, _ => none
  | _ + 1, .lit w, s =>
    match s with
    | t :: r => if t.txt = w then some (some (⟨[t.txt], []⟩, r)) else some none
    | [] => some none
  | _ + 1, .tok y, s =>
    match s with
    | t :: r => if t.sym = y then some (some (⟨[t.txt], []⟩, r)) else some none
    | [] => some none
  | n + 1, .seq a b, s =>
    match peval eof n a s with
    | none => none
    | some none => some none
    | some (some (o, r)) =>
      match peval eof n b r with
      | none => none
      | some none => some none
      | some (some (o', r')) => some (some (o ++ o', r'))
  | n + 1, .alt a b, s =>
    match peval eof n a s with
    | none => none
    | some none => peval eof n b s
    | some (some x) => some (some x)
  | n + 1, .opt a, s =>
    match peval eof n a s with
    | none => none
    | some none => some (some ({}, s))
    | some (some x) => some (some x)
  | n + 1, .star a, s =>
    match peval eof n a s with
    | none => none
    | some none => some (some ({}, s))
    | some (some (o, r)) =>
      match peval eof n (.star a) r with
      | some (some (o', r')) => some (some (o ++ o', r'))
      | _ => none
  | n + 1, .plus a, s =>
    match peval eof n a s with
    | none => none
    | some none => some none
    | some (some (o, r)) =>
      match peval eof n (.star a) r with
      | some (some (o', r')) => some (some (o ++ o', r'))
      | _ => none
  | n + 1, .cap f a, s =>
    match peval eof n a s with
    | none => none
    | some none => some none
    | some (some (o, r)) => some (some (⟨o.txt, [.toks f o.txt]⟩, r))
  | n + 1, .sub f k, s =>
    match peval eof n (Gram.of k) s with
    | none => none
    | some none => some none
    | some (some (o, r)) =>
      match build { addr := 0, pos := posOf eof s } o k with
      | some x => some (some (⟨[], [.node f k x]⟩, r))
      | none => some none

theorem peval_peg {eof : Position} (n : Nat) (g : Gram) (s : List Token) (x : Option (Out × List Token))
    (h : peval eof n g s = some x) : Peg eof g s x := by
  induction n generalizing g s x with
  | zero => cases h
  | succ n ih =>
    cases g with
    | lit w =>
      unfold peval at h
      cases s with
      | nil => cases h; exact .noLit (by simp)
      | cons t r =>
        simp only at h
        split at h
        · rename_i e; cases h; exact .lit e
        · rename_i e; cases h; exact .noLit (by simpa using e)
    | tok y =>
      unfold peval at h
      cases s with
      | nil => cases h; exact .noTok (by simp)
      | cons t r =>
        simp only at h
        split at h
        · rename_i e; cases h; exact .tok e
        · rename_i e; cases h; exact .noTok (by simpa using e)
    | seq a b =>
      unfold peval at h
      split at h
      · cases h
      · rename_i e; cases h; exact .seqL (ih _ _ _ e)
      · rename_i e
        split at h
        · cases h
        · rename_i e'; cases h; exact .seqR (ih _ _ _ e) (ih _ _ _ e')
        · rename_i e'; cases h; exact .seq (ih _ _ _ e) (ih _ _ _ e')
    | alt a b =>
      unfold peval at h
      split at h
      · cases h
      · rename_i e; exact .altR (ih _ _ _ e) (ih _ _ _ h)
      · rename_i e; cases h; exact .altL (ih _ _ _ e)
    | opt a =>
      unfold peval at h
      split at h
      · cases h
      · rename_i e; cases h; exact .skip (ih _ _ _ e)
      · rename_i e; cases h; exact .once (ih _ _ _ e)
    | star a =>
      unfold peval at h
      split at h
      · cases h
      · rename_i e; cases h; exact .nil (ih _ _ _ e)
      · rename_i e
        split at h
        · rename_i e'; cases h; exact .cons (ih _ _ _ e) (ih _ _ _ e')
        · cases h
    | plus a =>
      unfold peval at h
      split at h
      · cases h
      · rename_i e; cases h; exact .noPlus (ih _ _ _ e)
      · rename_i e
        split at h
        · rename_i e'; cases h; exact .plus (ih _ _ _ e) (ih _ _ _ e')
        · cases h
    | cap f a =>
      unfold peval at h
      split at h
      · cases h
      · rename_i e; cases h; exact .noCap (ih _ _ _ e)
      · rename_i e; cases h; exact .cap (ih _ _ _ e)
    | sub f k =>
      unfold peval at h
      split at h
      · cases h
      · rename_i e; cases h; exact .noSub (ih _ _ _ e)
      · rename_i e
        split at h
        · rename_i e'; cases h; exact .sub (ih _ _ _ e) e'
        · rename_i e'; cases h; exact .noBuild (ih _ _ _ e) e'

/-- The grammar admits the text. -/
def admits (n : Nat) (s : Str) : Bool :=
  match lex s with
  | none => false
  | some ts =>
    match peval (Position.start.advance s) n (.star (.sub .items .rootItem)) ts with
    | some (some (_, [])) => true
    | _ => false

theorem admits_doc {n : Nat} {s : Str} (h : admits n s = true) : ∃ x, PegDoc s x := by
  unfold admits at h
  split at h
  · cases h
  · rename_i ts hl
    split at h
    · rename_i o e
      exact ⟨_, ts, o, hl, peval_peg _ _ _ _ e, rfl⟩
    · cases h

/-- A block named `type`, with the labels `a` and `enum`, 25 lines of comment and one block. -/
def typeBlock : Str := c!"type a enum {\n" ++ (List.replicate 25 c!"#\n").flatten ++ c!"b {}\n}\n"

/-- A list with two items that are not separated by a comma; the second one is a list that begins with a long sum. -/
def longList : Str := c!"x = [a [b" ++ (List.replicate 25 c!"+b").flatten ++ c!", c]]\n"

theorem typeBlock_admitted : admits 300 typeBlock = true := by kernel_rfl
theorem typeBlock_rejected : (parseTree typeBlock).isSome = false := by kernel_rfl

/-- The full claim is false: the block is first tried as an enumeration, and this fails too far away. -/
theorem C56_not_full : ¬ C56_full := by
  intro h
  obtain ⟨x, hx⟩ := admits_doc typeBlock_admitted
  obtain ⟨t, ht, -⟩ := h _ x hx
  rcases parseString_eq typeBlock with ⟨-, h'⟩ | ⟨y, t', f, h1, -⟩
  · rw [ht] at h'; cases h'
  · have := typeBlock_rejected
    rw [h1] at this
    cases this

/-- Another witness: with a sum of 26 summands the list is rejected, with one of two it is not. -/
example : admits 300 longList = true ∧ (parseTree longList).isSome = false ∧ (parseTree c!"x = [a [b+b, c]]\n").isSome = true := by
  refine ⟨?_, ?_, ?_⟩ <;> kernel_rfl

/-- The same block with fewer comments: it has less than 50 tokens, and it is read as a block. -/
example : (lex c!"type a enum {\n#\n#\nb {}\n}\n").map (·.length) = some 15 ∧
    (parseTree c!"type a enum {\n#\n#\nb {}\n}\n").isSome = true := by
  constructor <;> kernel_rfl

end Verif.Etx
