import Verif.Etx.FaithfulParse

/-!
# C54: a parse keeps all of the text

The tokens of a text, compared with those that the reference printer writes for its tree (`Yield.lean`: a printer of its own,
not the formatter of the code).
-/

namespace Verif.Etx
open Node

variable [FloatValue]

/-- **C54.** The tree of a text that parses determines all its tokens, in order and with their types, up to layout: line
feeds, commas, the kind of quotes, the prefix of octal numbers, and the parentheses and quotes that `SameWords` lists.  Nothing of
a text is skipped, read twice, put in another place, or made up. -/
theorem C54_faithful (s : Str) (t : AST) (h : parseString s = .ok t) :
    ∃ ts, lex s = some ts ∧ SameWords (words ts) (words t.items.tokss.flatten) := by
  rcases parseString_eq s with ⟨-, h'⟩ | ⟨x, t', f, hx, h', -, -, h3, -⟩
  · rw [h] at h'; cases h'
  · rw [h] at h'
    cases h'
    obtain ⟨ts, h1, h2⟩ := parseTree_same hx
    refine ⟨ts, h1, ?_⟩
    rwa [← (toks_erase t.items).2, h3, (toks_erase x).2]

/-! ## In particular -/

/-- The types of the tokens that `SameWords` may change. -/
def loose : List Sym := [.ident, .string, .char, .stringEnd, .opLParen, .opRParen]

omit [FloatValue] in
theorem Labels.kind {l l' : List Word} (h : Labels l l') {y : Sym} (hy : y ∉ loose) :
    l.filter (·.1 = y) = l'.filter (·.1 = y) := by
  simp only [loose, List.mem_cons, not_or] at hy
  induction h with
  | nil => rfl
  | quoted _ ih => simpa [Ne.symm hy.1, Ne.symm hy.2.1, Ne.symm hy.2.2.1, Ne.symm hy.2.2.2.1] using ih
  | bare _ ih => simpa [Ne.symm hy.1, Ne.symm hy.2.1, Ne.symm hy.2.2.1, Ne.symm hy.2.2.2.1] using ih

omit [FloatValue] in
theorem SameWords.kind {a b : List Word} (h : SameWords a b) {y : Sym} (hy : y ∉ loose) :
    a.filter (·.1 = y) = b.filter (·.1 = y) := by
  have hy' := hy
  simp only [loose, List.mem_cons, not_or] at hy'
  induction h with
  | nil => rfl
  | cons _ ih => simp only [List.filter_cons, ih]
  | block hl _ ih => simp only [List.filter_cons, List.filter_append, ih, hl.kind hy]
  | unwrap _ _ ih =>
    simp [List.filter_cons, List.filter_append, ih, Ne.symm hy'.2.2.2.2.1, Ne.symm hy'.2.2.2.2.2.1]
  | wrap _ _ _ ih ih' =>
    simp [List.filter_cons, List.filter_append, ih, ih', Ne.symm hy'.2.2.2.2.1, Ne.symm hy'.2.2.2.2.2.1]

/-- The comments, numbers, operators, keywords, brackets and heredocs of a text are those of its tree, in order. -/
theorem C54_kind (s : Str) (t : AST) (h : parseString s = .ok t) (y : Sym) (hy : y ∉ loose) :
    ∃ ts, lex s = some ts ∧ (words ts).filter (·.1 = y) = (words t.items.tokss.flatten).filter (·.1 = y) := by
  obtain ⟨ts, h1, h2⟩ := C54_faithful s t h
  exact ⟨ts, h1, h2.kind hy⟩

/-- The texts of all tokens other than parentheses. -/
def letters (l : List Word) : Str := ((l.filter fun w => w.1 ≠ .opLParen ∧ w.1 ≠ .opRParen).map (·.2)).flatten

omit [FloatValue] in
theorem Labels.letters {l l' : List Word} (h : Labels l l') : Etx.letters l = Etx.letters l' := by
  unfold Etx.letters
  induction h with
  | nil => rfl
  | quoted _ ih => simpa using ih
  | bare _ ih => simpa using ih

omit [FloatValue] in
theorem letters_append (a b : List Word) : letters (a ++ b) = letters a ++ letters b := by simp [letters]

omit [FloatValue] in
theorem letters_cons (x : Word) (b : List Word) : letters (x :: b) = letters [x] ++ letters b := letters_append [x] b

omit [FloatValue] in
theorem SameWords.letters {a b : List Word} (h : SameWords a b) : Etx.letters a = Etx.letters b := by
  have e (w : Str) : Etx.letters [(.opLParen, w)] = [] := rfl
  have e' (w : Str) : Etx.letters [(.opRParen, w)] = [] := rfl
  induction h with
  | nil => rfl
  | @cons x a b _ ih => rw [letters_cons, ih, ← letters_cons]
  | @block n l l' a b hl _ ih =>
    rw [letters_cons, letters_append, letters_cons _ a, ih, hl.letters, ← letters_cons, ← letters_append, ← letters_cons]
  | @unwrap l a b _ _ ih =>
    rw [letters_cons, letters_cons (.opLParen, _), letters_append, letters_cons _ (_ :: a), letters_cons _ a, ih,
      letters_cons _ (l ++ _), letters_append, letters_cons _ b, e, e']
    simp
  | @wrap l l' a b _ _ _ ih ih' =>
    rw [letters_cons, letters_append, letters_cons _ a, ih, ih', letters_cons _ (_ :: _), letters_cons _ (l' ++ _),
      letters_append, letters_cons _ (_ :: b), letters_cons _ b, e, e']
    simp

/-- Every name, number, operator and every character of a string, a heredoc or a comment is kept, and nothing is added. -/
theorem C54_letters (s : Str) (t : AST) (h : parseString s = .ok t) :
    ∃ ts, lex s = some ts ∧ letters (words ts) = letters (words t.items.tokss.flatten) := by
  obtain ⟨ts, h1, h2⟩ := C54_faithful s t h
  exact ⟨ts, h1, h2.letters⟩

/-- Texts with the same tree, apart from positions and addresses, have the same letters, and the same tokens of each type
that is not `loose`. -/
theorem C54_injective (s s' : Str) (t t' : AST) (h : parseString s = .ok t) (h' : parseString s' = .ok t')
    (he : t.items.bare = t'.items.bare) :
    ∃ ts ts', lex s = some ts ∧ lex s' = some ts' ∧ letters (words ts) = letters (words ts') ∧
      ∀ y ∉ loose, (words ts).filter (·.1 = y) = (words ts').filter (·.1 = y) := by
  obtain ⟨ts, h1, h2⟩ := C54_faithful s t h
  obtain ⟨ts', h1', h2'⟩ := C54_faithful s' t' h'
  have e : t.items.tokss = t'.items.tokss := by
    have e1 := (toks_map (fun _ => noPos) (fun _ => 0) t.items).2
    have e2 := (toks_map (fun _ => noPos) (fun _ => 0) t'.items).2
    rw [← e1, ← e2]
    exact congrArg tokss he
  refine ⟨ts, ts', h1, h1', ?_, fun y hy => ?_⟩
  · rw [h2.letters, h2'.letters, e]
  · rw [h2.kind hy, h2'.kind hy, e]

/-- A document with a comment, a heredoc, a string with an expression, bare labels, and return types in parentheses. -/
def sampleFaithful : Str :=
  c!"# c\nb l \"m\" {\n\tx = [1, 0o7, <<E\n${ 'a ${y} b' }}\nE\n]\n}\ndef f(a: T) (b.c) { -a.b(1)[2] }\n"

/-- The letters of the tree of a text. -/
def lettersOf (s : Str) : Option Str :=
  match parseString s with
  | .ok t => some (letters (words t.items.tokss.flatten))
  | _ => none


example : lettersOf sampleFaithful = some c!"# cblm{x=[10o7<<E\n${a ${y} b}}\n]}deffa:Tb.c{-a.b1[2]}" := by kernel_rfl

/-- The tree of a text, without positions and addresses. -/
def bareOf (s : Str) : Option (Node (.slice .rootItem)) :=
  match parseString s with
  | .ok t => some t.items.bare
  | _ => none

/-- The block `b "l" {}`. -/
def emptyBlock : Node (.slice .rootItem) :=
  sliceOf [.rootItem noPos [] .nil .nil .nil (.ref (.block noPos c!"b" (.mk 0 [c!"l"]) .nilSlice)) .nil .nil]

example : bareOf c!"b \"l\" {}" = some emptyBlock := by kernel_rfl
example : bareOf c!"b l {\n}" = some emptyBlock := by kernel_rfl

end Verif.Etx
