import Verif.Etx.Strict
import Verif.Etx.Reads
import Verif.Props.Number

/-!
# What a tree keeps of a text

The tokens of a text and those that the reference printer (`Yield.lean`) writes for the tree parsed from it are compared up
to layout: line feeds, commas, the kind of quotes, the prefix of octal numbers, and the two places where the tree does not say
how something was written (`SameWords`).
-/

namespace Verif.Etx
open Node

/-- A token up to layout. -/
abbrev Word := Sym × Str

/-- What remains of a token: nothing of line feeds and commas, no text of quotes and heredoc ends (these are determined by
the beginning), the characters of a heredoc one by one, of a number the digits with the prefix that is parsed, and of
a comment the text without the carriage return that is captured with it. -/
def word (y : Sym) (w : Str) : List Word :=
  match y with
  | .lf => []
  | .opComma => []
  | .string => [(.string, [])]
  | .stringEnd => [(.stringEnd, [])]
  | .heredocEnd => [(.heredocEnd, [])]
  | .number => [(.number, numberSource w)]
  | .body => w.map fun c => (.body, [c])
  | .multilineComment => [(.multilineComment, if w.getLast? = some '\r' then w.dropLast else w)]
  | y => [(y, w)]

/-- Tokens up to layout. -/
def words (s : List Token) : List Word := s.flatMap fun t => word t.sym t.txt

theorem words_append (a b : List Token) : words (a ++ b) = words a ++ words b := List.flatMap_append

theorem words_cons (t : Token) (s : List Token) : words (t :: s) = word t.sym t.txt ++ words s := rfl

theorem words_nil : words [] = [] := rfl

/-- The labels of a block as they are written and as they are printed: a label may be written without quotes. -/
inductive Labels : List Word → List Word → Prop
  | nil : Labels [] []
  | quoted {w : Str} {a b : List Word} : Labels a b →
      Labels ((.string, []) :: (.char, w) :: (.stringEnd, []) :: a) ((.string, []) :: (.char, w) :: (.stringEnd, []) :: b)
  | bare {w : Str} {a b : List Word} : Labels a b →
      Labels ((.ident, w) :: a) ((.string, []) :: (.char, w) :: (.stringEnd, []) :: b)

/-- The same tokens, except that
* labels between the name of a block and its `{` may be written without quotes;
* a single return type, between `)` and `{`, and an empty list of return types may be written with parentheses;
* a single return type that is a function may be written without parentheses. -/
inductive SameWords : List Word → List Word → Prop
  | nil : SameWords [] []
  | cons {x : Word} {a b : List Word} : SameWords a b → SameWords (x :: a) (x :: b)
  | block {n : Str} {l l' a b : List Word} : Labels l l' → SameWords a b →
      SameWords ((.ident, n) :: (l ++ (.blockStart, c!"{") :: a)) ((.ident, n) :: (l' ++ (.blockStart, c!"{") :: b))
  | unwrap {l a b : List Word} : (∀ x ∈ l, x.1 = .ident ∨ x.1 = .dot) → SameWords a b →
      SameWords ((.opRParen, c!")") :: (.opLParen, c!"(") :: (l ++ (.opRParen, c!")") :: (.blockStart, c!"{") :: a))
        ((.opRParen, c!")") :: (l ++ (.blockStart, c!"{") :: b))
  | wrap {l l' a b : List Word} : l.head? = some (.opLParen, c!"(") → SameWords l l' → SameWords a b →
      SameWords ((.opRParen, c!")") :: (l ++ (.blockStart, c!"{") :: a))
        ((.opRParen, c!")") :: (.opLParen, c!"(") :: (l' ++ (.opRParen, c!")") :: (.blockStart, c!"{") :: b))

theorem SameWords.refl (a : List Word) : SameWords a a := by
  induction a with
  | nil => exact .nil
  | cons x a ih => exact .cons ih

theorem SameWords.append {a b c d : List Word} (h : SameWords a b) (h' : SameWords c d) : SameWords (a ++ c) (b ++ d) := by
  induction h with
  | nil => exact h'
  | cons _ ih => exact .cons ih
  | block hl _ ih => simpa using SameWords.block hl ih
  | unwrap hl _ ih => simpa using SameWords.unwrap hl ih
  | wrap h0 hl _ _ ih => simpa using SameWords.wrap h0 hl ih

/-! ## Productions, with the structs inside as they are printed -/

/-- The text of a token that begins a heredoc. -/
def heredocWord (w : Str) : Prop :=
  ∃ tabs d, captureDelimiter w = some (tabs, d) ∧ w = c!"<<" ++ (if tabs then c!"-" else []) ++ d ++ c!"\n"

/-- A type is an identifier or a function. -/
def typed : {k : Kind} → Node k → Prop
  | _, .parameterType _ ident' func' => ident'.isRef = true ∨ func'.isRef = true
  | _, _ => True

/-- `Flat g u o`: the production `g` reads the words `u`, with the captures `o`; the words of each struct inside are the
same as those of the struct captured. -/
inductive Flat : Gram → List Word → Out → Prop
  | lit {w : Str} : Flat (.lit w) (word (litSym w) w) ⟨[w], []⟩
  | tok {y : Sym} {w : Str} : y.exact w = true → (y = .heredoc → heredocWord w) → Flat (.tok y) (word y w) ⟨[w], []⟩
  | seq {a b : Gram} {s s' : List Word} {o o' : Out} : Flat a s o → Flat b s' o' → Flat (.seq a b) (s ++ s') (o ++ o')
  | altL {a b : Gram} {s : List Word} {o : Out} : Flat a s o → Flat (.alt a b) s o
  | altR {a b : Gram} {s : List Word} {o : Out} : Flat b s o → Flat (.alt a b) s o
  | skip {a : Gram} : Flat (.opt a) [] {}
  | once {a : Gram} {s : List Word} {o : Out} : Flat a s o → Flat (.opt a) s o
  | nil {a : Gram} : Flat (.star a) [] {}
  | more {a : Gram} {s s' : List Word} {o o' : Out} : Flat a s o → Flat (.star a) s' o' → Flat (.star a) (s ++ s') (o ++ o')
  | plus {a : Gram} {s s' : List Word} {o o' : Out} : Flat a s o → Flat (.star a) s' o' → Flat (.plus a) (s ++ s') (o ++ o')
  | cap {f : Field} {a : Gram} {s : List Word} {o : Out} : Flat a s o → Flat (.cap f a) s ⟨o.txt, [.toks f o.txt]⟩
  | sub {f : Field} {k : Kind} {s : List Word} {x : Node k} : SameWords s (words x.toks) → typed x → Flat (.sub f k) s ⟨[], [.node f k x]⟩

section
variable {u : List Word} {o : Out} {a b : Gram} {f : Field}

theorem flat_lit {w : Str} : Flat (.lit w) u o ↔ u = word (litSym w) w ∧ o = ⟨[w], []⟩ := by
  constructor
  · rintro ⟨⟩
    exact ⟨rfl, rfl⟩
  · rintro ⟨rfl, rfl⟩
    exact .lit

theorem flat_tok {y : Sym} : Flat (.tok y) u o ↔
    ∃ w, y.exact w = true ∧ (y = .heredoc → heredocWord w) ∧ u = word y w ∧ o = ⟨[w], []⟩ := by
  constructor
  · rintro ⟨⟩
    exact ⟨_, by assumption, by assumption, rfl, rfl⟩
  · rintro ⟨w, h1, h2, rfl, rfl⟩
    exact .tok h1 h2

theorem flat_seq : Flat (.seq a b) u o ↔ ∃ u1 u2 o1 o2, u = u1 ++ u2 ∧ o = o1 ++ o2 ∧ Flat a u1 o1 ∧ Flat b u2 o2 := by
  constructor
  · rintro ⟨⟩
    exact ⟨_, _, _, _, rfl, rfl, by assumption, by assumption⟩
  · rintro ⟨_, _, _, _, rfl, rfl, h1, h2⟩
    exact .seq h1 h2

theorem flat_alt : Flat (.alt a b) u o ↔ Flat a u o ∨ Flat b u o := by
  constructor
  · intro h
    cases h with
    | altL h => exact .inl h
    | altR h => exact .inr h
  · rintro (h | h)
    · exact .altL h
    · exact .altR h

theorem flat_opt : Flat (.opt a) u o ↔ (u = [] ∧ o = {}) ∨ Flat a u o := by
  constructor
  · intro h
    cases h with
    | skip => exact .inl ⟨rfl, rfl⟩
    | once h => exact .inr h
  · rintro (⟨rfl, rfl⟩ | h)
    · exact .skip
    · exact .once h

theorem flat_cap : Flat (.cap f a) u o ↔ ∃ o', o = ⟨o'.txt, [.toks f o'.txt]⟩ ∧ Flat a u o' := by
  constructor
  · rintro ⟨⟩
    exact ⟨_, rfl, by assumption⟩
  · rintro ⟨_, rfl, h⟩
    exact .cap h

theorem flat_sub {k : Kind} : Flat (.sub f k) u o ↔ ∃ x : Node k, o = ⟨[], [.node f k x]⟩ ∧ SameWords u (words x.toks) ∧ typed x := by
  constructor
  · rintro ⟨⟩
    exact ⟨_, rfl, by assumption, by assumption⟩
  · rintro ⟨_, rfl, h, h'⟩
    exact .sub h h'

/-- An induction over a repetition. -/
theorem flat_star (P : List Word → Out → Prop) (h0 : P [] {})
    (h1 : ∀ u1 u2 o1 o2, Flat a u1 o1 → P u2 o2 → P (u1 ++ u2) (o1 ++ o2)) (h : Flat (.star a) u o) : P u o := by
  generalize e : Gram.star a = g at h
  induction h with
  | nil => exact h0
  | more h _ _ ih =>
    cases e
    exact h1 _ _ _ _ h (ih rfl)
  | _ => cases e

theorem flat_plus : Flat (.plus a) u o ↔
    ∃ u1 u2 o1 o2, u = u1 ++ u2 ∧ o = o1 ++ o2 ∧ Flat a u1 o1 ∧ Flat (.star a) u2 o2 := by
  constructor
  · rintro ⟨⟩
    exact ⟨_, _, _, _, rfl, rfl, by assumption, by assumption⟩
  · rintro ⟨_, _, _, _, rfl, rfl, h1, h2⟩
    exact .plus h1 h2

end

/-! ## Line feeds -/

theorem lf_exact {w : Str} (h : Sym.lf.exact w = true) : w = c!"\n" ∨ w = c!"\r" := by
  simpa [Sym.exact, Sym.word] using h

/-- `LF?` -/
theorem flat_lf? {u : List Word} {o : Out} (h : Flat Gram.lf? u o) :
    u = [] ∧ ∃ t, o = ⟨t, []⟩ ∧ (t = [] ∨ t = [c!"\n"] ∨ t = [c!"\r"]) := by
  rw [Gram.lf?, flat_opt] at h
  rcases h with ⟨rfl, rfl⟩ | h
  · exact ⟨rfl, _, rfl, .inl rfl⟩
  · rw [flat_tok] at h
    obtain ⟨w, hw, -, rfl, rfl⟩ := h
    rcases lf_exact hw with rfl | rfl
    · exact ⟨rfl, _, rfl, .inr (.inl rfl)⟩
    · exact ⟨rfl, _, rfl, .inr (.inr rfl)⟩

/-- `[ LF+ ]` -/
theorem flat_lfs {u : List Word} {o : Out} (h : Flat Gram.lfs u o) : u = [] ∧ ∃ t, o = ⟨t, []⟩ := by
  rw [Gram.lfs, flat_opt] at h
  rcases h with ⟨rfl, rfl⟩ | h
  · exact ⟨rfl, _, rfl⟩
  · rw [flat_plus] at h
    obtain ⟨u1, u2, o1, o2, rfl, rfl, h1, h2⟩ := h
    rw [flat_tok] at h1
    obtain ⟨w, -, -, rfl, rfl⟩ := h1
    have : u2 = [] ∧ ∃ t, o2 = ⟨t, []⟩ := by
      refine flat_star (P := fun u o => u = [] ∧ ∃ t, o = ⟨t, []⟩) ⟨rfl, _, rfl⟩ ?_ h2
      rintro u1 u2 o1 o2 h ⟨rfl, t, rfl⟩
      rw [flat_tok] at h
      obtain ⟨w, -, -, rfl, rfl⟩ := h
      exact ⟨rfl, _, rfl⟩
    obtain ⟨rfl, t, rfl⟩ := this
    exact ⟨rfl, _, rfl⟩

/-- `@LF+` -/
theorem flat_blank {u : List Word} {o : Out} (h : Flat (.plus (.cap .emptyLine (.tok .lf))) u o) :
    u = [] ∧ ∃ (t : List Str) (l : List Str), o = ⟨t, capStrs .emptyLine l⟩ ∧ l.flatten ≠ [] := by
  rw [flat_plus] at h
  obtain ⟨u1, u2, o1, o2, rfl, rfl, h1, h2⟩ := h
  rw [flat_cap] at h1
  obtain ⟨o', rfl, h1⟩ := h1
  rw [flat_tok] at h1
  obtain ⟨w, hw, -, rfl, rfl⟩ := h1
  have : u2 = [] ∧ ∃ (t : List Str) (l : List Str), o2 = ⟨t, capStrs .emptyLine l⟩ := by
    refine flat_star (P := fun u o => u = [] ∧ ∃ (t : List Str) (l : List Str), o = ⟨t, capStrs .emptyLine l⟩)
      ⟨rfl, [], [], rfl⟩ ?_ h2
    rintro u1 u2 o1 o2 h ⟨rfl, t, l, rfl⟩
    rw [flat_cap] at h
    obtain ⟨o', rfl, h⟩ := h
    rw [flat_tok] at h
    obtain ⟨w, -, -, rfl, rfl⟩ := h
    exact ⟨rfl, _, w :: l, rfl⟩
  obtain ⟨rfl, t, l, rfl⟩ := this
  refine ⟨rfl, _, w :: l, rfl, ?_⟩
  rcases lf_exact hw with rfl | rfl <;> simp

theorem words_blank (e : Str) : words (blankToks e) = [] := by
  induction e with
  | nil => rfl
  | cons c e ih => exact ih

/-! ## Lists of structs -/

theorem out_append (t t' : List Str) (c c' : List Capture) : (⟨t, c⟩ ++ ⟨t', c'⟩ : Out) = ⟨t ++ t', c ++ c'⟩ := rfl

/-- Structs captured into a slice. -/
def Subs (f : Field) (k : Kind) (u : List Word) (o : Out) : Prop :=
  ∃ (t : List Str) (l : List (Node k)), o = ⟨t, capNodes f l⟩ ∧ SameWords u (words (l.map toks).flatten) ∧ ∀ x ∈ l, typed x

theorem Subs.nil (f : Field) (k : Kind) : Subs f k [] {} := ⟨[], [], rfl, .nil, by simp⟩

theorem Subs.one {f : Field} {k : Kind} {u : List Word} {o : Out} (h : Flat (.sub f k) u o) : Subs f k u o := by
  rw [flat_sub] at h
  obtain ⟨x, rfl, h, h'⟩ := h
  exact ⟨[], [x], rfl, by simpa using h, by simpa using h'⟩

theorem Subs.append {f : Field} {k : Kind} {u u' : List Word} {o o' : Out} (h : Subs f k u o) (h' : Subs f k u' o') :
    Subs f k (u ++ u') (o ++ o') := by
  obtain ⟨t, l, rfl, h2, h3⟩ := h
  obtain ⟨t', l', rfl, h2', h3'⟩ := h'
  refine ⟨t ++ t', l ++ l', by simp [capNodes, out_append], ?_, ?_⟩
  · rw [List.map_append, List.flatten_append, words_append]
    exact h2.append h2'
  · intro x hx
    exact (List.mem_append.mp hx).elim (h3 x) (h3' x)

theorem Subs.silent {f : Field} {k : Kind} {u : List Word} {o : Out} (h : Subs f k u o) (t : List Str) :
    Subs f k u (o ++ ⟨t, []⟩) ∧ Subs f k u (⟨t, []⟩ ++ o) := by
  obtain ⟨t', l, rfl, h2, h3⟩ := h
  exact ⟨⟨t' ++ t, l, by simp [out_append], h2, h3⟩, ⟨t ++ t', l, by simp [out_append], h2, h3⟩⟩

theorem flat_subs {f : Field} {k : Kind} {u : List Word} {o : Out} (h : Flat (.star (.sub f k)) u o) : Subs f k u o :=
  flat_star (P := Subs f k) (Subs.nil f k) (fun _ _ _ _ h h' => (Subs.one h).append h') h

theorem flat_subs_lfs {f : Field} {k : Kind} {u : List Word} {o : Out} (h : Flat (.star (.seq (.sub f k) Gram.lfs)) u o) :
    Subs f k u o := by
  refine flat_star (P := Subs f k) (Subs.nil f k) (fun u1 u2 o1 o2 h h' => ?_) h
  rw [flat_seq] at h
  obtain ⟨v1, v2, p1, p2, rfl, rfl, h1, h2⟩ := h
  obtain ⟨rfl, t, rfl⟩ := flat_lfs h2
  rw [List.append_nil]
  exact ((Subs.one h1).silent t).1.append h'

theorem flat_commas {f : Field} {k : Kind} {u : List Word} {o : Out}
    (h : Flat (.star (.seq (.lit c!",") (.sub f k))) u o) : Subs f k u o := by
  refine flat_star (P := Subs f k) (Subs.nil f k) (fun u1 u2 o1 o2 h h' => ?_) h
  rw [flat_seq] at h
  obtain ⟨v1, v2, p1, p2, rfl, rfl, h1, h2⟩ := h
  rw [flat_lit] at h1
  obtain ⟨rfl, rfl⟩ := h1
  exact ((Subs.one h2).silent _).2.append h'

theorem flat_commaSep {f : Field} {k : Kind} {u : List Word} {o : Out} (h : Flat (Gram.commaSep f k) u o) : Subs f k u o := by
  rw [Gram.commaSep, flat_seq] at h
  obtain ⟨v1, v2, p1, p2, rfl, rfl, h1, h2⟩ := h
  exact (Subs.one h1).append (flat_commas h2)

theorem flat_opt_commaSep {f : Field} {k : Kind} {u : List Word} {o : Out} (h : Flat (.opt (Gram.commaSep f k)) u o) :
    Subs f k u o := by
  rw [flat_opt] at h
  rcases h with ⟨rfl, rfl⟩ | h
  · exact Subs.nil f k
  · exact flat_commaSep h

theorem words_sepBy_comma (l : List (List Token)) : words (sepBy [comma] l) = words l.flatten := by
  induction l with
  | nil => rfl
  | cons x l ih =>
    cases l with
    | nil => simp [sepBy]
    | cons y l =>
      rw [sepBy, words_append, words_append, ih]
      · simp [words_append, words_cons, words_nil, comma, tk, word]
      · simp

theorem tokss_sliceOf {k : Kind} (l : List (Node k)) : (sliceOf l).tokss = l.map toks := by
  cases l with
  | nil => simp [sliceOf, tokss]
  | cons x l => rw [sliceOf, tokss, tokss_items]; simp

theorem isNil_sliceOf {k : Kind} (l : List (Node k)) : (sliceOf l).isNilSlice = l.isEmpty := by cases l <;> rfl

end Verif.Etx
