import Verif.Etx.NameRules
import Verif.Etx.Rename
import Verif.Etx.Canon
import Verif.Props.ParseDoc
import Verif.Props.LexBlank
import Verif.Props.LexTokens
import Verif.Etx.LexJoin
import Verif.Etx.Written
import Verif.Etx.Nest
import Verif.Etx.Format
import Verif.KernelRfl

/-! # Property C72: other names give the same document with other names -/

namespace Verif.Etx
open Gram Node

variable [FloatValue]

/-- What a text is read as, without positions and parents. -/
def docOf (s : Str) : Option (Node (.slice .rootItem)) :=
  match parseString s with
  | .ok t => some t.items.bare
  | _ => none

theorem docOf_eq (s : Str) : docOf s = (parseTree s).map Node.bare := by
  unfold docOf
  rcases parseString_eq s with ⟨h1, h2⟩ | ⟨x, t, f, h1, h2, -, -, h3, -⟩
  · rw [h1, h2]; rfl
  · rw [h1, h2]
    exact congrArg some (Node.bare_erase h3)

/-- The document of a list of tokens. -/
def docKinds (ks : List (Sym × Str)) : Option (Node (.slice .rootItem)) :=
  (parseTokens {} (ks.map fun p => ⟨p.1, p.2, {}⟩)).map Node.bare

/-- Only the kinds and the texts of the tokens matter. -/
theorem docOf_kinds {s : Str} {ks : List (Sym × Str)} (h : kinds (lex s) = some ks) : docOf s = docKinds ks := by
  unfold kinds at h
  rw [Option.map_eq_some_iff] at h
  obtain ⟨ts, h1, rfl⟩ := h
  rw [docOf_eq, docKinds, parseTree, h1, List.map_map]
  have h2 := parseTokens_at (f := fun _ => {}) rfl (Position.start.advance s) ts
  have h3 : ts.map (Token.at fun _ => {}) = ts.map ((fun p : Sym × Str => (⟨p.1, p.2, {}⟩ : Token)) ∘ fun t => (t.sym, t.txt)) := rfl
  rw [← h3, h2, Option.map_map]
  show Option.map _ (parseTokens _ ts) = _
  congr 1
  funext x
  exact (x.bare_map (Meta.at fun _ => {}) id).symm

omit [FloatValue] in
theorem bare_ren (ρ : Str → Str) {k : Kind} (x : Node k) : (x.ren ρ).bare = x.bare.ren ρ := (x.map_ren _ _).symm

/-! ## One name for another, everywhere -/

/-- `ρ` renames names to names and leaves the texts of all other tokens as they are. -/
structure Renames (ρ : Str → Str) (ks : List (Sym × Str)) : Prop where
  empty : ρ [] = []
  other : ∀ p ∈ ks, p.1 ≠ .ident → ρ p.2 = p.2
  word : ∀ p ∈ ks, p.2 ∈ grammarWords → ρ p.2 = p.2
  name : ∀ p ∈ ks, p.2 ∉ grammarWords → ρ p.2 ∉ grammarWords

theorem docKinds_ren {ρ : Str → Str} {ks : List (Sym × Str)} (h : Renames ρ ks) :
    docKinds (ks.map fun p => (p.1, ρ p.2)) = (docKinds ks).map (Node.ren ρ) := by
  unfold docKinds
  have e : (ks.map fun p => (p.1, ρ p.2)).map (fun p : Sym × Str => (⟨p.1, p.2, {}⟩ : Token)) =
      (ks.map fun p : Sym × Str => (⟨p.1, p.2, {}⟩ : Token)).map (Token.ren ρ) := by
    rw [List.map_map, List.map_map]; rfl
  rw [e, parseTokens_ren h.empty, Option.map_map, Option.map_map]
  · congr 1
    funext x
    exact bare_ren ρ x
  · intro t ht
    rw [List.mem_map] at ht
    obtain ⟨p, hp, rfl⟩ := ht
    refine ⟨h.other p hp, fun w hw => ⟨fun hr => ?_, fun hr => ?_⟩⟩
    · by_cases hg : p.2 ∈ grammarWords
      · exact (h.word p hp hg).symm.trans hr
      · exact absurd (hr ▸ hw) (h.name p hp hg)
    · have hr : p.2 = w := hr
      exact (h.word p hp (hr ▸ hw)).trans hr

/-- **C72.** If the tokens of `s'` are those of `s` with names replaced by names, then `s'` is accepted if and only if `s` is, and
its document is the one of `s` with the same names replaced. Two names may become one. -/
theorem C72_consistent (ρ : Str → Str) (s s' : Str) (ks : List (Sym × Str)) (hs : kinds (lex s) = some ks) (hρ : Renames ρ ks)
    (hs' : kinds (lex s') = some (ks.map fun p => (p.1, ρ p.2))) : docOf s' = (docOf s).map (Node.ren ρ) := by
  rw [docOf_kinds hs, docOf_kinds hs', docKinds_ren hρ]

/-! ## Every name for itself -/

/-- The token is a name: an identifier, and not one of the words of the grammar. -/
def isNameTok (p : Sym × Str) : Bool := p.1 = .ident && !grammarWords.contains p.2

/-- The tokens with `η i` in the place of the name that is the `i`-th token. -/
def withNames : (Nat → Str) → List (Sym × Str) → List (Sym × Str)
  | _, [] => []
  | η, p :: ks => (p.1, if isNameTok p then η 0 else p.2) :: withNames (fun i => η (i + 1)) ks

/-- The place holder number `i`: a name of `n + i` letters. -/
def hole (n i : Nat) : Str := List.replicate (n + i) 'x'

/-- Place holders replaced by names. -/
def fill (n : Nat) (η : Nat → Str) (w : Str) : Str := if n ≤ w.length ∧ w = List.replicate w.length 'x' then η (w.length - n) else w

omit [FloatValue] in
theorem fill_hole (n i : Nat) (η : Nat → Str) : fill n η (hole n i) = η i := by
  simp [fill, hole]

omit [FloatValue] in
theorem fill_short {n : Nat} {w : Str} (η : Nat → Str) (h : w.length < n) : fill n η w = w := by
  unfold fill
  rw [if_neg (by omega)]

omit [FloatValue] in
theorem words_short : ∀ w ∈ grammarWords, w.length < 10 := by decide

omit [FloatValue] in
theorem withNames_fill (n : Nat) (η : Nat → Str) (ks : List (Sym × Str)) (j : Nat) (h : ∀ p ∈ ks, p.2.length < n) :
    withNames (fun i => η (i + j)) ks = (withNames (fun i => hole n (i + j)) ks).map fun p => (p.1, fill n η p.2) := by
  induction ks generalizing j with
  | nil => rfl
  | cons p ks ih =>
    simp only [withNames, List.map_cons, List.cons.injEq, Prod.mk.injEq, true_and]
    constructor
    · split
      · rw [fill_hole]
      · rw [fill_short _ (h p (by simp))]
    · have := ih (j + 1) (fun p hp => h p (by simp [hp]))
      simpa only [Nat.add_assoc, Nat.add_comm 1 j] using this

omit [FloatValue] in
theorem withNames_mem {η : Nat → Str} {ks : List (Sym × Str)} {p : Sym × Str} (h : p ∈ withNames η ks) :
    (p ∈ ks ∧ isNameTok p = false) ∨ (p.1 = .ident ∧ ∃ i, p.2 = η i) := by
  induction ks generalizing η with
  | nil => cases h
  | cons q ks ih =>
    rw [withNames, List.mem_cons] at h
    rcases h with rfl | h
    · by_cases hq : isNameTok q = true
      · refine .inr ⟨?_, 0, by simp [hq]⟩
        simp only [isNameTok, Bool.and_eq_true, decide_eq_true_eq] at hq
        exact hq.1
      · refine .inl ⟨by simp [hq], ?_⟩
        simp only [hq]
        simpa using hq
    · rcases ih h with ⟨h1, h2⟩ | ⟨h1, i, h2⟩
      · exact .inl ⟨by simp [h1], h2⟩
      · exact .inr ⟨h1, i + 1, h2⟩

omit [FloatValue] in
theorem renames_fill {n : Nat} {η : Nat → Str} {ks : List (Sym × Str)} (hn : 10 ≤ n) (hk : ∀ p ∈ ks, p.2.length < n)
    (hη : ∀ i, η i ∉ grammarWords) : Renames (fill n η) (withNames (hole n) ks) := by
  have key : ∀ p ∈ withNames (hole n) ks, p.2.length < n ∨ (p.1 = .ident ∧ ∃ i, p.2 = hole n i) := by
    intro p hp
    rcases withNames_mem hp with ⟨h1, -⟩ | h
    · exact .inl (hk p h1)
    · exact .inr h
  have hh : ∀ i, hole n i ∉ grammarWords := by
    intro i hi
    have := words_short _ hi
    simp [hole] at this
    omega
  refine ⟨fill_short _ (by simp; omega), fun p hp h => ?_, fun p hp h => ?_, fun p hp h => ?_⟩
  · rcases key p hp with h1 | ⟨h1, -⟩
    · exact fill_short _ h1
    · exact absurd h1 h
  · rcases key p hp with h1 | ⟨-, i, h1⟩
    · exact fill_short _ h1
    · exact absurd (h1 ▸ h) (hh i)
  · rcases key p hp with h1 | ⟨-, i, h1⟩
    · rwa [fill_short _ h1]
    · rw [h1, fill_hole]
      exact hη i

theorem docKinds_names {n : Nat} {ks : List (Sym × Str)} (hn : 10 ≤ n) (hk : ∀ p ∈ ks, p.2.length < n) (η : Nat → Str)
    (hη : ∀ i, η i ∉ grammarWords) : docKinds (withNames η ks) = (docKinds (withNames (hole n) ks)).map (Node.ren (fill n η)) := by
  rw [← docKinds_ren (renames_fill hn hk hη)]
  congr 1
  exact withNames_fill n η ks 0 hk

omit [FloatValue] in
/-- The tokens with their own names. -/
theorem withNames_own (ks : List (Sym × Str)) : ∃ η, (∀ i, η i ∉ grammarWords) ∧ withNames η ks = ks := by
  induction ks with
  | nil => exact ⟨fun _ => c!"x", fun _ => (by decide : c!"x" ∉ grammarWords), rfl⟩
  | cons p ks ih =>
    obtain ⟨η, h1, h2⟩ := ih
    refine ⟨fun | 0 => if isNameTok p then p.2 else c!"x" | i + 1 => η i, ?_, ?_⟩
    · rintro (_ | i)
      · show (if isNameTok p = true then p.2 else c!"x") ∉ grammarWords
        split
        · rename_i h
          simp only [isNameTok, Bool.and_eq_true, Bool.not_eq_true', List.contains_eq_mem, decide_eq_false_iff_not] at h
          exact h.2
        · decide
      · exact h1 i
    · rw [withNames]
      congr 1
      obtain ⟨y, w⟩ := p
      simp only [Prod.mk.injEq, true_and]
      split <;> simp_all

/-- **C72.** There is one document with place holders for every way to give names to the tokens of a text: each name goes to one
place, wherever the same name or other names are, and nothing else depends on the names. -/
theorem C72_template (s : Str) (ks : List (Sym × Str)) (hs : kinds (lex s) = some ks) : ∃ (n : Nat) (x₀ : Option (Node (.slice .rootItem))), (∀ p ∈ ks, p.2.length < n) ∧
    (∃ η : Nat → Str, (∀ i, η i ∉ grammarWords) ∧ docOf s = x₀.map (Node.ren (fill n η))) ∧
    ∀ (s' : Str) (η : Nat → Str), (∀ i, η i ∉ grammarWords) → kinds (lex s') = some (withNames η ks) → docOf s' = x₀.map (Node.ren (fill n η)) := by
  obtain ⟨n, hn, hk⟩ : ∃ n, 10 ≤ n ∧ ∀ p ∈ ks, p.2.length < n := by
    clear hs
    induction ks with
    | nil => exact ⟨10, by omega, by simp⟩
    | cons p ks ih =>
      obtain ⟨n, h1, h2⟩ := ih
      refine ⟨n + p.2.length + 1, by omega, fun q hq => ?_⟩
      rcases List.mem_cons.1 hq with rfl | hq
      · omega
      · have := h2 q hq
        omega
  refine ⟨n, docKinds (withNames (hole n) ks), hk, ?_, fun s' η hη hs' => ?_⟩
  · obtain ⟨η, h1, h2⟩ := withNames_own ks
    refine ⟨η, h1, ?_⟩
    rw [docOf_kinds hs, ← docKinds_names hn hk η h1, h2]
  · rw [docOf_kinds hs', docKinds_names hn hk η hη]

/-- Tokens that differ in names only. -/
def SameButNames (ks ks' : List (Sym × Str)) : Prop :=
  List.Forall₂ (fun p q => p = q ∨ (isNameTok p = true ∧ isNameTok q = true)) ks ks'

omit [FloatValue] in
theorem SameButNames.eq {ks ks' : List (Sym × Str)} (h : SameButNames ks ks') : ∃ η, (∀ i, η i ∉ grammarWords) ∧ ks' = withNames η ks := by
  induction h with
  | nil => exact ⟨fun _ => c!"x", fun _ => (by decide : c!"x" ∉ grammarWords), rfl⟩
  | @cons p q ks ks' hp _ ih =>
    obtain ⟨η, h1, h2⟩ := ih
    refine ⟨fun | 0 => if isNameTok q then q.2 else c!"x" | i + 1 => η i, ?_, ?_⟩
    · rintro (_ | i)
      · show (if isNameTok q = true then q.2 else c!"x") ∉ grammarWords
        split
        · rename_i h
          simp only [isNameTok, Bool.and_eq_true, Bool.not_eq_true', List.contains_eq_mem, decide_eq_false_iff_not] at h
          exact h.2
        · decide
      · exact h1 i
    · rw [withNames, h2]
      congr 1
      rcases hp with rfl | ⟨h3, h4⟩
      · obtain ⟨y, w⟩ := p
        simp only [Prod.mk.injEq, true_and]
        split <;> simp_all
      · simp only [isNameTok, Bool.and_eq_true, decide_eq_true_eq] at h3 h4
        obtain ⟨y, w⟩ := q
        simp_all [isNameTok]

/-- What is left of a document without its names. -/
def nameless (s : Str) : Option (Node (.slice .rootItem)) := (docOf s).map (Node.ren fun _ => [])

/-- **C72.** Texts that differ in names only are accepted or rejected together, and their documents differ in names only. -/
theorem C72_shape (s s' : Str) (ks ks' : List (Sym × Str)) (hs : kinds (lex s) = some ks) (hs' : kinds (lex s') = some ks')
    (h : SameButNames ks ks') : nameless s' = nameless s := by
  obtain ⟨η, h1, rfl⟩ := h.eq
  obtain ⟨n, x₀, -, ⟨η', -, h3⟩, h4⟩ := C72_template s ks hs
  unfold nameless
  rw [h4 s' η h1 hs', h3, Option.map_map, Option.map_map]
  congr 1
  funext x
  show (x.ren _).ren _ = (x.ren _).ren _
  rw [Node.ren_ren, Node.ren_ren]
  rfl

/-! ## In the text -/

/-- A name that can be written anywhere: an identifier that is not a word of the grammar, and whose part before the first hyphen is
not a keyword of the lexer. -/
structure NameText (w : Str) : Prop where
  ident : IsIdent w
  keyword : w.takeWhile isWord ∉ keywords.map (·.1)
  word : w ∉ grammarWords

omit [FloatValue] in
/-- The tokens of a text with a name at the beginning. -/
theorem kinds_name {w y : Str} {st : Stack} (hst : Plain st) (hw : NameText w) (hy : EndsWord y) (p p' : Position) :
    kinds (lexAll st p (w ++ y)) = (kinds (lexAll st p' y)).map ((.ident, w) :: ·) := by
  obtain ⟨r, m, h1, h2, h3, h4⟩ := C42_ident_partial st w y hst hw.ident hw.keyword hy
  rw [kinds_step h1 p p', h2, h3, h4]
  cases kinds (lexAll st p' y) <;> rfl

omit [FloatValue] in
/-- Another name after a character that is no word character: the same tokens with the other name. -/
theorem kinds_rename {x w w' y : Str} {ks : List (Sym × Str)} {st : Stack} (hrun : LexRun [(.root, [])] (x ++ (w ++ y)) ks st (w ++ y))
    (hst : Plain st) (hx : ∀ c, x.getLast? = some c → isWord c = false)
    (hh : y.head? = some '\n' → ¬ c!"<<" <:+ x ∧ ¬ c!"<<-" <:+ x) (hw : NameText w) (hw' : NameText w') (hy : EndsWord y) :
    ∃ l : Option (List (Sym × Str)), kinds (lex (x ++ (w ++ y))) = l.map (fun l => ks ++ (.ident, w) :: l) ∧
      kinds (lex (x ++ (w' ++ y))) = l.map (fun l => ks ++ (.ident, w') :: l) := by
  have hrun' := hrun.same_name ⟨hw.ident, hw'.ident, hy⟩ (by simp [GroupStack, GroupOk]) rfl x rfl hx hh
  refine ⟨kinds (lexAll st .start y), ?_, ?_⟩
  · rw [lex_eq, hrun.kinds _ .start, kinds_name hst hw hy _ .start, Option.map_map]
    rfl
  · rw [lex_eq, hrun'.kinds _ .start, kinds_name hst hw' hy _ .start, Option.map_map]
    rfl

/-- Another token of the same kind at one place. -/
theorem nameless_one {s s' w w' : Str} {ks : List (Sym × Str)} {l : Option (List (Sym × Str))} (hw : NameText w) (hw' : NameText w')
    (h : kinds (lex s) = l.map (fun l => ks ++ (.ident, w) :: l)) (h' : kinds (lex s') = l.map (fun l => ks ++ (.ident, w') :: l)) :
    nameless s' = nameless s := by
  cases l with
  | none =>
    have key : ∀ s, kinds (lex s) = none → nameless s = none := by
      intro s h
      unfold kinds at h
      rw [Option.map_eq_none_iff] at h
      rw [nameless, docOf_eq, parseTree, h]
      rfl
    rw [key _ h, key _ h']
  | some l =>
    refine C72_shape s s' _ _ h h' ?_
    have hr : ∀ l : List (Sym × Str), SameButNames l l := fun l => List.forall₂_same.2 fun _ _ => .inl rfl
    have hn : ∀ w, NameText w → isNameTok (.ident, w) = true := fun w hw => by simp [isNameTok, hw.word]
    exact List.rel_append (hr ks) (.cons (.inr ⟨hn w hw, hn w' hw'⟩) (hr l))

/-- **C72**, the claim about texts in full: a name in a text can be replaced by another one. (The lexer has read `x` and is about
to read the name `w`.) -/
def C72_text_full : Prop := ∀ (x w w' y : Str) (ks : List (Sym × Str)) (st : Stack), LexRun [(.root, [])] (x ++ (w ++ y)) ks st (w ++ y) →
  Plain st → NameText w → NameText w' → EndsWord y → nameless (x ++ (w' ++ y)) = nameless (x ++ (w ++ y))

/-- It holds for names that are the first characters of the text or come after a character that is no word character (`hx`), unless `<<` or
`<<-` is before the name and a line end after it (`hh`): blanks, parentheses, operators, dots, the end of a string or of a comment, … -/
theorem C72_text_partial (x w w' y : Str) (ks : List (Sym × Str)) (st : Stack) (hrun : LexRun [(.root, [])] (x ++ (w ++ y)) ks st (w ++ y))
    (hst : Plain st) (hx : ∀ c, x.getLast? = some c → isWord c = false) (hh : y.head? = some '\n' → ¬ c!"<<" <:+ x ∧ ¬ c!"<<-" <:+ x)
    (hw : NameText w) (hw' : NameText w') (hy : EndsWord y) : nameless (x ++ (w' ++ y)) = nameless (x ++ (w ++ y)) := by
  obtain ⟨l, h1, h2⟩ := kinds_rename hrun hst hx hh hw hw' hy
  exact nameless_one hw hw' h1 h2

/-- In terms of the tokens before the name: at the beginning of a line. (The text `a` up to there is to be outside of quotes and comments: its tokens end with a line
end, and no `/` is followed by `*`.) -/
theorem C72_line_partial (a w w' y : Str) (us : List Token) (t : Token) (ha : a.getLast? = some '\n') (hl : lex a = some (us ++ [t]))
    (ht : t.sym = .lf) (hd : (us ++ [t]).IsChain Apart) (hw : NameText w) (hw' : NameText w') (hy : EndsWord y) :
    nameless (a ++ (w' ++ y)) = nameless (a ++ (w ++ y)) := by
  rw [lex_eq] at hl
  obtain ⟨st, -, h2, h3⟩ := lexAll_join _ a (Nat.le_refl _) _ _ _ (by simp [LineStack]) (.inr ha) hl hd (by simpa using ht)
  have hst : Plain st := by
    have := h2 (by simp)
    cases st with
    | nil => cases this
    | cons e st =>
      obtain ⟨state, g⟩ := e
      refine ⟨state, g, st, ?_⟩
      revert this
      cases state <;> simp [LexState.core]
  have key : ∀ w, NameText w → kinds (lex (a ++ (w ++ y))) =
      (kinds (lexAll st .start y)).map fun l => sig (us ++ [t]) ++ (.ident, w) :: l := by
    intro w hw
    obtain ⟨r, m, e1, e2, e3, e4⟩ := C42_ident_partial st w y hst hw.ident hw.keyword hy
    have e := kinds_step e1 (Position.start.advance a) .start
    rw [e2, e3, e4] at e
    rw [lex_eq, h3]
    unfold kinds at e ⊢
    rw [Option.map_map]
    have : ((fun ts : List Token => ts.map fun t => (t.sym, t.txt)) ∘ fun ts => us ++ [t] ++ ts) =
        (fun l => sig (us ++ [t]) ++ l) ∘ fun ts : List Token => ts.map fun t => (t.sym, t.txt) := by
      funext ts
      simp [sig]
    rw [this, ← Option.map_map, e, Option.map_map]
    rfl
  exact nameless_one hw hw' (key w hw) (key w' hw')

/-- Right after a number the name can become its exponent: `a = 0z = 2` is read as two attributes, and `a = 0e5 = 2` is rejected. -/
theorem C72_text_not_full : ¬ C72_text_full := by
  intro h
  have h := h c!"a = 0" c!"z" c!"e5" c!" = 2\n" [(.ident, c!"a"), (.opAssign, c!"="), (.number, c!"0")] [(.root, [])]
    (LexRun.of_runSteps 5 (by decide +kernel)) .root ⟨.mk 'z' [] [] (by decide) (by simp) (by simp), by decide, by decide⟩
    ⟨.mk 'e' c!"5" [] (by decide) (by decide) (by simp), by decide, by decide⟩ ⟨by decide, by simp⟩
  have h1 : (nameless (c!"a = 0" ++ (c!"z" ++ c!" = 2\n"))).isSome = true := by
    rw [nameless, docOf_eq]
    kernel_rfl
  have h2 : (nameless (c!"a = 0" ++ (c!"e5" ++ c!" = 2\n"))).isSome = false := by
    rw [nameless, docOf_eq]
    kernel_rfl
  rw [h, h1] at h2
  cases h2

/-! ## Examples -/

/-- Names in all kinds of places. -/
def nameSample : Str := c!"blk a \"l\" {\n  k = a.b + f(a, [1 c], {a = null})\n}\ndef g(a: T) {\n a\n}\ntype T object {\n f: a\n}\n"

/-- `a` becomes `zz`, and `b` becomes `f`, which is there already. -/
def sampleRen : Str → Str := fun w => if w = c!"a" then c!"zz" else if w = c!"b" then c!"f" else w

set_option linter.unusedSimpArgs false in
set_option linter.unusedTactic false in
set_option linter.unreachableTactic false in
/-- The hypotheses of `C72_consistent` hold for two texts. -/
example : ∃ ks, kinds (lex nameSample) = some ks ∧ Renames sampleRen ks ∧
    kinds (lex c!"blk zz \"l\" {\n  k = zz.f + f(zz, [1 c], {zz = null})\n}\ndef g(zz: T) {\n zz\n}\ntype T object {\n f: zz\n}\n") =
      some (ks.map fun p => (p.1, sampleRen p.2)) := by
  have h : (kinds (lex nameSample)).isSome = true := by decide +kernel
  obtain ⟨ks, hk⟩ := Option.isSome_iff_exists.1 h
  have h2 : ∀ q : Sym × Str → Bool, (kinds (lex nameSample)).all (·.all q) = true → ∀ p ∈ ks, q p = true := by
    intro q hq
    rw [hk] at hq
    simpa using hq
  refine ⟨ks, hk, ⟨by decide, ?_, ?_, ?_⟩, ?_⟩
  · intro p hp
    have := h2 (fun p => p.1 = .ident || sampleRen p.2 = p.2) (by decide +kernel) p hp
    simp only [Bool.or_eq_true, Bool.not_eq_true', List.contains_eq_mem, decide_eq_true_eq, decide_eq_false_iff_not] at this
    intro hn
    rcases this with h | h
    · exact absurd hn (by first | exact h | exact not_not_intro h)
    · exact h
  · intro p hp
    have := h2 (fun p => !grammarWords.contains p.2 || sampleRen p.2 = p.2) (by decide +kernel) p hp
    simp only [Bool.or_eq_true, Bool.not_eq_true', List.contains_eq_mem, decide_eq_true_eq, decide_eq_false_iff_not] at this
    intro hn
    rcases this with h | h
    · exact absurd hn (by first | exact h | exact not_not_intro h)
    · exact h
  · intro p hp
    have := h2 (fun p => grammarWords.contains p.2 || !grammarWords.contains (sampleRen p.2)) (by decide +kernel) p hp
    simp only [Bool.or_eq_true, Bool.not_eq_true', List.contains_eq_mem, decide_eq_true_eq, decide_eq_false_iff_not] at this
    intro hn
    rcases this with h | h
    · exact absurd hn (by first | exact h | exact not_not_intro h)
    · exact h
  · rw [← Option.map_some (f := List.map fun p : Sym × Str => (p.1, sampleRen p.2)), ← hk]
    decide +kernel

/-- It is accepted. -/
example : (docOf nameSample).isSome = true := by
  rw [docOf_eq]
  kernel_rfl

/-- What the renaming does to a document. -/
example [FloatText] : ((parseTree c!"blk a \"l\" {\n  k = a.b + f(a)\n}\n").map fun x => x.list.map fun i => (i.ren sampleRen).fmt) =
    some [some c!"blk \"zz\" \"l\" {\n\tk: zz.f + f(zz)\n}"] := by
  kernel_rfl

/-- Every name for itself: the two names `a` become different ones. -/
example : SameButNames [(.ident, c!"a"), (.opAssign, c!"="), (.ident, c!"a"), (.lf, c!"\n")]
      [(.ident, c!"b"), (.opAssign, c!"="), (.ident, c!"c-d"), (.lf, c!"\n")] ∧
    kinds (lex c!"a = a\n") = some [(.ident, c!"a"), (.opAssign, c!"="), (.ident, c!"a"), (.lf, c!"\n")] ∧
    kinds (lex c!"b = c-d\n") = some [(.ident, c!"b"), (.opAssign, c!"="), (.ident, c!"c-d"), (.lf, c!"\n")] := by
  refine ⟨.cons ?_ (.cons ?_ (.cons ?_ (.cons ?_ .nil))), by decide +kernel, by decide +kernel⟩ <;> decide

/-- The words of the grammar are no names: with `null` in the place of a name the document is another one. -/
example [FloatText] : ((nameless c!"a = null\n").map fun x => x.list.map Node.fmt) = some [some c!": null"] ∧
    ((nameless c!"a = b\n").map fun x => x.list.map Node.fmt) = some [some c!": "] := by
  rw [nameless, nameless, docOf_eq, docOf_eq]
  constructor <;> kernel_rfl

/-- After `<<` and before a line end, the name can become the word of a heredoc. -/
theorem C72_text_heredoc : ∃ (x w w' y : Str) (ks : List (Sym × Str)) (st : Stack),
    LexRun [(.root, [])] (x ++ (w ++ y)) ks st (w ++ y) ∧ Plain st ∧ (∀ c, x.getLast? = some c → isWord c = false) ∧ NameText w ∧ NameText w' ∧
      EndsWord y ∧ nameless (x ++ (w' ++ y)) ≠ nameless (x ++ (w ++ y)) := by
  refine ⟨c!"a = b <<", c!"c-d", c!"c", c!"\n", [(.ident, c!"a"), (.opAssign, c!"="), (.ident, c!"b"), (.opBitwiseShiftLeft, c!"<<")],
    [(.root, [])], LexRun.of_runSteps 7 (by decide +kernel), .root, by decide,
    ⟨.mk 'c' [] [c!"d"] (by decide) (by simp) (by simp [WordPart]; decide), by decide, by decide⟩,
    ⟨.mk 'c' [] [] (by decide) (by simp) (by simp), by decide, by decide⟩, ⟨by decide, by simp⟩, ?_⟩
  intro h
  have h1 : (nameless (c!"a = b <<" ++ (c!"c-d" ++ c!"\n"))).isSome = true := by
    rw [nameless, docOf_eq]
    kernel_rfl
  have h2 : (nameless (c!"a = b <<" ++ (c!"c" ++ c!"\n"))).isSome = false := by
    rw [nameless, docOf_eq]
    kernel_rfl
  rw [h, h1] at h2
  cases h2

/-- The hypotheses of `C72_text_partial` hold inside of a string, … -/
example : LexRun [(.root, [])] (c!"a = \"l${" ++ (c!"x" ++ c!".y}\"\n"))
      [(.ident, c!"a"), (.opAssign, c!"="), (.string, c!"\""), (.char, c!"l"), (.expr, c!"${")]
      [(.stringExpr, []), (.string, c!"\""), (.root, [])] (c!"x" ++ c!".y}\"\n") ∧
    NameText c!"x" ∧ NameText c!"a-1-if" ∧ EndsWord c!".y}\"\n" := by
  refine ⟨LexRun.of_runSteps 7 (by decide +kernel), ⟨.mk 'x' [] [] (by decide) (by simp) (by simp), by decide, by decide⟩,
    ⟨.mk 'a' [] [c!"1", c!"if"] (by decide) (by simp) (by simp [WordPart]; decide), by decide, by decide⟩, by decide, by simp⟩

/-- … and after a dot. -/
example : LexRun [(.root, [])] (c!"a = f(b." ++ (c!"c" ++ c!")\n"))
      [(.ident, c!"a"), (.opAssign, c!"="), (.ident, c!"f"), (.opLParen, c!"("), (.ident, c!"b"), (.dot, c!".")] [(.root, [])]
      (c!"c" ++ c!")\n") ∧ (∀ c, (c!"a = f(b.").getLast? = some c → isWord c = false) ∧ EndsWord c!")\n" := by
  refine ⟨LexRun.of_runSteps 8 (by decide +kernel), by decide, by decide, by simp⟩

end Verif.Etx
