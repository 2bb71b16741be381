import Verif.Etx.Crlf
import Verif.Etx.PegTotal
import Verif.Etx.Nest
import Verif.Etx.Format
import Verif.Props.Lookahead
import Verif.Props.LexBlank
import Verif.KernelRfl

/-! # Property C71: blank lines and the line ends of Windows -/

namespace Verif.Etx
open Gram Node

variable [FloatValue]

/-- The grammar gives the same for both texts, up to blank lines and line ends in comments (`Node.still`). -/
def SameDocs (s s' : Str) : Prop :=
  (∀ x, PegDoc s x → ∃ x', PegDoc s' x' ∧ x'.still = x.still) ∧ ∀ x', PegDoc s' x' → ∃ x, PegDoc s x ∧ x'.still = x.still

/-- Both texts are read as the same document, up to blank lines and line ends in comments: if both are accepted the documents
are the same, and if one is accepted and the other one is not then the latter has more than 50 tokens (the limit of the
lookahead). -/
structure SameRead (s s' : Str) : Prop where
  same : ∀ t t', parseString s = .ok t → parseString s' = .ok t' → t'.items.still = t.items.still
  right : ∀ t, parseString s = .ok t → (∃ t', parseString s' = .ok t') ∨ ∃ ts, lex s' = some ts ∧ 50 < ts.length
  left : ∀ t, parseString s' = .ok t → (∃ t', parseString s = .ok t') ∨ ∃ ts, lex s = some ts ∧ 50 < ts.length

omit [FloatValue] in
theorem still_of_erase {k : Kind} {x y : Node k} (h : x.erase = y.erase) : x.still = y.still := by
  have := congrArg Node.still h
  unfold erase at this
  rwa [still_map, still_map] at this

theorem Spread.sameDocs {s s' : Str} {ts ts' : List Token} (hl : lex s = some ts) (hl' : lex s' = some ts') (h : Spread false ts ts') :
    SameDocs s s' := by
  constructor
  · rintro x ⟨us, o, h1, h2, h3⟩
    rw [hl] at h1
    cases h1
    obtain ⟨o', r', h4, h5, -, h6⟩ := (h2.spread (eof' := Position.start.advance s')).tight rfl _ h
    rw [h6.of_nil] at h4
    refine ⟨_, ⟨ts', o', hl', h4, rfl⟩, ?_⟩
    rw [still_of_erase h3]
    exact (h5.slice .items).symm
  · rintro x ⟨us, o, h1, h2, h3⟩
    rw [hl'] at h1
    cases h1
    obtain ⟨y, hy⟩ := Peg.total (eof := Position.start.advance s) (g := .star (.sub .items .rootItem)) rfl ts
    have h4 := (hy.spread (eof' := Position.start.advance s')).tight rfl _ h
    cases y with
    | none => cases h4.unique h2
    | some y =>
      obtain ⟨o', r⟩ := y
      obtain ⟨o'', r', h4, h5, -, h6⟩ := h4
      cases h4.unique h2
      have : r = [] := by
        cases r with
        | nil => rfl
        | cons t r => obtain ⟨_, _, h, -⟩ := h6.head; cases h
      subst this
      refine ⟨_, ⟨ts, o', hl, hy, rfl⟩, ?_⟩
      rw [still_of_erase h3]
      exact (h5.slice .items).symm

theorem SameDocs.read {s s' : Str} {ts ts' : List Token} (hl : lex s = some ts) (hl' : lex s' = some ts') (h : SameDocs s s') : SameRead s s' := by
  refine ⟨fun t t' ht ht' => ?_, fun t ht => ?_, fun t ht => ?_⟩
  · obtain ⟨x, hx, e⟩ := h.1 _ (C56_sound_partial _ _ ht)
    rw [← e]
    exact still_of_erase (C56_unique _ _ _ (C56_sound_partial _ _ ht') hx)
  · obtain ⟨x, hx, e⟩ := h.1 _ (C56_sound_partial _ _ ht)
    rcases C56_far _ _ hl' x hx with ⟨t', h1, -⟩ | ⟨-, r, -, -, h1⟩
    · exact .inl ⟨t', h1⟩
    · exact .inr ⟨ts', hl', by omega⟩
  · obtain ⟨x, hx, e⟩ := h.2 _ (C56_sound_partial _ _ ht)
    rcases C56_far _ _ hl x hx with ⟨t', h1, -⟩ | ⟨-, r, -, -, h1⟩
    · exact .inl ⟨t', h1⟩
    · exact .inr ⟨ts, hl, by omega⟩

/-! ## Line ends of Windows -/

/-- **C71**, the claim about line ends in full: with `\r\n` at the ends of lines a text is read as the same document. -/
def C71_crlf_full : Prop := ∀ s t, '\r' ∉ s → parseString s = .ok t → ∃ t', parseString (crlf s) = .ok t' ∧ t'.items.still = t.items.still

/-- For texts without heredocs and without line ends in quotes the grammar says so. -/
theorem C71_crlf (s : Str) (ts : List Token) (hs : '\r' ∉ s) (hl : lex s = some ts)
    (hp : ∀ t ∈ ts, t.sym ≠ .heredoc ∧ (t.sym = .char → '\n' ∉ t.txt)) : SameDocs s (crlf s) := by
  obtain ⟨ts', h1, h2⟩ := lex_crlf hs hl hp
  exact h2.sameDocs hl h1

/-- And they are read so, up to the limit of the lookahead. -/
theorem C71_crlf_partial (s : Str) (ts : List Token) (hs : '\r' ∉ s) (hl : lex s = some ts)
    (hp : ∀ t ∈ ts, t.sym ≠ .heredoc ∧ (t.sym = .char → '\n' ∉ t.txt)) : SameRead s (crlf s) := by
  obtain ⟨ts', h1, h2⟩ := lex_crlf hs hl hp
  exact (h2.sameDocs hl h1).read hl h1

/-! ## Blank lines -/

/-- Lines with nothing but blanks in them. -/
def BlankLines (w : Str) : Prop := (∀ c ∈ w, c = ' ' ∨ c = '\t' ∨ c = '\r' ∨ c = '\n') ∧ (w = [] ∨ w.getLast? = some '\n')

omit [FloatValue] in
theorem same_exact {t t' : Token} (he : t.exact = true) (h : t.sym = t'.sym) (h' : t.txt = t'.txt) : t.Same t' := by
  obtain ⟨y, w, p⟩ := t
  obtain ⟨y', w', p'⟩ := t'
  cases h
  cases h'
  refine ⟨rfl, ?_⟩
  have he : y.exact w = true := he
  by_cases h1 : y = .lf
  · subst h1
    left
    rcases (by simpa [Sym.exact, Sym.word] using he : w = c!"\n" ∨ w = c!"\r") with rfl | rfl <;>
      exact ⟨⟨rfl, rfl, rfl⟩, rfl, rfl, rfl⟩
  · by_cases h2 : y = .singleLineComment ∨ y = .multilineComment
    · have : marked w = true := by
        cases w with
        | nil => rcases h2 with rfl | rfl <;> cases he
        | cons c w =>
          rcases h2 with rfl | rfl
          · rcases (by simpa [Sym.exact, Sym.word] using he : c = '/' ∨ c = '#') with rfl | rfl <;> rfl
          · have := (by simpa [Sym.exact, Sym.word] using he : c = '/' ∧ _).1
            subst this
            rfl
      exact .inr (.inl ⟨h2, this, this, rfl⟩)
    · simp only [not_or] at h2
      exact .inr (.inr ⟨h1, h2.1, h2.2, rfl⟩)

omit [FloatValue] in
theorem spread_exact {ts ts' : List Token} (he : ∀ t ∈ ts, t.exact = true)
    (h : ts.map (fun t => (t.sym, t.txt)) = ts'.map fun t => (t.sym, t.txt)) (b : Bool) : Spread b ts ts' := by
  induction ts generalizing ts' b with
  | nil =>
    cases ts' with
    | nil => exact .nil
    | cons => cases h
  | cons t ts ih =>
    cases ts' with
    | nil => cases h
    | cons t' ts' =>
      simp only [List.map_cons, List.cons.injEq, Prod.mk.injEq] at h
      obtain ⟨h1, h2⟩ := List.forall_mem_cons.1 he
      exact .keep (same_exact h1 h.1.1 h.1.2) (ih h2 h.2 _)

omit [FloatValue] in
theorem spread_insert {M : List Token} (hM : ∀ t ∈ M, t.LineEnd) (hne : M ≠ []) {t : Token} (ht : t.LineEnd) {s s' : List Token}
    (h : Spread false s s') : Spread false (t :: s) (M ++ s') := by
  induction M with
  | nil => exact absurd rfl hne
  | cons u M ih =>
    obtain ⟨hu, hM⟩ := List.forall_mem_cons.1 hM
    cases M with
    | nil =>
      refine .keep ⟨ht.sym.trans hu.sym.symm, .inl ⟨ht, hu⟩⟩ ?_
      rw [ht.sym]
      exact h
    | cons v M => exact .more ht hu (ih hM (by simp))

omit [FloatValue] in
theorem spread_after {us : List Token} (he : ∀ t ∈ us, t.exact = true) {s s' : List Token} (h : Spread false s s') (b : Bool)
    (hb : ∀ t ∈ us.getLast?, t.sym ≠ .singleLineComment) (hb' : us = [] → b = false) : Spread b (us ++ s) (us ++ s') := by
  induction us generalizing b with
  | nil => rw [hb' rfl]; exact h
  | cons t us ih =>
    obtain ⟨h1, h2⟩ := List.forall_mem_cons.1 he
    refine .keep (same_exact h1 rfl rfl) (ih h2 _ ?_ ?_)
    · intro u hu
      refine hb u ?_
      rw [List.getLast?_cons, hu]
      rfl
    · rintro rfl
      simpa using hb t rfl

omit [FloatValue] in
theorem firstRule_blank {state : LexState} (hc : state.core = true) (g : Str) {c : Char} (h : c = ' ' ∨ c = '\t') (s : Str) :
    firstRule g (c :: s) (rulesOf state) = some (rule .whitespace (Re.plus (.cls fun c => c = '\t' || c = ' ')),
      ⟨c :: s.takeWhile (fun c => c = '\t' || c = ' '), none, s.dropWhile fun c => c = '\t' || c = ' '⟩) := by
  rw [firstRule_filter]
  have : (rulesOf state).filter (Rule.can g c) = [rule .whitespace (Re.plus (.cls fun c => c = '\t' || c = ' '))] := by
    cases state <;> rcases h with rfl | rfl <;> first | rfl | cases hc
  rw [this]
  simp only [firstRule, rule, Re.first]
  rw [Re.head_plus_cls _ _ _ (by rcases h with rfl | rfl <;> rfl)]

omit [FloatValue] in
/-- Blank lines give line ends. -/
theorem lexAll_blank (n : Nat) (w : Str) (hn : w.length ≤ n) (hw : BlankLines w) (st : Stack) (hc : st.head?.any (·.1.core) = true)
    (pos : Position) (b : Str) : ∃ L, (∀ t ∈ L, t.LineEnd) ∧ ∃ pos', lexAll st pos (w ++ b) = (lexAll st pos' b).map (L ++ ·) := by
  induction n generalizing w pos with
  | zero =>
    have : w = [] := List.length_eq_zero_iff.1 (by omega)
    subst this
    exact ⟨[], by simp, pos, by simp⟩
  | succ n ih =>
    cases w with
    | nil => exact ⟨[], by simp, pos, by simp⟩
    | cons c w =>
      cases st with
      | nil => cases hc
      | cons x below =>
        obtain ⟨state, g⟩ := x
        have hc' : state.core = true := hc
        have hlast : (c :: w).getLast? = some '\n' := hw.2.resolve_left (by simp)
        have hsub : ∀ v, v <:+ c :: w → BlankLines v := by
          intro v hv
          refine ⟨fun d hd => hw.1 d (hv.subset hd), ?_⟩
          by_cases e : v = []
          · exact .inl e
          · right
            obtain ⟨u, hu⟩ := hv
            rw [← hu, List.getLast?_append_of_ne_nil _ e] at hlast
            exact hlast
        have lf (hd : c = '\n' ∨ c = '\r') : ∃ L, (∀ t ∈ L, t.LineEnd) ∧ ∃ pos', lexAll ((state, g) :: below) pos (c :: w ++ b) =
            (lexAll ((state, g) :: below) pos' b).map (L ++ ·) := by
          have hs := lexStep_of (below := below) (firstRule_lf hc' g hd (w ++ b)) (by simp)
          obtain ⟨L, h1, pos', h2⟩ := ih w (by simp at hn; omega) (hsub w (List.suffix_cons _ _)) (pos.advance [c])
          refine ⟨⟨.lf, [c], pos⟩ :: L, ?_, pos', ?_⟩
          · simp only [List.forall_mem_cons]
            exact ⟨lineEnd_of (r := lfRule) rfl hd, h1⟩
          · rw [List.cons_append, lexAll_step (by simp), hs]
            simp only [Option.bind_some]
            show Option.map _ (lexAll ((state, g) :: below) (pos.advance [c]) (w ++ b)) = _
            rw [h2, Option.map_map]
            rfl
        have blank (hd : c = ' ' ∨ c = '\t') : ∃ L, (∀ t ∈ L, t.LineEnd) ∧ ∃ pos', lexAll ((state, g) :: below) pos (c :: w ++ b) =
            (lexAll ((state, g) :: below) pos' b).map (L ++ ·) := by
          have hs := lexStep_of (below := below) (firstRule_blank hc' g hd (w ++ b)) (by simp)
          have hdrop : (w ++ b).dropWhile (fun c => c = '\t' || c = ' ') = w.dropWhile (fun c => c = '\t' || c = ' ') ++ b := by
            rw [List.dropWhile_append, if_neg]
            intro e
            rw [List.isEmpty_iff, dropWhile_nil] at e
            have hw' : w ≠ [] := by
              rintro rfl
              rcases hd with rfl | rfl <;> cases hlast
            have : w.getLast? = some '\n' := by
              rw [show c :: w = [c] ++ w from rfl, List.getLast?_append_of_ne_nil _ hw'] at hlast
              exact hlast
            have := e _ (List.mem_of_getLast? this)
            exact absurd this (by decide)
          rw [hdrop] at hs
          obtain ⟨L, h1, pos', h2⟩ := ih (w.dropWhile fun c => c = '\t' || c = ' ')
            (by have := (List.dropWhile_suffix (l := w) fun c => c = '\t' || c = ' ').length_le; simp at hn; omega)
            (hsub _ ((List.dropWhile_suffix _).trans (List.suffix_cons _ _)))
            (pos.advance (c :: (w ++ b).takeWhile fun c => c = '\t' || c = ' '))
          refine ⟨L, h1, pos', ?_⟩
          rw [List.cons_append, lexAll_step (by simp), hs]
          simp only [Option.bind_some]
          show Option.map _ (lexAll ((state, g) :: below) (pos.advance (c :: (w ++ b).takeWhile fun c => c = '\t' || c = ' '))
            (w.dropWhile (fun c => c = '\t' || c = ' ') ++ b)) = _
          rw [h2, Option.map_map]
          rfl
        rcases hw.1 c (by simp) with h | h | h | h
        · exact blank (.inl h)
        · exact blank (.inr h)
        · exact lf (.inr h)
        · exact lf (.inl h)

omit [FloatValue] in
theorem lex_blank {a b w : Str} {us ts : List Token} {t : Token} (ha : a.getLast? = some '\n') (hl : lex a = some (us ++ [t])) (ht : t.sym = .lf)
    (hu : ∀ u ∈ us.getLast?, u.sym ≠ .singleLineComment) (hd : (us ++ [t]).IsChain Apart) (hw : BlankLines w)
    (hab : lex (a ++ b) = some ts) : ∃ ts', lex (a ++ w ++ b) = some ts' ∧ Spread false ts ts' := by
  rw [lex_eq] at hl hab
  obtain ⟨st, h1, h2, h3⟩ := lexAll_join _ a (Nat.le_refl _) _ _ _ (by simp [LineStack]) (.inr ha) hl hd (by simpa using ht)
  rw [h3 b, Option.map_eq_some_iff] at hab
  obtain ⟨vs, h4, rfl⟩ := hab
  obtain ⟨L, h5, pos', h6⟩ := lexAll_blank _ w (Nat.le_refl _) hw st (h2 (by simp)) (Position.start.advance a) b
  have h7 := kinds_pos b _ st (Position.start.advance a) pos' (Nat.le_refl _)
  rw [h4] at h7
  cases e : lexAll st pos' b with
  | none => rw [e] at h7; cases h7
  | some vs' =>
    rw [e] at h7
    simp only [kinds, Option.map_some, Option.some.injEq] at h7
    refine ⟨us ++ ([t] ++ L ++ vs'), ?_, ?_⟩
    · rw [lex_eq, List.append_assoc, h3, h6, e]
      simp
    · have he := h1.exact
      have htl : t.LineEnd := ((same_exact (he t (by simp)) rfl rfl).lineEnd ht).1
      rw [List.append_assoc]
      refine spread_after (fun u hu => he u (by simp [hu])) ?_ _ hu (fun _ => rfl)
      refine spread_insert (List.forall_mem_append.2 ⟨by simpa using htl, h5⟩) (by simp) htl ?_
      refine spread_exact ?_ h7 _
      obtain ⟨st', hr⟩ := lexFrom_run _ _ _ _ _ h4
      exact hr.exact

/-- **C71.** Blank lines after a line that does not end with a comment do not change what the grammar says, but for blank lines.
(The text `a` up to there is to be outside of quotes and comments: its tokens end with a line end, and no `/` is followed by `*`.) -/
theorem C71_blank (a b w : Str) (us ts : List Token) (t : Token) (ha : a.getLast? = some '\n') (hl : lex a = some (us ++ [t])) (ht : t.sym = .lf)
    (hu : ∀ u ∈ us.getLast?, u.sym ≠ .singleLineComment) (hd : (us ++ [t]).IsChain Apart) (hw : BlankLines w)
    (hab : lex (a ++ b) = some ts) : SameDocs (a ++ b) (a ++ w ++ b) := by
  obtain ⟨ts', h1, h2⟩ := lex_blank ha hl ht hu hd hw hab
  exact h2.sameDocs hab h1

/-- And the texts are read so, up to the limit of the lookahead. -/
theorem C71_blank_partial (a b w : Str) (us ts : List Token) (t : Token) (ha : a.getLast? = some '\n') (hl : lex a = some (us ++ [t]))
    (ht : t.sym = .lf) (hu : ∀ u ∈ us.getLast?, u.sym ≠ .singleLineComment) (hd : (us ++ [t]).IsChain Apart) (hw : BlankLines w)
    (hab : lex (a ++ b) = some ts) : SameRead (a ++ b) (a ++ w ++ b) := by
  obtain ⟨ts', h1, h2⟩ := lex_blank ha hl ht hu hd hw hab
  exact (h2.sameDocs hab h1).read hab h1

/-! ## Why not in full -/

/-- The items of the tree that do not stand for blank lines. -/
def lineItems (s : Str) : Option (List (Node .rootItem)) := (parseTree s).map fun x => x.still.list

theorem accepted {s : Str} {l : List (Node .rootItem)} (h : lineItems s = some l) : ∃ t, parseString s = .ok t ∧ t.items.still.list = l := by
  unfold lineItems at h
  rcases parseString_eq s with ⟨h1, -⟩ | ⟨x, t, f, h1, h2, -, -, h3, -⟩
  · rw [h1] at h; cases h
  · rw [h1] at h
    cases h
    exact ⟨t, h2, by rw [still_of_erase h3]⟩

theorem rejected {s : Str} (h : (lineItems s).isSome = false) (t : AST) : parseString s ≠ .ok t := by
  unfold lineItems at h
  rcases parseString_eq s with ⟨-, h1⟩ | ⟨x, t, f, h1, h2, -⟩
  · rw [h1]; simp
  · rw [h1] at h; cases h

theorem accepted_isSome {s : Str} (h : (lineItems s).isSome = true) : ∃ t, parseString s = .ok t := by
  obtain ⟨l, hl⟩ := Option.isSome_iff_exists.1 h
  obtain ⟨t, ht, -⟩ := accepted hl
  exact ⟨t, ht⟩

/-- The first line of a heredoc must end with `\n`. -/
def heredocLines : Str := c!"x = <<E\n a\nE\n"

/-- 30 blank lines: with `\r\n` the attempt to read an enumeration fails more than 50 tokens after its beginning. -/
def manyLines : Str := c!"type a enum {" ++ List.replicate 30 '\n' ++ c!"b {}\n}\n"

theorem C71_crlf_not_full : ¬ C71_crlf_full := by
  intro h
  obtain ⟨t, ht⟩ := accepted_isSome (s := heredocLines) (by kernel_rfl)
  obtain ⟨t', ht', -⟩ := h _ t (by decide) ht
  exact rejected (s := crlf heredocLines) (by kernel_rfl) t' ht'

/-- Nor is it true of the texts that `C71_crlf_partial` is about: a document with 40 tokens, none of them in quotes, a comment or a
heredoc, is accepted with `\n` and rejected with `\r\n`. -/
theorem C71_crlf_limit : (∃ ts, lex manyLines = some ts ∧ ts.length = 40 ∧
      ∀ t ∈ ts, t.sym ≠ .heredoc ∧ t.sym ≠ .char ∧ t.sym ≠ .singleLineComment ∧ t.sym ≠ .multilineComment) ∧
    '\r' ∉ manyLines ∧ (∃ t, parseString manyLines = .ok t) ∧ ∀ t, parseString (crlf manyLines) ≠ .ok t := by
  refine ⟨?_, by decide +kernel, accepted_isSome (by kernel_rfl), rejected (by kernel_rfl)⟩
  have : (lex manyLines).any (fun ts => ts.length = 40 && ts.all fun t => t.sym ≠ .heredoc && t.sym ≠ .char &&
    t.sym ≠ .singleLineComment && t.sym ≠ .multilineComment) = true := by decide +kernel
  cases h : lex manyLines with
  | none => rw [h] at this; cases this
  | some ts =>
    rw [h] at this
    simpa [and_assoc] using this

/-- **C71**, the claim about blank lines in full: they can be put after any line. -/
def C71_blank_full : Prop := ∀ (a b w : Str) (us : List Token) (t : Token) (x : AST), a.getLast? = some '\n' → lex a = some (us ++ [t]) →
  t.sym = .lf → (us ++ [t]).IsChain Apart → BlankLines w → parseString (a ++ b) = .ok x →
  ∃ x', parseString (a ++ w ++ b) = .ok x' ∧ x'.items.still = x.items.still

/-- A blank line between two lines of a comment gives two comments. -/
theorem C71_blank_not_full : ¬ C71_blank_full := by
  intro h
  have e : ∀ s n, (lineItems s).map List.length = some n → ∃ t, parseString s = .ok t ∧ t.items.still.list.length = n := by
    intro s n hs
    rw [Option.map_eq_some_iff] at hs
    obtain ⟨l, hl, hn⟩ := hs
    obtain ⟨t, h1, h2⟩ := accepted hl
    exact ⟨t, h1, by rw [h2]; exact hn⟩
  obtain ⟨x, hx, hx1⟩ := e (c!"# a\n" ++ c!"# b\n") 1 (by kernel_rfl)
  obtain ⟨y, hy, hy1⟩ := e (c!"# a\n" ++ c!"\n" ++ c!"# b\n") 2 (by kernel_rfl)
  obtain ⟨x', hx', hs⟩ := h c!"# a\n" c!"# b\n" c!"\n" [⟨.singleLineComment, c!"# a", .start⟩] ⟨.lf, c!"\n", Position.start.advance c!"# a"⟩ x
    (by decide) (by decide +kernel) rfl (by simp [Apart]) ⟨by decide, by decide⟩ hx
  rw [hy] at hx'
  cases hx'
  rw [hs, hx1] at hy1
  cases hy1

/-! ## Examples -/

/-- Blocks, lists, comments, strings and functions. -/
def lineSample : Str := c!"a \"l\" {\n  x = [1,\n 2]\n  # one\n  # two\n\n  y = \"a${b}\" /* c\n d */\n}\ndef f(a: T) {\n a\n}\n"

/-- The hypotheses of `C71_crlf` hold for it, and both texts are accepted. -/
example : '\r' ∉ lineSample ∧ (lex lineSample).any (fun ts => ts.all fun t => t.sym ≠ .heredoc && !(t.sym = .char && t.txt.contains '\n')) = true := by
  decide +kernel

example : (lineItems lineSample).isSome = true ∧ (lineItems (crlf lineSample)).isSome = true := by
  constructor <;> kernel_rfl

/-- In quotes the line end is part of the string. -/
example : (lex c!"x = \"a\nb\"\n").map (·.map (·.txt)) = some [c!"x", c!"=", c!"\"", c!"a\nb", c!"\"", c!"\n"] ∧
    (lex (crlf c!"x = \"a\nb\"\n")).map (·.map (·.txt)) = some [c!"x", c!"=", c!"\"", c!"a\r\nb", c!"\"", c!"\r", c!"\n"] := by
  decide +kernel

/-- A place for blank lines inside of a list in a block. -/
example : c!"a {\n  x = [1,\n".getLast? = some '\n' ∧
    (lex c!"a {\n  x = [1,\n").map (·.map (·.sym)) =
      some [.ident, .blockStart, .lf, .ident, .opAssign, .opLBracket, .number, .opComma, .lf] ∧
    BlankLines c!" \n\t\r\n\n" := by
  exact ⟨by decide, by decide +kernel, by decide, by decide⟩

example : (lineItems (c!"a {\n  x = [1,\n" ++ c!"2]\n}\n")).isSome = true ∧
    (lineItems (c!"a {\n  x = [1,\n" ++ c!" \n\t\r\n\n" ++ c!"2]\n}\n")).isSome = true := by
  constructor <;> kernel_rfl

/-- `still` keeps everything else. -/
example [FloatText] : (lineItems c!"\n\nx = a + b /* c\n */\n# d\n\nf \"l\" {\n\ny = \"b${z}\"\n}\n").map (·.map Node.fmt) =
    some [some c!"x: a + b", some c!"/* c */", some c!"# d\n", some c!"f \"l\" {\n\ty: \"b${z}\"\n}"] := by
  kernel_rfl

end Verif.Etx
