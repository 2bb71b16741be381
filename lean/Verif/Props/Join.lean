import Verif.Etx.Joined
import Verif.Etx.Seam
import Verif.Etx.Crlf
import Verif.Props.LexCore
import Verif.Props.ParseDoc
import Verif.Etx.Canon
import Verif.KernelRfl

/-! # Property C68: documents one after the other -/

namespace Verif.Etx
open Node

variable [FloatValue]

/-- The items of the document that a text is read as, with their positions; `none` if there is an error. -/
def itemsOf (s : Str) : Option (List (Node .rootItem)) :=
  match parseString s with
  | .ok t => some t.items.erase.list
  | _ => none

/-- The same items in a text that follows `a`. -/
def movedBy (a : Str) (l : List (Node .rootItem)) : List (Node .rootItem) := l.map (Node.at (Position.after a))

/-- The text begins with a name or a comment `/* … */` (if it can be split into tokens). -/
def Begins (b : Str) : Prop := ∀ ts, lex b = some ts → ∃ t r, ts = t :: r ∧ (t.sym = .ident ∨ t.sym = .multilineComment)

/-- **C68** in full: the items of two documents one after the other, of which the first one ends with a line end, are those of the
first one followed by those of the second one, at their new positions. -/
def C68_full : Prop := ∀ a b A B, itemsOf a = some A → a.getLast? = some '\n' → itemsOf b = some B →
  itemsOf (a ++ b) = some (A ++ movedBy a B)

theorem itemsOf_eq (s : Str) : itemsOf s = (parseTree s).map fun x => x.erase.list := by
  unfold itemsOf
  rcases parseString_eq s with ⟨h1, h2⟩ | ⟨x, t, f, h1, h2, -, -, h3, -⟩
  · rw [h1, h2]; rfl
  · rw [h1, h2]
    simp only [h3, Option.map_some]

omit [FloatValue] in
theorem Node.structs_map (f : Meta → Meta) (g : Nat → Nat) : {k : Kind} → (x : Node (.items k)) →
    (x.map f g).structs = x.structs.map (Node.map f g)
  | _, .empty => by simp [Node.map, Node.structs]
  | _, .cons .nil xs => by simp [Node.map, Node.structs, structs_map f g xs]
  | _, .cons (.ref x) xs => by simp [Node.map, Node.structs, structs_map f g xs]

omit [FloatValue] in
theorem Node.list_map (f : Meta → Meta) (g : Nat → Nat) {k : Kind} (x : Node (.slice k)) :
    (x.map f g).list = x.list.map (Node.map f g) := by
  cases x with
  | nilSlice => rfl
  | mkSlice a xs => exact structs_map f g xs

omit [FloatValue] in
theorem Node.erase_at (f : Position → Position) {k : Kind} (x : Node k) : (x.at f).erase = x.erase.at f := by
  unfold Node.erase Node.at
  rw [Node.map_map, Node.map_map]
  rfl

/-- **C68** for a second text that begins with a name or a comment `/* … */`.  It need not be a document: the text as a whole is
one if and only if the second one is. -/
theorem C68_join_partial (a b : Str) (A : List (Node .rootItem)) (hA : itemsOf a = some A) (ha : a.getLast? = some '\n') (hb : Begins b) :
    itemsOf (a ++ b) = (itemsOf b).map (A ++ movedBy a ·) := by
  simp only [itemsOf_eq, Option.map_eq_some_iff] at hA ⊢
  obtain ⟨x, hx, rfl⟩ := hA
  have h := parseTree_join hx ha hb
  have e : ∀ y : Node (.slice .rootItem), y.erase.list = y.list.map Node.erase := fun y => list_map _ _ y
  have e' : (fun y : Node (.slice .rootItem) => y.erase.list) = fun y => y.list.map Node.erase := funext e
  rw [e', ← Function.comp_def, ← Option.map_map, h, Option.map_map, Option.map_map]
  congr 1
  funext y
  simp only [Function.comp, List.map_append, List.map_map, movedBy, e]
  congr 2
  funext z
  exact erase_at _ z

/-! ## The second text is a document -/

namespace Gram

/-- The types of the first token. -/
def firstSym (fk : Kind → Sym → Bool) : Gram → Sym → Bool
  | lit w, y => decide (y = litSym w)
  | tok x, y => decide (y = x)
  | seq a b, y => firstSym fk a y || (null a && firstSym fk b y)
  | alt a b, y => firstSym fk a y || firstSym fk b y
  | opt a, y | star a, y | plus a, y | cap _ a, y => firstSym fk a y
  | sub _ k, y => fk k y

/-- The same for structs, down to some depth. -/
def firstSymK : Nat → Kind → Sym → Bool
  | 0, _, _ => true
  | n + 1, k, y => firstSym (firstSymK n) (of k) y

end Gram

open Gram in
theorem Strict.first {g : Gram} {s : List Token} {o : Out} (h : Strict g s o) :
    (s = [] → null g = true) ∧ ∀ n, ∀ t ∈ s.head?, firstSym (firstSymK n) g t.sym = true := by
  have app : ∀ {s s' : List Token} {P P' : Nat → Sym → Bool} {m m' : Bool},
      ((s = [] → m = true) ∧ ∀ n, ∀ t ∈ s.head?, P n t.sym = true) →
      ((s' = [] → m' = true) ∧ ∀ n, ∀ t ∈ s'.head?, P' n t.sym = true) → (s ++ s' = [] → m = true ∧ m' = true) ∧
      ∀ n, ∀ t ∈ (s ++ s').head?, P n t.sym = true ∨ (m = true ∧ P' n t.sym = true) := by
    intro s s' P P' m m' h h'
    constructor
    · intro e
      obtain ⟨rfl, rfl⟩ := List.append_eq_nil_iff.mp e
      exact ⟨h.1 rfl, h'.1 rfl⟩
    · intro n t ht
      rw [List.head?_append, Option.mem_def, Option.or_eq_some_iff] at ht
      rcases ht with ht | ⟨ht, ht'⟩
      · exact .inl (h.2 n t ht)
      · exact .inr ⟨h.1 (List.head?_eq_none_iff.mp ht), h'.2 n t ht'⟩
  induction h with
  | @lit w t _ hs =>
    refine ⟨by simp, fun n t' ht => ?_⟩
    simp only [List.head?_cons, Option.mem_def, Option.some.injEq] at ht
    subst ht
    simp [firstSym, hs]
  | @tok y t hs =>
    refine ⟨by simp, fun n t' ht => ?_⟩
    simp only [List.head?_cons, Option.mem_def, Option.some.injEq] at ht
    subst ht
    simp [firstSym, hs]
  | seq _ _ iha ihb => simpa [null, firstSym] using app iha ihb
  | altL _ ih => exact ⟨fun e => by simp [null, ih.1 e], fun n t ht => by simp [firstSym, ih.2 n t ht]⟩
  | altR _ ih => exact ⟨fun e => by simp [null, ih.1 e], fun n t ht => by simp [firstSym, ih.2 n t ht]⟩
  | skip => exact ⟨fun _ => rfl, nofun⟩
  | nil => exact ⟨fun _ => rfl, nofun⟩
  | once _ ih => exact ⟨fun _ => rfl, ih.2⟩
  | cons _ _ iha ihb =>
    refine ⟨fun _ => rfl, fun n t ht => ?_⟩
    rcases (app iha ihb).2 n t ht with h | h
    · exact h
    · exact h.2
  | plus _ _ iha ihb =>
    refine ⟨fun e => ((app iha ihb).1 e).1, fun n t ht => ?_⟩
    rcases (app iha ihb).2 n t ht with h | h
    · exact h
    · exact h.2
  | cap _ ih => exact ih
  | @sub f k s o pos x _ _ _ ih =>
    refine ⟨fun e => by rw [null, ← null_of]; exact ih.1 e, fun n t ht => ?_⟩
    cases n with
    | zero => rfl
    | succ n => exact ih.2 n t ht

/-- What a document begins with. -/
theorem doc_first {b : Str} {ts : List Token} {B : List (Node .rootItem)} (hl : lex b = some ts) (hB : itemsOf b = some B) :
    ∀ t ∈ ts.head?, t.sym ∈ [Sym.lf, .ident, .singleLineComment, .multilineComment] := by
  intro t ht
  rw [itemsOf_eq, Option.map_eq_some_iff] at hB
  obtain ⟨x, hx, -⟩ := hB
  unfold parseTree at hx
  rw [hl] at hx
  obtain ⟨o, hd, -⟩ := parseTokens_strict hl (by simpa using hx)
  have := hd.first.2 3 t ht
  revert this
  cases t.sym <;> decide +kernel

omit [FloatValue] in
/-- The first token begins with the first character, if that is no blank. -/
theorem lex_head {c : Char} {s : Str} {ts : List Token} (h : lex (c :: s) = some ts) (hc : c ≠ ' ' ∧ c ≠ '\t') :
    ∃ t r, ts = t :: r ∧ t.txt.head? = some c ∧ t.exact = true ∧ ∃ g ru m, firstRule g (c :: s) (rulesOf .root) = some (ru, m) ∧ t.sym = ru.sym := by
  rw [lex_eq, lexAll_step (by simp)] at h
  simp only [Option.bind_eq_some_iff, Option.map_eq_some_iff] at h
  obtain ⟨⟨r, m, st'⟩, h1, ts', h2, h3⟩ := h
  have he := lexStep_exact h1
  obtain ⟨hsp, hne, -⟩ := lexStep_split h1
  have hh : m.txt.head? = some c := by
    cases e : m.txt with
    | nil => exact absurd e hne
    | cons d u => rw [e] at hsp; cases hsp; rfl
  simp only at h3
  obtain ⟨state, g, below, hst, hr, -, -⟩ := lexStep_some h1
  cases hst
  rw [if_neg] at h3
  · exact ⟨_, ts', h3.symm, hh, he, [], r, m, hr, rfl⟩
  · intro hw
    rw [hw] at he
    simp only [Sym.exact, Sym.word, hh, Bool.or_eq_true, decide_eq_true_eq, Option.some.injEq] at he
    rcases he with h | h
    · exact hc.2 h
    · exact hc.1 h

/-- The first character is a letter, or the text begins with a comment. -/
def Starts (b : Str) : Prop := (∃ c s, b = c :: s ∧ isAlpha c = true) ∨ c!"/*" <+: b

theorem begins_of_doc {b : Str} {B : List (Node .rootItem)} (hB : itemsOf b = some B) (hb : Starts b) : Begins b := by
  intro ts hl
  rcases hb with ⟨c, s, rfl, hc⟩ | ⟨s, rfl⟩
  · obtain ⟨t, r, rfl, h1, h2, -⟩ := lex_head hl (by constructor <;> (rintro rfl; revert hc; decide))
    refine ⟨t, r, rfl, ?_⟩
    have h3 := doc_first hl hB t rfl
    simp only [List.mem_cons, List.not_mem_nil, or_false] at h3
    unfold Token.exact at h2
    rcases h3 with e | e | e | e
    · rw [e] at h2
      simp only [Sym.exact, Sym.word, Bool.or_eq_true, decide_eq_true_eq] at h2
      rcases h2 with h2 | h2 <;> (rw [h2] at h1; cases h1; exact absurd hc (by decide))
    · exact .inl e
    · rw [e] at h2
      simp only [Sym.exact, Sym.word, h1, Bool.or_eq_true, decide_eq_true_eq] at h2
      rcases h2 with h2 | h2 <;> (cases h2; exact absurd hc (by decide))
    · exact .inr e
  · obtain ⟨t, r, rfl, -, -, g, ru, m, h1, h2⟩ := lex_head (c := '/') (s := '*' :: s) hl (by decide)
    refine ⟨t, r, rfl, .inr ?_⟩
    have h3 := doc_first hl hB t rfl
    rw [firstRule_filter] at h1
    have : (rulesOf .root).filter (Rule.can g '/') =
        [rule .singleLineComment reSingleLine, rule .multilineComment reMultiline, rule .opDivision (Re.lit c!"/")] := rfl
    rw [this, firstRule_miss (by rw [Re.first_none]; rfl)] at h1
    have h1 := (firstRule_some h1).1
    simp only [List.mem_cons, List.not_mem_nil, or_false] at h1
    rcases h1 with rfl | rfl
    · exact h2
    · rw [h2] at h3
      exact absurd h3 (by decide)

/-- **C68** for two documents, if the second one begins with a letter or a comment `/* … */`. -/
theorem C68_documents_partial (a b : Str) (A B : List (Node .rootItem)) (hA : itemsOf a = some A) (ha : a.getLast? = some '\n')
    (hB : itemsOf b = some B) (hb : Starts b) : itemsOf (a ++ b) = some (A ++ movedBy a B) := by
  rw [C68_join_partial a b A hA ha (begins_of_doc hB hb), hB]
  rfl

/-- A text that is no document is none after a document, either. -/
theorem C68_reject_partial (a b : Str) (A : List (Node .rootItem)) (hA : itemsOf a = some A) (ha : a.getLast? = some '\n') (hb : Begins b)
    (h : parseString b = .error) : parseString (a ++ b) = .error := by
  have h1 := C68_join_partial a b A hA ha hb
  have h2 : itemsOf b = none := by unfold itemsOf; rw [h]
  rw [h2] at h1
  unfold itemsOf at h1
  cases e : parseString (a ++ b) with
  | ok t => rw [e] at h1; cases h1
  | error => rfl
  | panic => exact absurd e (C51_no_panic _)

omit [FloatValue] in
theorem Node.bare_at (f : Position → Position) {k : Kind} (x : Node k) : (x.at f).bare = x.bare := x.bare_map _ _

/-- Any number of documents: the items are those of the documents, in order, whatever the documents are. -/
theorem C68_concat_partial (l : List Str) (hl : ∀ d ∈ l, (∃ D, itemsOf d = some D) ∧ d.getLast? = some '\n' ∧ Starts d) :
    (itemsOf l.flatten).map (List.map Node.bare) = some (l.flatMap fun d => ((itemsOf d).getD []).map Node.bare) := by
  induction l with
  | nil =>
    have : itemsOf [] = some [] := by
      rw [itemsOf_eq]
      kernel_rfl
    simp only [List.flatten_nil, this]
    rfl
  | cons d l ih =>
    obtain ⟨⟨D, hD⟩, h1, -⟩ := hl d (by simp)
    have ih := ih fun e he => hl e (by simp [he])
    cases l with
    | nil => simp [hD]
    | cons e l =>
      obtain ⟨E, hE, h2⟩ := Option.map_eq_some_iff.mp ih
      have hs : Starts (e :: l).flatten := by
        rcases (hl e (by simp)).2.2 with ⟨c, s, rfl, hc⟩ | ⟨s, rfl⟩
        · exact .inl ⟨c, s ++ l.flatten, rfl, hc⟩
        · exact .inr ⟨s ++ l.flatten, rfl⟩
      rw [List.flatten_cons, C68_documents_partial d _ D E hD h1 hE hs, List.flatMap_cons, ← h2, hD]
      simp only [Option.map_some, Option.getD_some, List.map_append, movedBy, List.map_map, Function.comp_def, bare_at]

/-! ## The second text begins with a line comment -/

/-- The text begins with a name or a comment of any kind (if it can be split into tokens). -/
def BeginsAny (b : Str) : Prop :=
  ∀ ts, lex b = some ts → ∃ t r, ts = t :: r ∧ (t.sym = .ident ∨ t.sym = .multilineComment ∨ t.sym = .singleLineComment)

/-- The last line end does not come after a line comment. -/
def EndsClear (a : Str) : Prop := ∀ ts, lex a = some ts → ∀ t t', [t, t'] <:+ ts → t.sym ≠ .singleLineComment

theorem parseTree_seam {a b : Str} {x : Node (.slice .rootItem)} (h : parseTree a = some x) (ha : a.getLast? = some '\n')
    (hc : EndsClear a) (hb : BeginsAny b) :
    (parseTree (a ++ b)).map Node.list = (parseTree b).map fun y => x.list ++ y.list.map (Node.at (Position.after a)) := by
  unfold parseTree at h ⊢
  simp only [Option.bind_eq_bind, Option.bind_eq_some_iff] at h ⊢
  obtain ⟨ta, hl, h⟩ := h
  obtain ⟨h1, h2, h3, h4⟩ := doc_tokens hl ha h
  rw [h4 b, Position.start_advance ha, lexAll_after a _ b (Nat.le_refl _) _ _ (by decide), ← lex_eq]
  cases e : lex b with
  | none => rfl
  | some tb =>
    obtain ⟨t, r, rfl, ht⟩ := hb tb e
    obtain ⟨st, hr⟩ := lex_run e
    simp only [Option.map_some, Option.bind_some]
    have hz : Seam.Fresh ((t :: r).map (Token.at (Position.after a))) :=
      ⟨t.at _, r.map (Token.at _), rfl, by
        show Seam.opens t.sym = true
        rcases ht with h | h | h <;> rw [h] <;> rfl, hr.exact t (by simp)⟩
    rw [Seam.parseTokens_join hz h3 h1 h2 (hc ta hl) h]
    have he : Position.start.advance (a ++ b) = (Position.start.advance b).after a := by
      rw [advance_append, Position.start_advance ha, Position.after_advance _ _ _ (by decide)]
    rw [he, parseTokens_at (by simp [Position.after]), Option.map_map]
    congr 1
    funext y
    simp only [Function.comp, Node.list_at]

/-- **C68** for a second text that begins with a name or a comment of any kind, if the first one does not end with a line comment.  The
second text need not be a document. -/
theorem C68_seam_partial (a b : Str) (A : List (Node .rootItem)) (hA : itemsOf a = some A) (ha : a.getLast? = some '\n')
    (hc : EndsClear a) (hb : BeginsAny b) : itemsOf (a ++ b) = (itemsOf b).map (A ++ movedBy a ·) := by
  simp only [itemsOf_eq, Option.map_eq_some_iff] at hA ⊢
  obtain ⟨x, hx, rfl⟩ := hA
  have h := parseTree_seam hx ha hc hb
  have e : ∀ y : Node (.slice .rootItem), y.erase.list = y.list.map Node.erase := fun y => list_map _ _ y
  have e' : (fun y : Node (.slice .rootItem) => y.erase.list) = fun y => y.list.map Node.erase := funext e
  rw [e', ← Function.comp_def, ← Option.map_map, h, Option.map_map, Option.map_map]
  congr 1
  funext y
  simp only [Function.comp, List.map_append, List.map_map, movedBy, e]
  congr 2
  funext z
  exact erase_at _ z

omit [FloatValue] in
/-- A line comment is within a line. -/
theorem lex_comment_line {st : Stack} {pos : Position} (n : Nat) (s : Str) (hn : s.length ≤ n) {ts : List Token}
    (h : lexAll st pos s = some ts) : ∀ t ∈ ts, t.sym = .singleLineComment → '\n' ∉ t.txt := by
  induction n generalizing s st pos ts with
  | zero =>
    cases s with
    | nil => cases h; simp
    | cons => simp at hn
  | succ n ih =>
    by_cases hz : s = []
    · subst hz; cases h; simp
    rw [lexAll_step hz] at h
    simp only [Option.bind_eq_some_iff, Option.map_eq_some_iff] at h
    obtain ⟨⟨r, m, st'⟩, h1, ts', h2, h3⟩ := h
    simp only at h2 h3
    obtain ⟨hsp, hne, hlt⟩ := lexStep_split h1
    have ih := ih m.rest (by omega) h2
    split at h3
    · rw [← h3]; exact ih
    · rw [← h3]
      refine List.forall_mem_cons.mpr ⟨fun hs => ?_, ih⟩
      obtain ⟨state, g, below, -, hr, -, -⟩ := lexStep_some h1
      obtain ⟨hmem, hfirst⟩ := firstRule_some hr
      have hr : r = rule .singleLineComment reSingleLine := by
        have : ∀ r ∈ rulesOf state, r.sym = .singleLineComment → r = rule .singleLineComment reSingleLine := by
          cases state <;> simp [rulesOf, coreRules, stringRules, unicodeRules, heredocRules, rule]
        exact this r hmem hs
      subst hr
      exact (singleLine_some hfirst).2.1

omit [FloatValue] in
/-- Where the last two tokens are in the text. -/
theorem Pieces.last_two {pre s : Str} {ts : List Token} (h : Pieces pre s ts) {t t' : Token} (hs : [t, t'] <:+ ts) :
    ∃ x y z, s = x ++ t.txt ++ y ++ t'.txt ++ z ∧ (∀ c ∈ y, c = ' ' ∨ c = '\t') ∧ ∀ c ∈ z, c = ' ' ∨ c = '\t' := by
  have tail : ∀ {pre s : Str} {ts : List Token}, Pieces pre s ts → ts = [] → ∀ c ∈ s, c = ' ' ∨ c = '\t' := by
    intro pre s ts h
    induction h with
    | done => simp
    | blank _ w _ _ hw _ ih =>
      intro e c hc
      rcases List.mem_append.mp hc with hc | hc
      · exact hw c hc
      · exact ih e c hc
    | token => simp
  have one : ∀ {pre s : Str} {ts : List Token}, Pieces pre s ts → ts = [t'] →
      ∃ y z, s = y ++ t'.txt ++ z ∧ (∀ c ∈ y, c = ' ' ∨ c = '\t') ∧ ∀ c ∈ z, c = ' ' ∨ c = '\t' := by
    intro pre s ts h
    induction h with
    | done => simp
    | blank _ w _ _ hw _ ih =>
      intro e
      obtain ⟨y, z, rfl, h1, h2⟩ := ih e
      refine ⟨w ++ y, z, by simp, ?_, h2⟩
      intro c hc
      rcases List.mem_append.mp hc with hc | hc
      · exact hw c hc
      · exact h1 c hc
    | token _ t s ts _ _ hp _ =>
      intro e
      cases e
      exact ⟨[], s, rfl, by simp, tail hp rfl⟩
  induction h with
  | done => simp at hs
  | blank _ w _ _ hw _ ih =>
    obtain ⟨x, y, z, rfl, h1, h2⟩ := ih hs
    exact ⟨w ++ x, y, z, by simp, h1, h2⟩
  | token _ u s ts _ _ hp ih =>
    rcases List.suffix_cons_iff.mp hs with e | e
    · cases e
      obtain ⟨y, z, rfl, h1, h2⟩ := one hp rfl
      exact ⟨[], y, z, by simp, h1, h2⟩
    · obtain ⟨x, y, z, rfl, h1, h2⟩ := ih e
      exact ⟨u.txt ++ x, y, z, by simp, h1, h2⟩

/-- The last line `w` of a document has no comment. -/
theorem endsClear_of {p w : Str} {A : List (Node .rootItem)} (hp : p = [] ∨ p.getLast? = some '\n') (hw : '#' ∉ w ∧ '/' ∉ w)
    (hA : itemsOf (p ++ w ++ c!"\n") = some A) : EndsClear (p ++ w ++ c!"\n") := by
  intro ts hl t t' hs hsym
  have ha : (p ++ w ++ c!"\n").getLast? = some '\n' := by simp
  rw [itemsOf_eq, Option.map_eq_some_iff] at hA
  obtain ⟨x, hx, -⟩ := hA
  unfold parseTree at hx
  rw [hl] at hx
  obtain ⟨-, h2, h3, -⟩ := doc_tokens hl ha hx
  have hmem : t ∈ ts := hs.subset (by simp)
  have hmem' : t' ∈ ts := hs.subset (by simp)
  have hlf : t'.sym = .lf := by
    obtain ⟨u, rfl⟩ := hs
    exact h2 t' (by simp)
  have hn := lex_comment_line _ _ (Nat.le_refl _) hl t hmem hsym
  obtain ⟨x', y, z, e, hy, hz⟩ := (C39_lossless _ _ hl).last_two hs
  have he := h3 t hmem
  rw [Token.exact, hsym] at he
  have he' := h3 t' hmem'
  rw [Token.exact, hlf] at he'
  simp only [Sym.exact, Sym.word, Bool.or_eq_true, decide_eq_true_eq] at he he'
  obtain ⟨c, v, ht, hc⟩ : ∃ c v, t.txt = c :: v ∧ c ∉ w ∧ c ≠ '\n' := by
    cases htx : t.txt with
    | nil => rw [htx] at he; simp at he
    | cons c v =>
      rw [htx] at he
      simp only [List.head?_cons, Option.some.injEq] at he
      rcases he with rfl | rfl
      · exact ⟨_, v, rfl, hw.2, by decide⟩
      · exact ⟨_, v, rfl, hw.1, by decide⟩
  obtain rfl : z = [] := by
    rcases List.eq_nil_or_concat z with h | ⟨z', d, rfl⟩
    · exact h
    · rw [e] at ha
      simp only [List.concat_eq_append, ← List.append_assoc, List.getLast?_append, List.getLast?_singleton, Option.some_or,
        Option.some.injEq] at ha
      subst ha
      exact absurd (hz '\n' (by simp)) (by decide)
  have htx' : t'.txt = c!"\n" := by
    rcases he' with h | h
    · exact h
    · rw [e, h] at ha
      simp at ha
  rw [htx', List.append_nil, ht] at e
  have e := List.append_cancel_right e
  have hnl : '\n' ∉ c :: v ++ y := by
    rw [ht] at hn
    intro h
    rcases List.mem_append.mp h with h | h
    · exact hn h
    · exact absurd (hy _ h) (by decide)
  rw [List.append_assoc] at e
  rcases List.append_eq_append_iff.mp e with ⟨q, h1, h2⟩ | ⟨q, h1, h2⟩
  · exact hc.1 (by rw [h2]; simp)
  · cases q with
    | nil => exact hc.1 (by rw [List.nil_append] at h2; rw [← h2]; simp)
    | cons d q =>
      rcases hp with rfl | hp
      · simp at h1
      · rw [h1, List.getLast?_append_of_ne_nil _ (by simp)] at hp
        refine hnl ?_
        rw [h2]
        exact List.mem_append_left _ (List.mem_of_getLast? hp)

omit [FloatValue] in
/-- The first token begins with the first character that is no blank, if it does not begin with a blank. -/
theorem Pieces.first {pre s : Str} {ts : List Token} (h : Pieces pre s ts) {u v : Str} {c : Char} (hs : s = u ++ c :: v)
    (hu : ∀ d ∈ u, d = ' ' ∨ d = '\t') (hc : ¬ (c = ' ' ∨ c = '\t'))
    (ht : ∀ t ∈ ts.head?, ∀ d ∈ t.txt.head?, ¬ (d = ' ' ∨ d = '\t')) : ∃ t r, ts = t :: r ∧ t.txt.head? = some c := by
  induction h generalizing u with
  | done => simp at hs
  | blank _ w rest _ hw _ ih =>
    rcases List.append_eq_append_iff.mp hs with ⟨q, h1, h2⟩ | ⟨q, h1, h2⟩
    · exact ih h2 (fun d hd => hu d (by rw [h1]; simp [hd])) ht
    · cases q with
      | nil => exact ih (u := []) (by simpa using h2.symm) (by simp) ht
      | cons d q =>
        simp only [List.cons_append, List.cons.injEq] at h2
        exact absurd (hw c (by rw [h1, h2.1]; simp)) hc
  | token _ t rest ts hne _ _ _ =>
    refine ⟨t, ts, rfl, ?_⟩
    cases e : t.txt with
    | nil => exact absurd e hne
    | cons d w =>
      rw [e] at hs
      cases u with
      | nil =>
        simp only [List.cons_append, List.nil_append, List.cons.injEq] at hs
        rw [hs.1]; rfl
      | cons d' u =>
        simp only [List.cons_append, List.cons.injEq] at hs
        exact absurd (hu d (by rw [hs.1]; simp)) (ht t (by simp) d (by simp [e]))

/-- A document whose first line is not blank. -/
def FirstLine (b : Str) : Prop := ∃ u c v, b = u ++ c :: v ∧ (∀ d ∈ u, d = ' ' ∨ d = '\t') ∧ c ∉ [' ', '\t', '\n', '\r']

theorem beginsAny_of_doc {b : Str} {B : List (Node .rootItem)} (hB : itemsOf b = some B) (hb : FirstLine b) : BeginsAny b := by
  intro ts hl
  obtain ⟨u, c, v, hs, hu, hc⟩ := hb
  simp only [List.mem_cons, List.not_mem_nil, or_false, not_or] at hc
  have h1 := doc_first hl hB
  obtain ⟨st, hr⟩ := lex_run hl
  have hex : ∀ t ∈ ts.head?, t.exact = true := fun t ht => hr.exact t (List.mem_of_mem_head? ht)
  obtain ⟨t, r, rfl, ht⟩ := (C39_lossless _ _ hl).first hs hu (fun h => h.elim hc.1 hc.2.1) (by
    intro t ht d hd
    have h1 := h1 t ht
    have h2 := hex t ht
    rw [Token.exact] at h2
    simp only [List.mem_cons, List.not_mem_nil, or_false] at h1
    rcases h1 with e | e | e | e <;> rw [e] at h2
    · simp only [Sym.exact, Sym.word, Bool.or_eq_true, decide_eq_true_eq] at h2
      rcases h2 with h2 | h2 <;> (rw [h2] at hd; cases hd; decide)
    · simp only [Sym.exact, Sym.word] at h2
      rw [Option.mem_def.mp hd] at h2
      rintro (rfl | rfl) <;> exact absurd h2 (by decide)
    · simp only [Sym.exact, Sym.word, Bool.or_eq_true, decide_eq_true_eq] at h2
      rcases h2 with h2 | h2 <;> (rw [h2] at hd; cases hd; decide)
    · simp only [Sym.exact, Sym.word, Bool.and_eq_true, decide_eq_true_eq] at h2
      rw [h2.1] at hd; cases hd; decide)
  refine ⟨t, r, rfl, ?_⟩
  have h1 := h1 t rfl
  have h2 := hex t rfl
  simp only [List.mem_cons, List.not_mem_nil, or_false] at h1
  rcases h1 with e | e | e | e
  · rw [Token.exact, e] at h2
    simp only [Sym.exact, Sym.word, Bool.or_eq_true, decide_eq_true_eq] at h2
    rcases h2 with h2 | h2 <;> (rw [h2] at ht; simp only [List.head?_cons, Option.some.injEq] at ht)
    · exact absurd ht.symm hc.2.2.1
    · exact absurd ht.symm hc.2.2.2
  · exact .inl e
  · exact .inr (.inr e)
  · exact .inr (.inl e)

/-- **C68** for two documents: it is enough that there is no `#` or `/` in the last line of the first one and that the first line of the
second one is not blank. -/
theorem C68_line_partial (p w b : Str) (A B : List (Node .rootItem)) (hp : p = [] ∨ p.getLast? = some '\n')
    (hw : '#' ∉ w ∧ '/' ∉ w) (hA : itemsOf (p ++ w ++ c!"\n") = some A) (hB : itemsOf b = some B) (hb : FirstLine b) :
    itemsOf (p ++ w ++ c!"\n" ++ b) = some (A ++ movedBy (p ++ w ++ c!"\n") B) := by
  rw [C68_seam_partial _ b A hA (by simp) (endsClear_of hp hw hA) (beginsAny_of_doc hB hb), hB]
  rfl

/-- A document that other documents may come before and after: its first line is not blank, and it ends with a line without `#` and
`/`. -/
structure Whole (d : Str) : Prop where
  doc : ∃ D, itemsOf d = some D
  first : FirstLine d
  last : ∃ p w, d = p ++ w ++ c!"\n" ∧ (p = [] ∨ p.getLast? = some '\n') ∧ '#' ∉ w ∧ '/' ∉ w

omit [FloatValue] in
theorem FirstLine.append {b : Str} (h : FirstLine b) (s : Str) : FirstLine (b ++ s) := by
  obtain ⟨u, c, v, rfl, h1, h2⟩ := h
  exact ⟨u, c, v ++ s, by simp, h1, h2⟩

/-- Any number of such documents. -/
theorem C68_files_partial (l : List Str) (hl : ∀ d ∈ l, Whole d) :
    (itemsOf l.flatten).map (List.map Node.bare) = some (l.flatMap fun d => ((itemsOf d).getD []).map Node.bare) := by
  induction l with
  | nil =>
    have : itemsOf [] = some [] := by
      rw [itemsOf_eq]
      kernel_rfl
    simp only [List.flatten_nil, this]
    rfl
  | cons d l ih =>
    obtain ⟨⟨D, hD⟩, -, p, w, rfl, h1, h3⟩ := hl d (by simp)
    have ih := ih fun e he => hl e (by simp [he])
    cases l with
    | nil =>
      simp only [List.flatten_cons, List.flatten_nil, List.append_nil, List.flatMap_cons, List.flatMap_nil, hD, Option.map_some,
        Option.getD_some]
    | cons e l =>
      obtain ⟨E, hE, h2⟩ := Option.map_eq_some_iff.mp ih
      have hs : FirstLine (e :: l).flatten := (hl e (by simp)).first.append l.flatten
      rw [List.flatten_cons, C68_line_partial p w _ D E h1 h3 hD hE hs, List.flatMap_cons, ← h2, hD]
      simp only [Option.map_some, Option.getD_some, List.map_append, movedBy, List.map_map, Function.comp_def, bare_at]

/-! ## Why not in full -/

/-- Comments of adjacent lines are one item. -/
theorem C68_full_false : ¬ C68_full := by
  intro h
  have e : ∀ s n, (parseTree s).map (fun x => x.erase.list.length) = some n → ∃ A, itemsOf s = some A ∧ A.length = n := by
    intro s n hs
    rw [Option.map_eq_some_iff] at hs
    obtain ⟨x, hx, hn⟩ := hs
    exact ⟨x.erase.list, by rw [itemsOf_eq, hx]; rfl, hn⟩
  obtain ⟨A, hA, ha⟩ := e c!"# a\n" 1 (by kernel_rfl)
  obtain ⟨B, hB, hb⟩ := e c!"# b\n" 1 (by kernel_rfl)
  obtain ⟨C, hC, hc⟩ := e (c!"# a\n" ++ c!"# b\n") 1 (by kernel_rfl)
  have := h _ _ A B hA (by decide) hB
  rw [hC, Option.some.injEq] at this
  rw [this] at hc
  simp only [movedBy, List.length_append, List.length_map] at hc
  omega

/-- The number of items of a text. -/
def count (s : Str) : Option Nat := (parseTree s).map fun x => x.erase.list.length

/-- Without the line end at the end the second document can change the first one: `<<` becomes a heredoc. -/
example : count c!"x = a <<b" = some 1 ∧ count c!"\ny = 1\n" = some 2 ∧ count (c!"x = a <<b" ++ c!"\ny = 1\n") = none := by
  refine ⟨?_, ?_, ?_⟩ <;> kernel_rfl

/-- A text that begins with a keyword can continue the document. -/
example : count c!"x = if c { 1 }\n" = some 1 ∧ count c!"else { 2 }\n" = none ∧
    count (c!"x = if c { 1 }\n" ++ c!"else { 2 }\n") = some 1 := by
  refine ⟨?_, ?_, ?_⟩ <;> kernel_rfl

/-! ## Examples -/

/-- The hypotheses are met by documents with strings, heredocs, comments and functions. -/
def joinSample : List Str := [c!"a {\n  x = \"a${b}\\u00e4\n\"\n}\n", c!"y = <<E\n /* \n E\nE\n# done\n", c!"/* c */ def f(a: T) { a / 2 }\n\n"]

example : (∀ d ∈ joinSample, (count d).isSome = true ∧ d.getLast? = some '\n') ∧ joinSample.map count = [some 1, some 2, some 3] ∧
    count joinSample.flatten = some 6 := by
  refine ⟨?_, ?_, ?_⟩
  · intro d hd
    simp only [joinSample, List.mem_cons, List.not_mem_nil, or_false] at hd
    rcases hd with rfl | rfl | rfl
    all_goals exact ⟨by kernel_rfl, by decide⟩
  · kernel_rfl
  · kernel_rfl

/-- The hypotheses of `C68_line_partial` are met by documents that begin with line comments and blanks. -/
example : (count (c!"# a\n" ++ c!"x {\n y = 2 } " ++ c!"\n") = some 2 ∧ count c!"  // b\n# c\n\nz = 1\n" = some 3 ∧
      count ((c!"# a\n" ++ c!"x {\n y = 2 } " ++ c!"\n") ++ c!"  // b\n# c\n\nz = 1\n") = some 5) ∧
    FirstLine c!"  // b\n# c\n\nz = 1\n" := by
  refine ⟨⟨?_, ?_, ?_⟩, c!"  ", '/', c!"/ b\n# c\n\nz = 1\n", rfl, by simp, by decide⟩ <;> kernel_rfl

/-- `Whole` is met by documents that begin with line comments. -/
example : Whole c!"  // b\n# c\n\nz = 1\n" ∧ Whole c!"# a\ndef f() {\n}\n" := by
  have e : ∀ s, (count s).isSome = true → ∃ D, itemsOf s = some D := by
    intro s hs
    rw [itemsOf_eq]
    unfold count at hs
    cases h : parseTree s with
    | none => rw [h] at hs; cases hs
    | some x => exact ⟨_, rfl⟩
  exact ⟨⟨e _ (by kernel_rfl), ⟨c!"  ", '/', _, rfl, by simp, by decide⟩, c!"  // b\n# c\n\n", c!"z = 1", rfl, .inr rfl, by decide, by decide⟩,
    ⟨e _ (by kernel_rfl), ⟨[], '#', _, rfl, by simp, by decide⟩, c!"# a\ndef f() {\n", c!"}", rfl, .inr rfl, by decide, by decide⟩⟩

/-- The first line of the second text must not be blank: the blank lines become one item, or are a part of an `if`. -/
example : (count c!"x = 1\n\n" = some 2 ∧ count c!"\ny = 1\n" = some 2 ∧ count (c!"x = 1\n\n" ++ c!"\ny = 1\n") = some 3) ∧
    count c!"x = if c { 1 }\n" = some 1 ∧ count (c!"x = if c { 1 }\n" ++ c!"\ny = 1\n") = some 2 := by
  refine ⟨⟨?_, ?_, ?_⟩, ?_, ?_⟩ <;> kernel_rfl

end Verif.Etx
