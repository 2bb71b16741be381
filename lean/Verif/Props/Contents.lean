import Verif.Etx.Contents
import Verif.Etx.LexJoin
import Verif.Etx.Strict
import Verif.Props.Names
import Verif.KernelRfl

/-! # Property C85: the contents of comments, quotes and heredocs do not matter for the rest -/

namespace Verif.Etx
open Gram Node

/-- What a text is read as, without the texts of comments; with `c` also without the texts in quotes and heredocs. -/
def outline [FloatValue] (c : Bool) (s : Str) : Option (Node (.slice .rootItem)) :=
  match parseString s with
  | .ok t => some (t.items.hush c)
  | _ => none

section
variable (c : Bool)

theorem blankStrs_map (b : Bool) (f : Nat → Nat) (s : Strs) : blankStrs b (s.map f) = blankStrs b s := by cases s <;> rfl

theorem hush_map (fm : Meta → Meta) (fa : Nat → Nat) {k : Kind} (x : Node k) : (x.map fm fa).hush c = x.hush c := by
  induction x <;> simp only [Node.map, Node.hush, blankStrs_map, *]
  rename_i f s
  rcases f with - | ⟨a, f⟩ <;> rfl

theorem hush_erase {k : Kind} {x y : Node k} (h : x.erase = y.erase) : x.hush c = y.hush c := by
  rw [← hush_map c (fun m => { addr := 0, pos := m.pos, parent := none }) (fun _ => 0) x,
    ← hush_map c (fun m => { addr := 0, pos := m.pos, parent := none }) (fun _ => 0) y]
  exact congrArg (Node.hush c) h

end

variable [FloatValue]

theorem outline_eq (c : Bool) (s : Str) : outline c s = (parseTree s).map (Node.hush c) := by
  unfold outline
  rcases parseString_eq s with ⟨h1, h2⟩ | ⟨x, t, f, h1, h2, -, -, h3, -⟩
  · rw [h1, h2]; rfl
  · rw [h1, h2]
    exact congrArg some (hush_erase c h3)

/-- Two pairs of the kind of a token and its text that differ at most in contents. -/
structure LikeKind (c : Bool) (p q : Sym × Str) : Prop where
  sym : p.1 = q.1
  txt : p.2 = q.2 ∨ p.1.loose c = true

omit [FloatValue] in
theorem Sound.like {c : Bool} {s s' : List Token} (h : List.Forall₂ (Token.Akin c) s s') {β : List Br} (hs : Sound β s) : Sound β s' := by
  induction h generalizing β with
  | nil => exact hs
  | cons ht _ ih =>
    obtain ⟨β', e⟩ := Option.isSome_iff_exists.mp hs.head
    have h1 := ih (hs.tail e)
    unfold Sound at h1 ⊢
    rw [Verif.Etx.nest, ← ht.sym, e]
    exact h1

omit [FloatValue] in
theorem Token.Akin.symm {c : Bool} {t t' : Token} (h : t.Akin c t') : t'.Akin c t :=
  ⟨h.sym.symm, h.txt.imp Eq.symm (h.sym ▸ ·), h.exact', h.exact⟩

theorem sound_of {s : Str} {ts : List Token} {eof : Position} {x : Node (.slice .rootItem)} (hl : lex s = some ts)
    (h : parseTokens eof ts = some x) : Sound [] ts := by
  obtain ⟨o, h1, -⟩ := parseTokens_strict hl h
  have := h1.nested (b := .stringExpr) (c := []) (c' := []) (β := []) rfl (by decide +kernel)
  unfold Sound
  rw [List.append_nil] at this
  rw [this]
  rfl

/-- **C85.** Two texts with the same tokens but for contents are read as the same but for contents, or are both rejected. -/
theorem C85_contents (c : Bool) (s s' : Str) (ks ks' : List (Sym × Str)) (hs : kinds (lex s) = some ks) (hs' : kinds (lex s') = some ks')
    (h : List.Forall₂ (LikeKind c) ks ks') : outline c s = outline c s' := by
  unfold kinds at hs hs'
  rw [Option.map_eq_some_iff] at hs hs'
  obtain ⟨ts, h1, rfl⟩ := hs
  obtain ⟨ts', h2, rfl⟩ := hs'
  rw [outline_eq, outline_eq, parseTree, parseTree, h1, h2]
  rw [List.forall₂_map_left_iff, List.forall₂_map_right_iff] at h
  obtain ⟨_, hr⟩ := lex_run h1
  obtain ⟨_, hr'⟩ := lex_run h2
  have hk : List.Forall₂ (Token.Akin c) ts ts' := by
    have e1 := hr.exact
    have e2 := hr'.exact
    clear h1 h2 hr hr'
    induction h with
    | nil => exact .nil
    | cons ht _ ih =>
      exact .cons ⟨ht.sym, ht.txt, e1 _ (by simp), e2 _ (by simp)⟩ (ih (fun t h => e1 t (by simp [h])) (fun t h => e2 t (by simp [h])))
  have hk' : List.Forall₂ (Token.Akin c) ts' ts := hk.flip.imp fun _ _ h => Token.Akin.symm h
  show (parseTokens _ ts).map (Node.hush c) = (parseTokens _ ts').map (Node.hush c)
  cases e : parseTokens (Position.start.advance s) ts with
  | some x => rw [← e]; exact parseTokens_like _ _ ts ts' hk (sound_of h1 e)
  | none =>
    cases e' : parseTokens (Position.start.advance s') ts' with
    | none => rfl
    | some x =>
      have := parseTokens_like (c := c) (Position.start.advance s') (Position.start.advance s) ts' ts hk' (sound_of h2 e')
      rw [e, e'] at this
      exact this.symm

omit [FloatValue] in
theorem LikeKind.refl (c : Bool) (p : Sym × Str) : LikeKind c p p := ⟨rfl, .inl rfl⟩

omit [FloatValue] in
theorem likeKinds_refl (c : Bool) (ks : List (Sym × Str)) : List.Forall₂ (LikeKind c) ks ks :=
  List.forall₂_same.2 fun p _ => .refl c p

/-! ## One comment for another -/

omit [FloatValue] in
theorem closeAt_free {w : Str} (hw : ¬ c!"*/" <:+: w) {y : Str} (hy : y.head? ≠ some '/') :
    closeAt (w ++ y) = (closeAt y).map fun (a, b) => (w ++ a, b) := by
  induction w with
  | nil => rw [List.nil_append]; cases closeAt y <;> rfl
  | cons c w ih =>
    have h1 : ¬ c!"*/" <:+: w := fun h => hw (h.trans (List.suffix_cons c w).isInfix)
    have h2 : ¬ c!"*/" <+: c :: w ++ y := by
      intro h
      cases w with
      | nil =>
        cases y with
        | nil => simp at h
        | cons d y => simp only [List.cons_append, List.nil_append, List.cons_prefix_cons] at h; exact hy (by rw [← h.2.1]; rfl)
      | cons d w =>
        simp only [List.cons_append, List.cons_prefix_cons] at h
        exact hw (by rw [← h.1, ← h.2.1]; exact (List.prefix_append (c!"*/") w).isInfix)
    show closeAt (c :: (w ++ y)) = _
    rw [closeAt_cons c (w ++ y) h2, ih h1, Option.map_map]
    rfl

omit [FloatValue] in
theorem closeAt_isSome {s : Str} (h : c!"*/" <:+: s) : closeAt s ≠ none := by
  induction s with
  | nil => simp at h
  | cons c s ih =>
    by_cases hp : c!"*/" <+: c :: s
    · obtain ⟨t, ht⟩ := hp
      rw [← ht]
      show closeAt ('*' :: '/' :: t) ≠ none
      rw [closeAt_close]
      simp
    · rw [closeAt_cons _ _ hp]
      simpa using ih ((List.infix_cons_iff.1 h).resolve_left hp)

/-- A comment, the kind of its token, and what must follow: a line end that is not part of it, or nothing. -/
inductive Remark : Sym → Str → Str → Prop where
  /-- `# …` and `// …` -/
  | line {v : Str} : c!"#" <+: v ∨ c!"//" <+: v → '\n' ∉ v → ¬ c!"*/" <:+: v → Remark .singleLineComment v ['\n']
  /-- `/* … */` -/
  | stars {w : Str} : ¬ c!"*/" <:+: w → Remark .multilineComment (c!"/*" ++ w ++ c!"*/") []

namespace Remark

omit [FloatValue]
variable {y : Sym} {v e : Str}

theorem head (h : Remark y v e) : ∃ c u, v = c :: u ∧ (c = '#' ∨ c = '/') := by
  cases h with
  | line h =>
    rcases h with ⟨u, rfl⟩ | ⟨u, rfl⟩
    · exact ⟨_, _, rfl, .inl rfl⟩
    · exact ⟨_, _, rfl, .inr rfl⟩
  | stars => exact ⟨_, _, rfl, .inr rfl⟩

theorem loose (h : Remark y v e) : y.loose false = true := by cases h <;> rfl

theorem close (h : Remark y v e) {v' : Str} (h' : Remark y v' e) (b : Str) :
    closeAt (' ' :: (v ++ (e ++ b))) = none ↔ closeAt (' ' :: (v' ++ (e ++ b))) = none := by
  cases h with
  | line h1 h2 h3 =>
    cases h' with
    | line h1' h2' h3' =>
      rw [closeAt_cons _ _ (by simp), closeAt_cons _ _ (by simp), closeAt_free h3 (by simp), closeAt_free h3' (by simp)]
      simp only [Option.map_eq_none_iff]
  | stars h =>
    cases h' with
    | stars h' =>
      have : ∀ w : Str, closeAt (' ' :: (c!"/*" ++ w ++ c!"*/" ++ ([] ++ b))) ≠ none := fun w =>
        closeAt_isSome ⟨' ' :: (c!"/*" ++ w), b, by simp⟩
      simp only [this]

theorem step (h : Remark y v e) {state : LexState} (hc : state.core = true) (g : Str) (below : Stack) (b : Str) :
    ∃ r cap, r.sym = y ∧ lexStep ((state, g) :: below) (v ++ (e ++ b)) = some (r, ⟨v, cap, e ++ b⟩, (state, g) :: below) := by
  have slash : (rulesOf state).filter (Rule.can g '/') =
      [rule .singleLineComment reSingleLine, rule .multilineComment reMultiline, rule .opDivision (Re.lit c!"/")] := by
    cases state <;> first | rfl | cases hc
  have hash : (rulesOf state).filter (Rule.can g '#') = [rule .singleLineComment reSingleLine] := by
    cases state <;> first | rfl | cases hc
  cases h with
  | @line v h1 h2 h3 =>
    have hf : reSingleLine.first (v ++ (['\n'] ++ b)) = some ⟨v, none, '\n' :: b⟩ := by
      have h5 : ∀ c ∈ v, decide (c ≠ '\n') = true := fun c hc => decide_eq_true fun e => h2 (e ▸ hc)
      have h4 : (v ++ '\n' :: b).takeWhile (fun c => decide (c ≠ '\n')) = v ∧
          (v ++ '\n' :: b).dropWhile (fun c => decide (c ≠ '\n')) = '\n' :: b := by
        rw [List.takeWhile_append_of_pos h5, List.dropWhile_append_of_pos h5]
        simp
      rw [first_singleLine, if_pos]
      · rw [List.cons_append, List.nil_append, h4.1, h4.2]
      · rcases h1 with h1 | h1
        · exact .inr (h1.trans (List.prefix_append _ _))
        · exact .inl (h1.trans (List.prefix_append _ _))
    refine ⟨rule .singleLineComment reSingleLine, none, rfl, ?_⟩
    have hr : firstRule g (v ++ (['\n'] ++ b)) (rulesOf state) = some (rule .singleLineComment reSingleLine, ⟨v, none, '\n' :: b⟩) := by
      rcases h1 with ⟨u, rfl⟩ | ⟨u, rfl⟩
      · show firstRule g ('#' :: _) _ = _
        rw [firstRule_filter, hash]
        exact firstRule_hit hf
      · show firstRule g ('/' :: _) _ = _
        rw [firstRule_filter, slash]
        exact firstRule_hit hf
    exact lexStep_of hr (by rcases h1 with ⟨u, rfl⟩ | ⟨u, rfl⟩ <;> simp)
  | @stars w h =>
    have h1 := closeAt_free h (y := c!"*/" ++ b) (by simp)
    have h2 : closeAt (c!"*/" ++ b) = some ([], b) := closeAt_close b
    have hf : reMultiline.first (c!"/*" ++ w ++ c!"*/" ++ ([] ++ b)) = some ⟨c!"/*" ++ w ++ c!"*/", w.getLast?.map ([·]), b⟩ := by
      have := first_multiline (w ++ (c!"*/" ++ b))
      rw [h1, h2] at this
      simpa using this
    refine ⟨rule .multilineComment reMultiline, w.getLast?.map ([·]), rfl, ?_⟩
    have hr : firstRule g (c!"/*" ++ w ++ c!"*/" ++ ([] ++ b)) (rulesOf state) =
        some (rule .multilineComment reMultiline, ⟨c!"/*" ++ w ++ c!"*/", w.getLast?.map ([·]), b⟩) := by
      show firstRule g ('/' :: _) _ = _
      rw [firstRule_filter, slash, firstRule_miss]
      · exact firstRule_hit hf
      · show reSingleLine.first _ = none
        rw [first_singleLine, if_neg]
        rintro (h | h) <;> simp [List.cons_prefix_cons] at h
    exact lexStep_of hr (by simp)

end Remark

/-- Where one text is read as a comment, with the same tokens before it, and the other one as well. -/
theorem outline_seam {y : Sym} {v v' e b : Str} (h : Remark y v e) (h' : Remark y v' e) {s s' : Str} {ks : List (Sym × Str)}
    {state : LexState} {g : Str} {st : Stack} (hc : state.core = true)
    (hs : kinds (lex s) = (kinds (lexAll ((state, g) :: st) .start (v ++ (e ++ b)))).map (ks ++ ·))
    (hs' : kinds (lex s') = (kinds (lexAll ((state, g) :: st) .start (v' ++ (e ++ b)))).map (ks ++ ·)) :
    outline false s = outline false s' := by
  obtain ⟨r, cap, hr, h1⟩ := h.step hc g st b
  obtain ⟨r', cap', hr', h1'⟩ := h'.step hc g st b
  have hw : y ≠ .whitespace := by cases h <;> simp
  have h2 := hs
  have h2' := hs'
  rw [(LexRun.one h1 (hr ▸ hw)).kinds .start .start] at h2
  rw [(LexRun.one h1' (hr' ▸ hw)).kinds .start .start] at h2'
  cases e1 : kinds (lexAll ((state, g) :: st) .start (e ++ b)) with
  | none =>
    simp only [e1, Option.map_none] at h2 h2'
    have no : ∀ s, kinds (lex s) = none → outline false s = none := by
      intro s hs
      have : lex s = none := by simpa [kinds] using hs
      rw [outline_eq, parseTree, this]
      rfl
    rw [no _ h2, no _ h2']
  | some zs =>
    simp only [e1, Option.map_some] at h2 h2'
    refine C85_contents false _ _ _ _ h2 h2' ?_
    refine List.rel_append (likeKinds_refl _ _) (.cons ⟨hr.trans hr'.symm, .inr ?_⟩ (likeKinds_refl _ _))
    show r.sym.loose false = true
    rw [hr]
    exact h.loose

/-- **C85.** One comment after a blank for another: if the lexer stops before the blank outside of quotes and heredocs, the text with
the other comment is read as the same, but for the texts of comments, or both are rejected. -/
theorem C85_comment (a v v' e b : Str) (y : Sym) (ks : List (Sym × Str)) (state : LexState) (g : Str) (st : Stack)
    (hv : Remark y v e) (hv' : Remark y v' e) (hst : state = .root ∨ state = .stringExpr)
    (hrun : LexRun [(.root, [])] (a ++ ' ' :: (v ++ (e ++ b))) ks ((state, g) :: st) (' ' :: (v ++ (e ++ b)))) :
    outline false (a ++ ' ' :: (v ++ (e ++ b))) = outline false (a ++ ' ' :: (v' ++ (e ++ b))) := by
  have hc : state.core = true := by rcases hst with rfl | rfl <;> rfl
  have hz : BlankLike (' ' :: (v ++ (e ++ b))) (' ' :: (v' ++ (e ++ b))) := ⟨⟨_, _, rfl, rfl⟩, ⟨_, _, rfl, rfl⟩, hv.close hv' b⟩
  have hrun' := hrun.same hz (by simp [CleanStack]) rfl a rfl
  have blank : ∀ {v : Str}, Remark y v e → LexRun ((state, g) :: st) (' ' :: (v ++ (e ++ b))) [] ((state, g) :: st) (v ++ (e ++ b)) := by
    intro v hv
    have h := lexStep_blank hst g st c!" " (v ++ (e ++ b)) (by simp) (by simp [isBlank])
    obtain ⟨c, u, rfl, hcu⟩ := hv.head
    have hb : isBlank c = false := by rcases hcu with rfl | rfl <;> rfl
    simp only [List.cons_append, List.takeWhile_cons, List.dropWhile_cons, hb] at h
    exact LexRun.step h (.refl _ _)
  have h1 := (hrun.trans (blank hv)).kinds .start .start
  have h2 := (hrun'.trans (blank hv')).kinds .start .start
  rw [List.append_nil, ← lex_eq] at h1 h2
  exact outline_seam hv hv' hc h1 h2

/-- **C85.** One comment at the beginning of a line for another.  (The lines `a` before it are to be outside of quotes and comments:
there are none, or their tokens end with a line end, and no `/` is followed by `*`.) -/
theorem C85_line (a v v' e b : Str) (y : Sym) (us : List Token) (hv : Remark y v e) (hv' : Remark y v' e)
    (hl : lex a = some us) (ha : a = [] ∨ a.getLast? = some '\n' ∧ us.getLast?.any (·.sym = .lf) = true) (hd : us.IsChain Apart) :
    outline false (a ++ (v ++ (e ++ b))) = outline false (a ++ (v' ++ (e ++ b))) := by
  rcases ha with rfl | ⟨ha, ht⟩
  · refine outline_seam (b := b) (state := .root) (g := []) (st := []) (ks := []) hv hv' rfl ?_ ?_ <;>
      rw [List.nil_append, lex_eq] <;> simp
  · rw [lex_eq] at hl
    have hne : us ≠ [] := by rintro rfl; cases ht
    obtain ⟨st, -, h2, h3⟩ := lexAll_join _ a (Nat.le_refl _) _ _ _ (by simp [LineStack]) (.inr ha) hl hd
      (fun t h => by rw [Option.mem_def.1 h] at ht; simpa using ht)
    obtain _ | ⟨⟨state, g⟩, st⟩ := st
    · cases h2 hne
    · have h4 : ∀ x, kinds (lex (a ++ x)) = (kinds (lexAll ((state, g) :: st) .start x)).map (us.map (fun t => (t.sym, t.txt)) ++ ·) := by
        intro x
        rw [lex_eq, h3, kinds_pos x _ _ .start (Position.start.advance a) (Nat.le_refl _)]
        cases lexAll ((state, g) :: st) (Position.start.advance a) x <;> simp [kinds]
      exact outline_seam hv hv' (h2 hne) (h4 _) (h4 _)

/-! ## Examples -/

/-- A comment between the items of a block, and other texts in quotes. -/
example : outline true c!"b \"l\" {\n x = \"u\" # p\n}\n" = outline true c!"b \"mm\" {\n x = \"vv w\" # q r\n}\n" :=
  C85_contents true _ _ _ _ (by decide +kernel : kinds (lex _) = some [(.ident, c!"b"), (.string, c!"\""), (.char, c!"l"), (.stringEnd, c!"\""),
      (.blockStart, c!"{"), (.lf, c!"\n"), (.ident, c!"x"), (.opAssign, c!"="), (.string, c!"\""), (.char, c!"u"), (.stringEnd, c!"\""),
      (.singleLineComment, c!"# p"), (.lf, c!"\n"), (.blockEnd, c!"}"), (.lf, c!"\n")])
    (by decide +kernel : kinds (lex _) = some [(.ident, c!"b"), (.string, c!"\""), (.char, c!"mm"), (.stringEnd, c!"\""),
      (.blockStart, c!"{"), (.lf, c!"\n"), (.ident, c!"x"), (.opAssign, c!"="), (.string, c!"\""), (.char, c!"vv w"), (.stringEnd, c!"\""),
      (.singleLineComment, c!"# q r"), (.lf, c!"\n"), (.blockEnd, c!"}"), (.lf, c!"\n")])
    (by
      refine .cons (.refl _ _) (.cons (.refl _ _) (.cons ⟨rfl, .inr rfl⟩ (.cons (.refl _ _) (.cons (.refl _ _)
        (.cons (.refl _ _) (.cons (.refl _ _) (.cons (.refl _ _) (.cons (.refl _ _) (.cons ⟨rfl, .inr rfl⟩
        (.cons (.refl _ _) (.cons ⟨rfl, .inr rfl⟩ (likeKinds_refl _ _)))))))))))))

/-- They are accepted. -/
example : (outline true c!"b \"l\" {\n x = \"u\" # p\n}\n").isSome = true := by kernel_rfl

/-- Words of the grammar in quotes: they are not taken for words of the document. -/
example : outline true c!"x = \"u\"\n" = outline true c!"x = \"type\"\n" :=
  C85_contents true _ _ _ _ (by decide +kernel : kinds (lex _) = some [(.ident, c!"x"), (.opAssign, c!"="), (.string, c!"\""),
      (.char, c!"u"), (.stringEnd, c!"\""), (.lf, c!"\n")])
    (by decide +kernel : kinds (lex _) = some [(.ident, c!"x"), (.opAssign, c!"="), (.string, c!"\""),
      (.char, c!"type"), (.stringEnd, c!"\""), (.lf, c!"\n")])
    (.cons (.refl _ _) (.cons (.refl _ _) (.cons (.refl _ _) (.cons ⟨rfl, .inr rfl⟩ (likeKinds_refl _ _)))))

/-- Any comment at the end of this line, the line being the first of a list. -/
example (v : Str) (h : '\n' ∉ v) (h' : ¬ c!"*/" <:+: '#' :: v) : outline false c!"x = [1, # one\n 2]\n" =
    outline false (c!"x = [1, #" ++ v ++ c!"\n 2]\n") := by
  have := C85_comment c!"x = [1," c!"# one" ('#' :: v) c!"\n" c!" 2]\n" .singleLineComment
    [(.ident, c!"x"), (.opAssign, c!"="), (.opLBracket, c!"["), (.number, c!"1"), (.opComma, c!",")] .root [] []
    (.line (.inl ⟨_, rfl⟩) (by decide) (by decide)) (.line (.inl ⟨_, rfl⟩) (by simpa using h) h') (.inl rfl) (.of_runSteps 7 (by decide +kernel))
  refine this.trans (congrArg _ ?_)
  simp

example : (outline false c!"x = [1, # one\n 2]\n").isSome = true := by kernel_rfl

/-- A comment in front of the second line. -/
example : outline false c!"x = 1\n/* a */ y = 2\n" = outline false c!"x = 1\n/* other\n text */ y = 2\n" :=
  C85_line c!"x = 1\n" c!"/* a */" c!"/* other\n text */" [] c!" y = 2\n" .multilineComment
    [⟨.ident, c!"x", ⟨[], 0, 1, 1⟩⟩, ⟨.opAssign, c!"=", ⟨[], 2, 1, 3⟩⟩, ⟨.number, c!"1", ⟨[], 4, 1, 5⟩⟩, ⟨.lf, c!"\n", ⟨[], 5, 1, 6⟩⟩]
    (.stars (w := c!" a ") (by decide)) (.stars (w := c!" other\n text ") (by decide)) (by decide +kernel) (.inr ⟨by decide, by decide⟩)
    (by simp [Apart])

example : (outline false c!"x = 1\n/* a */ y = 2\n").isSome = true := by kernel_rfl

/-- Why the comments must not contain `*/`: before this comment, `/*` is read as two operators as long as no `*/` follows.  (`1 / * 2` is
no expression; with the second comment the value is `1`.) -/
theorem C85_close : outline false c!"x = 1 /* 2 # a\n" = none ∧ outline false c!"x = 1 /* 2 # */\n" ≠ none := by
  constructor
  · kernel_rfl
  · intro h
    have : (outline false c!"x = 1 /* 2 # */\n").isSome = true := by kernel_rfl
    rw [h] at this
    cases this

end Verif.Etx
