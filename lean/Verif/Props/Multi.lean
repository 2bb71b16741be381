import Verif.Etx.Multi
import Verif.Props.Lines

/-! # Property C83: lists and maps over several lines -/

set_option linter.unusedSimpArgs false

namespace Verif.Etx
open Gram Re

variable [FloatValue]

/-- An element `e` of a list or a map, and what comes after it, if the text `s` of the elements `l` comes next: the end of the line or a
comment, the closing bracket, or a comma, after which the line may end. -/
inductive Elem {k : Kind} (E : Str → Node .expr → Prop) (q : Kit k) (e : Str) (x : Node .expr) (s : Str) (l : List (Node k)) : Str → Prop
  | line {t : Str} : E e x → Then q e s l t → Elem E q e x s l t
  | close : ReadsExpr e x → AtClose q e s l → Elem E q e x s l s
  | comma {t : Str} : ReadsExpr e x → AfterBrace q s l t → Elem E q e x s l (',' :: t)

/-- What is between the brackets of a list. -/
inductive Elems (E : Str → Node .expr → Prop) : Str → List (Node .listItem) → Prop
  | nil {w : Str} : Blanks w → Elems E w []
  /-- blank lines and comments -/
  | extra {s s' : Str} {x : Node .listItem} {l : List (Node .listItem)} : Extra listKit s x l.head? → Elems E s' l → Elems E (s ++ s') (x :: l)
  /-- `e` -/
  | item {w e s t : Str} {x : Node .expr} {l : List (Node .listItem)} : Blanks w → Elem E listKit e x s l t → Elems E s l →
      Elems E (w ++ e ++ t) (listElem x :: l)

/-- The keys of maps. -/
inductive KeyText : Str → Node .mapKey → Prop
  | name {w : Str} : WordText w → KeyText w (nameKey w)
  | quoted {q : Char} {w : Str} : isQuote q = true → w ≠ [] → (∀ c ∈ w, isSpecial c = false) → KeyText (q :: w ++ [q]) (textKey w)

/-- What is between the braces of a map. -/
inductive Pairs (E : Str → Node .expr → Prop) : Str → List (Node .mapItem) → Prop
  | nil {w : Str} : Blanks w → Pairs E w []
  /-- blank lines and comments -/
  | extra {s s' : Str} {x : Node .mapItem} {l : List (Node .mapItem)} : Extra mapKit s x l.head? → Pairs E s' l → Pairs E (s ++ s') (x :: l)
  /-- `k = e` -/
  | item {w k e s t : Str} {y : Node .mapKey} {x : Node .expr} {l : List (Node .mapItem)} : Blanks w → KeyText k y → Elem E mapKit e x s l t →
      Pairs E s l → Pairs E (w ++ k ++ c!" = " ++ e ++ t) (mapElem y x :: l)

/-- **C83** in full: whatever the elements are. -/
def C83_full : Prop := (∀ (s t : Str) (l : List (Node .listItem)), Elems ReadsExpr s l → Opens listKit s l t →
    ReadsExpr (c!"[" ++ t ++ c!"]") (listOf l) ∧ OneLine (c!"[" ++ t ++ c!"]")) ∧
  ∀ (s t : Str) (l : List (Node .mapItem)), Pairs ReadsExpr s l → Opens mapKit s l t →
    ReadsExpr (c!"{" ++ t ++ c!"}") (mapOf l) ∧ OneLine (c!"{" ++ t ++ c!"}")

/-! ## Elements -/

/-- Expressions do not begin with comments. -/
theorem part_noNote {e : Str} {ks : List (Sym × Str)} {x : Node .expr} (hl : kinds (lex e) = some ks) (h : Part ks x) :
    ∀ k ∈ ks.head?, k.1 ∉ [Sym.singleLineComment, .multilineComment] := by
  intro k hk hm
  cases ks with
  | nil => cases hk
  | cons a ks =>
    cases hk
    unfold kinds at hl
    rw [Option.map_eq_some_iff] at hl
    obtain ⟨ts, hl, e1⟩ := hl
    obtain ⟨st, hr⟩ := lex_run hl
    cases ts with
    | nil => cases e1
    | cons t ts =>
      rw [List.map_cons, List.cons.injEq] at e1
      have hx := hr.exact t (by simp)
      rw [← e1.1] at h hm
      have hw : t.txt ∉ [c!"(", c!"null", c!"true", c!"false", c!"[", c!"{"] := ends_txt (.inl ⟨by
        simp only [List.mem_cons, List.not_mem_nil, or_false] at hm
        rcases hm with h | h <;> rw [h] <;> rfl, hx⟩) (by decide)
      have h1 := h.ok [tk .exprEnd c!"}"] (closes_cons (by decide) [])
      have h3 : Bare {} (.sub .value .expr) (tk t.sym t.txt :: (toks ks ++ [tk .exprEnd c!"}"])) :=
        bare_of_head (any_excluded (ys := [.singleLineComment, .multilineComment]) (ws := [c!"(", c!"null", c!"true", c!"false", c!"[", c!"{"])
          (by decide) hm hw)
      have h2 := h3.soft
      unfold Soft at h2
      rw [show run (parseKind {}) (.sub .value .expr) (tk t.sym t.txt :: (toks ks ++ [tk .exprEnd c!"}"])) = _ from Ok.sub h1] at h2
      exact h2

omit [FloatValue] in
/-- The tokens of an expression are nested. -/
theorem nest_toks {a : List (Sym × Str)} (h : nest [] (toks a) = some []) (b : List (Sym × Str)) : nest [] (toks (a ++ b)) = nest [] (toks b) := by
  rw [toks_append, nest_app, h]
  rfl

theorem reads_nest {e : Str} {ks : List (Sym × Str)} {x : Node .expr} (h : ReadsExpr e x) (hk : kinds (lex e) = some ks) :
    nest [] (toks ks) = some [] := by
  obtain ⟨ks', y, -, -, h3, -, h5, -⟩ := h.all
  rw [h3] at hk
  cases hk
  exact h5.nest

/-- What expressions in lines are read as on their own. -/
theorem LineExpr.reads {e : Str} {x : Node .expr} (h : LineExpr e x) : ReadsExpr e x := by
  cases h with
  | of h _ => exact h
  | ite h1 h2 h3 h4 h5 => exact C75_composed (.ite (.of h1) (.of h2) (.of h3) h4 h5)
  | switch l h1 h2 h3 h4 h5 => exact C75_composed (.switch l (.of h1) (fun t ht p hp => .of (h2 t ht p hp)) (fun t ht => .of (h3 t ht)) h4 h5)

omit [FloatValue] in
theorem EndLine.nest {a b z : List Token} (h : EndLine (a ++ z) (b ++ z)) : Verif.Etx.nest [] a = Verif.Etx.nest [] b := by
  have : a ++ z = (lfTok :: b) ++ z ∨ a ++ z = b ++ z := by
    generalize a ++ z = u at h
    generalize e : b ++ z = v at h
    cases h with
    | lf r => exact .inl (by rw [List.cons_append, e])
    | note r => exact .inr rfl
    | close r => exact .inr rfl
  rcases this with h | h
  · rw [List.append_cancel_right h]
    rfl
  · rw [List.append_cancel_right h]

omit [FloatValue] in
theorem Kit.fits_end {k : Kind} (q : Kit k) : q.fits (toks q.endKinds) := by
  intro p hp
  exact ⟨[], by rw [Kit.endKinds, Option.mem_def.1 hp]; rfl⟩

/-- An element and what comes after it. -/
theorem Elem.reads {k : Kind} {q : Kit k} {e s t : Str} {x : Node .expr} {l : List (Node k)} {ks : List (Sym × Str)}
    (hq : q.Ok) (h : Elem LineExpr q e x s l t) (hr : RunsTo q s ks) (hh : Head q ks l) : ∃ ke kz y, y.bare = x ∧ kinds (lex e) = some ke ∧
      Part ke y ∧ RunsTo q (e ++ t) (ke ++ kz) ∧ ks.length ≤ kz.length ∧ nest [] (toks (ke ++ kz)) = nest [] (toks ks) ∧
      ∀ z, quiet z → q.fits z → ElemStops ke y (toks kz ++ z) (toks ks ++ z) := by
  cases h with
  | line h ht =>
    obtain ⟨ke, y, h1, h2, h3, h4⟩ := h.reading
    obtain ⟨kz, h5, h6, h7, h8⟩ := ht.reads hq hr hh
    refine ⟨ke, kz, y, h1, h2, h3.toPart, by simpa [RunsTo] using runs_line h4 h5 h6, h8, ?_, fun z _ hz => h3.elem (h7 z hz)⟩
    rw [nest_toks (reads_nest h.reads h2)]
    exact (h7 _ (q.fits_end)).nest
  | close h ha =>
    obtain ⟨ke, y, h1, h2, h3, -, -, h4⟩ := h.all
    obtain ⟨⟨c, t', e', hc⟩, h5⟩ := ha.reads hq hh
    refine ⟨ke, ks, y, h1, h3, h2.toPart, fun b => ?_, le_rfl, nest_toks (reads_nest h h3) _,
      fun z _ hz => h2.toPart.elem (h5 z hz).1 (h5 z hz).2⟩
    have h6 := h4 c (hc.imp id .inr) (t' ++ b)
    rw [← List.cons_append, ← e'] at h6
    have := h6.trans (hr b)
    simpa using this
  | comma h ha =>
    obtain ⟨ke, y, h1, h2, h3, -, -, h4⟩ := h.all
    have hc : ∀ {kz : List (Sym × Str)} {t : Str}, RunsTo q t kz → RunsTo q (e ++ ',' :: t) (ke ++ (.opComma, c!",") :: kz) := by
      intro kz t hr b
      have := ((h4 ',' (.inl (by simp [Closer])) (t ++ q.endText ++ b)).trans (run_bracket (c := ',') (y := .opComma) (by decide) _)).trans (hr b)
      simpa using this
    cases ha with
    | line =>
      refine ⟨ke, (.opComma, c!",") :: (.lf, c!"\n") :: ks, y, h1, h3, h2.toPart, hc (runs_lf.appendTo hr), by simp; omega, ?_,
        fun z _ _ => h2.toPart.comma (EndLine.lf _).takes⟩
      rw [nest_toks (reads_nest h h3)]
      rfl
    | same hl =>
      refine ⟨ke, (.opComma, c!",") :: ks, y, h1, h3, h2.toPart, hc hr, by simp, ?_,
        fun z hz _ => h2.toPart.comma (Takes.noLf (headNot_quiet (hh.noLf hl) hz.1))⟩
      rw [nest_toks (reads_nest h h3)]
      rfl

/-! ## Lists -/

omit [FloatValue] in
theorem bare_listElem (x : Node .expr) : (listElem x).bare = listElem x.bare := by simp only [listElem, Node.bare, Node.map]

omit [FloatValue] in
theorem bare_listOf (l : List (Node .listItem)) : (listOf l).bare = listOf (l.map Node.bare) := by
  rw [listOf, bare_unaryExpr, bare_justPrimary, listOf]
  congr 2
  rw [← bare_sliceOf]
  simp only [Node.bare, Node.map]

theorem Elems.reads {s : Str} {l : List (Node .listItem)} (h : Elems LineExpr s l) : ∃ ks l', l'.map Node.bare = l ∧ RunsTo listKit s ks ∧
    Items listKit .items (toks ks) l' ∧ Head listKit ks l ∧ nest [] (toks ks) = some [] := by
  induction h with
  | nil hw => exact ⟨[], [], rfl, (Runs.bracket (c := ']') (y := .opRBracket) (by decide)).blanks hw (by decide), Items.nil _ _, .nil _, rfl⟩
  | @extra s s' x l h _ ih =>
    obtain ⟨ks, l', rfl, h2, h3, h4, hn⟩ := ih
    obtain ⟨ks', h5, h6, h7, -, h8⟩ := h.reads listKit_ok h2 h3 h4
    exact ⟨ks', x :: l', by simp [h.bare listKit_ok], h5, h6, h7, h8.trans hn⟩
  | @item w e s t x l hw he _ ih =>
    obtain ⟨ks, l', h1, h2, h3, h4, hn⟩ := ih
    obtain ⟨ke, kz, y, rfl, hk, hp, hz, hle, hn', hend⟩ := he.reads listKit_ok h2 h4
    have h9 := part_noNote hk hp
    obtain ⟨k, ke', rfl⟩ := List.exists_cons_of_ne_nil hp.ne
    have h10 := h9 k rfl
    simp only [List.mem_cons, List.not_mem_nil, or_false, not_or] at h10
    refine ⟨k :: ke' ++ kz, listElem y :: l', by simp [bare_listElem, h1], ?_, ?_,
      .calm _ _ (hp.head k rfl) h10.1 (hp.calm k rfl) (by simp [listKit, listElem]), hn'.trans hn⟩
    · have := hz.blanks hw (by simp)
      simpa [RunsTo] using this
    · have := Items.consStop (t := tk k.1 k.2) (ts := toks ke') (us' := toks kz) (fun z hz hz' => by simpa using listElem_ok hp (hend z hz hz'))
        (by simpa using hle) h3
      simpa using this

omit [FloatValue] in
theorem nest_skipLF (u : List Token) : nest [] (skipLF u) = nest [] u := by
  induction u with
  | nil => rfl
  | cons t u ih =>
    by_cases h : t.sym = .lf
    · rw [skipLF_lf h, ih, nest, h]
      rfl
    · rw [skipLF_cons h]

omit [FloatValue] in
/-- Line ends after an opening bracket. -/
theorem LfsThen.nest {us ts : List Token} (h : LfsThen us ts) : Verif.Etx.nest [] us = Verif.Etx.nest [] ts := by
  have := h [] (by simp [quiet, headNot])
  rw [List.append_nil, List.append_nil] at this
  rw [← this, nest_skipLF]

omit [FloatValue] in
theorem kinds_of_run {e : Str} {ks : List (Sym × Str)} (h : LexRun rootStack e ks rootStack []) : kinds (lex e) = some ks := by
  have h := h.kinds .start .start
  rw [← lex_eq, show kinds (lexAll [(.root, [])] .start []) = some [] from rfl, Option.map_some, List.append_nil] at h
  exact h

/-- **C83**: a list whose elements are separated by commas, line ends or both, with comments and blank lines between them, is read as
exactly these elements, comments and blank lines, and can be followed by a line end. -/
theorem C83_list_partial {s t : Str} {l : List (Node .listItem)} (h : Elems LineExpr s l) (ho : Opens listKit s l t) :
    ReadsExpr (c!"[" ++ t ++ c!"]") (listOf l) ∧ OneLine (c!"[" ++ t ++ c!"]") := by
  obtain ⟨ks, l', rfl, h2, h3, h4, hn⟩ := h.reads
  obtain ⟨kz, h5, h6, -⟩ := ho.reads h2 h4
  have hr : LexRun rootStack (c!"[" ++ t ++ c!"]") ((.opLBracket, c!"[") :: kz ++ [(.opRBracket, c!"]")]) rootStack [] := by
    have := (run_bracket (c := '[') (y := .opLBracket) (by decide) (t ++ c!"]")).trans (by simpa [listKit, Kit.endText] using h5 [])
    simpa [Kit.endKinds, listKit] using this
  refine ⟨.intro hr (y := listOf l') ?_ (bare_listOf l'), oneLine_brackets (x := .square) rfl (kinds_of_run hr) rfl (by simp) rfl
    (h6.nest.trans hn)⟩
  have := listOf_ok h6 h3 (r := []) rfl
  simpa using this

/-! ## Maps -/

omit [FloatValue] in
theorem bare_mapElem {kk : List (Sym × Str)} {k : Node .mapKey} (hk : KeyPart kk k) (x : Node .expr) : (mapElem k x).bare = mapElem k x.bare := by
  cases hk with
  | name w => simp only [mapElem, Node.bare, Node.map, nameKey, oneName]; rfl
  | quoted q w q' => simp only [mapElem, Node.bare, Node.map, textKey, sliceOf]; rfl

omit [FloatValue] in
theorem bare_mapOf (l : List (Node .mapItem)) : (mapOf l).bare = mapOf (l.map Node.bare) := by
  rw [mapOf, bare_unaryExpr, bare_justPrimary, mapOf]
  congr 2
  rw [← bare_sliceOf]
  simp only [Node.bare, Node.map]

/-- A key in front of a blank. -/
theorem KeyText.reading {t : Str} {y : Node .mapKey} (h : KeyText t y) : ∃ ks, KeyPart ks y ∧ ks ≠ [] ∧ nest [] (toks ks) = some [] ∧
    (∀ k ∈ ks.head?, k.1 ∈ [Sym.ident, .string]) ∧ ∀ b, LexRun rootStack (t ++ ' ' :: b) ks rootStack (' ' :: b) := by
  cases h with
  | name h => exact ⟨_, .name _, by simp, rfl, by simp, run_word h.ident h.keyword⟩
  | @quoted q w hq hw hs =>
    obtain ⟨ks, -, -, h3, h4⟩ := (LabelText.quoted hq hw hs).reading
    rcases h3 with ⟨h, -, -⟩ | ⟨-, q', -, rfl⟩
    · have := congrArg List.length h
      simp at this
      omega
    · exact ⟨_, .quoted _ _ _, by simp, rfl, by simp, h4⟩

theorem Pairs.reads {s : Str} {l : List (Node .mapItem)} (h : Pairs LineExpr s l) : ∃ ks l', l'.map Node.bare = l ∧ RunsTo mapKit s ks ∧
    Items mapKit .items (toks ks) l' ∧ Head mapKit ks l ∧ nest [] (toks ks) = some [] := by
  induction h with
  | nil hw => exact ⟨[], [], rfl, runs_close hw, Items.nil _ _, .nil _, rfl⟩
  | @extra s s' x l h _ ih =>
    obtain ⟨ks, l', rfl, h2, h3, h4, hn⟩ := ih
    obtain ⟨ks', h5, h6, h7, -, h8⟩ := h.reads mapKit_ok h2 h3 h4
    exact ⟨ks', x :: l', by simp [h.bare mapKit_ok], h5, h6, h7, h8.trans hn⟩
  | @item w k e s t y' x l hw hk he _ ih =>
    obtain ⟨ks, l', h1, h2, h3, h4, hn⟩ := ih
    obtain ⟨ke, kz, y, rfl, -, hp, hz, hle, hn', hend⟩ := he.reads mapKit_ok h2 h4
    obtain ⟨kk, h5, h6, h7, h8, h9⟩ := hk.reading
    obtain ⟨a, kk', rfl⟩ := List.exists_cons_of_ne_nil h6
    have h10 := h8 a rfl
    refine ⟨a :: kk' ++ (.opAssign, c!"=") :: (ke ++ kz), mapElem y' y :: l', by simp [bare_mapElem h5, h1], ?_, ?_, ?_, ?_⟩
    · have h11 : RunsTo mapKit (k ++ c!" = " ++ (e ++ t)) (a :: kk' ++ (.opAssign, c!"=") :: (ke ++ kz)) := fun b => by
        have h12 := run_blank (hz b) ((hz b).ne (by simp [hp.ne]))
        have h13 := (run_op (w := c!"=") (o := .opAssign) (by decide) (e ++ t ++ mapKit.endText ++ b)).trans h12
        have := (h9 (c!"= " ++ (e ++ t) ++ mapKit.endText ++ b)).trans (by simpa using h13)
        simpa using this
      have := h11.blanks hw (by simp)
      simpa [RunsTo] using this
    · have := Items.consStop (t := tk a.1 a.2) (ts := toks kk' ++ tk .opAssign c!"=" :: toks ke) (us' := toks kz)
        (fun z hz hz' => by simpa using mapElem_ok h5 (hend z hz hz')) (by simpa using hle) h3
      simpa using this
    · simp only [List.mem_cons, List.not_mem_nil, or_false] at h10
      exact .calm _ _ (by rcases h10 with h | h <;> simp [h]) (by rcases h10 with h | h <;> simp [h]) (by rcases h10 with h | h <;> simp [h])
        (by simp [mapKit, mapElem])
    · rw [nest_toks h7, ← hn, ← hn']
      rfl

/-- **C83**: the same for maps. -/
theorem C83_map_partial {s t : Str} {l : List (Node .mapItem)} (h : Pairs LineExpr s l) (ho : Opens mapKit s l t) :
    ReadsExpr (c!"{" ++ t ++ c!"}") (mapOf l) ∧ OneLine (c!"{" ++ t ++ c!"}") := by
  obtain ⟨ks, l', rfl, h2, h3, h4, hn⟩ := h.reads
  obtain ⟨kz, h5, h6, -⟩ := ho.reads h2 h4
  have hr : LexRun rootStack (c!"{" ++ t ++ c!"}") ((.blockStart, c!"{") :: kz ++ [(.blockEnd, c!"}")]) rootStack [] := by
    have := (run_bracket (c := '{') (y := .blockStart) (by decide) (t ++ c!"}")).trans (by simpa [mapKit, Kit.endText] using h5 [])
    simpa [Kit.endKinds, mapKit] using this
  refine ⟨.intro hr (y := mapOf l') ?_ (bare_mapOf l'), oneLine_brackets (x := .brace) rfl (kinds_of_run hr) rfl (by simp) rfl
    (h6.nest.trans hn)⟩
  have := mapOf_ok h6 h3 (r := []) rfl
  simpa using this

/-- **C83** is false in full: the beginning of a heredoc at the end of a line. -/
theorem C83_heredoc : ¬ C83_full := by
  intro h
  have h1 : isExpr c!"1 <<A" = true := by kernel_rfl
  obtain ⟨x, hx⟩ := (isExpr_iff _).1 h1
  have h2 := (h.1 _ _ _ (Elems.item (w := []) (by simp [Blanks]) (.line hx .line) (.nil (w := []) (by simp [Blanks]))) (.same (by
    simp [listKit, listElem]))).1
  have h3 : isExpr c!"[1 <<A\n]" = false := by kernel_rfl
  have h4 := (isExpr_iff _).2 ⟨_, h2⟩
  exact absurd (h3.symm.trans h4) (by decide)

/-- A list over several lines, with comments, a blank line, elements with and without commas, and a map, in a document. -/
example : ∃ x1 x2 xs, ReadsExpr c!"a + 1" x1 ∧ ReadsExpr c!"n" x2 ∧ ReadsExpr c!"1 <<A" xs ∧
    docOf c!"k = [\n\n  // first\n  1 <<A, # one\n  a + 1\n\n\t{ x = 1 <<A, 'y z' = n }\n /* end */\n]\nflag\n" =
      some (sliceOf [rootAttr c!"k" (some (listOf [listKit.comment (lineNote [c!"// first"]), listElem xs,
        listKit.comment (lineNote [c!"# one"]), listElem x1, listKit.empty c!"\n",
        listElem (mapOf [mapElem (nameKey c!"x") xs, mapElem (textKey c!"y z") x2]),
        listKit.comment (.comment noPos .nil c!"/* end */\n")])), rootAttr c!"flag" none]) := by
  obtain ⟨x1, h1⟩ := (isExpr_iff c!"a + 1").1 (by kernel_rfl)
  obtain ⟨x2, h2⟩ := (isExpr_iff c!"n").1 (by kernel_rfl)
  obtain ⟨xs, hs⟩ := (isExpr_iff c!"1 <<A").1 (by kernel_rfl)
  have b0 : Blanks [] := by simp [Blanks]
  have b1 : Blanks c!" " := by unfold Blanks; decide
  have b2 : Blanks c!"  " := by unfold Blanks; decide
  have bt : Blanks c!"\t" := by unfold Blanks; decide
  have l1 : LineExpr c!"a + 1" x1 := .of h1 (.of_text (by decide) (by decide) (by decide))
  have nm : ∀ w ∈ [c!"k", c!"x", c!"flag"], WordText w := by
    intro w hw
    simp only [List.mem_cons, List.not_mem_nil, or_false] at hw
    rcases hw with rfl | rfl | rfl <;> exact .of _ _ (by decide) (by decide) (by decide)
  have note : ∀ w p t, Blanks w → (p = c!"//" ∨ p = c!"#") → '\n' ∉ t → ∀ c ∈ [(w, p ++ t)], Blanks c.1 ∧ LineComment c.2 := by
    intro w p t hw hp ht c hc
    simp only [List.mem_cons, List.not_mem_nil, or_false] at hc
    subst hc
    exact ⟨hw, p, t, hp, ht, rfl⟩
  have m := C83_map_partial (Pairs.item b1 (.name (nm c!"x" (by decide))) (.comma hs (.same (by simp [mapElem, mapKit])))
    (Pairs.item b1 (.quoted (q := '\'') (w := c!"y z") (by decide) (by simp) (by decide))
      (.close h2 ⟨by simp [mapKit], rfl, .inr ⟨_, rfl, by unfold NoBlankEnd; decide⟩⟩) (.nil b1))) (.same (by simp [mapElem, mapKit]))
  have l := C83_list_partial (Elems.extra (.line (cs := [(c!"  ", c!"//" ++ c!" first")]) (by simp) (note _ _ _ b2 (.inl rfl) (by decide))
      (by simp [listKit, listElem]))
    (Elems.item b2 (.comma hs (.same (by simp [listKit])))
    (Elems.extra (.line (cs := [(c!" ", c!"#" ++ c!" one")]) (by simp) (note _ _ _ b1 (.inr rfl) (by decide)) (by simp [listKit, listElem]))
    (Elems.item b2 (.line l1 .line)
    (Elems.extra (.blank (ws := [[]]) (by simp) (by simpa using b0) (by simp [listKit, listElem]))
    (Elems.item bt (.line (.of m.1 m.2) .line)
    (Elems.extra (.block b1 ⟨c!" end ", by decide, rfl⟩) (.nil b0))))))))
    (.lines (ws := [[]]) (by simpa using b0) (by simp [listKit]))
  have h := C77_doc_partial (Doc.attr b0 (nm c!"k" (by decide)) (.some (.line (.of l.1 l.2) .line))
    (Doc.attr b0 (nm c!"flag" (by decide)) (.none .line) .nil))
  refine ⟨x1, x2, xs, h1, h2, hs, Eq.trans (congrArg docOf ?_) (h.trans ?_)⟩
  · decide +kernel
  · rfl

end Verif.Etx
