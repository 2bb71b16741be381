import Verif.Props.Lines

/-!
# C77: the last line of a document without a line end

At the end of the text there are no more tokens, and no heredoc can begin there (pkg/etx/lexer.go:82: the pattern needs a line end), so that the
last line of a document can have any expression.
-/

namespace Verif.Etx

open Gram Re

variable [FloatValue]

/-! ## The texts -/

/-- Nothing or blanks at the end of the text. -/
def EndBlanks (b : Str) : Prop := b = [] ∨ ∃ b', b = ' ' :: b' ∧ Blanks b'

/-- A value after a name, if there is one, at the end of the text. -/
inductive LastVal : Str → Option (Node .expr) → Prop
  | none {b : Str} : EndBlanks b → LastVal b none
  /-- ` = e`, where `e` is any expression -/
  | some {e b : Str} {x : Node .expr} : ReadsExpr e x → EndBlanks b → (b ≠ [] → NoBlankEnd e) → LastVal (c!" = " ++ e ++ b) (some x)

/-- **C77**: a last line without a line end. -/
inductive LastLine : Str → List (Node .rootItem) → Prop
  | blanks {w : Str} : Blanks w → LastLine w []
  /-- `k = e`, `k` -/
  | attr {w k v : Str} {x : Option (Node .expr)} : Blanks w → WordText k → LastVal v x → LastLine (w ++ k ++ v) [rootAttr k x]
  /-- `input k : t = e`, `output k : t = e`, `const k : t = e`, `val k : t = e`, also without a type or a value -/
  | decl {w d k o v : Str} {y : Option (Node .parameterType)} {x : Option (Node .expr)} : Blanks w → d ∈ declWords → WordText k → OptType o y →
      LastVal v x → LastLine (w ++ d ++ c!" " ++ k ++ o ++ v) [declItem d k y x]

/-! ## Tokens -/

section
omit [FloatValue]

/-- What the lexer gives for a whole text. -/
theorem run_of_kinds : ∀ (n : Nat) {s : Str} {st : Stack} {p : Position} {ks : List (Sym × Str)}, s.length ≤ n →
    kinds (lexAll st p s) = some ks → ∃ st', LexRun st s ks st' [] := by
  intro n
  induction n with
  | zero =>
    intro s st p ks hn h
    obtain rfl := List.length_eq_zero_iff.1 (Nat.le_zero.1 hn)
    cases h
    exact ⟨st, .refl _ _⟩
  | succ n ih =>
    intro s st p ks hn h
    cases h1 : lexStep st s with
    | none =>
      cases s with
      | nil =>
        cases h
        exact ⟨st, .refl _ _⟩
      | cons c s =>
        rw [lexAll_step (by simp), h1] at h
        cases h
    | some x =>
      obtain ⟨r, m, st'⟩ := x
      have hl := (lexStep_split h1).2.2
      rw [kinds_step h1 p p, Option.map_eq_some_iff] at h
      obtain ⟨ks', h2, rfl⟩ := h
      obtain ⟨st'', h3⟩ := ih (by omega) h2
      exact ⟨st'', .step h1 h3⟩

theorem run_endBlanks {w : Str} (hw : Blanks w) : LexRun rootStack w [] rootStack [] := by
  by_cases hn : w = []
  · subst hn
    exact .refl _ _
  · have hb := lexStep_blank (.inl rfl) [] [] w [] hn hw
    rw [List.append_nil] at hb
    exact LexRun.step hb (.refl _ _)

theorem EndBlanks.run {b : Str} (h : EndBlanks b) : LexRun rootStack b [] rootStack [] := by
  rcases h with rfl | ⟨b', rfl, hb⟩
  · exact .refl _ _
  · exact run_endBlanks fun c hc => by
      rcases List.mem_cons.1 hc with rfl | hc
      · rfl
      · exact hb c hc

theorem EndBlanks.typeEnd {b : Str} (h : EndBlanks b) : ∀ c ∈ b.head?, TypeEnd c := by
  rcases h with rfl | ⟨b', rfl, hb⟩
  · simp
  · simpa using .inr (.inl rfl)

/-- A name with a type and a value, at the end of the text. -/
theorem run_lastDecl {k o v : Str} {kt kv : List (Sym × Str)} {st : Stack} (hk : WordText k)
    (ho : ∀ y : Str, (∀ c ∈ y.head?, TypeEnd c) → LexRun rootStack (o ++ y) kt rootStack y) (ho' : o = [] ∨ ∃ u, o = ' ' :: u)
    (hv : LexRun rootStack v kv st []) (hv' : ∀ c ∈ v.head?, TypeEnd c) : LexRun rootStack (k ++ o ++ v) ((.ident, k) :: (kt ++ kv)) st [] := by
  have hd : EndsWord (o ++ v) := by
    rcases ho' with rfl | ⟨u, rfl⟩
    · cases v with
      | nil => exact ⟨by simp, by simp⟩
      | cons c v => exact TypeEnd.word (.inl (hv' c rfl)) v
    · exact TypeEnd.word (.inl (.inr (.inl rfl))) _
  have := ((run_wordText hk hd).trans (ho v hv')).trans hv
  simpa using this

end

/-- What needs a token does not begin at the end of the text. -/
theorem bare_end {g : Gram} (hg : solid g = true := by rfl) (hn : null g = false := by rfl) : Bare {} g [] := Bare.of (by simp [NoFirst]) hg hn

/-- A value at the end of the text. -/
theorem LastVal.reads {v : Str} {x : Option (Node .expr)} (h : LastVal v x) : ∃ (ks : List (Sym × Str)) (y : Option (Node .expr)) (st : Stack),
    y.map Node.bare = x ∧ LexRun rootStack v ks st [] ∧
    (∀ c ∈ v.head?, TypeEnd c) ∧ (ks = [] ∧ y = Option.none ∨ ∃ ke z, ks = (.opAssign, c!"=") :: ke ∧ y = Option.some z ∧ StopsAt ke z [] []) := by
  cases h with
  | none h => exact ⟨[], Option.none, _, rfl, h.run, h.typeEnd, .inl ⟨rfl, rfl⟩⟩
  | @some e b x h hb hn =>
    obtain ⟨ke, y, h1, h2, h3, h4, -, h5⟩ := h.all
    obtain ⟨st, hr⟩ : ∃ st, LexRun rootStack (e ++ b) ke st [] := by
      rcases hb with rfl | ⟨b', rfl, hb'⟩
      · rw [List.append_nil]
        rw [lex_eq] at h3
        exact run_of_kinds _ le_rfl h3
      · have := (h5 ' ' (.inr (.inr ⟨rfl, hn (by simp)⟩)) b').trans (EndBlanks.run (.inr ⟨b', rfl, hb'⟩))
        rw [List.append_nil] at this
        exact ⟨_, this⟩
    refine ⟨(.opAssign, c!"=") :: ke, Option.some y, st, by simp [h1], ?_, by simpa using .inr (.inl rfl), .inr ⟨ke, y, rfl, rfl, [], by simpa using h4,
      Takes.skip (bare_end).soft⟩⟩
    have := (run_op (w := c!"=") (o := .opAssign) (by decide) (e ++ b)).trans (run_blank hr (hr.ne h2.toPart.ne))
    simpa using this

/-! ## Items -/

theorem rootAttr_end (k : Str) : OkKind {} [tk .ident k] (rootAttr k none) [] := by
  have h1 : OkKind {} [tk .ident k] (.attr noPos k .nil) [] :=
    OkKind.ofTakes (Takes.seq (Takes.capTok (t := tk .ident k) rfl) (Takes.skip (Soft.seqL (bare_end).soft))) rfl fun txt => by
      simp [build, tk, ptrOf]
  have hd : ∀ {f}, Soft {} (.sub f .decl) [tk .ident k] := by
    intro f
    refine Soft.sub ?_
    by_cases hw : k ∈ [c!"input", c!"output", c!"const", c!"val"]
    · have ho := Ok.cap (f := .declType) (Ok.alLits (ws := [c!"input", c!"output", c!"const", c!"val"]) (t := tk .ident k) (r := []) hw)
      exact Soft.seqR ho bare_end (by simp [lookahead])
    · exact Soft.seqL (bare_of_head (any_excluded (ys := [.ident]) (ws := [c!"input", c!"output", c!"const", c!"val"]) (by decide)
        (by simp [tk]) hw)).soft
  have hf : ∀ {f}, Soft {} (.sub f .func) [tk .ident k] := by
    intro f
    refine Soft.sub ?_
    by_cases hw : k = c!"def"
    · exact Soft.seqR (Ok.lit hw) bare_end (by simp [lookahead])
    · exact Soft.seqL (Soft.lit (by simpa [tk] using hw)).soft
  have ht : ∀ {f}, Soft {} (.sub f .type) [tk .ident k] := by
    intro f
    refine Soft.sub ?_
    by_cases hw : k = c!"type"
    · exact Soft.seqR (Ok.lit hw) bare_end (by simp [lookahead])
    · exact Soft.seqL (Soft.lit (by simpa [tk] using hw)).soft
  have hb : ∀ {f}, Soft {} (.sub f .block) [tk .ident k] :=
    Soft.sub (Soft.seqR (Ok.cap (Ok.tok rfl)) bare_end (by simp [lookahead]))
  exact OkKind.ofTakes (Takes.altR (bare_of_head rfl).soft (Takes.altR (Soft.seqL hd) (Takes.altR (Soft.seqL hf) (Takes.altR (Soft.seqL ht)
    (Takes.altR (Soft.seqL hb) (Takes.altL (Takes.seq (Takes.sub h1) (Takes.skip (bare_end).soft)))))))) rfl fun txt => by
      simp [build, ptrOf, rootAttr]

theorem declItem_end {d k : Str} (hd : d ∈ declWords) {kt : List (Sym × Str)} {t : Option (Node .parameterType)} (ht : OptTypePart kt t) :
    OkKind {} (tk .ident d :: tk .ident k :: toks kt) (declItem d k t none) [] := by
  have h0 : Takes (.opt (.seq (.lit c!":") (.sub .type .parameterType))) (toks kt) (capNodes .type t.toList) [] := by
    cases ht with
    | none => exact Takes.skip (Soft.seqL (bare_end).soft)
    | some h =>
      have := h.ok [] rfl
      rw [List.append_nil] at this
      exact Takes.once (Takes.seq (Takes.lit (t := tk .opColon c!":") rfl) (Takes.sub this))
  have h1 : OkKind {} (tk .ident d :: tk .ident k :: toks kt) (.decl noPos d k (ptrOf t.toList) .nil) [] :=
    OkKind.ofTakes (Takes.seq (Takes.cap (Ok.alLits (ws := declWords) hd)) (Takes.seq (Takes.capTok rfl) (Takes.seq h0
      (Takes.skip (Soft.seqL (bare_end).soft))))) rfl fun txt => by simp [build, tk, ptrOf]
  exact OkKind.ofTakes (Takes.altR (bare_of_head rfl).soft (Takes.altL (Takes.seq (Takes.sub h1) (Takes.skip (bare_end).soft))))
    rfl fun txt => by simp [build, ptrOf, declItem]

/-- The last line. -/
theorem LastLine.reads {u : Str} {m : List (Node .rootItem)} (h : LastLine u m) : ∃ ks m' st, m'.map Node.bare = m ∧ LexRun rootStack u ks st [] ∧
    Takes (.star (.sub .items .rootItem)) (toks ks) (capNodes .items m') [] ∧ quiet (toks ks) := by
  have nil : Takes (.star (.sub .items .rootItem)) [] [] [] := Takes.nil (Bare.of (by simp [NoFirst]) rfl rfl).soft
  have one : ∀ {t : Token} {ts : List Token} {x : Node .rootItem}, OkKind {} (t :: ts) x [] →
      Takes (.star (.sub .items .rootItem)) (t :: ts) (capNodes .items [x]) [] := by
    intro t ts x h
    have := Takes.cons (Takes.sub (f := .items) h) (by simp) nil
    simpa [capNodes] using this
  cases h with
  | blanks hw => exact ⟨[], [], _, rfl, run_endBlanks hw, nil, by simp [quiet, headNot]⟩
  | @attr w k v x hw hk hv =>
    obtain ⟨ks, y, st, h1, h2, h3, h4⟩ := hv.reads
    have hr := run_lastDecl (o := []) (kt := []) hk (fun _ _ => .refl _ _) (.inl rfl) h2 h3
    refine ⟨(.ident, k) :: ks, [rootAttr k y], st, by simp [bare_rootAttr, h1], ?_, ?_, by simp [quiet, headNot, tk]⟩
    · have := run_blanks hw hr (by simp)
      simpa using this
    · rcases h4 with ⟨rfl, rfl⟩ | ⟨ke, z, rfl, rfl, h5⟩
      · exact one (rootAttr_end k)
      · have := rootAttr_ok (k := k) (.some h5)
        rw [List.append_nil] at this
        exact one this
  | @decl w d k o v y x hw hd hk ho hv =>
    obtain ⟨ks, z, st, h1, h2, h3, h4⟩ := hv.reads
    obtain ⟨kt, htp, htb, htr, htr'⟩ : ∃ kt, OptTypePart kt y ∧ y.map Node.bare = y ∧
        (∀ y : Str, (∀ c ∈ y.head?, TypeEnd c) → LexRun rootStack (o ++ y) kt rootStack y) ∧ (o = [] ∨ ∃ u, o = ' ' :: u) := by
      cases ho with
      | none => exact ⟨_, .none, rfl, fun y _ => .refl _ _, .inl rfl⟩
      | @some t x h =>
        obtain ⟨ks, h1, h2⟩ := h.runs
        refine ⟨_, .some h1, by simp [h.bare], fun y hy => ?_, .inr ⟨_, rfl⟩⟩
        have := (run_op (w := c!":") (o := .opColon) (by decide) (t ++ y)).trans (run_blank (h2 y hy) ((h2 y hy).ne h1.ne))
        simpa using this
    have hr := run_lastDecl hk htr htr' h2 h3
    have hr' := (run_grammar (d := d) (by revert d; decide) (k ++ o ++ v)).trans (run_blank hr (hr.ne (by simp)))
    refine ⟨(.ident, d) :: (.ident, k) :: (kt ++ ks), [declItem d k y z], st, by simp [bare_declItem, h1, htb], ?_, ?_, by simp [quiet, headNot, tk]⟩
    · have := run_blanks hw hr' (by simp)
      simpa using this
    · rcases h4 with ⟨rfl, rfl⟩ | ⟨ke, z, rfl, rfl, h5⟩
      · rw [List.append_nil]
        exact one (declItem_end hd htp)
      · have := declItem_ok (k := k) hd htp (.some h5)
        rw [List.append_nil, ← toks_append] at this
        exact one this

/-! ## The theorem -/

/-- **C77**: the last line needs no line end, and without one it can have any expression. -/
theorem C77_last_partial {s u : Str} {l m : List (Node .rootItem)} (h : Doc LineExpr s l) (hu : LastLine u m) :
    docOf (s ++ u) = some (sliceOf (l ++ m)) := by
  obtain ⟨ks, l', rfl, h2, h3, -⟩ := h.reads
  obtain ⟨ku, m', st, rfl, h4, h5, h6⟩ := hu.reads
  have h2 := h2 u
  rw [show rootKit.endText = [] from rfl, show rootKit.endKinds = [] from rfl, List.append_nil, List.append_nil] at h2
  have hk := (h2.trans h4).kinds .start .start
  rw [← lex_eq, show kinds (lexAll st .start []) = some [] from rfl, Option.map_some, List.append_nil] at hk
  rw [docOf_kinds hk, docKinds]
  obtain ⟨txt, ht⟩ := h3 _ _ _ h5 h6 (by simp [Kit.fits, rootKit])
  rw [← toks_append] at ht
  have : parseTokens {} (toks (ks ++ ku)) = some (sliceOf (l' ++ m')) := by
    unfold Ok at ht
    rw [parseTokens, ht, show capNodes .items l' ++ capNodes .items m' = capNodes .items (l' ++ m') by simp [capNodes]]
    simp
  unfold toks tk at this
  rw [this, Option.map_some, bare_sliceOf, List.map_append]

/-- A last line with the beginning of a heredoc, which is none without the line end (compare `C77_heredoc`). -/
example : ∃ x y, ReadsExpr c!"a + 1" x ∧ ReadsExpr c!"1 <<A" y ∧
    docOf (c!"k = a + 1\n" ++ c!"  val n : t = 1 <<A \t") = some (sliceOf [rootAttr c!"k" (some x), declItem c!"val" c!"n" (some (nameType [c!"t"])) (some y)]) ∧
    docOf (c!"k = a + 1\n" ++ c!"flag") = some (sliceOf [rootAttr c!"k" (some x), rootAttr c!"flag" none]) ∧
    docOf (c!"k = a + 1\n" ++ c!"\t ") = some (sliceOf [rootAttr c!"k" (some x)]) := by
  obtain ⟨x, hx⟩ := (isExpr_iff c!"a + 1").1 (by kernel_rfl)
  obtain ⟨y, hy⟩ := (isExpr_iff c!"1 <<A").1 (by kernel_rfl)
  have h : Doc LineExpr c!"k = a + 1\n" [rootAttr c!"k" (some x)] := Doc.attr (w := []) (k := c!"k") (v := c!" = a + 1") (by simp [Blanks])
    (.of _ _ (by decide) (by decide) (by decide)) (.some (.line (.of hx (.of_text (by decide) (by decide) (by decide))) .line)) .nil
  refine ⟨x, y, hx, hy, C77_last_partial h (LastLine.decl (w := c!"  ") (d := c!"val") (k := c!"n") (o := c!" : t") (v := c!" = 1 <<A \t")
    (by unfold Blanks; decide) (by decide) (.of _ _ (by decide) (by decide) (by decide))
    (.some (.name (ws := [c!"t"]) (by simp) (by simpa using .of _ _ (by decide) (by decide) (by decide))))
    (.some (b := c!" \t") hy (.inr ⟨_, rfl, by unfold Blanks; decide⟩) fun _ => by unfold NoBlankEnd; decide)),
    C77_last_partial h (LastLine.attr (w := []) (k := c!"flag") (v := []) (by simp [Blanks]) (.of _ _ (by decide) (by decide) (by decide)) (.none (.inl rfl))),
    C77_last_partial h (.blanks (by unfold Blanks; decide))⟩

end Verif.Etx
