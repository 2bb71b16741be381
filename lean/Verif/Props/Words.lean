import Verif.Props.Lines

/-! # Property C79: words of the language as names -/

set_option linter.unusedSimpArgs false

namespace Verif.Etx
open Gram Re

variable [FloatValue]

/-! ## What is claimed -/

/-- The places of a name `n` and the documents; `x` is what the expression `e` is read as, `m` is another name. -/
inductive NamePlace (n m e : Str) (x : Node .expr) : Str → List (Node .rootItem) → Prop
  /-- the key of an attribute -/
  | attr : NamePlace n m e x (n ++ c!" = " ++ e ++ c!"\n") [rootAttr n (some x)]
  /-- what is declared -/
  | decl {d : Str} : d ∈ declWords → NamePlace n m e x (d ++ c!" " ++ n ++ c!" = " ++ e ++ c!"\n") [declItem d n none (some x)]
  /-- the name of a block without labels -/
  | block : NamePlace n m e x (n ++ c!" {\n}\n") [blockEntry n [] []]
  /-- the name of a block with a label in quotes -/
  | quoted : NamePlace n m e x (n ++ c!" \"" ++ m ++ c!"\" {\n}\n") [blockEntry n [m] []]
  /-- a label -/
  | label : m ∉ declWords → NamePlace n m e x (m ++ c!" " ++ n ++ c!" {\n}\n") [blockEntry m [n] []]
  /-- a key in a block -/
  | key : NamePlace n m e x (c!"b {\n" ++ n ++ c!" = " ++ e ++ c!"\n}\n") [blockEntry c!"b" [] [bodyAttr n (some x)]]
  /-- the name of a block in a block, with a label -/
  | inner : NamePlace n m e x (c!"b {\n" ++ n ++ c!" " ++ m ++ c!" {\n}\n}\n") [blockEntry c!"b" [] [nestedItem n [m] []]]
  /-- the name of a function -/
  | func : NamePlace n m e x (c!"def " ++ n ++ c!"() {\n}\n") [funcItem n [] [] []]
  /-- a parameter -/
  | param : NamePlace n m e x (c!"def f(" ++ n ++ c!") {\n}\n") [funcItem c!"f" [param n none] [] []]
  /-- what is declared in a function -/
  | inFunc {d : Str} : d ∈ [c!"const", c!"val"] →
      NamePlace n m e x (c!"def f() {\n" ++ d ++ c!" " ++ n ++ c!" = " ++ e ++ c!"\n}\n") [funcItem c!"f" [] [] [localItem d n none (some x)]]
  /-- an enumeration -/
  | enum : NamePlace n m e x (c!"type " ++ n ++ c!" enum {\n" ++ m ++ c!" : " ++ e ++ c!"\n}\n") [enumEntry n [enumItem m x]]
  /-- in an enumeration -/
  | item : NamePlace n m e x (c!"type t enum {\n" ++ n ++ c!" : " ++ e ++ c!"\n}\n") [enumEntry c!"t" [enumItem n x]]
  /-- a field and its type -/
  | field : NamePlace n m e x (c!"type t object {\n" ++ n ++ c!" : " ++ m ++ c!"\n}\n") [objectEntry c!"t" [objectItem n (nameType [m])]]
  | type : NamePlace n m e x (c!"type t object {\n" ++ m ++ c!" : " ++ n ++ c!"\n}\n") [objectEntry c!"t" [objectItem m (nameType [n])]]
  /-- what a function returns -/
  | returns : NamePlace n m e x (c!"def f() " ++ n ++ c!" {\n}\n") [funcItem c!"f" [] [nameType [n]] []]

/-- **C79** in full: every identifier is read as a name where there has to be one, and as the name of a block with labels. -/
def C79_full : Prop := ∀ n m : Str, IsIdent n → WordText m →
  (∀ (e : Str) (x : Node .expr), LineExpr e x → ∀ s l, NamePlace n m e x s l → docOf s = some (sliceOf l)) ∧
  docOf (n ++ c!" " ++ m ++ c!" {\n}\n") = some (sliceOf [blockEntry n [m] []])

/-! ## Proofs -/

omit [FloatValue] in
theorem WordText.plain {w : Str} (h : WordText w) : ∀ c ∈ w, isSpecial c = false := by
  have hw : ∀ c, isWord c = true → isSpecial c = false := by
    intro c hc
    by_contra h
    rw [Bool.not_eq_false] at h
    simp only [isSpecial, Bool.or_eq_true, decide_eq_true_eq] at h
    rcases h with (((rfl | rfl) | rfl) | rfl) | rfl <;> exact absurd hc (by decide)
  intro c hc
  cases h.ident with
  | mk d a parts hd ha hp =>
    have hm : c = d ∨ c ∈ a ∨ c ∈ dashed parts := by simpa using hc
    rcases hm with rfl | hm | hm
    · exact hw _ (alpha_word hd)
    · exact hw _ (ha c hm)
    · simp only [dashed, List.mem_flatten, List.mem_map] at hm
      obtain ⟨_, ⟨p, hp', rfl⟩, hm⟩ := hm
      rcases List.mem_cons.1 hm with rfl | hm
      · decide
      · exact hw _ ((hp p hp').2 c hm)

omit [FloatValue] in
theorem WordText.ne {w : Str} (h : WordText w) : w ≠ [] := by
  obtain ⟨c, u, e, -⟩ := h.start
  rw [e]
  simp

/-- **C79**: a word of the language is a name where there has to be one, unless it is a keyword or begins with one and a dash. -/
theorem C79_names_partial {n m e : Str} {x : Node .expr} (hn : WordText n) (hm : WordText m) (he : LineExpr e x) {s : Str}
    {l : List (Node .rootItem)} (h : NamePlace n m e x s l) : docOf s = some (sliceOf l) := by
  have b0 : Blanks [] := by simp [Blanks]
  have wb : WordText c!"b" := .of 'b' [] (by decide) (by decide) (by decide)
  have wf : WordText c!"f" := .of 'f' [] (by decide) (by decide) (by decide)
  have wt : WordText c!"t" := .of 't' [] (by decide) (by decide) (by decide)
  have s0 : ∀ n, StartsBlock n [] := fun n => ⟨fun _ l h => by simp at h, fun _ l _ => by simp⟩
  have tn : ∀ {n}, WordText n → TypeText n (nameType [n]) := fun {n} hn => .name (ws := [n]) (by simp) (by simpa using hn)
  cases h with
  | attr =>
    have := C77_doc_partial (Doc.attr b0 hn (.some (.line he .line)) .nil)
    simpa using this
  | decl hd =>
    have := C77_doc_partial (Doc.decl b0 hd hn .none (.some (.line he .line)) .nil)
    simpa using this
  | block =>
    have := C77_doc_partial (Doc.block (ls := []) b0 hn (by simp) (s0 _) .line (.nil b0) .line .nil)
    simpa [spaced] using this
  | quoted =>
    obtain ⟨c, u, e, hc⟩ := hm.start
    have := C77_doc_partial (Doc.block (ls := [(c!"\"" ++ m ++ c!"\"", m)]) b0 hn
      (by
        intro p hp
        simp only [List.mem_cons, List.not_mem_nil, or_false] at hp
        subst hp
        exact .quoted (q := '"') (by decide) (by rw [e]; simp) hm.plain)
      ⟨fun _ l hl hw => by
        obtain ⟨c, u, e, hc⟩ := hw.start
        simp only [List.map_cons, List.map_nil, List.head?_cons, Option.mem_def, Option.some.injEq] at hl
        rw [← hl] at e
        simp only [List.cons_append, List.nil_append, List.cons.injEq] at e
        rw [← e.1] at hc
        exact absurd hc (by decide), fun _ l _ => by simp⟩ .line (.nil b0) .line .nil)
    simpa [spaced] using this
  | label h =>
    have := C77_doc_partial (Doc.block (n := m) (ls := [(n, n)]) b0 hm (by simpa using LabelText.name hn) ⟨fun hd => absurd hd h, fun _ l _ => by simp⟩
      .line (.nil b0) .line .nil)
    simpa [spaced] using this
  | key =>
    have := C77_doc_partial (Doc.block (ls := []) b0 wb (by simp) (s0 _) .line (.attr b0 hn (.some (.line he .line)) (.nil b0)) .line .nil)
    simpa [spaced] using this
  | inner =>
    have := C77_doc_partial (Doc.block (ls := []) b0 wb (by simp) (s0 _) .line (.block (ls := [(m, m)]) b0 hn (by simpa using LabelText.name hm)
      .line (.nil b0) .line (.nil b0)) .line .nil)
    simpa [spaced] using this
  | func =>
    have := C77_doc_partial (Doc.func (ps := []) b0 hn (by simp) .none (.line (by simp)) (.nil b0) .line .nil)
    simpa [commas, joinBy] using this
  | param =>
    have := C77_doc_partial (Doc.func (ps := [(n, param n none)]) b0 wf (by
      intro p hp
      simp only [List.mem_cons, List.not_mem_nil, or_false] at hp
      subst hp
      simpa using ParamText.mk hn .none) .none (.line (by simp)) (.nil b0) .line .nil)
    simpa [commas, joinBy] using this
  | inFunc hd =>
    have := C77_doc_partial (Doc.func (ps := []) b0 wf (by simp) .none (.line (by simp [localItem, stmtKit]))
      (.decl b0 hd hn .none (.some (.line he .line)) (.nil b0)) .line .nil)
    simpa [commas, joinBy] using this
  | enum =>
    have := C77_doc_partial (Doc.enum b0 hn (by simp) (.line (by simp [enumItem, enumKit, hm.ne, hn.ne])) (.item b0 hm (.line he .line) (.nil b0)) .line .nil)
    simpa using this
  | item =>
    have := C77_doc_partial (Doc.enum b0 wt (by simp) (.line (by simp [enumItem, enumKit, hm.ne, hn.ne])) (.item b0 hn (.line he .line) (.nil b0)) .line .nil)
    simpa using this
  | field =>
    have := C77_doc_partial (Doc.object b0 wt (by simp) (.line (by simp [objectItem, objectKit, hm.ne, hn.ne])) (.item b0 hn (tn hm) .line (.nil b0)) .line .nil)
    simpa using this
  | type =>
    have := C77_doc_partial (Doc.object b0 wt (by simp) (.line (by simp [objectItem, objectKit, hm.ne, hn.ne])) (.item b0 hm (tn hn) .line (.nil b0)) .line .nil)
    simpa using this
  | returns =>
    have := C77_doc_partial (Doc.func (ps := []) b0 wf (by simp) (.one (ws := [n]) (by simp) (by simpa using hn)) (.line (by simp)) (.nil b0) .line .nil)
    simpa [commas, joinBy] using this

/-- The words of the language, as the keys of attributes with a number. -/
example : ∀ w ∈ [c!"input", c!"output", c!"const", c!"val", c!"def", c!"type", c!"enum", c!"object", c!"null", c!"true", c!"false", c!"default"],
    ∃ x, docOf (w ++ c!" = f(1)\n") = some (sliceOf [rootAttr w (some x)]) := by
  intro w hw
  have wt : WordText w := by
    simp only [List.mem_cons, List.not_mem_nil, or_false] at hw
    rcases hw with rfl | rfl | rfl | rfl | rfl | rfl | rfl | rfl | rfl | rfl | rfl | rfl <;> exact .of _ _ (by decide) (by decide) (by decide)
  obtain ⟨x, hx⟩ := (isExpr_iff c!"f(1)").1 (by kernel_rfl)
  have := C79_names_partial wt wt (.of hx (.of_text (by decide) (by decide) (by decide))) .attr
  exact ⟨x, by simpa using this⟩

/-- A document that is not read to the end. -/
theorem parseTokens_rest {ts : List Token} {l : List Capture} {t : Token} {r : List Token} (h : Takes (.star (.sub .items .rootItem)) ts l (t :: r)) :
    parseTokens {} ts = none := by
  obtain ⟨txt, h⟩ := h
  unfold Ok at h
  rw [parseTokens, h]

/-- **C79**: a keyword can not be the first word of a line: wherever it is, the document is rejected.  (For `else` this is said of the
first line: after an `if` without `else` it can be on the next line.) -/
theorem C79_keyword {s : Str} {l : List (Node .rootItem)} (h : Doc LineExpr s l) {w : Str} (hw : w ∈ keywords.map (·.1))
    (he : w = c!"else" → s = []) {b y : Str} (hb : Blanks b) (hy : ∀ c ∈ y.head?, isWord c = false) : docOf (s ++ b ++ w ++ y) = none := by
  obtain ⟨⟨w, k⟩, hk, rfl⟩ := List.mem_map.1 hw
  have hk' : k ∈ [Sym.if_, .else_, .switch_, .case_] := by
    simp only [keywords, List.mem_cons, List.not_mem_nil, or_false, Prod.mk.injEq] at hk
    rcases hk with ⟨-, rfl⟩ | ⟨-, rfl⟩ | ⟨-, rfl⟩ | ⟨-, rfl⟩ <;> decide
  have hw' : w ∉ grammarWords := by
    simp only [keywords, List.mem_cons, List.not_mem_nil, or_false, Prod.mk.injEq] at hk
    rcases hk with ⟨rfl, -⟩ | ⟨rfl, -⟩ | ⟨rfl, -⟩ | ⟨rfl, -⟩ <;> decide
  have soft : ∀ r, Soft {} (.sub .items .rootItem) (tk k w :: r) := fun r => (bare_of_head (any_excluded (ys := [.if_, .else_, .switch_, .case_])
    (ws := grammarWords) (by decide +kernel) (by simpa [tk] using hk') hw')).soft
  obtain ⟨ks, l', h1, h2⟩ : ∃ ks l', Runs s ks ∧ ∀ r, Takes (.star (.sub .items .rootItem)) (toks ks ++ tk k w :: r) (capNodes .items l')
      (tk k w :: r) := by
    by_cases hs : k = .else_
    · have hwe : w = c!"else" := by
        simp only [keywords, List.mem_cons, List.not_mem_nil, or_false, Prod.mk.injEq] at hk
        rcases hk with ⟨rfl, h⟩ | ⟨rfl, h⟩ | ⟨rfl, h⟩ | ⟨rfl, h⟩
        all_goals first | rfl | (rw [h] at hs; cases hs)
      refine ⟨[], [], fun b => by rw [he hwe]; exact .refl _ _, fun r => Takes.nil (soft r)⟩
    · obtain ⟨ks, l', -, h1, h2, -⟩ := h.reads
      refine ⟨ks, l', by simpa [RunsTo, Kit.endText, Kit.endKinds, rootKit] using h1, fun r => h2.takes (tk k w :: r) (soft r) ?_ (by simp [Kit.fits, rootKit])⟩
      refine ⟨?_, ?_, ?_⟩ <;> simp only [headNot, Bool.not_eq_true', decide_eq_false_iff_not] <;> rintro rfl
      · revert hk'; decide
      · revert hk'; decide
      · exact hs rfl
  have h3 := (C42_keywords rootStack w k y .root hk hy).run (by rintro rfl; revert hk'; decide)
  have h4 := (h1 (b ++ (w ++ y))).trans (run_blanks hb h3 (by simp))
  have h5 := h4.kinds .start .start
  rw [← lex_eq] at h5
  have e : s ++ b ++ w ++ y = s ++ (b ++ (w ++ y)) := by simp
  rw [e]
  cases h6 : kinds (lexAll rootStack .start y) with
  | none =>
    rw [h6, Option.map_none, kinds, Option.map_eq_none_iff] at h5
    rw [docOf_eq, parseTree, h5]
    rfl
  | some ky =>
    rw [h6, Option.map_some] at h5
    rw [docOf_kinds h5, docKinds, Option.map_eq_none_iff]
    have := parseTokens_rest (h2 (toks ky))
    unfold toks tk at this
    simpa using this

/-- `else` on the next line, after a document of lines. -/
example : ∃ l, Doc LineExpr c!"k = if (n) {n}\n" l ∧ (docOf (c!"k = if (n) {n}\n" ++ c!"else {n}\n")).isSome = true := by
  obtain ⟨x, h⟩ := (isExpr_iff c!"n").1 (by kernel_rfl)
  refine ⟨_, Doc.attr (w := []) (k := c!"k") (by simp [Blanks]) (.of 'k' [] (by decide) (by decide) (by decide))
    (.some (.only (.mk h h (.none _)) (.line (by simp)))) .nil, ?_⟩
  rw [docOf_eq]
  kernel_rfl

/-- After an attribute, with a blank in front. -/
example : docOf c!"k\n switch = 1\n" = none := by
  have := C79_keyword (Doc.attr (w := []) (k := c!"k") (by simp [Blanks]) (.of 'k' [] (by decide) (by decide) (by decide)) (.none .line) .nil)
    (w := c!"switch") (by decide) (by simp) (b := c!" ") (y := c!" = 1\n") (by unfold Blanks; decide) (by decide)
  simpa using this

/-- **C79**: blocks with the name of a kind of declarations and a label that is a name are rejected. -/
theorem C79_decl_block {d m : Str} (hd : d ∈ declWords) (hm : WordText m) : docOf (d ++ c!" " ++ m ++ c!" {\n}\n") = none := by
  have h1 : Runs (d ++ c!" " ++ m ++ c!" {\n}\n") [(.ident, d), (.ident, m), (.blockStart, c!"{"), (.lf, c!"\n"), (.blockEnd, c!"}"), (.lf, c!"\n")] := by
    have := Runs.grammar (d := d) (by revert d; decide) (Runs.name hm (runs_open.append (runs_lf.append ((runs_close (w := []) (by simp [Blanks])).append runs_lf))) (by simp)) (by simp)
    simpa using this
  have h2 := h1 []
  rw [List.append_nil] at h2
  have h2 := h2.kinds .start .start
  rw [← lex_eq, show kinds (lexAll [(.root, [])] .start []) = some [] from rfl, Option.map_some, List.append_nil] at h2
  rw [docOf_kinds h2, docKinds, Option.map_eq_none_iff]
  have h3 : ∀ r, OkKind {} (tk .ident d :: tk .ident m :: tk .blockStart c!"{" :: r) (declItem d m none none) (tk .blockStart c!"{" :: r) := by
    intro r
    have h4 : OkKind {} (tk .ident d :: tk .ident m :: tk .blockStart c!"{" :: r) (.decl noPos d m .nil .nil) (tk .blockStart c!"{" :: r) :=
      OkKind.ofTakes (Takes.seq (Takes.cap (Ok.alLits (ws := declWords) hd)) (Takes.seq (Takes.capTok rfl) (Takes.seq
        (Takes.skip (Soft.seqL (Soft.lit (by simp [tk])).soft)) (Takes.skip (Soft.seqL (Soft.lit (by simp [tk])).soft))))) rfl
        fun txt => by simp [build, tk, ptrOf]
    exact OkKind.ofTakes (Takes.altR (bare_of_head rfl).soft (Takes.altL (Takes.seq (Takes.sub h4) (Takes.noLf (by rfl))))) rfl fun txt => by
      simp [build, ptrOf, declItem]
  have := parseTokens_rest (Takes.cons (Takes.sub (f := .items) (h3 [lfTok, tk .blockEnd c!"}", lfTok])) (by simp) (Takes.nil
    (bare_of_head (by decide +kernel)).soft))
  simpa [tk, lfTok] using this

example : docOf c!"val type {\n}\n" = none :=
  C79_decl_block (d := c!"val") (m := c!"type") (by decide) (.of 't' c!"ype" (by decide) (by decide) (by decide))

/-- **C79** is false in full, because of keywords and because of declarations. -/
theorem C79_full_false : ¬ C79_full := by
  intro h
  have hi : IsIdent c!"input" := by
    have := IsIdent.mk 'i' c!"nput" [] (by decide) (by decide) (by simp)
    simpa [dashed] using this
  have := (h c!"input" c!"m" hi (.of 'm' [] (by decide) (by decide) (by decide))).2
  rw [C79_decl_block (by decide) (.of 'm' [] (by decide) (by decide) (by decide))] at this
  cases this

end Verif.Etx
