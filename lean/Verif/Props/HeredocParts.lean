import Verif.Props.Compose

/-! # Property C76: heredocs with expressions in them -/

set_option linter.unusedSimpArgs false

namespace Verif.Etx
open Gram Re

variable [FloatValue]

/-- What the body of a heredoc is made of. -/
inductive HPart where
  /-- text without line ends -/
  | body (t : Str)
  /-- the end of a line -/
  | eol
  /-- `$${` or `%%{` -/
  | literal (c : Char)
  /-- `${e}`, where `e` is read as `x` -/
  | expr (e : Str) (x : Node .expr)
  /-- `%{e}`, where `e` is read as `x` -/
  | directive (e : Str) (x : Node .expr)

namespace HPart

/-- The text of a part. -/
def src : HPart → Str
  | body t => t
  | eol => c!"\n"
  | literal c => [c, c, '{']
  | expr e _ => c!"${" ++ e ++ c!"}"
  | directive e _ => c!"%{" ++ e ++ c!"}"

/-- The text of the expression. -/
def expr? : HPart → Option Str
  | expr e _ | directive e _ => some e
  | _ => none

/-- What is allowed in front of `rest`: text goes up to the end of the line or the next `$` or `%`. -/
def ok (rest : Str) : HPart → Prop
  | body t => t ≠ [] ∧ (∀ c ∈ t, c ≠ '\n' ∧ c ≠ '$' ∧ c ≠ '%') ∧ ∃ c ∈ rest.head?, c = '\n' ∨ c = '$' ∨ c = '%'
  | eol => True
  | literal c => c = '$' ∨ c = '%'
  | expr e x | directive e x => ReadsExpr e x

end HPart

/-- The text of some parts. -/
def hsrcs (ps : List HPart) : Str := (ps.map HPart.src).flatten

/-- All parts are allowed where they are, in a heredoc with the delimiter `d`. -/
def partsOk (d : Str) : List HPart → Prop
  | [] => True
  | p :: ps => p.ok (hsrcs ps ++ d) ∧ partsOk d ps

/-- No line begins with `d`; `start` is whether the first part is at the beginning of a line. -/
def linesNot (d : Str) : Bool → List HPart → Prop
  | _, [] => True
  | start, .body t :: ps => (start = true → ¬ d <+: t) ∧ linesNot d false ps
  | _, .eol :: ps => linesNot d true ps
  | _, _ :: ps => linesNot d false ps

/-- No text begins with `d`: not on the beginning of a line, and not after `${e}`, `%{e}`, `$${` and `%%{`. -/
def textsNot (d : Str) (ps : List HPart) : Prop := ∀ t, .body t ∈ ps → ¬ d <+: t

/-- A fragment that is text. -/
def textFragment (t : Str) : Node .heredocFragment := .heredocFragment noPos .nil .nil t

/-- The fragment for a text, if there is any. -/
def fragmentIf (t : Str) : List (Node .heredocFragment) := if t = [] then [] else [textFragment t]

/-- The fragments: each expression is one, and the text between two expressions is one. -/
def hfrags : Str → List HPart → List (Node .heredocFragment)
  | t, [] => fragmentIf t
  | t, .expr _ x :: ps => fragmentIf t ++ .heredocFragment noPos (.ref x) .nil [] :: hfrags [] ps
  | t, .directive _ x :: ps => fragmentIf t ++ .heredocFragment noPos .nil (.ref x) [] :: hfrags [] ps
  | t, p :: ps => hfrags (t ++ p.src) ps

/-- The text of a heredoc. -/
def heredocText (tabs : Bool) (d : Str) (ps : List HPart) : Str := heredocToken tabs d ++ hsrcs ps ++ d

/-- A heredoc as an expression. -/
def heredocExpr (tabs : Bool) (d : Str) (l : List (Node .heredocFragment)) : Node .expr :=
  unaryExpr (justPrimary (.primary noPos .nil (.ref (.value noPos false .nil .nil .nil (.ref (.heredoc noPos tabs d (sliceOf l))) .nil .nil))
    .nil .nilSlice .nil))

/-- **C76**, in full: a heredoc made of lines none of which begins with the delimiter is read as its parts. -/
def C76_full : Prop := ∀ (k d : Str) (tabs : Bool) (ps : List HPart), NameText k → WordPart d → partsOk d (ps ++ [.eol]) →
  linesNot d true ps → (∀ p ∈ ps, ∀ e ∈ p.expr?, NoBrace e) →
  docOf (k ++ c!" = " ++ heredocText tabs d (ps ++ [.eol]) ++ c!"\n") = some (keyDoc k (heredocExpr tabs d (hfrags [] (ps ++ [.eol]))))

/-! ## Tokens -/

omit [FloatValue] in
theorem word_ne {d : Str} (hd : WordPart d) {c : Char} (hc : isWord c = false) (s : Str) : ¬ d <+: c :: s := by
  obtain ⟨d0, d', rfl⟩ := List.exists_cons_of_ne_nil hd.1
  intro h
  rw [List.cons_prefix_cons] at h
  have := hd.2 d0 (by simp)
  rw [h.1, hc] at this
  cases this

omit [FloatValue] in
theorem lexStep_heredoc_dollar {d : Str} (hd : WordPart d) (c : Char) (hc : c = '$' ∨ c = '%') (y : Str) (st : Stack) :
    ∃ r, r.sym = (if c = '$' then .expr else .directive) ∧
      lexStep ((.heredoc, d) :: st) (c :: '{' :: y) = some (r, ⟨[c, '{'], none, y⟩, (.stringExpr, []) :: (.heredoc, d) :: st) := by
  refine ⟨rule (if c = '$' then .expr else .directive) (lit [c, '{']) (.push .stringExpr), rfl, ?_⟩
  rw [lexStep_of (r := rule (if c = '$' then .expr else .directive) (lit [c, '{']) (.push .stringExpr))
    (m := ⟨[c, '{'], none, y⟩) ?_ (by simp)]
  · rfl
  have hn : reNonExpr.first (c :: '{' :: y) = none := by
    rw [Re.first_none]
    rcases hc with rfl | rfl <;>
    · simp only [reNonExpr, Re.run]
      rw [run_lit_fail _ _ _ (by simp), run_lit_fail _ _ _ (by simp)]
      rfl
  rw [firstRule_notEnd (word_ne hd (by rcases hc with rfl | rfl <;> decide) _), firstRule_cons_fail rfl (by
    rcases hc with rfl | rfl <;> rfl), firstRule_miss (by exact hn)]
  rcases hc with rfl | rfl
  · apply firstRule_hit
    have := run_lit c!"${" none y
    simp only [List.cons_append, List.nil_append] at this
    simp [rule, Re.first, this]
  · rw [firstRule_cons_fail rfl (by rfl)]
    apply firstRule_hit
    have := run_lit c!"%{" none y
    simp only [List.cons_append, List.nil_append] at this
    simp [rule, Re.first, this]

omit [FloatValue] in
theorem lexStep_heredoc_nonExpr {d : Str} (hd : WordPart d) (c : Char) (hc : c = '$' ∨ c = '%') (y : Str) (st : Stack) :
    ∃ r cap, r.sym = .nonExpr ∧
      lexStep ((.heredoc, d) :: st) (c :: c :: '{' :: y) = some (r, ⟨[c, c, '{'], cap, y⟩, (.heredoc, d) :: st) := by
  refine ⟨rule .nonExpr reNonExpr, some [c, c, '{'], rfl, ?_⟩
  rw [lexStep_of (r := rule .nonExpr reNonExpr) (m := ⟨[c, c, '{'], some [c, c, '{'], y⟩) ?_ (by simp)]
  · rfl
  rw [firstRule_notEnd (word_ne hd (by rcases hc with rfl | rfl <;> decide) _), firstRule_cons_fail rfl (by
    rcases hc with rfl | rfl <;> rfl)]
  apply firstRule_hit
  have hl : ∀ w, ((Re.lit w).run none (w ++ y)).head? = some ⟨w, none, y⟩ := by intro w; rw [run_lit]; rfl
  rcases hc with rfl | rfl
  · exact head_grp (head_alt_left (hl c!"$${"))
  · refine head_grp (m := ⟨c!"%%{", none, y⟩) ?_
    rw [head_alt_right]
    · exact hl c!"%%{"
    · exact run_lit_fail _ _ _ (by simp)

omit [FloatValue] in
theorem run_heredoc_body {d : Str} {t rest : Str} (ht : t ≠ []) (hb : ∀ c ∈ t, c ≠ '\n' ∧ c ≠ '$' ∧ c ≠ '%')
    (hr : ∀ c ∈ rest.head?, c = '\n' ∨ c = '$' ∨ c = '%') (hd : WordPart d) (hn : ¬ d <+: t) (st : Stack) :
    LexRun ((.heredoc, d) :: st) (t ++ rest) [(.body, t)] ((.heredoc, d) :: st) rest := by
  obtain ⟨c, t, rfl⟩ := List.exists_cons_of_ne_nil ht
  have hbody : ∀ c' ∈ c :: t, isBody c' = true := fun c' h => by simp [isBody, hb c' h]
  have hstop := takeWhile_stop (p := isBody) (l := t) (r := rest) (fun a ha => hbody a (by simp [ha])) (by
    intro a ha
    rcases hr a ha with rfl | rfl | rfl <;> decide)
  have hnp : ¬ d <+: c :: (t ++ rest) := by
    intro hp
    rw [← List.cons_append] at hp
    rcases List.prefix_or_prefix_of_prefix hp (List.prefix_append (c :: t) _) with h | h
    · exact hn h
    · obtain ⟨u, hu⟩ := h
      cases u with
      | nil =>
        simp only [List.append_nil] at hu
        exact hn (hu ▸ List.prefix_refl _)
      | cons e u =>
        rw [← hu, List.prefix_append_right_inj] at hp
        have he := hd.2 e (by rw [← hu]; simp)
        cases rest with
        | nil => simp at hp
        | cons a rest =>
          rw [List.cons_prefix_cons] at hp
          rw [hp.1] at he
          rcases hr a rfl with rfl | rfl | rfl <;> revert he <;> decide
  have := lexStep_of (below := st) (firstRule_body (d := d) hnp (hbody c (by simp))) (by simp)
  rw [hstop.1, hstop.2] at this
  exact LexRun.one this (by simp [rule])

/-! ## Parts -/

/-- The token of a text. -/
def HPart.kind : HPart → Option (Sym × Str)
  | body t => some (.body, t)
  | eol => some (.eol, c!"\n")
  | literal c => some (.nonExpr, [c, c, '{'])
  | _ => none

/-- The tokens for text. -/
def bodySyms : List Sym := [.body, .eol, .nonExpr]

/-- A fragment of text. -/
theorem textFragment_ok {k : Sym × Str} {pre : List (Sym × Str)} (h : ∀ p ∈ k :: pre, p.1 ∈ bodySyms) {s : List Token}
    (hs : ∀ t ∈ s.head?, t.sym ∉ bodySyms) : OkKind {} (toks (k :: pre) ++ s) (textFragment (texts (k :: pre))) s := by
  have one : ∀ (k : Sym × Str), k.1 ∈ bodySyms → ∀ u, Takes (.cap .text (al [tok .body, tok .eol, tok .nonExpr])) (tk k.1 k.2 :: u)
      [.toks .text [k.2]] u := by
    intro k hk u
    exact Takes.cap (Ok.alToks (ys := bodySyms) (t := tk k.1 k.2) hk)
  have many : ∀ pre : List (Sym × Str), (∀ p ∈ pre, p.1 ∈ bodySyms) → Takes (.star (.cap .text (al [tok .body, tok .eol, tok .nonExpr])))
      (toks pre ++ s) (capStrs .text (pre.map (·.2))) s := by
    intro pre
    induction pre with
    | nil => exact fun _ => Takes.nil (Soft.cap (Bare.alToks (ys := bodySyms) (by decide) hs))
    | cons k pre ih =>
      intro h
      have := Takes.cons (one k (h k (by simp)) (toks pre ++ s)) (by simp) (ih fun p hp => h p (by simp [hp]))
      simpa [capStrs] using this
  have hk := h k (by simp)
  have hb : ∀ y ∈ bodySyms, y ≠ .expr ∧ y ≠ .directive := by decide
  refine OkKind.ofTakes (Takes.altR (Soft.seqL (Soft.tok ?_).soft) (Takes.altR (Soft.seqL (Soft.tok ?_).soft) (Takes.plus (one k hk
    (toks pre ++ s)) (many pre fun p hp => h p (by simp [hp]))))) rfl fun txt => ?_
  · rintro t ⟨⟩
    exact (hb _ hk).1
  · rintro t ⟨⟩
    exact (hb _ hk).2
  · simp [build, textFragment, ptrOf, texts]

theorem hparts_read {d : Str} (hd : WordPart d) {ps : List HPart} (h : partsOk d ps) (hn : textsNot d ps)
    (hb : ∀ p ∈ ps, ∀ e ∈ p.expr?, NoBrace e) : ∃ ks : List (Sym × Str),
      (∀ st z, LexRun ((.heredoc, d) :: st) (hsrcs ps ++ (d ++ z)) ks ((.heredoc, d) :: st) (d ++ z)) ∧
      ∀ pre : List (Sym × Str), (∀ p ∈ pre, p.1 ∈ bodySyms ∧ p.2 ≠ []) → ∃ l : List (Node .heredocFragment),
        l.map Node.bare = hfrags (texts pre) ps ∧
        ∀ r, Takes (.star (.sub .fragments .heredocFragment)) (toks pre ++ (toks ks ++ tk .heredocEnd d :: r))
          (capNodes .fragments l) (tk .heredocEnd d :: r) := by
  have hstart : ∀ {r : List Token}, Soft {} (.sub .fragments .heredocFragment) (tk .heredocEnd d :: r) := fun {r} =>
    (bare_of_head (any_excluded (ys := [.heredocEnd]) (ws := []) (by decide) (by simp [tk]) (by simp))).soft
  -- text in front of something else
  have flushed : ∀ (pre : List (Sym × Str)), (∀ p ∈ pre, p.1 ∈ bodySyms ∧ p.2 ≠ []) → ∀ (l : List (Node .heredocFragment))
      (s : List Token) (r : List Token), (∀ t ∈ s.head?, t.sym ∉ bodySyms) →
      Takes (.star (.sub .fragments .heredocFragment)) s (capNodes .fragments l) (tk .heredocEnd d :: r) →
      Takes (.star (.sub .fragments .heredocFragment)) (toks pre ++ s) (capNodes .fragments (fragmentIf (texts pre) ++ l))
        (tk .heredocEnd d :: r) := by
    intro pre hpre l s r hs h
    cases pre with
    | nil => simpa [texts, fragmentIf] using h
    | cons k pre =>
      have h1 := textFragment_ok (fun p hp => (hpre p hp).1) hs
      have := Takes.cons (Takes.sub (f := .fragments) h1) (by simp; omega) h
      have hne : texts (k :: pre) ≠ [] := by
        have := (hpre k (by simp)).2
        simp [texts, this]
      rw [fragmentIf, if_neg hne]
      simpa [capNodes] using this
  have bareIf : ∀ t, (fragmentIf t).map Node.bare = fragmentIf t := by
    intro t
    unfold fragmentIf
    split
    · rfl
    · simp [textFragment, Node.bare, Node.map]
  have hword : ∀ c, (c = '$' ∨ c = '%') → ∀ (e : Str) (ks : List (Sym × Str)), (∀ below b, LexRun ((.stringExpr, []) :: below)
      (e ++ '}' :: b) ks ((.stringExpr, []) :: below) ('}' :: b)) → ∀ st y, LexRun ((.heredoc, d) :: st) ([c, '{'] ++ e ++ c!"}" ++ y)
      ((if c = '$' then .expr else .directive, [c, '{']) :: ks ++ [(.exprEnd, c!"}")]) ((.heredoc, d) :: st) y := by
    intro c hc e ks hrun st y
    obtain ⟨r, hr, h1⟩ := lexStep_heredoc_dollar hd c hc (e ++ '}' :: y) st
    obtain ⟨r', hr', h2⟩ := lexStep_exprEnd y ((.heredoc, d) :: st)
    have h1 := lexRun_one hr (by rcases hc with rfl | rfl <;> decide) h1
    have h2 := lexRun_one hr' (by decide) h2
    have := (h1.trans (hrun _ y)).trans h2
    simpa using this
  induction ps with
  | nil =>
    refine ⟨[], fun st z => .refl _ _, fun pre hpre => ⟨fragmentIf (texts pre), bareIf _, fun r => ?_⟩⟩
    have := flushed pre hpre [] (tk .heredocEnd d :: r) r (by simp [tk]; decide) (Takes.nil hstart)
    simpa using this
  | cons p ps ih =>
    obtain ⟨ks, h1, h2⟩ := ih h.2 (fun t ht => hn t (by simp [ht])) fun p hp => hb p (by simp [hp])
    -- text
    have text : ∀ k : Sym × Str, k.1 ∈ bodySyms → k.2 ≠ [] → k.2 = p.src →
        (∀ st z, LexRun ((.heredoc, d) :: st) (p.src ++ (hsrcs ps ++ (d ++ z))) [k] ((.heredoc, d) :: st) (hsrcs ps ++ (d ++ z))) →
        (∀ t, hfrags t (p :: ps) = hfrags (t ++ p.src) ps) → ∃ ks : List (Sym × Str),
      (∀ st z, LexRun ((.heredoc, d) :: st) (hsrcs (p :: ps) ++ (d ++ z)) ks ((.heredoc, d) :: st) (d ++ z)) ∧
      ∀ pre : List (Sym × Str), (∀ p ∈ pre, p.1 ∈ bodySyms ∧ p.2 ≠ []) → ∃ l : List (Node .heredocFragment),
        l.map Node.bare = hfrags (texts pre) (p :: ps) ∧
        ∀ r, Takes (.star (.sub .fragments .heredocFragment)) (toks pre ++ (toks ks ++ tk .heredocEnd d :: r))
          (capNodes .fragments l) (tk .heredocEnd d :: r) := by
      intro k hk hk' hsrc hrun hfr
      refine ⟨k :: ks, fun st z => ?_, fun pre hpre => ?_⟩
      · have := (hrun st z).trans (h1 st z)
        simpa [hsrcs] using this
      · obtain ⟨l, h3, h4⟩ := h2 (pre ++ [k]) (by
          intro q hq
          rcases List.mem_append.1 hq with hq | hq
          · exact hpre q hq
          · rw [List.mem_singleton] at hq
            subst hq
            exact ⟨hk, hk'⟩)
        refine ⟨l, ?_, fun r => ?_⟩
        · rw [h3, hfr, texts_append, ← hsrc]
          simp [texts]
        · simpa using h4 r
    -- expressions
    have inner : ∀ (k : Sym × Str) (ke : List (Sym × Str)) (y x : Node .heredocFragment), k.1 ∉ bodySyms → y.bare = x →
        (∀ st z, LexRun ((.heredoc, d) :: st) (p.src ++ (hsrcs ps ++ (d ++ z))) (k :: ke) ((.heredoc, d) :: st) (hsrcs ps ++ (d ++ z))) →
        (∀ r, OkKind {} (toks (k :: ke) ++ r) y r) →
        (∀ t, hfrags t (p :: ps) = fragmentIf t ++ x :: hfrags [] ps) → ∃ ks : List (Sym × Str),
      (∀ st z, LexRun ((.heredoc, d) :: st) (hsrcs (p :: ps) ++ (d ++ z)) ks ((.heredoc, d) :: st) (d ++ z)) ∧
      ∀ pre : List (Sym × Str), (∀ p ∈ pre, p.1 ∈ bodySyms ∧ p.2 ≠ []) → ∃ l : List (Node .heredocFragment),
        l.map Node.bare = hfrags (texts pre) (p :: ps) ∧
        ∀ r, Takes (.star (.sub .fragments .heredocFragment)) (toks pre ++ (toks ks ++ tk .heredocEnd d :: r))
          (capNodes .fragments l) (tk .heredocEnd d :: r) := by
      intro k ke y x hk hyx hrun hok hfr
      obtain ⟨l, h3, h4⟩ := h2 [] (by simp)
      refine ⟨k :: ke ++ ks, fun st z => ?_, fun pre hpre => ⟨fragmentIf (texts pre) ++ y :: l, ?_, fun r => ?_⟩⟩
      · have := (hrun st z).trans (h1 st z)
        simpa [hsrcs] using this
      · rw [hfr, List.map_append, bareIf, List.map_cons, hyx, h3]
        simp [texts]
      · have h5 := h4 r
        have := Takes.cons (Takes.sub (f := .fragments) (hok (toks ks ++ tk .heredocEnd d :: r))) (by simp; omega) h5
        have := flushed pre hpre (y :: l) (toks (k :: ke) ++ (toks ks ++ tk .heredocEnd d :: r)) r (by
          simp [tk]; exact hk) (by simpa [capNodes] using this)
        simpa using this
    cases p with
    | body t =>
      obtain ⟨h3, h4, c, h5, h6⟩ := h.1
      exact text (.body, t) (by simp [bodySyms]) h3 rfl (fun st z => run_heredoc_body h3 h4 (by
        intro c' hc'
        have : (hsrcs ps ++ (d ++ z)).head? = (hsrcs ps ++ d).head? := by
          cases hsrcs ps with
          | nil =>
            cases d with
            | nil => exact absurd rfl hd.1
            | cons a d => rfl
          | cons a u => rfl
        rw [this] at hc'
        rw [Option.mem_def.1 hc', Option.mem_some_iff] at h5
        exact h5 ▸ h6) hd (hn t (by simp)) st) fun t => rfl
    | eol => exact text (.eol, c!"\n") (by decide) (by simp) rfl (fun st z => LexRun.one (lexStep_of (below := st) (firstRule_eol
        (word_ne hd (by decide) _)) (by simp)) (by simp [rule])) fun t => rfl
    | literal c =>
      refine text (.nonExpr, [c, c, '{']) (by simp [bodySyms]) (by simp) rfl (fun st z => ?_) fun t => rfl
      obtain ⟨r, cap, hr, h3⟩ := lexStep_heredoc_nonExpr hd c h.1 (hsrcs ps ++ (d ++ z)) st
      exact lexRun_one hr (by decide) h3
    | expr e x =>
      obtain ⟨ks, y, hy, hrun, hok, -⟩ := ReadsExpr.tokens h.1 (hb (.expr e x) (by simp) e rfl)
      refine inner (.expr, c!"${") (ks ++ [(.exprEnd, c!"}")]) (.heredocFragment noPos (.ref y) .nil []) (.heredocFragment noPos (.ref x) .nil [])
        (by decide) (by subst hy; simp [Node.bare, Node.map, noPos]) (fun st z => ?_) (fun r => ?_) fun t => rfl
      · have := hword '$' (.inl rfl) e ks hrun st (hsrcs ps ++ (d ++ z))
        simpa [HPart.src] using this
      · have := OkKind.ofTakes (k := .heredocFragment) (x := .heredocFragment noPos (.ref y) .nil []) (Takes.altL (Takes.seq
          (Takes.tok (t := tk .expr c!"${") rfl) (Takes.seq (Takes.sub (hok r)) (Takes.tok rfl)))) rfl fun txt => by simp [build, ptrOf]
        simpa [toks] using this
    | directive e x =>
      obtain ⟨ks, y, hy, hrun, hok, -⟩ := ReadsExpr.tokens h.1 (hb (.directive e x) (by simp) e rfl)
      refine inner (.directive, c!"%{") (ks ++ [(.exprEnd, c!"}")]) (.heredocFragment noPos .nil (.ref y) []) (.heredocFragment noPos .nil (.ref x) [])
        (by decide) (by subst hy; simp [Node.bare, Node.map, noPos]) (fun st z => ?_) (fun r => ?_) fun t => rfl
      · have := hword '%' (.inr rfl) e ks hrun st (hsrcs ps ++ (d ++ z))
        simpa [HPart.src] using this
      · have := OkKind.ofTakes (k := .heredocFragment) (x := .heredocFragment noPos .nil (.ref y) []) (Takes.altR (bare_of_head rfl).soft
          (Takes.altL (Takes.seq (Takes.tok (t := tk .directive c!"%{") rfl) (Takes.seq (Takes.sub (hok r)) (Takes.tok rfl))))) rfl
            fun txt => by simp [build, ptrOf]
        simpa [toks] using this

omit [FloatValue] in
theorem bare_heredocExpr (tabs : Bool) (d : Str) (l : List (Node .heredocFragment)) :
    (heredocExpr tabs d l).bare = heredocExpr tabs d (l.map Node.bare) := by
  rw [heredocExpr, bare_unaryExpr, bare_justPrimary, heredocExpr, ← bare_sliceOf]
  simp only [Node.bare, Node.map]

/-- The tokens of a heredoc, and what the parser makes of them. -/
theorem heredoc_reads {d : Str} (tabs : Bool) (hd : WordPart d) {ps : List HPart} (h : partsOk d ps) (hn : textsNot d ps)
    (hb : ∀ p ∈ ps, ∀ e ∈ p.expr?, NoBrace e) : ∃ (ks : List (Sym × Str)) (y : Node .expr),
      y.bare = heredocExpr tabs d (hfrags [] ps) ∧
      (∀ z, LexRun rootStack (heredocText tabs d ps ++ z) ((.heredoc, heredocToken tabs d) :: ks ++ [(.heredocEnd, d)]) rootStack z) ∧
      ∀ r, headNot badExpr r = true → OkKind {} (toks ((.heredoc, heredocToken tabs d) :: ks ++ [(.heredocEnd, d)]) ++ r) y r := by
  obtain ⟨ks, h1, h2⟩ := hparts_read hd h hn hb
  obtain ⟨l, h3, h4⟩ := h2 [] (by simp)
  refine ⟨ks, heredocExpr tabs d l, by rw [bare_heredocExpr, h3]; rfl, fun z => ?_, fun r hr => ?_⟩
  · have h5 := LexRun.one (lexStep_of (below := []) (firstRule_heredoc (state := .root) (.inl rfl) [] tabs d hd (hsrcs ps ++ (d ++ z)))
      (by simp [heredocToken])) (by simp [rule])
    obtain ⟨r, hr, hra, h6⟩ := firstRule_end d z
    have h6 := lexStep_of (below := rootStack) h6 hd.1
    rw [hra] at h6
    have h6 := LexRun.one h6 (by simp [hr])
    rw [hr] at h6
    have := (h5.trans (h1 rootStack z)).trans h6
    simpa [rule, heredocText] using this
  · have hv : OkKind {} (tk .heredoc (heredocToken tabs d) :: (toks ks ++ tk .heredocEnd d :: r)) (.heredoc noPos tabs d (sliceOf l)) r := by
      refine OkKind.ofTakes (Takes.seq (Takes.capTok rfl) (Takes.seq (by simpa using h4 r) (Takes.tok rfl))) rfl fun txt => ?_
      simp [build, tk, captureDelimiter_token tabs d hd.1 hd.2]
    have hw : heredocToken tabs d ∉ [c!"null", c!"true", c!"false", c!"["] := by simp [heredocToken]
    have hval : OkKind {} (tk .heredoc (heredocToken tabs d) :: (toks ks ++ tk .heredocEnd d :: r))
        (.value noPos false .nil .nil .nil (.ref (.heredoc noPos tabs d (sliceOf l))) .nil .nil) r := by
      have ex : ∀ {g : Gram}, excluded [.heredoc] [c!"null", c!"true", c!"false", c!"["] (firstG first g) = true → solid g = true →
          null g = false → Soft {} g (tk .heredoc (heredocToken tabs d) :: (toks ks ++ tk .heredocEnd d :: r)) := fun h h' h'' =>
        (bare_of_head (any_excluded (ys := [.heredoc]) h (by simp [tk]) hw) h' h'').soft
      exact OkKind.ofTakes (Takes.altR (ex rfl rfl rfl) (Takes.altR (ex rfl rfl rfl) (Takes.altR (ex rfl rfl rfl) (Takes.altR (ex rfl rfl rfl)
        (Takes.altL (Takes.sub hv)))))) rfl fun txt => by simp [build, ptrOf]
    have := value_ok hval rfl (by simp [tk]; decide) (by simp [tk, heredocToken]) hr
    simpa [heredocExpr] using this

/-- **C76**: a heredoc ends at the first place where its delimiter is at the beginning of a line or after `${e}`, `%{e}`, `$${` or `%%{`;
whatever follows the delimiter is outside. -/
theorem C76_ends (d : Str) (tabs : Bool) (ps : List HPart) (hd : WordPart d) (h : partsOk d ps) (hn : textsNot d ps)
    (hb : ∀ p ∈ ps, ∀ e ∈ p.expr?, NoBrace e) : ∃ ks, ∀ z, LexRun rootStack (heredocText tabs d ps ++ z)
      ((.heredoc, heredocToken tabs d) :: ks ++ [(.heredocEnd, d)]) rootStack z := by
  obtain ⟨ks, -, -, h1, -⟩ := heredoc_reads tabs hd h hn hb
  exact ⟨ks, h1⟩

/-- **C76**: such a heredoc is an expression, wherever an expression can be. -/
theorem C76_reads (d : Str) (tabs : Bool) (ps : List HPart) (hd : WordPart d) (h : partsOk d ps) (hn : textsNot d ps)
    (hb : ∀ p ∈ ps, ∀ e ∈ p.expr?, NoBrace e) : ReadsExpr (heredocText tabs d ps) (heredocExpr tabs d (hfrags [] ps)) := by
  obtain ⟨ks, y, hy, h1, h2⟩ := heredoc_reads tabs hd h hn hb
  exact .intro (by simpa using h1 []) (by simpa using h2 [] rfl) hy

/-- **C76**: it is read as its parts. -/
theorem C76_heredoc_partial (k d : Str) (tabs : Bool) (ps : List HPart) (hk : NameText k) (hd : WordPart d) (h : partsOk d ps)
    (hn : textsNot d ps) (hb : ∀ p ∈ ps, ∀ e ∈ p.expr?, NoBrace e) :
    docOf (k ++ c!" = " ++ heredocText tabs d ps ++ c!"\n") = some (keyDoc k (heredocExpr tabs d (hfrags [] ps))) := by
  obtain ⟨ks, y, hy, h1, h2⟩ := heredoc_reads tabs hd h hn hb
  have hrun : LexRun [(.root, [])] (k ++ c!" = " ++ heredocText tabs d ps ++ c!"\n") ([(.ident, k), (.opAssign, c!"=")] ++
      (((.heredoc, heredocToken tabs d) :: ks ++ [(.heredocEnd, d)]) ++ [(.lf, c!"\n")])) [(.root, [])] [] := by
    obtain ⟨r2, m2, h6, h7, h8, h9⟩ := lexStep_lf [(.root, [])] [] .root
    have h6 := lexRun_one h7 (by decide) h6
    rw [h8, h9] at h6
    have := (lexRun_key hk (heredocText tabs d ps ++ c!"\n")).trans ((run_blank (h1 c!"\n") ((h1 c!"\n").ne (by simp))).trans h6)
    simpa using this
  have e : (([(Sym.ident, k), (.opAssign, c!"=")] ++ (((Sym.heredoc, heredocToken tabs d) :: ks ++ [(Sym.heredocEnd, d)]) ++
      [(Sym.lf, c!"\n")])).map fun p : Sym × Str => (⟨p.1, p.2, {}⟩ : Token)) =
      tk .ident k :: tk .opAssign c!"=" :: (toks ((.heredoc, heredocToken tabs d) :: ks ++ [(.heredocEnd, d)]) ++ [lfTok]) := by
    simp [tk, lfTok, toks]
  revert hrun e
  generalize [(Sym.ident, k), (.opAssign, c!"=")] ++ (((Sym.heredoc, heredocToken tabs d) :: ks ++ [(Sym.heredocEnd, d)]) ++
      [(Sym.lf, c!"\n")]) = kss
  intro hrun e
  have hkinds := hrun.kinds .start .start
  rw [← lex_eq, show kinds (lexAll [(.root, [])] .start []) = some [] from rfl, Option.map_some, List.append_nil] at hkinds
  rw [docOf_kinds hkinds, docKinds, e]
  have hd := attr_doc (k := k) (h2 [lfTok] (by decide)) (.inr rfl)
  simp only [hd, Option.map_some, keyDoc, bare_sliceOf, List.map_cons, List.map_nil, Option.some.injEq]
  rw [bare_keyItem, hy]

/-- **C76** is false in full: the delimiter after an expression ends the heredoc. -/
theorem C76_midline : ¬ C76_full := by
  intro h
  obtain ⟨x, hx⟩ := (isExpr_iff c!"x").1 (by kernel_rfl)
  have h2 := h c!"k" c!"A" false [.expr c!"x" x, .body c!"A)"] ⟨.mk 'k' [] [] (by decide) (by simp) (by simp), by decide, by decide⟩
    ⟨by decide, by decide⟩ (by simp [partsOk, HPart.ok, hx, hsrcs, HPart.src]) (by simp [linesNot]) (by
      simp only [List.mem_cons, List.not_mem_nil, or_false]
      rintro p (rfl | rfl) e he
      · cases he
        exact .of_text (by decide)
      · cases he)
  have h3 : docOf (c!"k" ++ c!" = " ++ heredocText false c!"A" ([.expr c!"x" x, .body c!"A)"] ++ [.eol]) ++ c!"\n") = none := by
    rw [docOf_eq]
    kernel_rfl
  rw [h3] at h2
  cases h2

/-- A heredoc with all kinds of parts; one line has the delimiter in it. -/
example : ∃ x y, partsOk c!"EOF" [.body c!"a EOF", .eol, .eol, .expr c!" f('}')" x, .body c!" b", .literal '$', .body c!"c}", .eol,
      .directive c!"y" y, .eol] ∧
    textsNot c!"EOF" [.body c!"a EOF", .eol, .eol, .expr c!" f('}')" x, .body c!" b", .literal '$', .body c!"c}", .eol,
      .directive c!"y" y, .eol] ∧ NoBrace c!" f('}')" ∧ NoBrace c!"y" ∧
    heredocText true c!"EOF" [.body c!"a EOF", .eol, .eol, .expr c!" f('}')" x, .body c!" b", .literal '$', .body c!"c}", .eol,
      .directive c!"y" y, .eol] = c!"<<-EOF\na EOF\n\n${ f('}')} b$${c}\n%{y}\nEOF" ∧
    hfrags [] [.body c!"a EOF", .eol, .eol, .expr c!" f('}')" x, .body c!" b", .literal '$', .body c!"c}", .eol,
      .directive c!"y" y, .eol] = [textFragment c!"a EOF\n\n", .heredocFragment noPos (.ref x) .nil [], textFragment c!" b$${c}\n",
        .heredocFragment noPos .nil (.ref y) [], textFragment c!"\n"] := by
  obtain ⟨x, hx⟩ := (isExpr_iff c!" f('}')").1 (by kernel_rfl)
  obtain ⟨y, hy⟩ := (isExpr_iff c!"y").1 (by kernel_rfl)
  refine ⟨x, y, ?_, ?_, ?_, .of_text (by decide), rfl, rfl⟩
  · simp [partsOk, HPart.ok, hx, hy, hsrcs, HPart.src]
  · intro t ht
    simp only [List.mem_cons, HPart.body.injEq, reduceCtorEq, List.not_mem_nil, false_or, or_false] at ht
    rcases ht with rfl | rfl | rfl <;> decide
  · have : ((lex c!" f('}')").map fun ts => ts.all fun t => t.sym ≠ .blockEnd) = some true := by decide +kernel
    intro ts hl t ht
    rw [hl] at this
    simp only [Option.map_some, Option.some.injEq, List.all_eq_true, decide_eq_true_eq] at this
    exact this t ht

/-- A heredoc as an argument: `f(<<A` … `A, 1)`. -/
example : ∃ x, ReadsExpr c!"1" x ∧ ReadsExpr c!"f(<<A\nb\nA,1)" (callExpr c!"f" [heredocExpr false c!"A" [textFragment c!"b\n"], x]) := by
  obtain ⟨x, hx⟩ := (isExpr_iff c!"1").1 (by kernel_rfl)
  refine ⟨x, hx, ?_⟩
  have h1 := C76_reads c!"A" false [.body c!"b", .eol] ⟨by decide, by decide⟩ (by simp [partsOk, HPart.ok, hsrcs, HPart.src])
    (by simp [textsNot]) (by simp [HPart.expr?])
  have h2 := C75_composed (.call (f := c!"f") [(c!"<<A\nb\nA", _), (c!"1", _)]
    ⟨.mk 'f' [] [] (by decide) (by simp) (by simp), by decide, by decide⟩ (by simpa using ⟨.of h1, .of hx⟩))
  exact h2

end Verif.Etx
