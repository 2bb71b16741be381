import Verif.Props.LexTokens

/-!
# Strings, heredocs and comments (C44, C45, C46)
-/

namespace Verif.Etx

open Re

theorem LexRun.trans {st₁ st₂ st₃ : Stack} {s₁ s₂ s₃ : Str} {ks ks' : List (Sym × Str)} (h : LexRun st₁ s₁ ks st₂ s₂)
    (h' : LexRun st₂ s₂ ks' st₃ s₃) : LexRun st₁ s₁ (ks ++ ks') st₃ s₃ := by
  induction h with
  | refl => exact h'
  | step h1 h2 ih => rw [List.append_assoc]; exact .step h1 (ih h')

theorem LexRun.one {st st' : Stack} {s : Str} {r : Rule} {m : Match} (h : lexStep st s = some (r, m, st'))
    (hr : r.sym ≠ .whitespace) : LexRun st s [(r.sym, m.txt)] st' m.rest := by
  have := LexRun.step h (.refl _ _)
  simpa [hr] using this

/-- The texts of some tokens, one after the other. -/
def texts (ks : List (Sym × Str)) : Str := (ks.map (·.2)).flatten

theorem texts_append (ks ks' : List (Sym × Str)) : texts (ks ++ ks') = texts ks ++ texts ks' := by simp [texts]

/-! ## Strings -/

def isQuote (c : Char) : Bool := c = '"' || c = '\''

/-- The characters that the `Char` rule does not take. -/
def isSpecial (c : Char) : Bool := c = '$' || c = '%' || c = '"' || c = '\'' || c = '\\'

/-- Text that can be written between quotes `q`: anything but `$`, `%`, `\` and `q`, and also escaped characters,
`$${` and `%%{`. -/
inductive StrText (q : Char) : Str → Prop where
  | nil : StrText q []
  | plain {c : Char} {t : Str} : isSpecial c = false → StrText q t → StrText q (c :: t)
  | quote {c : Char} {t : Str} : isQuote c = true → c ≠ q → StrText q t → StrText q (c :: t)
  | escaped {c : Char} {t : Str} : c ≠ 'u' → c ≠ '\n' → StrText q t → StrText q ('\\' :: c :: t)
  | dollar {t : Str} : StrText q t → StrText q (c!"$${" ++ t)
  | percent {t : Str} : StrText q t → StrText q (c!"%%{" ++ t)

/-- The types of the tokens for literal text in a string. -/
def textSyms : List Sym := [.char, .quote, .escaped, .nonExpr]

/-- `t` between quotes is read as the opening token, fragments of literal text that add up to `t`, and the closing token. -/
def ReadsString (st : Stack) (q : Char) (t y : Str) : Prop :=
  ∃ ks, LexRun st (q :: t ++ q :: y) ((.string, [q]) :: ks ++ [(.stringEnd, [q])]) st y ∧
    (∀ k ∈ ks, k.1 ∈ textSyms) ∧ texts ks = t

/-- C44, as stated: text without quotes, backslashes, `${` and `%{`. -/
def C44_full : Prop :=
  ∀ q t y, isQuote q = true → (∀ c ∈ t, isQuote c = false ∧ c ≠ '\\') → ¬ c!"${" <:+: t → ¬ c!"%{" <:+: t →
    ReadsString [(.root, [])] q t y

theorem lexStep_char (q c : Char) (t : Str) (hc : isSpecial c = false) (hq : c ≠ q) (below : Stack) :
    lexStep ((.string, [q]) :: below) (c :: t) = some
      (rule .char (plus (cls fun c => !isSpecial c)), ⟨c :: t.takeWhile (fun c => !isSpecial c), none,
        t.dropWhile (fun c => !isSpecial c)⟩, (.string, [q]) :: below) := by
  rw [lexStep_of (r := rule .char (plus (cls fun c => !isSpecial c)))
    (m := ⟨c :: t.takeWhile (fun c => !isSpecial c), none, t.dropWhile (fun c => !isSpecial c)⟩) ?_ (by simp)]
  · rfl
  · have hc' := hc
    simp only [isSpecial, Bool.or_eq_false_iff, decide_eq_false_iff_not] at hc'
    obtain ⟨⟨⟨⟨h1, h2⟩, h3⟩, h4⟩, h5⟩ := hc'
    simp only [rulesOf, stringRules]
    rw [firstRule_cons_fail rfl (by simp [rule, starts, lit, nullable, h5]),
      firstRule_cons_fail rfl (by simp [rule, starts, lit, nullable, h5]),
      firstRule_cons_fail rfl (by simp [starts, lit, hq]),
      firstRule_cons_fail rfl (by simp [rule, starts, h3, h4]),
      firstRule_cons_fail rfl (by simp [rule, reNonExpr, starts, lit, nullable, h1, h2]),
      firstRule_cons_fail rfl (by simp [rule, starts, lit, nullable, h1]),
      firstRule_cons_fail rfl (by simp [rule, starts, lit, nullable, h2])]
    apply firstRule_hit
    exact head_plus_cls _ c t (by simp [h1, h2, h3, h4, h5]) none

theorem lexStep_end (q : Char) (hq : isQuote q = true) (y : Str) (below : Stack) :
    ∃ r, r.sym = .stringEnd ∧ lexStep ((.string, [q]) :: below) (q :: y) = some (r, ⟨[q], none, y⟩, below) := by
  refine ⟨⟨.stringEnd, fun q => lit q, .pop⟩, rfl, ?_⟩
  rw [lexStep_of (r := ⟨.stringEnd, fun q => lit q, .pop⟩) (m := ⟨[q], none, y⟩) ?_ (by simp)]
  rw [firstRule_filter]
  have : (rulesOf .string).filter (Rule.can [q] q) = [⟨.stringEnd, fun q => lit q, .pop⟩,
      rule .quote (cls fun c => c = '"' || c = '\'')] := by
    simp [isQuote] at hq
    rcases hq with rfl | rfl <;> rfl
  rw [this]
  apply firstRule_hit
  have := run_lit [q] none y
  simp only [List.cons_append, List.nil_append] at this
  simp [first, this]

theorem lexStep_otherQuote (q c : Char) (hc : isQuote c = true) (hq : isQuote q = true) (hne : c ≠ q) (y : Str)
    (below : Stack) :
    ∃ r, r.sym = .quote ∧ lexStep ((.string, [q]) :: below) (c :: y) = some (r, ⟨[c], none, y⟩, (.string, [q]) :: below) := by
  refine ⟨rule .quote (cls fun c => c = '"' || c = '\''), rfl, ?_⟩
  rw [lexStep_of (r := rule .quote (cls fun c => c = '"' || c = '\'')) (m := ⟨[c], none, y⟩) ?_ (by simp)]
  · rfl
  rw [firstRule_filter]
  have : (rulesOf .string).filter (Rule.can [q] c) = [rule .quote (cls fun c => c = '"' || c = '\'')] := by
    simp [isQuote] at hq hc
    rcases hq with rfl | rfl <;> rcases hc with rfl | rfl <;> first | (exact absurd rfl hne) | rfl
  rw [this]
  apply firstRule_hit
  simp [isQuote] at hc
  rcases hc with rfl | rfl <;> rfl

theorem lexStep_escaped (q c : Char) (hq : isQuote q = true) (h1 : c ≠ 'u') (h2 : c ≠ '\n') (y : Str) (below : Stack) :
    ∃ r, r.sym = .escaped ∧ lexStep ((.string, [q]) :: below) ('\\' :: c :: y) =
      some (r, ⟨['\\', c], none, y⟩, (.string, [q]) :: below) := by
  refine ⟨rule .escaped (seq (lit c!"\\") (cls (· ≠ '\n'))), rfl, ?_⟩
  rw [lexStep_of (r := rule .escaped (seq (lit c!"\\") (cls (· ≠ '\n')))) (m := ⟨['\\', c], none, y⟩) ?_ (by simp)]
  · rfl
  rw [firstRule_filter]
  have : (rulesOf .string).filter (Rule.can [q] '\\') = [rule .unicode (lit c!"\\u") (.push .unicode),
      rule .escaped (seq (lit c!"\\") (cls (· ≠ '\n')))] := by
    simp [isQuote] at hq
    rcases hq with rfl | rfl <;> rfl
  rw [this, firstRule_lit, if_neg (by simp [Ne.symm h1])]
  apply firstRule_hit
  have h3 : ((lit c!"\\").run none ('\\' :: c :: y)).head? = some ⟨c!"\\", none, c :: y⟩ := by
    have := run_lit c!"\\" none (c :: y)
    simp only [List.cons_append, List.nil_append] at this
    simp [this]
  have h4 : ∀ p, ((cls (fun c => decide (c ≠ '\n'))).run p (c :: y)).head? = some ⟨[c], none, y⟩ := by
    intro p; simp [run_cls_cons, h2]
  exact head_seq h3 (h4 _)

theorem lexStep_nonExpr (q c : Char) (hq : isQuote q = true) (hc : c = '$' ∨ c = '%') (y : Str) (below : Stack) :
    ∃ r cap, r.sym = .nonExpr ∧ lexStep ((.string, [q]) :: below) (c :: c :: '{' :: y) =
      some (r, ⟨[c, c, '{'], cap, y⟩, (.string, [q]) :: below) := by
  refine ⟨rule .nonExpr reNonExpr, some [c, c, '{'], rfl, ?_⟩
  rw [lexStep_of (r := rule .nonExpr reNonExpr) (m := ⟨[c, c, '{'], some [c, c, '{'], y⟩) ?_ (by simp)]
  · rfl
  rw [firstRule_filter]
  have : ∃ rs, (rulesOf .string).filter (Rule.can [q] c) = rule .nonExpr reNonExpr :: rs := by
    simp [isQuote] at hq
    rcases hq with rfl | rfl <;> rcases hc with rfl | rfl <;> exact ⟨_, rfl⟩
  obtain ⟨rs, this⟩ := this
  rw [this]
  apply firstRule_hit
  have hl : ∀ w, ((lit w).run none (w ++ y)).head? = some ⟨w, none, y⟩ := by intro w; rw [run_lit]; rfl
  rcases hc with rfl | rfl
  · exact head_grp (head_alt_left (hl c!"$${"))
  · refine head_grp (m := ⟨c!"%%{", none, y⟩) ?_
    rw [head_alt_right]
    · exact hl c!"%%{"
    · exact run_lit_fail _ _ _ (by simp)

theorem StrText.dropWhile {q : Char} {t : Str} (h : StrText q t) : StrText q (t.dropWhile fun c => !isSpecial c) := by
  induction h with
  | nil => exact .nil
  | plain h _ ih => simpa [h] using ih
  | @quote c t h h' ht _ =>
    have : isSpecial c = true := by simp [isSpecial, isQuote] at *; tauto
    simpa [this] using StrText.quote h h' ht
  | escaped h h' ht _ => simpa [isSpecial] using StrText.escaped h h' ht
  | dollar ht _ => simpa [isSpecial] using StrText.dollar ht
  | percent ht _ => simpa [isSpecial] using StrText.percent ht

theorem special_of_quote {q : Char} (h : isQuote q = true) : isSpecial q = true := by
  simp [isSpecial, isQuote] at *; tauto

theorem StrText.run {q : Char} (hq : isQuote q = true) (below : Stack) (y : Str) : ∀ (n : Nat) {t : Str}, t.length ≤ n →
    StrText q t → ∃ ks, LexRun ((.string, [q]) :: below) (t ++ q :: y) ks ((.string, [q]) :: below) (q :: y) ∧
      (∀ k ∈ ks, k.1 ∈ textSyms) ∧ texts ks = t := by
  intro n
  induction n with
  | zero =>
    intro t hn _
    have : t = [] := List.length_eq_zero_iff.1 (by omega)
    subst this
    exact ⟨[], .refl _ _, by simp, rfl⟩
  | succ n ih =>
    intro t hn h
    have join : ∀ (sym : Sym) (w t' : Str) (r : Rule) (cap : Option Str), sym ∈ textSyms → r.sym = sym → w ≠ [] →
        t = w ++ t' → StrText q t' → lexStep ((.string, [q]) :: below) (t ++ q :: y) =
          some (r, ⟨w, cap, t' ++ q :: y⟩, (.string, [q]) :: below) →
        ∃ ks, LexRun ((.string, [q]) :: below) (t ++ q :: y) ks ((.string, [q]) :: below) (q :: y) ∧
          (∀ k ∈ ks, k.1 ∈ textSyms) ∧ texts ks = t := by
      intro sym w t' r cap hsym hr hw ht ht' hstep
      have hwl : 0 < w.length := List.length_pos_iff.2 hw
      obtain ⟨ks, h1, h2, h3⟩ := ih (t := t') (by rw [ht] at hn; simp at hn; omega) ht'
      refine ⟨(sym, w) :: ks, ?_, by simpa [hsym] using h2, by simp [texts] at h3 ⊢; rw [h3, ht]⟩
      have := (LexRun.one hstep (by rw [hr]; rintro rfl; simp [textSyms] at hsym)).trans h1
      rw [hr] at this
      exact this
    cases h with
    | nil => exact ⟨[], .refl _ _, by simp, rfl⟩
    | @plain c t hc ht =>
      have hcq : c ≠ q := by rintro rfl; rw [special_of_quote hq] at hc; cases hc
      have := lexStep_char q c (t ++ q :: y) hc hcq below
      have hd : ∀ t : Str, (t ++ q :: y).takeWhile (fun c => !isSpecial c) = t.takeWhile (fun c => !isSpecial c) ∧
          (t ++ q :: y).dropWhile (fun c => !isSpecial c) = t.dropWhile (fun c => !isSpecial c) ++ q :: y := by
        intro t
        induction t with
        | nil => simp [special_of_quote hq]
        | cons d t ih =>
          by_cases hd : isSpecial d = true
          · simp [hd]
          · simp [hd, ih]
      rw [(hd t).1, (hd t).2] at this
      exact join .char _ _ _ none (by simp [textSyms]) rfl (by simp) (by simp) ht.dropWhile this
    | @quote c t h1 h2 ht =>
      obtain ⟨r, hr, h⟩ := lexStep_otherQuote q c h1 hq h2 (t ++ q :: y) below
      exact join .quote [c] t r _ (by simp [textSyms]) hr (by simp) rfl ht h
    | @escaped c t h1 h2 ht =>
      obtain ⟨r, hr, h⟩ := lexStep_escaped q c hq h1 h2 (t ++ q :: y) below
      exact join .escaped ['\\', c] t r _ (by simp [textSyms]) hr (by simp) rfl ht h
    | @dollar t ht =>
      obtain ⟨r, cap, hr, h⟩ := lexStep_nonExpr q '$' hq (.inl rfl) (t ++ q :: y) below
      exact join .nonExpr c!"$${" t r _ (by simp [textSyms]) hr (by simp) rfl ht h
    | @percent t ht =>
      obtain ⟨r, cap, hr, h⟩ := lexStep_nonExpr q '%' hq (.inr rfl) (t ++ q :: y) below
      exact join .nonExpr c!"%%{" t r _ (by simp [textSyms]) hr (by simp) rfl ht h

theorem lexStep_string {state : LexState} (hst : state = .root ∨ state = .stringExpr) (g : Str) (q : Char)
    (hq : isQuote q = true) (y : Str) (below : Stack) :
    ∃ r cap, r.sym = .string ∧ lexStep ((state, g) :: below) (q :: y) =
      some (r, ⟨[q], cap, y⟩, (.string, [q]) :: (state, g) :: below) := by
  refine ⟨rule .string (grp (cls fun c => c = '"' || c = '\'')) (.push .string), some [q], rfl, ?_⟩
  rw [lexStep_of (r := rule .string (grp (cls fun c => c = '"' || c = '\'')) (.push .string))
    (m := ⟨[q], some [q], y⟩) ?_ (by simp)]
  · rfl
  rw [firstRule_filter]
  have : (rulesOf state).filter (Rule.can g q) = [rule .string (grp (cls fun c => c = '"' || c = '\'')) (.push .string)] := by
    simp [isQuote] at hq
    rcases hq with rfl | rfl <;> rcases hst with rfl | rfl <;> rfl
  rw [this]
  apply firstRule_hit
  simp [isQuote] at hq
  rcases hq with rfl | rfl <;> rfl

/-- C44, what holds: text without `$`, `%`, backslash and the quote itself, or with `$` and `%` only in `$${`
and `%%{`, and with escaped characters. -/
theorem C44_string_partial (st : Stack) (q : Char) (t y : Str) (hst : Plain st) (hq : isQuote q = true) (ht : StrText q t) :
    ReadsString st q t y := by
  obtain ⟨state, g, below, hst⟩ := hst
  obtain ⟨r, cap, hr, h0⟩ := lexStep_string hst g q hq (t ++ q :: y) below
  obtain ⟨ks, h1, h2, h3⟩ := StrText.run hq ((state, g) :: below) y t.length (Nat.le_refl _) ht
  obtain ⟨r', hr', h4⟩ := lexStep_end q hq y ((state, g) :: below)
  refine ⟨ks, ?_, h2, h3⟩
  have h0 := LexRun.one h0 (by simp [hr])
  have h4 := LexRun.one h4 (by simp [hr'])
  rw [hr] at h0
  rw [hr'] at h4
  exact (h0.trans h1).trans h4

/-- Text without special characters is such text. -/
theorem StrText.of_plain (q : Char) (t : Str) (h : ∀ c ∈ t, isSpecial c = false) : StrText q t := by
  induction t with
  | nil => exact .nil
  | cons c t ih => exact .plain (h c (by simp)) (ih fun d hd => h d (by simp [hd]))

/-- C44 is false: `"%"` is no string at all. -/
theorem C44_lone_percent : ¬ C44_full := by
  intro h
  obtain ⟨ks, h1, -, -⟩ := h '"' c!"%" [] (by decide) (by decide) (by decide) (by decide)
  have hk := h1.kinds .start .start
  have e : kinds (lexAll [(.root, [])] .start c!"\"%\"") = none := by decide +kernel
  have e' : '"' :: c!"%" ++ ['"'] = c!"\"%\"" := rfl
  rw [e', e] at hk
  simp [lexAll_nil, kinds] at hk

/-- Neither is `'$5'`. -/
example : lex c!"'$5'" = none := by decide +kernel

/-- A text with the other quote, an escaped quote, a newline and a literal `$${`. -/
example : StrText '\'' c!"say \"it\\'s\" $${x}\n" := by
  repeat' first
    | exact .nil
    | refine StrText.plain (by decide) ?_
    | refine StrText.quote (by decide) (by decide) ?_
    | refine StrText.escaped (by decide) (by decide) ?_
    | refine StrText.dollar (t := c!"x}\n") ?_

/-! ## Heredocs -/

/-- The lines of a body, each with its newline. -/
def bodyText (lines : List Str) : Str := (lines.map (· ++ c!"\n")).flatten

/-- A heredoc with delimiter `d` is read as its opening token, fragments that add up to the body, and the closing token. -/
def ReadsHeredoc (st : Stack) (tabs : Bool) (d body y : Str) : Prop :=
  ∃ ks, LexRun st (heredocToken tabs d ++ body ++ d ++ y) ((.heredoc, heredocToken tabs d) :: ks ++ [(.heredocEnd, d)]) st y ∧
    (∀ k ∈ ks, k.1 = .body ∨ k.1 = .eol) ∧ texts ks = body

/-- C45, as stated (for bodies without `$` and `%`): the heredoc ends at the first line that consists of the
delimiter. -/
def C45_full : Prop :=
  ∀ tabs d lines y, WordPart d → (∀ l ∈ lines, l ≠ d ∧ ∀ c ∈ l, c ≠ '\n' ∧ c ≠ '$' ∧ c ≠ '%') →
    ReadsHeredoc [(.root, [])] tabs d (bodyText lines) ('\n' :: y)

theorem firstRule_heredoc {state : LexState} (hst : state = .root ∨ state = .stringExpr) (g : Str) (tabs : Bool) (d : Str)
    (hd : WordPart d) (y : Str) : firstRule g (heredocToken tabs d ++ y) (rulesOf state) =
      some (rule .heredoc reHeredoc (.push .heredoc), ⟨heredocToken tabs d, some d, y⟩) := by
  have e : heredocToken tabs d ++ y = '<' :: ('<' :: ((if tabs then c!"-" else []) ++ d ++ c!"\n" ++ y)) := by
    simp [heredocToken]
  rw [e, firstRule_filter]
  have : ∃ rs, (rulesOf state).filter (Rule.can g '<') = rule .heredoc reHeredoc (.push .heredoc) :: rs := by
    rcases hst with rfl | rfl <;> exact ⟨_, rfl⟩
  obtain ⟨rs, this⟩ := this
  rw [this, ← e]
  apply firstRule_hit
  refine head_heredoc tabs d hd.1 hd.2 y none _ fun p => ?_
  have := run_lit c!"\n" p y
  simp only [List.cons_append, List.nil_append] at this
  rw [this]; rfl

/-- The characters of a body. -/
def isBody (c : Char) : Bool := !(c = '\n' || c = '$' || c = '%')

theorem firstRule_notEnd {d s : Str} (h : ¬ d <+: s) :
    firstRule d s (rulesOf .heredoc) = firstRule d s [rule .eol (lit c!"\n"), rule .nonExpr reNonExpr,
      rule .expr (lit c!"${") (.push .stringExpr), rule .directive (lit c!"%{") (.push .stringExpr),
      rule .body (plus (cls isBody))] := by
  simp only [rulesOf, heredocRules]
  rw [firstRule_miss]
  · rfl
  · rw [Re.first_none]
    simp [run, run_lit_fail _ _ _ h]

theorem firstRule_end (d y : Str) : ∃ r, r.sym = .heredocEnd ∧ r.action = .pop ∧
    firstRule d (d ++ y) (rulesOf .heredoc) = some (r, ⟨d, none, y⟩) := by
  refine ⟨⟨.heredocEnd, fun d => seq bot (lit d), .pop⟩, rfl, rfl, ?_⟩
  simp only [rulesOf, heredocRules]
  apply firstRule_hit
  simp [first, run, run_lit, Match.andThen, Match.nothing]

theorem firstRule_eol {d s : Str} (h : ¬ d <+: '\n' :: s) :
    firstRule d ('\n' :: s) (rulesOf .heredoc) = some (rule .eol (lit c!"\n"), ⟨c!"\n", none, s⟩) := by
  rw [firstRule_notEnd h, firstRule_lit]
  simp

theorem firstRule_body {d : Str} {c : Char} {s : Str} (h : ¬ d <+: c :: s) (hc : isBody c = true) :
    firstRule d (c :: s) (rulesOf .heredoc) =
      some (rule .body (plus (cls isBody)), ⟨c :: s.takeWhile isBody, none, s.dropWhile isBody⟩) := by
  have hc' := hc
  simp only [isBody, Bool.not_eq_true', Bool.or_eq_false_iff, decide_eq_false_iff_not] at hc'
  obtain ⟨⟨h1, h2⟩, h3⟩ := hc'
  rw [firstRule_notEnd h,
    firstRule_cons_fail rfl (by simp [rule, starts, lit, h1]),
    firstRule_cons_fail rfl (by simp [rule, reNonExpr, starts, lit, nullable, h2, h3]),
    firstRule_cons_fail rfl (by simp [rule, starts, lit, nullable, h2]),
    firstRule_cons_fail rfl (by simp [rule, starts, lit, nullable, h3])]
  apply firstRule_hit
  exact head_plus_cls _ c s hc none

theorem newline_not_word : isWord '\n' = false := by decide

/-- The lines of a body. -/
theorem run_lines (d : Str) (hd : WordPart d) (below : Stack) (y : Str) : ∀ lines : List Str,
    (∀ l ∈ lines, ¬ d <+: l ∧ ∀ c ∈ l, isBody c = true) →
    ∃ ks, LexRun ((.heredoc, d) :: below) (bodyText lines ++ y) ks ((.heredoc, d) :: below) y ∧
      (∀ k ∈ ks, k.1 = .body ∨ k.1 = .eol) ∧ texts ks = bodyText lines := by
  obtain ⟨d0, d', rfl⟩ := List.exists_cons_of_ne_nil hd.1
  have hd0 : d0 ≠ '\n' := by
    rintro rfl
    have := hd.2 '\n' (by simp)
    rw [newline_not_word] at this; cases this
  intro lines
  induction lines with
  | nil => exact fun _ => ⟨[], .refl _ _, by simp, rfl⟩
  | cons l lines ih =>
    intro hl
    obtain ⟨ks, h1, h2, h3⟩ := ih fun l hl' => hl l (by simp [hl'])
    have eol : LexRun ((.heredoc, d0 :: d') :: below) ('\n' :: (bodyText lines ++ y)) [(.eol, c!"\n")]
        ((.heredoc, d0 :: d') :: below) (bodyText lines ++ y) := by
      have := lexStep_of (below := below) (firstRule_eol (d := d0 :: d') (s := bodyText lines ++ y)
        (by simp [hd0])) (by simp)
      exact LexRun.one this (by simp [rule])
    cases l with
    | nil =>
      refine ⟨(.eol, c!"\n") :: ks, ?_, by simpa using h2, by simp [texts, bodyText] at h3 ⊢; exact h3⟩
      have := eol.trans h1
      simpa [bodyText] using this
    | cons c l =>
      have hc := hl (c :: l) (by simp)
      have hb : LexRun ((.heredoc, d0 :: d') :: below) (c :: l ++ ('\n' :: (bodyText lines ++ y))) [(.body, c :: l)]
          ((.heredoc, d0 :: d') :: below) ('\n' :: (bodyText lines ++ y)) := by
        have hstop := takeWhile_stop (p := isBody) (l := l) (r := '\n' :: (bodyText lines ++ y))
          (fun a ha => hc.2 a (by simp [ha])) (by intro a ha; simp at ha; subst ha; decide)
        have hnp : ¬ (d0 :: d') <+: c :: (l ++ ('\n' :: (bodyText lines ++ y))) := by
          intro hp
          rw [← List.cons_append] at hp
          rcases List.prefix_or_prefix_of_prefix hp (List.prefix_append (c :: l) _) with h | h
          · exact hc.1 h
          · obtain ⟨u, hu⟩ := h
            rw [← hu, List.prefix_append_right_inj] at hp
            cases u with
            | nil =>
              simp only [List.append_nil] at hu
              exact hc.1 (hu ▸ List.prefix_refl _)
            | cons e u =>
              have he : e = '\n' := by simp at hp; exact hp.1
              subst he
              have := hd.2 '\n' (by rw [← hu]; simp)
              rw [newline_not_word] at this; cases this
        have := lexStep_of (below := below) (firstRule_body (d := d0 :: d') hnp (hc.2 c (by simp))) (by simp)
        rw [hstop.1, hstop.2] at this
        exact LexRun.one this (by simp [rule])
      refine ⟨[(.body, c :: l), (.eol, c!"\n")] ++ ks, ?_, by simpa using h2, ?_⟩
      · have := (hb.trans eol).trans h1
        simpa [bodyText] using this
      · simp [texts, bodyText] at h3 ⊢; exact h3

/-- C45, what holds: the heredoc ends at the first line that begins with the delimiter, if the body has no `$` and `%`. -/
theorem C45_heredoc_partial (st : Stack) (tabs : Bool) (d : Str) (lines : List Str) (y : Str) (hst : Plain st)
    (hd : WordPart d) (hl : ∀ l ∈ lines, ¬ d <+: l ∧ ∀ c ∈ l, c ≠ '\n' ∧ c ≠ '$' ∧ c ≠ '%') :
    ReadsHeredoc st tabs d (bodyText lines) y := by
  obtain ⟨state, g, below, hst⟩ := hst
  obtain ⟨ks, h1, h2, h3⟩ := run_lines d hd ((state, g) :: below) (d ++ y) lines (by
    intro l hl'
    refine ⟨(hl l hl').1, fun c hc => ?_⟩
    have := (hl l hl').2 c hc
    simp [isBody, this])
  have h0 := LexRun.one (lexStep_of (below := below) (firstRule_heredoc hst g tabs d hd (bodyText lines ++ (d ++ y)))
    (by simp [heredocToken])) (by simp [rule])
  obtain ⟨r, hr, hra, h4⟩ := firstRule_end d y
  have h4 := lexStep_of (below := (state, g) :: below) h4 hd.1
  rw [hra] at h4
  have h4 := LexRun.one h4 (by simp [hr])
  rw [hr] at h4
  refine ⟨ks, ?_, h2, h3⟩
  have := (h0.trans h1).trans h4
  simpa [rule] using this

/-- A run is determined step by step. -/
theorem LexRun.head {st st' st₁ : Stack} {s s' : Str} {k : Sym × Str} {ks : List (Sym × Str)} {r : Rule} {m : Match}
    (h : LexRun st s (k :: ks) st' s') (h1 : lexStep st s = some (r, m, st₁)) (hr : r.sym ≠ .whitespace) :
    k = (r.sym, m.txt) ∧ LexRun st₁ m.rest ks st' s' := by
  generalize hks : k :: ks = ks' at h
  cases h with
  | refl => cases hks
  | step h2 h3 =>
    rw [h1] at h2
    simp only [Option.some.injEq, Prod.mk.injEq] at h2
    obtain ⟨rfl, rfl, rfl⟩ := h2
    simp only [hr, if_false, List.cons_append, List.nil_append, List.cons.injEq] at hks
    obtain ⟨rfl, rfl⟩ := hks
    exact ⟨rfl, h3⟩

/-- C45 is false: a line that only begins with the delimiter ends the heredoc. -/
theorem C45_prefix_ends : ¬ C45_full := by
  intro h
  obtain ⟨ks, h1, h2, h3⟩ := h false c!"A" [c!"AB"] [] ⟨by decide, by decide⟩ (by decide)
  have hs := lexStep_of (below := []) (firstRule_heredoc (.inl rfl) [] false c!"A" ⟨by decide, by decide⟩ c!"AB\nA\n") (by decide)
  have e : heredocToken false c!"A" ++ bodyText [c!"AB"] ++ c!"A" ++ ['\n'] = heredocToken false c!"A" ++ c!"AB\nA\n" := rfl
  rw [e] at h1
  have h1 := (h1.head hs (by simp [rule])).2
  obtain ⟨r, hr, hra, h4⟩ := firstRule_end c!"A" c!"B\nA\n"
  have h4 := lexStep_of (below := [(.root, [])]) h4 (by simp)
  rw [hra] at h4
  cases ks with
  | nil => revert h3; decide
  | cons k ks =>
    have := (h1.head h4 (by simp [hr])).1
    have hk := h2 k (by simp)
    rw [this, hr] at hk
    simp at hk

/-- A heredoc with an empty line, with a line that contains the delimiter, and with more text after it. -/
example : ReadsHeredoc [(.root, [])] true c!"EOF" (bodyText [c!"a", [], c!" EOF"]) c!"\nx = 1\n" :=
  C45_heredoc_partial _ _ _ _ _ .root ⟨by decide, by decide⟩ (by decide)

/-! ## Comments -/

/-- C46: a single-line comment is the text up to the newline. -/
theorem C46_single (st : Stack) (p t y : Str) (hst : Plain st) (hp : p = c!"//" ∨ p = c!"#") (ht : '\n' ∉ t)
    (hy : y = [] ∨ ∃ y', y = '\n' :: y') : TokenOf st (p ++ t ++ y) .singleLineComment (p ++ t) y := by
  obtain ⟨state, g, below, hst⟩ := hst
  have hpt : ∀ c ∈ p ++ t, decide (c ≠ '\n') = true := by
    intro c hc
    rcases List.mem_append.1 hc with h | h
    · rcases hp with rfl | rfl <;> simp at h <;> subst h <;> decide
    · simp; rintro rfl; exact ht h
  have hstop := takeWhile_stop (p := fun c => decide (c ≠ '\n')) (l := p ++ t) (r := y) hpt (by
    intro a ha
    rcases hy with rfl | ⟨y', rfl⟩
    · simp at ha
    · simp at ha; subst ha; simp)
  refine TokenOf.of_firstRule (r := rule .singleLineComment reSingleLine) (m := ⟨p ++ t, none, y⟩) ?_
    (by rcases hp with rfl | rfl <;> simp) rfl
  have hf : reSingleLine.first (p ++ t ++ y) = some ⟨p ++ t, none, y⟩ := by
    rw [first_singleLine, if_pos, hstop.1, hstop.2]
    rcases hp with rfl | rfl
    · left; rw [List.append_assoc]; exact List.prefix_append _ _
    · right; rw [List.append_assoc]; exact List.prefix_append _ _
  obtain ⟨c, u, hcu⟩ : ∃ c u, p = c :: u := by rcases hp with rfl | rfl <;> exact ⟨_, _, rfl⟩
  rw [hcu] at hf ⊢
  rw [List.cons_append, List.cons_append] at hf ⊢
  rw [firstRule_filter]
  have : ∃ rs, (rulesOf state).filter (Rule.can g c) = rule .singleLineComment reSingleLine :: rs := by
    rcases hp with rfl | rfl <;> cases hcu <;> rcases hst with rfl | rfl <;> exact ⟨_, rfl⟩
  obtain ⟨rs, this⟩ := this
  rw [this]
  exact firstRule_hit hf

theorem closeAt_first (a y : Str) (ha : ¬ c!"*/" <:+: a) : closeAt (a ++ c!"*/" ++ y) = some (a, y) := by
  induction a with
  | nil => exact closeAt_close y
  | cons c a ih =>
    rw [List.cons_append, List.cons_append, closeAt_cons, ih fun h => ha (h.trans (List.suffix_cons _ _).isInfix)]
    · rfl
    · intro hp
      cases a with
      | nil => simp at hp
      | cons d a =>
        simp at hp
        exact ha ⟨[], a, by rw [← hp.1, ← hp.2]; rfl⟩

/-- C46: a multi-line comment runs up to the first `*/`. -/
theorem C46_multi (st : Stack) (a y : Str) (hst : Plain st) (ha : ¬ c!"*/" <:+: a) :
    TokenOf st (c!"/*" ++ a ++ c!"*/" ++ y) .multilineComment (c!"/*" ++ a ++ c!"*/") y := by
  obtain ⟨state, g, below, hst⟩ := hst
  have hf : reMultiline.first (c!"/*" ++ (a ++ c!"*/" ++ y)) = some ⟨c!"/*" ++ a ++ c!"*/", a.getLast?.map ([·]), y⟩ := by
    rw [first_multiline, closeAt_first a y ha]; rfl
  refine TokenOf.of_firstRule (r := rule .multilineComment reMultiline)
    (m := ⟨c!"/*" ++ a ++ c!"*/", a.getLast?.map ([·]), y⟩) ?_ (by simp) rfl
  have e : c!"/*" ++ a ++ c!"*/" ++ y = c!"/*" ++ (a ++ c!"*/" ++ y) := by simp
  rw [e]
  have : ∃ rs, (rulesOf state).filter (Rule.can g '/') =
      rule .singleLineComment reSingleLine :: rule .multilineComment reMultiline :: rs := by
    rcases hst with rfl | rfl <;> exact ⟨_, rfl⟩
  obtain ⟨rs, this⟩ := this
  rw [show c!"/*" ++ (a ++ c!"*/" ++ y) = '/' :: ('*' :: (a ++ c!"*/" ++ y)) from rfl] at hf ⊢
  rw [firstRule_filter, this, firstRule_miss, firstRule_hit hf]
  show reSingleLine.first _ = none
  rw [first_singleLine, if_neg]
  simp

/-- C46: `/*` without `*/` is no comment, it is read as two operators. -/
theorem C46_unterminated (st : Stack) (a : Str) (hst : Plain st) (ha : ¬ c!"*/" <:+: a) :
    TokenOf st (c!"/*" ++ a) .opDivision c!"/" ('*' :: a) := by
  refine C43_longest_partial st c!"/" _ _ hst (by decide) (by simp [LongestOp, operators]) ?_
  rintro (h | ⟨-, h⟩ | ⟨d, z, h, -⟩ | ⟨d, z, h, -⟩ | ⟨c, z, h, -⟩)
  · simp at h
  · exact ha (by simpa using h)
  · simp at h
  · simp at h
  · simp at h

theorem lexStep_lf (st : Stack) (y : Str) (hst : Plain st) : TokenOf st ('\n' :: y) .lf c!"\n" y := by
  obtain ⟨state, g, below, hst⟩ := hst
  refine TokenOf.of_firstRule (r := rule .lf (cls fun c => c = '\r' || c = '\n')) (m := ⟨c!"\n", none, y⟩) ?_ (by simp) rfl
  rw [firstRule_filter]
  have : (rulesOf state).filter (Rule.can g '\n') = [rule .lf (cls fun c => c = '\r' || c = '\n')] := by
    rcases hst with rfl | rfl <;> rfl
  rw [this, firstRule_hit]
  rfl

/-- The text of a single-line comment token. -/
def IsSingleLine (t : Str) : Prop := ∃ p u, t = p ++ u ∧ (p = c!"//" ∨ p = c!"#") ∧ '\n' ∉ u

/-- The text of a multi-line comment token. -/
def IsMultiline (t : Str) : Prop := ∃ a, t = c!"/*" ++ a ++ c!"*/" ∧ ¬ c!"*/" <:+: a

/-- C46: the formatted text of a comment with single-line texts is read as these comments, each followed by a line
feed. -/
theorem C46_format_single [FloatText] (st : Stack) (m : Meta) (a : Nat) (ts : List Str) (y : Str) (hst : Plain st)
    (hts : ∀ t ∈ ts, IsSingleLine t) :
    ∃ s, (Node.comment m (.mk a ts) []).fmt = some s ∧
      LexRun st (s ++ y) (ts.flatMap fun t => [(.singleLineComment, t), (.lf, c!"\n")]) st y := by
  refine ⟨(ts.map (· ++ c!"\n")).flatten, by rw [Node.fmt]; simp [fmtComment, Strs.list], ?_⟩
  induction ts with
  | nil => exact .refl _ _
  | cons t ts ih =>
    obtain ⟨p, u, rfl, hp, hu⟩ := hts t (by simp)
    have h1 := (C46_single st p u ('\n' :: ((ts.map (· ++ c!"\n")).flatten ++ y)) hst hp hu (.inr ⟨_, rfl⟩)).run (by simp)
    have h2 := (lexStep_lf st ((ts.map (· ++ c!"\n")).flatten ++ y) hst).run (by simp)
    have h3 := ih fun t ht => hts t (by simp [ht])
    have := (h1.trans h2).trans h3
    simpa using this

/-- C46: the formatted text of a multi-line comment, with or without the line feed that the grammar adds to it, is read
as this comment. -/
theorem C46_format_multi [FloatText] (st : Stack) (m : Meta) (ss : Strs) (t lf y : Str) (hst : Plain st)
    (ht : IsMultiline t) (hlf : lf = [] ∨ lf = c!"\n") :
    (Node.comment m ss (t ++ lf)).fmt = some (t ++ lf) ∧
      LexRun st (t ++ lf ++ y) ((.multilineComment, t) :: if lf = [] then [] else [(.lf, lf)]) st y := by
  obtain ⟨a, rfl, ha⟩ := ht
  refine ⟨by rw [Node.fmt]; simp [fmtComment], ?_⟩
  have h1 := (C46_multi st a (lf ++ y) hst ha).run (by simp)
  rcases hlf with rfl | rfl
  · simpa using h1
  · have := h1.trans ((lexStep_lf st y hst).run (by simp))
    simpa using this

/-- A comment with stars and a slash in it, and one that is not closed. -/
example : TokenOf [(.root, [])] c!"/** a / b **/ c" .multilineComment c!"/** a / b **/" c!" c" :=
  C46_multi _ c!"* a / b *" _ .root (by decide)

example : IsSingleLine c!"# a // b" := ⟨c!"#", c!" a // b", rfl, .inr rfl, by decide⟩

end Verif.Etx
