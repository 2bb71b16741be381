import Verif.Etx.LexJoin
import Verif.Etx.TokenLemmas
import Verif.Etx.Spread

/-!
# Lexing a text with carriage returns before the line ends

A text without heredocs and without line ends in quotes gives the same tokens if its lines end with `\r\n`, except that each
line end is two tokens, unless a comment before it takes the `\r`.
-/

namespace Verif.Etx
open Re

/-- The same text with `\r\n` at the ends of lines. -/
def crlf : Str → Str
  | [] => []
  | c :: s => if c = '\n' then '\r' :: '\n' :: crlf s else c :: crlf s

theorem crlf_lf (s : Str) : crlf ('\n' :: s) = '\r' :: '\n' :: crlf s := rfl

theorem crlf_cons {c : Char} (hc : c ≠ '\n') (s : Str) : crlf (c :: s) = c :: crlf s := by simp [crlf, hc]

theorem crlf_append {a : Str} (ha : '\n' ∉ a) (b : Str) : crlf (a ++ b) = a ++ crlf b := by
  induction a with
  | nil => rfl
  | cons c a ih =>
    simp only [List.mem_cons, not_or] at ha
    rw [List.cons_append, crlf_cons (Ne.symm ha.1), ih ha.2]
    rfl

theorem crlf_nil {s : Str} : crlf s = [] ↔ s = [] := by
  cases s with
  | nil => simp [crlf]
  | cons c s =>
    simp only [crlf]
    split <;> simp

theorem unbroken_crlf (s : Str) : unbroken (crlf s) = unbroken s := by
  induction s with
  | nil => rfl
  | cons c s ih =>
    simp only [crlf]
    split
    · rename_i h
      subst h
      simpa [unbroken] using ih
    · simp only [unbroken, List.filter_cons] at ih ⊢
      rw [ih]

/-- A match in the text with carriage returns. -/
def Match.crlf (m : Match) : Match := { m with rest := Verif.Etx.crlf m.rest }

namespace Re

/-- No line end is matched. -/
def noBreak (r : Re) : Bool := !r.chars '\n' && !r.chars '\r'

theorem flatMap_crlf {l : List Match} {f g : Match → List Match} (h : ∀ m ∈ l, g m.crlf = (f m).map Match.crlf) :
    (l.map Match.crlf).flatMap g = (l.flatMap f).map Match.crlf := by
  rw [List.flatMap_map, List.map_flatMap]
  exact flatMap_congr' h

theorem run_crlf (r : Re) (hr : r.chars '\n' = false) (hr' : r.chars '\r' = false) : ∀ prev s,
    r.run prev (crlf s) = (r.run prev s).map Match.crlf := by
  induction r with
  | eps => intro prev s; rfl
  | cls p =>
    intro prev s
    cases s with
    | nil => rfl
    | cons c s =>
      simp only [chars] at hr hr'
      by_cases hc : c = '\n'
      · subst hc
        simp only [crlf_lf, run, hr, hr']
        rfl
      · rw [crlf_cons hc]
        simp only [run]
        split <;> rfl
  | seq a c iha ihc =>
    intro prev s
    simp only [chars, Bool.or_eq_false_iff] at hr hr'
    simp only [run, iha hr.1 hr'.1 prev s]
    refine flatMap_crlf fun m hm => ?_
    show (c.run (m.last prev) (crlf m.rest)).map m.andThen = _
    rw [ihc hr.2 hr'.2]
    simp only [List.map_map]
    rfl
  | alt a c iha ihc =>
    intro prev s
    simp only [chars, Bool.or_eq_false_iff] at hr hr'
    simp only [run, iha hr.1 hr'.1 prev s, ihc hr.2 hr'.2 prev s, List.map_append]
  | star a iha =>
    have : ∀ n prev s, s.length ≤ n → (star a).run prev (crlf s) = ((star a).run prev s).map Match.crlf := by
      intro n
      induction n with
      | zero =>
        intro prev s hn
        cases s with
        | nil => rfl
        | cons => simp at hn
      | succ n ih =>
        intro prev s hn
        rw [run_star, run_star, iha hr hr' prev s, List.map_append, List.filter_map]
        congr 1
        show (List.map Match.crlf (List.filter (fun m => decide (m.txt ≠ [])) (a.run prev s))).flatMap _ = _
        refine flatMap_crlf fun m hm => ?_
        obtain ⟨hm, hne⟩ := List.mem_filter.mp hm
        have hlt := run_rest_lt hm (by simpa using hne)
        show ((star a).run (m.last prev) (crlf m.rest)).map m.andThen = _
        rw [ih _ _ (by omega)]
        simp only [List.map_map]
        rfl
    exact fun prev s => this s.length prev s (Nat.le_refl _)
  | lazyStar a iha =>
    have : ∀ n prev s, s.length ≤ n → (lazyStar a).run prev (crlf s) = ((lazyStar a).run prev s).map Match.crlf := by
      intro n
      induction n with
      | zero =>
        intro prev s hn
        cases s with
        | nil => rfl
        | cons => simp at hn
      | succ n ih =>
        intro prev s hn
        rw [run_lazyStar, run_lazyStar, iha hr hr' prev s, List.map_cons, List.filter_map]
        congr 1
        show (List.map Match.crlf (List.filter (fun m => decide (m.txt ≠ [])) (a.run prev s))).flatMap _ = _
        refine flatMap_crlf fun m hm => ?_
        obtain ⟨hm, hne⟩ := List.mem_filter.mp hm
        have hlt := run_rest_lt hm (by simpa using hne)
        show ((lazyStar a).run (m.last prev) (crlf m.rest)).map m.andThen = _
        rw [ih _ _ (by omega)]
        simp only [List.map_map]
        rfl
    exact fun prev s => this s.length prev s (Nat.le_refl _)
  | bot =>
    intro prev s
    simp only [run]
    split <;> rfl
  | eot =>
    intro prev s
    simp only [run, crlf_nil]
    split <;> rfl
  | wordB =>
    intro prev s
    have : (crlf s).head?.any isWord = s.head?.any isWord := by
      cases s with
      | nil => rfl
      | cons c s =>
        simp only [crlf]
        split
        · rename_i h
          subst h
          rfl
        · rfl
    simp only [run, this]
    split <;> rfl
  | grp a iha =>
    intro prev s
    simp only [run, iha hr hr' prev s, List.map_map]
    rfl

theorem first_crlf {r : Re} (hr : r.noBreak = true) (s : Str) : r.first (crlf s) = (r.first s).map Match.crlf := by
  simp only [noBreak, Bool.and_eq_true, Bool.not_eq_true'] at hr
  rw [first, first, run_crlf r hr.1 hr.2, List.head?_map]

theorem noBreak_lit {w : Str} (h : '\n' ∉ w) (h' : '\r' ∉ w) : (lit w).noBreak = true := by
  simp [noBreak, chars_lit h, chars_lit h']

end Re

theorem prefix_crlf {p s : Str} (hp : '\n' ∉ p) (hp' : '\r' ∉ p) : p <+: crlf s ↔ p <+: s := by
  induction p generalizing s with
  | nil => simp
  | cons c p ih =>
    simp only [List.mem_cons, not_or] at hp hp'
    cases s with
    | nil => simp [crlf]
    | cons d s =>
      simp only [crlf]
      split
      · rename_i h
        subst h
        simp only [List.cons_prefix_cons]
        constructor
        · rintro ⟨rfl, -⟩; exact absurd rfl hp'.1
        · rintro ⟨rfl, -⟩; exact absurd rfl hp.1
      · simp only [List.cons_prefix_cons, ih hp.2 hp'.2]

theorem closeAt_crlf (s : Str) : closeAt (crlf s) = (closeAt s).map fun (a, b) => (crlf a, crlf b) := by
  induction s with
  | nil => rfl
  | cons c s ih =>
    by_cases h : c!"*/" <+: c :: s
    · obtain ⟨t, ht⟩ := h
      rw [← ht]
      show closeAt ('*' :: '/' :: crlf t) = (closeAt ('*' :: '/' :: t)).map _
      rw [closeAt_close, closeAt_close]
      rfl
    · rw [closeAt_cons c s h]
      by_cases hc : c = '\n'
      · subst hc
        rw [crlf_lf, closeAt_cons _ _ (by simp), closeAt_cons _ _ (by simp), ih]
        cases closeAt s <;> rfl
      · have h' : ¬ c!"*/" <+: c :: crlf s := by
          rw [← crlf_cons hc, prefix_crlf (by decide) (by decide)]
          exact h
        rw [crlf_cons hc, closeAt_cons _ _ h', ih]
        cases closeAt s with
        | none => rfl
        | some x => simp [crlf_cons hc]

theorem multiline_none {s : Str} (h : reMultiline.first s = none) : reMultiline.first (crlf s) = none := by
  by_cases hp : c!"/*" <+: s
  · obtain ⟨y, rfl⟩ := hp
    rw [crlf_append (by decide), first_multiline, closeAt_crlf]
    rw [first_multiline] at h
    cases hc : closeAt y with
    | none => rfl
    | some x => rw [hc] at h; cases h
  · exact first_multiline_none _ (by rwa [prefix_crlf (by decide) (by decide)])

theorem multiline_some {s : Str} {m : Match} (h : reMultiline.first s = some m) : ∃ m', reMultiline.first (crlf s) = some m' ∧
    m'.txt = crlf m.txt ∧ m'.rest = crlf m.rest ∧ marked m.txt = true ∧ marked m'.txt = true := by
  by_cases hp : c!"/*" <+: s
  · obtain ⟨y, rfl⟩ := hp
    rw [crlf_append (by decide), first_multiline, closeAt_crlf]
    rw [first_multiline] at h
    cases hc : closeAt y with
    | none => rw [hc] at h; cases h
    | some x =>
      rw [hc] at h
      cases h
      refine ⟨_, rfl, ?_, rfl, rfl, rfl⟩
      simp only [List.append_assoc, crlf_append (a := c!"/*") (by decide)]
      congr 1
      generalize x.1 = a
      induction a with
      | nil => rfl
      | cons c a ih =>
        rw [List.cons_append]
        simp only [crlf]
        split <;> simp [ih]
  · rw [first_multiline_none _ hp] at h
    cases h

theorem singleLine_none {s : Str} (h : reSingleLine.first s = none) : reSingleLine.first (crlf s) = none := by
  rw [first_singleLine] at h ⊢
  split at h
  · cases h
  · rename_i h'
    rw [if_neg (by rwa [prefix_crlf (by decide) (by decide), prefix_crlf (by decide) (by decide)])]

theorem takeWhile_crlf (s : Str) : (crlf s).takeWhile (· ≠ '\n') =
      s.takeWhile (· ≠ '\n') ++ (if s.dropWhile (· ≠ '\n') = [] then [] else ['\r']) ∧
    (crlf s).dropWhile (· ≠ '\n') = (if s.dropWhile (· ≠ '\n') = [] then [] else '\n' :: crlf (s.dropWhile (· ≠ '\n')).tail) := by
  induction s with
  | nil => exact ⟨rfl, rfl⟩
  | cons c s ih =>
    by_cases hc : c = '\n'
    · subst hc
      rw [crlf_lf]
      simp
    · rw [crlf_cons hc]
      simp only [ne_eq, decide_not] at ih ⊢
      simp [hc, ih]

theorem singleLine_some {s : Str} {m : Match} (h : reSingleLine.first s = some m) :
    marked m.txt = true ∧ '\n' ∉ m.txt ∧ m.cap = none ∧
    ((m.rest = [] ∧ reSingleLine.first (crlf s) = some ⟨m.txt, none, []⟩) ∨
      ∃ r, m.rest = '\n' :: r ∧ reSingleLine.first (crlf s) = some ⟨m.txt ++ ['\r'], none, '\n' :: crlf r⟩) := by
  rw [first_singleLine] at h ⊢
  split at h
  · rename_i hp
    cases h
    rw [if_pos (by rwa [prefix_crlf (by decide) (by decide), prefix_crlf (by decide) (by decide)]), (takeWhile_crlf s).1, (takeWhile_crlf s).2]
    refine ⟨?_, ?_, rfl, ?_⟩
    · rcases hp with ⟨t, rfl⟩ | ⟨t, rfl⟩ <;> rfl
    · intro hn
      have := List.all_eq_true.mp (List.all_takeWhile (p := fun c : Char => decide (c ≠ '\n')) (l := s)) _ hn
      simp at this
    · cases hd : s.dropWhile (· ≠ '\n') with
      | nil => left; simp
      | cons c r =>
        right
        have : c = '\n' := by
          have := List.head?_dropWhile_not (fun c : Char => decide (c ≠ '\n')) s
          rw [hd] at this
          simpa using this
        subst this
        exact ⟨r, rfl, by simp⟩
  · cases h

theorem crlf_before {s u v : Str} (h : crlf s = u ++ '\n' :: v) : u.getLast? = some '\r' := by
  induction s generalizing u with
  | nil => simp [crlf] at h
  | cons c s ih =>
    by_cases hc : c = '\n'
    · subst hc
      rw [crlf_lf] at h
      cases u with
      | nil => cases h
      | cons d u =>
        cases u with
        | nil => cases h; rfl
        | cons e u =>
          simp only [List.cons_append, List.cons.injEq] at h
          have := ih h.2.2
          rw [List.getLast?_cons, List.getLast?_cons, this]
          rfl
    · rw [crlf_cons hc] at h
      cases u with
      | nil => cases h; exact absurd rfl hc
      | cons d u =>
        simp only [List.cons_append, List.cons.injEq] at h
        have := ih h.2
        rw [List.getLast?_cons, this]
        rfl

theorem heredoc_none (s : Str) : reHeredoc.first (crlf s) = none := by
  cases h : reHeredoc.first (crlf s) with
  | none => rfl
  | some m =>
    exfalso
    have hm := List.mem_of_head? h
    have hs := run_split _ _ _ _ hm
    obtain ⟨a, _, h1, -, d, _, rfl, -, w, n, rfl, hw, hn⟩ := run_lang _ _ _ _ hm
    rw [(lang_lit _ _).mp hn] at h1
    obtain ⟨h0, hw⟩ := (lang_plus_cls _ _).mp hw
    have := crlf_before (s := s) (u := a ++ (d ++ w)) (v := m.rest) (by rw [← hs, h1]; simp)
    rw [← List.append_assoc, List.getLast?_append] at this
    cases hl : w.getLast? with
    | none => exact h0 (by simpa using hl)
    | some c =>
      rw [hl] at this
      cases this
      have := hw _ (List.mem_of_getLast? hl)
      exact absurd this (by decide)

/-! ## One rule -/

/-- `[^\$%"'\\]+` (`lexer.go:127`) -/
def charRule : Rule := rule .char (plus (cls fun c => !(c = '$' || c = '%' || c = '"' || c = '\'' || c = '\\')))

/-- `\\.` (`lexer.go:121`) -/
def escapedRule : Rule := rule .escaped (seq (lit c!"\\") (cls (· ≠ '\n')))

/-- `[\r\n]` (`lexer.go:115`) -/
def lfRule : Rule := rule .lf (cls fun c => c = '\r' || c = '\n')

theorem rule_kinds {state : LexState} {g : Str} (hg : '\n' ∉ g) (hg' : '\r' ∉ g) (hh : state ≠ .heredoc) (r : Rule)
    (hr : r ∈ rulesOf state) :
    (r.pat g).noBreak = true ∧ r.sym ∉ [Sym.singleLineComment, .multilineComment, .lf] ∨
      state.core = true ∧ (r = rule .singleLineComment reSingleLine ∨ r = rule .multilineComment reMultiline ∨
        r = rule .heredoc reHeredoc (.push .heredoc) ∨ r = lfRule) ∨
      state = .string ∧ (r = charRule ∨ r = escapedRule) := by
  have core : ∀ r ∈ coreRules, (r.pat g).noBreak = true ∧ r.sym ∉ [Sym.singleLineComment, .multilineComment, .lf] ∨
      (r = rule .singleLineComment reSingleLine ∨ r = rule .multilineComment reMultiline ∨
        r = rule .heredoc reHeredoc (.push .heredoc) ∨ r = lfRule) := by
    unfold coreRules
    simp only [List.forall_mem_cons]
    refine ⟨.inr (.inl trivial), .inr (.inr (.inl trivial)), ?_⟩
    repeat' apply And.intro
    all_goals first
      | exact .inl ⟨rfl, by decide⟩
      | exact .inr (.inr (.inr (.inl trivial)))
      | exact .inr (.inr (.inr (.inr rfl)))
      | simp
  cases state with
  | root =>
    rcases core r hr with h | h
    · exact .inl h
    · exact .inr (.inl ⟨rfl, h⟩)
  | stringExpr =>
    rcases List.mem_cons.mp hr with rfl | hr
    · exact .inl ⟨rfl, by decide⟩
    · rcases core r hr with h | h
      · exact .inl h
      · exact .inr (.inl ⟨rfl, h⟩)
  | unicode =>
    left
    revert r
    simp only [rulesOf, unicodeRules, List.forall_mem_cons]
    exact ⟨⟨rfl, by decide⟩, ⟨rfl, by decide⟩, by simp⟩
  | heredoc => exact absurd rfl hh
  | string =>
    have : (r.pat g).noBreak = true ∧ r.sym ∉ [Sym.singleLineComment, .multilineComment, .lf] ∨ r = charRule ∨ r = escapedRule := by
      revert r
      simp only [rulesOf, stringRules, List.forall_mem_cons]
      exact ⟨.inl ⟨rfl, by decide⟩, .inr (.inr rfl), .inl ⟨noBreak_lit hg hg', by decide⟩, .inl ⟨rfl, by decide⟩,
        .inl ⟨rfl, by decide⟩, .inl ⟨rfl, by decide⟩, .inl ⟨rfl, by decide⟩, .inr (.inl rfl), by simp⟩
    rcases this with h | h
    · exact .inl h
    · exact .inr (.inr ⟨rfl, h⟩)

theorem first_cls (p : Char → Bool) (c : Char) (s : Str) :
    (cls p).first (c :: s) = if p c = true then some ⟨[c], none, s⟩ else none := by
  simp only [first, Re.run]
  split <;> rfl

theorem first_escaped (s : Str) : (seq (lit c!"\\") (cls (· ≠ '\n'))).first s =
    match s with
    | '\\' :: c :: s => if c = '\n' then none else some ⟨['\\', c], none, s⟩
    | _ => none := by
  split
  · rename_i c s
    by_cases hc : c = '\n'
    · subst hc; rfl
    · simp [first, Re.run, lit, hc, Match.andThen, Match.last, Match.nothing]
  · rename_i h
    rw [Re.first_none]
    cases s with
    | nil => rfl
    | cons d s =>
      by_cases hd : d = '\\'
      · subst hd
        cases s with
        | nil => rfl
        | cons e s => exact absurd rfl (h e s)
      · simp [Re.run, lit, hd]

/-- A rule that does not match still does not. -/
theorem rule_none {state : LexState} {g s : Str} (hg : '\n' ∉ g) (hg' : '\r' ∉ g) (hh : state ≠ .heredoc) {r : Rule}
    (hr : r ∈ rulesOf state) (hn : (r.pat g).first s = none) (he : state = .string → ¬ c!"\\\n" <+: s) :
    (r.pat g).first (crlf s) = none := by
  rcases rule_kinds hg hg' hh r hr with ⟨h, -⟩ | ⟨-, rfl | rfl | rfl | rfl⟩ | ⟨hst, rfl | rfl⟩
  · rw [first_crlf h, hn]; rfl
  · exact singleLine_none hn
  · exact multiline_none hn
  · exact heredoc_none s
  · cases s with
    | nil => rfl
    | cons c s =>
      have hn : (cls fun c => c = '\r' || c = '\n').first (c :: s) = none := hn
      show (cls fun c => c = '\r' || c = '\n').first _ = none
      rw [first_cls] at hn
      by_cases hc : c = '\n'
      · subst hc; cases hn
      · rw [crlf_cons hc, first_cls]
        split at hn
        · cases hn
        · rename_i h; rw [if_neg h]
  · cases s with
    | nil => rfl
    | cons c s =>
      have hn : (plus (cls fun c => !(c = '$' || c = '%' || c = '"' || c = '\'' || c = '\\'))).first (c :: s) = none := hn
      show (plus (cls fun c => !(c = '$' || c = '%' || c = '"' || c = '\'' || c = '\\'))).first _ = none
      cases hp : (!(c = '$' || c = '%' || c = '"' || c = '\'' || c = '\\') : Bool) with
      | true => rw [first, head_plus_cls _ _ _ hp] at hn; cases hn
      | false =>
        have hc : c ≠ '\n' := by rintro rfl; cases hp
        rw [crlf_cons hc, Re.first_none]
        exact run_plus_cls_fail (by simpa using hp)
  · have hn : (seq (lit c!"\\") (cls (· ≠ '\n'))).first s = none := hn
    show (seq (lit c!"\\") (cls (· ≠ '\n'))).first _ = none
    rw [first_escaped] at hn
    split at hn
    · rename_i c x _
      split at hn
      · rename_i hc
        subst hc
        exact absurd ⟨x, rfl⟩ (he hst)
      · cases hn
    · rename_i h
      rw [first_escaped]
      split
      · rename_i c s' e
        exfalso
        cases s with
        | nil => cases e
        | cons d s =>
          by_cases hd : d = '\n'
          · subst hd; cases e
          · rw [crlf_cons hd] at e
            simp only [List.cons.injEq] at e
            cases s with
            | nil => cases e.2
            | cons e' s => exact h e' s (by rw [e.1])
      · rfl

/-- No rule reads a backslash before a line end. -/
theorem string_backslash {g s : Str} {r : Rule} {m : Match} (hg : '\\' ∉ g) (h : firstRule g s stringRules = some (r, m)) (hm : m.txt ≠ []) :
    ¬ c!"\\\n" <+: s := by
  rintro ⟨x, rfl⟩
  obtain ⟨hmem, hf⟩ := firstRule_some h
  have hin := List.mem_of_head? hf
  have hs := run_split _ _ _ _ hin
  have hc : '\\' ∈ m.txt := by
    cases ht : m.txt with
    | nil => exact absurd ht hm
    | cons d w =>
      rw [ht] at hs
      simp only [List.cons_append, List.cons.injEq] at hs
      rw [hs.1]
      simp
  have hc := run_chars _ _ _ _ hin _ hc
  have : ∀ r ∈ stringRules, r.pat g = lit c!"\\u" ∨ r.pat g = seq (lit c!"\\") (cls (· ≠ '\n')) ∨ (r.pat g).chars '\\' = false := by
    simp only [stringRules, List.forall_mem_cons]
    exact ⟨.inl rfl, .inr (.inl rfl), .inr (.inr (chars_lit hg)), .inr (.inr rfl), .inr (.inr rfl), .inr (.inr rfl), .inr (.inr rfl),
      .inr (.inr rfl), by simp⟩
  rcases this r hmem with h1 | h1 | h1
  · rw [h1, first_lit, if_neg] at hf
    · cases hf
    · rintro ⟨y, hy⟩
      cases hy
  · rw [h1, first_escaped] at hf
    cases hf
  · rw [hc] at h1
    cases h1

/-! ## One step -/

theorem firstRule_crlf {g s : Str} {rs : List Rule} (h : ∀ r ∈ rs, (r.pat g).first s = none → (r.pat g).first (crlf s) = none)
    {r : Rule} {m m' : Match} (hr : firstRule g s rs = some (r, m)) (hm : (r.pat g).first (crlf s) = some m') :
    firstRule g (crlf s) rs = some (r, m') := by
  induction rs with
  | nil => cases hr
  | cons x rs ih =>
    simp only [firstRule] at hr ⊢
    cases e : (x.pat g).first s with
    | none =>
      rw [e] at hr
      rw [h x (by simp) e]
      exact ih (fun r hr => h r (by simp [hr])) hr
    | some m1 =>
      rw [e] at hr
      cases hr
      rw [hm]

/-- The groups of the stack, and no heredoc. -/
def Tame (st : Stack) : Prop := ∀ x ∈ st, '\n' ∉ x.2 ∧ '\r' ∉ x.2 ∧ '\\' ∉ x.2 ∧ x.1 ≠ .heredoc

theorem Tame.step {st st' : Stack} {s : Str} {r : Rule} {m : Match} (h : Tame st)
    (hs : lexStep st s = some (r, m, st')) (hh : r.sym ≠ .heredoc) : Tame st' := by
  obtain ⟨state, g, below, rfl, hr, -, rfl⟩ := lexStep_some hs
  obtain ⟨hmem, hfirst⟩ := firstRule_some hr
  cases ha : r.action with
  | none => exact h
  | push new =>
    intro x hx
    rcases List.mem_cons.1 hx with rfl | hx
    · have hm := List.mem_of_head? hfirst
      have : ∀ r ∈ rulesOf state, r.action = .push new → r.sym ≠ .heredoc → (r.pat g).groupChars '\n' = false ∧
          (r.pat g).groupChars '\r' = false ∧ (r.pat g).groupChars '\\' = false ∧ new ≠ .heredoc := by
        have core : ∀ r ∈ coreRules, r.action = .push new → r.sym ≠ .heredoc → (r.pat g).groupChars '\n' = false ∧
          (r.pat g).groupChars '\r' = false ∧ (r.pat g).groupChars '\\' = false ∧ new ≠ .heredoc := by
          unfold coreRules
          simp only [List.forall_mem_cons, rule]
          repeat' apply And.intro
          all_goals first
            | (intro h; cases h; done)
            | (intro _ h; exact absurd rfl h; done)
            | (intro h _; cases h; exact ⟨rfl, rfl, rfl, by decide⟩; done)
            | simp
        cases state with
        | root => exact core
        | stringExpr => exact List.forall_mem_cons.2 ⟨(by intro h; cases h), core⟩
        | unicode =>
          simp only [rulesOf, unicodeRules, List.forall_mem_cons]
          exact ⟨fun h => by (cases h), fun h => by (cases h), by simp⟩
        | heredoc => exact absurd rfl (h (.heredoc, g) (by simp)).2.2.2
        | string =>
          simp only [rulesOf, stringRules, List.forall_mem_cons, rule]
          repeat' apply And.intro
          all_goals first
            | (intro h; cases h; done)
            | (intro h _; cases h; exact ⟨rfl, rfl, rfl, by decide⟩; done)
            | simp
      obtain ⟨h1, h2, h3, h4⟩ := this r hmem ha hh
      refine ⟨fun hc => ?_, fun hc => ?_, fun hc => ?_, h4⟩
      · rw [run_group _ _ _ _ hm _ hc] at h1; cases h1
      · rw [run_group _ _ _ _ hm _ hc] at h2; cases h2
      · rw [run_group _ _ _ _ hm _ hc] at h3; cases h3
    · exact h x hx
  | pop => exact fun x hx => h x (List.mem_cons_of_mem _ hx)

theorem firstRule_lf {state : LexState} (hc : state.core = true) (g : Str) {c : Char} (h : c = '\n' ∨ c = '\r') (s : Str) :
    firstRule g (c :: s) (rulesOf state) = some (lfRule, ⟨[c], none, s⟩) := by
  rw [firstRule_filter]
  have : (rulesOf state).filter (Rule.can g c) = [lfRule] := by
    cases state <;> rcases h with rfl | rfl <;> first | rfl | cases hc
  rw [this]
  simp only [firstRule]
  show (match (cls fun c => c = '\r' || c = '\n').first (c :: s) with
    | some m => some (lfRule, m)
    | none => none) = _
  rw [first_cls, if_pos (by rcases h with rfl | rfl <;> rfl)]

theorem char_some {s : Str} {m : Match} (h : (charRule.pat []).first s = some m) (hn : '\n' ∉ m.txt) :
    (charRule.pat []).first (crlf s) = some m.crlf := by
  have h : (plus (cls fun c => !(c = '$' || c = '%' || c = '"' || c = '\'' || c = '\\'))).first s = some m := h
  show (plus (cls fun c => !(c = '$' || c = '%' || c = '"' || c = '\'' || c = '\\'))).first _ = _
  generalize hp : (fun c : Char => !(c = '$' || c = '%' || c = '"' || c = '\'' || c = '\\')) = p at h ⊢
  have hlf : p '\n' = true := by subst hp; rfl
  cases s with
  | nil => cases h
  | cons c s =>
    cases hc : p c with
    | false => rw [Re.first_none.mpr (run_plus_cls_fail (by simpa using hc))] at h; cases h
    | true =>
      rw [first, head_plus_cls p c _ hc] at h
      cases h
      simp only [List.mem_cons, not_or] at hn
      rw [crlf_cons (Ne.symm hn.1), first, head_plus_cls p c _ hc]
      have : ∀ s : Str, '\n' ∉ s.takeWhile p → (crlf s).takeWhile p = s.takeWhile p ∧ (crlf s).dropWhile p = crlf (s.dropWhile p) := by
        intro s
        induction s with
        | nil => intro _; exact ⟨rfl, rfl⟩
        | cons d s ih =>
          intro h
          have hd : d ≠ '\n' := by
            rintro rfl
            simp [hlf] at h
          rw [crlf_cons hd]
          cases hpd : p d with
          | false => simp [hpd, crlf_cons hd]
          | true =>
            simp only [List.takeWhile_cons, hpd, if_true, List.mem_cons, not_or] at h
            simp [hpd, ih h.2]
      rw [(this s hn.2).1, (this s hn.2).2]
      rfl

/-- What one token becomes: the lexer is after it, or after the first of two line ends. -/
theorem lexStep_crlf {st st' : Stack} {s : Str} {r : Rule} {m : Match} (hst : Tame st) (h : lexStep st s = some (r, m, st'))
    (hs : '\r' ∉ s) (hh : r.sym ≠ .heredoc) (hc : r.sym = .char → '\n' ∉ m.txt) :
    (r.sym ∉ [Sym.singleLineComment, .multilineComment, .lf] ∧ lexStep st (crlf s) = some (r, m.crlf, st')) ∨
    (r.sym = .lf ∧ m.txt = ['\n'] ∧ st' = st ∧ ∃ r1 r2, r1.sym = .lf ∧ r2.sym = .lf ∧
      lexStep st (crlf s) = some (r1, ⟨['\r'], none, '\n' :: crlf m.rest⟩, st) ∧
      lexStep st ('\n' :: crlf m.rest) = some (r2, ⟨['\n'], none, crlf m.rest⟩, st)) ∨
    (r.sym = .multilineComment ∧ marked m.txt = true ∧ ∃ m', lexStep st (crlf s) = some (r, m', st') ∧ m'.rest = crlf m.rest ∧
      marked m'.txt = true ∧ unbroken m'.txt = unbroken m.txt) ∨
    (r.sym = .singleLineComment ∧ st' = st ∧ marked m.txt = true ∧ '\n' ∉ m.txt ∧ ∃ m', lexStep st (crlf s) = some (r, m', st) ∧
      marked m'.txt = true ∧ unbroken m'.txt = unbroken m.txt ∧
      (m.rest = [] ∧ m'.rest = [] ∨ ∃ x, m.rest = '\n' :: x ∧ m'.rest = '\n' :: crlf x ∧ ∃ r1 r2, r1.sym = .lf ∧ r2.sym = .lf ∧
        lexStep st m.rest = some (r1, ⟨['\n'], none, x⟩, st) ∧ lexStep st m'.rest = some (r2, ⟨['\n'], none, crlf x⟩, st))) := by
  have hsp := lexStep_split h
  obtain ⟨state, g, below, rfl, hr, hne, rfl⟩ := lexStep_some h
  obtain ⟨hmem, hfirst⟩ := firstRule_some hr
  obtain ⟨hg, hg', hg'', hst'⟩ := hst (state, g) (by simp)
  have hbs : state = .string → ¬ c!"\\\n" <+: s := by
    rintro rfl
    exact string_backslash hg'' hr hne
  have step : ∀ m', (r.pat g).first (crlf s) = some m' → firstRule g (crlf s) (rulesOf state) = some (r, m') := fun m' =>
    firstRule_crlf (fun r hr hn => rule_none hg hg' hst' hr hn hbs) hr
  rcases rule_kinds hg hg' hst' r hmem with ⟨hb, hy⟩ | ⟨hcore, rfl | rfl | rfl | rfl⟩ | ⟨rfl, rfl | rfl⟩
  · left
    refine ⟨hy, ?_⟩
    rw [lexStep_of (step m.crlf (by rw [first_crlf hb, hfirst]; rfl)) hne]
    rfl
  · right; right; right
    obtain ⟨h1, h2, h3, h4⟩ := singleLine_some hfirst
    refine ⟨rfl, rfl, h1, h2, ?_⟩
    have lf : ∀ x, lexStep ((state, g) :: below) ('\n' :: x) = some (lfRule, ⟨['\n'], none, x⟩, (state, g) :: below) := by
      intro x
      rw [lexStep_of (firstRule_lf hcore g (.inl rfl) x) (by simp)]
      rfl
    rcases h4 with ⟨h5, h6⟩ | ⟨x, h5, h6⟩
    · refine ⟨_, lexStep_of (step _ h6) hne, h1, rfl, .inl ⟨h5, rfl⟩⟩
    · refine ⟨_, lexStep_of (step _ h6) (by simp), ?_, ?_, .inr ⟨x, h5, rfl, lfRule, lfRule, rfl, rfl, ?_, lf _⟩⟩
      · cases ht : m.txt with
        | nil => exact absurd ht hne
        | cons c w => rw [ht] at h1; exact h1
      · simp [unbroken]
      · rw [h5]; exact lf _
  · right; right; left
    obtain ⟨m', h1, h2, h3, h4, h5⟩ := multiline_some hfirst
    refine ⟨rfl, h4, m', lexStep_of (step _ h1) (by rw [h2, Ne, crlf_nil]; exact hne), h3, h5, by rw [h2, unbroken_crlf]⟩
  · exact absurd rfl hh
  · right; left
    cases s with
    | nil => cases hfirst
    | cons c s =>
      have hfirst : (cls fun c => c = '\r' || c = '\n').first (c :: s) = some m := hfirst
      rw [first_cls] at hfirst
      split at hfirst
      · rename_i hp
        cases hfirst
        simp only [List.mem_cons, not_or] at hs
        have : c = '\n' := by
          rcases (by simpa using hp : c = '\r' ∨ c = '\n') with e | e
          · exact absurd e.symm hs.1
          · exact e
        subst this
        refine ⟨rfl, rfl, rfl, lfRule, lfRule, rfl, rfl, ?_, ?_⟩
        · rw [crlf_lf, lexStep_of (firstRule_lf hcore g (.inr rfl) _) (by simp)]
          rfl
        · rw [lexStep_of (firstRule_lf hcore g (.inl rfl) _) (by simp)]
          rfl
      · cases hfirst
  · left
    refine ⟨by decide, ?_⟩
    rw [lexStep_of (step m.crlf (char_some hfirst (hc rfl))) hne]
    rfl
  · left
    refine ⟨by decide, ?_⟩
    have : (escapedRule.pat g).first (crlf s) = some m.crlf := by
      have hfirst : (seq (lit c!"\\") (cls (· ≠ '\n'))).first s = some m := hfirst
      show (seq (lit c!"\\") (cls (· ≠ '\n'))).first _ = _
      rw [first_escaped] at hfirst
      split at hfirst
      · rename_i c x _
        split at hfirst
        · cases hfirst
        · rename_i hcn
          cases hfirst
          rw [crlf_cons (by decide), crlf_cons hcn, first_escaped]
          simp [hcn, Match.crlf]
      · cases hfirst
    rw [lexStep_of (step _ this) hne]
    rfl

/-! ## The whole text -/

/-- A token that may stand in the text: no heredoc, and no line end in quotes. -/
def Token.plain (t : Token) : Prop := t.sym ≠ .heredoc ∧ (t.sym = .char → '\n' ∉ t.txt)

theorem lineEnd_of {r : Rule} {c : Char} {pos : Position} (h : r.sym = .lf) (hc : c = '\n' ∨ c = '\r') : Token.LineEnd ⟨r.sym, [c], pos⟩ :=
  ⟨h, by rcases hc with rfl | rfl <;> rfl, by rcases hc with rfl | rfl <;> rfl⟩

theorem lexAll_one {st st' : Stack} {pos : Position} {s : Str} {r : Rule} {m : Match} {ts : List Token} (h : lexStep st s = some (r, m, st'))
    (hw : r.sym ≠ .whitespace) (ht : lexAll st' (pos.advance m.txt) m.rest = some ts) :
    lexAll st pos s = some (⟨r.sym, m.txt, pos⟩ :: ts) := by
  have hs : s ≠ [] := by
    rintro rfl
    have := (lexStep_split h).2.2
    simp at this
  rw [lexAll_step hs, h]
  simp [ht, hw]

theorem lexAll_crlf : ∀ (n : Nat) (s : Str), s.length ≤ n → ∀ (st : Stack) (pos pos' : Position) (ts : List Token), Tame st → '\r' ∉ s →
    lexAll st pos s = some ts → (∀ t ∈ ts, t.plain) → ∃ ts', lexAll st pos' (crlf s) = some ts' ∧ Spread false ts ts' := by
  intro n
  induction n with
  | zero =>
    intro s hn st pos pos' ts _ _ h _
    have : s = [] := List.length_eq_zero_iff.1 (by omega)
    subst this
    cases h
    exact ⟨[], rfl, .nil⟩
  | succ n ih =>
    intro s hn st pos pos' ts hst hs h hts
    by_cases he : s = []
    · subst he
      cases h
      exact ⟨[], rfl, .nil⟩
    rw [lexAll_step he, Option.bind_eq_some_iff] at h
    obtain ⟨⟨r, m, st'⟩, h1, h2⟩ := h
    rw [Option.map_eq_some_iff] at h2
    obtain ⟨us, h2, h3⟩ := h2
    obtain ⟨hsp, hne, hlt⟩ := lexStep_split h1
    have hr' : '\r' ∉ m.rest := fun h => hs (by rw [← hsp]; exact List.mem_append_right _ h)
    by_cases hw : r.sym = .whitespace
    · rw [if_pos hw] at h3
      subst h3
      rcases lexStep_crlf hst h1 hs (by rw [hw]; decide) (by rw [hw]; intro h; cases h) with ⟨-, h4⟩ | ⟨h4, -⟩ | ⟨h4, -⟩ | ⟨h4, -⟩
      · obtain ⟨ts', h5, h6⟩ := ih m.rest (by omega) st' _ (pos'.advance m.txt) _ (hst.step h1 (by rw [hw]; decide)) hr' h2 hts
        refine ⟨ts', ?_, h6⟩
        rw [lexAll_step (by rwa [Ne, crlf_nil]), h4]
        simp only [Option.bind_some, hw, if_true]
        show Option.map _ (lexAll st' (pos'.advance m.txt) (crlf m.rest)) = _
        rw [h5]
        rfl
      all_goals rw [hw] at h4; cases h4
    · rw [if_neg hw] at h3
      subst h3
      obtain ⟨⟨hh, hc⟩, hus⟩ := List.forall_mem_cons.1 hts
      have hh : r.sym ≠ .heredoc := hh
      have hst2 := hst.step h1 hh
      rcases lexStep_crlf hst h1 hs hh hc with ⟨h4, h5⟩ | ⟨h4, h5, rfl, r1, r2, h6, h7, h8, h9⟩ |
        ⟨h4, h5, m', h6, h7, h8, h9⟩ | ⟨h4, rfl, h5, h5', m', h6, h7, h8, h9⟩
      · obtain ⟨ts', h6, h7⟩ := ih m.rest (by omega) st' _ (pos'.advance m.txt) _ hst2 hr' h2 hus
        refine ⟨_, lexAll_one h5 hw h6, .keep ⟨rfl, .inr (.inr ?_)⟩ ?_⟩
        · simp only [List.mem_cons, not_or] at h4
          exact ⟨h4.2.2.1, h4.1, h4.2.1, rfl⟩
        · simp only [List.mem_cons, not_or] at h4
          simpa [h4.1] using h7
      · obtain ⟨ts', h10, h11⟩ := ih m.rest (by omega) _ _ ((pos'.advance ['\r']).advance ['\n']) _ hst2 hr' h2 hus
        have h12 := lexAll_one h9 (by rw [h7]; decide) h10
        refine ⟨_, lexAll_one h8 (by rw [h6]; decide) h12, ?_⟩
        have e : Token.LineEnd ⟨r.sym, m.txt, pos⟩ := by rw [h5]; exact lineEnd_of h4 (.inl rfl)
        refine .more e (lineEnd_of h6 (.inr rfl)) (.keep ⟨by rw [h4, h7], .inl ⟨e, lineEnd_of h7 (.inl rfl)⟩⟩ ?_)
        simpa [h4] using h11
      · obtain ⟨ts', h10, h11⟩ := ih m.rest (by omega) st' _ (pos'.advance m'.txt) _ hst2 hr' h2 hus
        refine ⟨_, lexAll_one h6 hw (by rw [h7]; exact h10), .keep ⟨rfl, .inr (.inl ⟨.inr h4, h5, h8, h9.symm⟩)⟩ ?_⟩
        simpa [h4] using h11
      · have same : ∀ p p', Token.Same ⟨r.sym, m.txt, p⟩ ⟨r.sym, m'.txt, p'⟩ :=
          fun _ _ => ⟨rfl, .inr (.inl ⟨.inl h4, h5, h7, h8.symm⟩)⟩
        rcases h9 with ⟨h9, h10⟩ | ⟨x, h9, h10, r1, r2, hr1, hr2, h11, h12⟩
        · rw [h9] at h2
          cases h2
          exact ⟨_, lexAll_one h6 hw (by rw [h10]; rfl), .keep (same _ _) .nil⟩
        · rw [lexAll_step (by rw [h9]; simp), h11] at h2
          simp only [Option.bind_some, hr1, reduceCtorEq, if_false, Option.map_eq_some_iff] at h2
          obtain ⟨vs, h2, rfl⟩ := h2
          obtain ⟨ts', h13, h14⟩ := ih x (by rw [h9] at hlt; simp only [List.length_cons] at hlt; omega) _ _
            ((pos'.advance m'.txt).advance ['\n']) _ hst2 (fun h => hr' (by rw [h9]; exact List.mem_cons_of_mem _ h)) h2
            (List.forall_mem_cons.1 hus).2
          refine ⟨_, lexAll_one h6 hw (lexAll_one h12 (by rw [hr2]; decide) h13), .keep (same _ _) (.keep ?_ ?_)⟩
          · exact ⟨hr2.symm, .inl ⟨⟨rfl, rfl, rfl⟩, lineEnd_of hr2 (.inl rfl)⟩⟩
          · exact h14

/-- Tokens of the text with carriage returns. -/
theorem lex_crlf {s : Str} {ts : List Token} (hs : '\r' ∉ s) (h : lex s = some ts) (hts : ∀ t ∈ ts, t.plain) :
    ∃ ts', lex (crlf s) = some ts' ∧ Spread false ts ts' :=
  lexAll_crlf s.length s (Nat.le_refl _) _ _ _ _ (by simp [Tame]) hs h hts

end Verif.Etx
