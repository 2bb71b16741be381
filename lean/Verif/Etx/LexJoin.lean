import Verif.Etx.LexRun
import Verif.Etx.BlankLemmas
import Mathlib.Data.List.Chain

/-!
# Lexing what follows a line end

No pattern looks past a line end, but for the text in quotes and comments `/* … */`.  A text that ends with a line end outside
of these is lexed in the same way whatever follows it.
-/

namespace Verif.Etx

/-- A match in a longer text. -/
def Match.ext (b : Str) (m : Match) : Match := { m with rest := m.rest ++ b }

namespace Re

/-- There is no `$`. -/
def noEot : Re → Bool
  | seq a b | alt a b => a.noEot && b.noEot
  | star a | lazyStar a | grp a => a.noEot
  | eot => false
  | _ => true

theorem ext_andThen (b : Str) (m n : Match) : (m.andThen n).ext b = m.andThen (n.ext b) := rfl

theorem rest_line {r : Re} (hr : r.chars '\n' = false) {prev : Option Char} {s : Str} {m : Match} (hm : m ∈ r.run prev s)
    (hs : '\n' ∈ s) : '\n' ∈ m.rest := by
  have h := run_split _ _ _ _ hm
  rw [← h, List.mem_append] at hs
  rcases hs with hs | hs
  · rw [run_chars _ _ _ _ hm _ hs] at hr
    cases hr
  · exact hs

theorem flatMap_ext {l : List Match} {f g : Match → List Match} {b : Str} (h : ∀ m ∈ l, g (m.ext b) = (f m).map (Match.ext b)) :
    (l.map (Match.ext b)).flatMap g = (l.flatMap f).map (Match.ext b) := by
  rw [List.flatMap_map, List.map_flatMap]
  exact flatMap_congr' h

/-- An expression that matches no line end does not look past one. -/
theorem run_line (r : Re) (he : r.noEot = true) (hr : r.chars '\n' = false) (b : Str) : ∀ prev s, '\n' ∈ s →
    r.run prev (s ++ b) = (r.run prev s).map (Match.ext b) := by
  induction r with
  | eps => intro prev s _; rfl
  | cls p =>
    intro prev s hs
    cases s with
    | nil => cases hs
    | cons c s =>
      simp only [List.cons_append, run]
      split <;> rfl
  | seq a c iha ihc =>
    intro prev s hs
    simp only [noEot, Bool.and_eq_true, chars, Bool.or_eq_false_iff] at he hr
    simp only [run, iha he.1 hr.1 prev s hs]
    refine flatMap_ext fun m hm => ?_
    show (c.run (m.last prev) (m.rest ++ b)).map m.andThen = _
    rw [ihc he.2 hr.2 _ _ (rest_line hr.1 hm hs)]
    simp only [List.map_map]
    rfl
  | alt a c iha ihc =>
    intro prev s hs
    simp only [noEot, Bool.and_eq_true, chars, Bool.or_eq_false_iff] at he hr
    simp only [run, iha he.1 hr.1 prev s hs, ihc he.2 hr.2 prev s hs, List.map_append]
  | star a iha =>
    have : ∀ n prev s, s.length ≤ n → '\n' ∈ s → (star a).run prev (s ++ b) = ((star a).run prev s).map (Match.ext b) := by
      intro n
      induction n with
      | zero =>
        intro prev s hn hs
        cases s with
        | nil => cases hs
        | cons => simp at hn
      | succ n ih =>
        intro prev s hn hs
        rw [run_star, run_star, iha he hr prev s hs, List.map_append, List.filter_map]
        congr 1
        show (List.map (Match.ext b) (List.filter (fun m => decide (m.txt ≠ [])) (a.run prev s))).flatMap _ = _
        refine flatMap_ext fun m hm => ?_
        obtain ⟨hm, hne⟩ := List.mem_filter.mp hm
        have hlt := run_rest_lt hm (by simpa using hne)
        show ((star a).run (m.last prev) (m.rest ++ b)).map m.andThen = _
        rw [ih _ _ (by omega) (rest_line (r := a) hr hm hs)]
        simp only [List.map_map]
        rfl
    exact fun prev s hs => this s.length prev s (Nat.le_refl _) hs
  | lazyStar a iha =>
    have : ∀ n prev s, s.length ≤ n → '\n' ∈ s → (lazyStar a).run prev (s ++ b) = ((lazyStar a).run prev s).map (Match.ext b) := by
      intro n
      induction n with
      | zero =>
        intro prev s hn hs
        cases s with
        | nil => cases hs
        | cons => simp at hn
      | succ n ih =>
        intro prev s hn hs
        rw [run_lazyStar, run_lazyStar, iha he hr prev s hs, List.map_cons, List.filter_map]
        congr 1
        show (List.map (Match.ext b) (List.filter (fun m => decide (m.txt ≠ [])) (a.run prev s))).flatMap _ = _
        refine flatMap_ext fun m hm => ?_
        obtain ⟨hm, hne⟩ := List.mem_filter.mp hm
        have hlt := run_rest_lt hm (by simpa using hne)
        show ((lazyStar a).run (m.last prev) (m.rest ++ b)).map m.andThen = _
        rw [ih _ _ (by omega) (rest_line (r := a) hr hm hs)]
        simp only [List.map_map]
        rfl
    exact fun prev s hs => this s.length prev s (Nat.le_refl _) hs
  | bot =>
    intro prev s _
    simp only [run]
    split <;> rfl
  | eot => cases he
  | wordB =>
    intro prev s hs
    cases s with
    | nil => cases hs
    | cons c s =>
      show (if (prev.any isWord) ≠ (some c).any isWord then [Match.nothing (c :: (s ++ b))] else []) =
        List.map _ (if (prev.any isWord) ≠ (some c).any isWord then [Match.nothing (c :: s)] else [])
      split <;> rfl
  | grp a iha =>
    intro prev s hs
    simp only [run, iha he hr prev s hs, List.map_map]
    rfl

/-- Only the last character of a match can be a line end. -/
def oneLine : Re → Bool
  | cls _ => true
  | seq a b => (a.noEot && !a.chars '\n' && b.oneLine)
  | alt a b => a.oneLine && b.oneLine
  | grp a => a.oneLine
  | star a => a.noEot && !a.chars '\n'
  | lazyStar a => a.noEot && !a.chars '\n'
  | eot => false
  | _ => true

theorem run_oneLine (r : Re) (hr : r.oneLine = true) (b : Str) : ∀ prev s, '\n' ∈ s →
    r.run prev (s ++ b) = (r.run prev s).map (Match.ext b) := by
  induction r with
  | cls p =>
    intro prev s hs
    cases s with
    | nil => cases hs
    | cons c s =>
      simp only [List.cons_append, run]
      split <;> rfl
  | seq a c iha ihc =>
    intro prev s hs
    simp only [oneLine, Bool.and_eq_true, Bool.not_eq_true'] at hr
    simp only [run, run_line a hr.1.1 hr.1.2 b prev s hs]
    refine flatMap_ext fun m hm => ?_
    show (c.run (m.last prev) (m.rest ++ b)).map m.andThen = _
    rw [ihc hr.2 _ _ (rest_line hr.1.2 hm hs)]
    simp only [List.map_map]
    rfl
  | alt a c iha ihc =>
    intro prev s hs
    simp only [oneLine, Bool.and_eq_true] at hr
    simp only [run, iha hr.1 prev s hs, ihc hr.2 prev s hs, List.map_append]
  | grp a iha =>
    intro prev s hs
    simp only [run, iha hr prev s hs, List.map_map]
    rfl
  | star a =>
    simp only [oneLine, Bool.and_eq_true, Bool.not_eq_true'] at hr
    exact run_line (star a) hr.1 hr.2 b
  | lazyStar a =>
    simp only [oneLine, Bool.and_eq_true, Bool.not_eq_true'] at hr
    exact run_line (lazyStar a) hr.1 hr.2 b
  | eps => exact run_line eps rfl rfl b
  | bot => exact run_line bot rfl rfl b
  | wordB => exact run_line wordB rfl rfl b
  | eot => cases hr

theorem first_oneLine {r : Re} (hr : r.oneLine = true) (b : Str) {s : Str} (hs : '\n' ∈ s) :
    r.first (s ++ b) = (r.first s).map (Match.ext b) := by
  rw [first, first, run_oneLine r hr b none s hs, List.head?_map]

theorem noEot_lit (w : Str) : (lit w).noEot = true := by
  induction w with
  | nil => rfl
  | cons c w ih =>
    cases w with
    | nil => rfl
    | cons d w => simp only [lit, noEot, ih]; rfl

theorem chars_lit {w : Str} {c : Char} (h : c ∉ w) : (lit w).chars c = false := by
  induction w with
  | nil => rfl
  | cons d w ih =>
    simp only [List.mem_cons, not_or] at h
    cases w with
    | nil => simp [lit, chars, h.1]
    | cons e w => simp only [lit, chars, ih h.2, h.1, decide_false]; rfl

theorem oneLine_lit {w : Str} (h : '\n' ∉ w) : (lit w).oneLine = true := by
  induction w with
  | nil => rfl
  | cons d w ih =>
    simp only [List.mem_cons, not_or] at h
    cases w with
    | nil => rfl
    | cons e w => simp only [lit, oneLine, noEot, chars, ih h.2, h.1, decide_false]; rfl

end Re

open Re

theorem dropWhile_nil {p : Char → Bool} {s : Str} : s.dropWhile p = [] ↔ ∀ x ∈ s, p x = true := by
  induction s with
  | nil => simp
  | cons c s ih =>
    cases h : p c with
    | false => simp [h]
    | true => simp [h, ih]

/-- `char` (`lexer.go:127`) -/
theorem first_plus (p : Char → Bool) (s b : Str) (hs : s ≠ []) :
    (plus (cls p)).first (s ++ b) = ((plus (cls p)).first s).map (Match.ext b) ∨ ∃ m, (plus (cls p)).first s = some m ∧ m.rest = [] := by
  cases s with
  | nil => exact absurd rfl hs
  | cons c s =>
    cases hc : p c with
    | false =>
      left
      rw [first, first, List.cons_append, run_plus_cls_fail (by simpa using hc), run_plus_cls_fail (by simpa using hc)]
      rfl
    | true =>
      rw [first, first, List.cons_append, head_plus_cls p c _ hc, head_plus_cls p c _ hc]
      by_cases h : ∀ x ∈ s, p x = true
      · right
        exact ⟨_, rfl, dropWhile_nil.mpr h⟩
      · left
        simp only [Option.map_some, Match.ext, Option.some.injEq, Match.mk.injEq, List.cons.injEq, true_and]
        have : s.dropWhile p ≠ [] := fun e => h (dropWhile_nil.mp e)
        constructor
        · rw [List.takeWhile_append]
          split
          · rename_i e
            exfalso
            apply this
            have := congrArg List.length (List.takeWhile_append_dropWhile (p := p) (l := s))
            rw [List.length_append] at this
            exact List.length_eq_zero_iff.mp (by omega)
          · rfl
        · rw [List.dropWhile_append, if_neg (by simpa using this)]

theorem closeAt_ext {s a r : Str} (h : closeAt s = some (a, r)) (b : Str) : closeAt (s ++ b) = some (a, r ++ b) := by
  induction s generalizing a r with
  | nil => cases h
  | cons c s ih =>
    by_cases hp : c!"*/" <+: c :: s
    · obtain ⟨t, ht⟩ := hp
      rw [← ht] at h ⊢
      have h : closeAt ('*' :: '/' :: t) = some (a, r) := h
      rw [closeAt_close] at h
      cases h
      exact closeAt_close _
    · rw [closeAt_cons _ _ hp, Option.map_eq_some_iff] at h
      obtain ⟨⟨a', r'⟩, h1, h2⟩ := h
      cases h2
      rw [List.cons_append, closeAt_cons, ih h1]
      · rfl
      · rintro ⟨t, ht⟩
        apply hp
        cases s with
        | nil => cases h1
        | cons d s =>
          have ht : '*' :: '/' :: t = c :: d :: (s ++ b) := ht
          cases ht
          exact ⟨s, rfl⟩

/-- A comment that is not closed. -/
def Unclosed (s : Str) : Prop := ∃ y, s = c!"/*" ++ y ∧ closeAt y = none

theorem first_multiline_ext {s b : Str} (hs : '\n' ∈ s) (h : ¬ Unclosed s) :
    reMultiline.first (s ++ b) = (reMultiline.first s).map (Match.ext b) := by
  by_cases hp : c!"/*" <+: s
  · obtain ⟨y, rfl⟩ := hp
    cases hc : closeAt y with
    | none => exact absurd ⟨y, rfl, hc⟩ h
    | some x =>
      obtain ⟨a, r⟩ := x
      rw [List.append_assoc, first_multiline, first_multiline, hc, closeAt_ext hc b]
      rfl
  · rw [first_multiline_none s hp, first_multiline_none]
    · rfl
    · rintro ⟨t, ht⟩
      apply hp
      have ht : '/' :: '*' :: t = s ++ b := ht
      cases s with
      | nil => cases hs
      | cons c s =>
        cases s with
        | nil =>
          cases ht
          simp at hs
        | cons d s =>
          cases ht
          exact ⟨s, rfl⟩

/-- No group on the stack contains a line end. -/
def LineStack (st : Stack) : Prop := ∀ x ∈ st, '\n' ∉ x.2

/-- How far the match of a rule depends on what follows. -/
theorem rule_ext {state : LexState} {g s : Str} (hg : '\n' ∉ g) (b : Str) (hs : '\n' ∈ s)
    (hu : state.core = true → ¬ Unclosed s) (r : Rule) (hr : r ∈ rulesOf state) :
    (r.pat g).first (s ++ b) = ((r.pat g).first s).map (Match.ext b) ∨
      r.sym = .char ∧ ∃ m, (r.pat g).first s = some m ∧ m.rest = [] := by
  have core : state.core = true → ∀ r ∈ coreRules, (r.pat g).first (s ++ b) = ((r.pat g).first s).map (Match.ext b) := by
    intro h r hr
    have : (r.pat g).oneLine = true ∨ r.pat g = reMultiline := by
      revert r
      unfold coreRules
      simp only [List.forall_mem_cons, rule]
      repeat' apply And.intro
      all_goals first | exact .inl rfl | exact .inr trivial | simp
    rcases this with h1 | h1
    · exact first_oneLine h1 b hs
    · rw [h1]; exact first_multiline_ext hs (hu h)
  cases state with
  | root => exact .inl (core rfl r hr)
  | stringExpr =>
    rcases List.mem_cons.mp hr with rfl | hr
    · exact .inl (first_oneLine rfl b hs)
    · exact .inl (core rfl r hr)
  | unicode =>
    refine .inl (first_oneLine ?_ b hs)
    revert r
    simp only [rulesOf, unicodeRules, List.forall_mem_cons]
    exact ⟨rfl, rfl, by simp⟩
  | heredoc =>
    refine .inl (first_oneLine ?_ b hs)
    revert r
    simp only [rulesOf, heredocRules, List.forall_mem_cons]
    exact ⟨by simp [oneLine, noEot, chars, oneLine_lit hg], rfl, rfl, rfl, rfl, rfl, by simp⟩
  | string =>
    have : (r.pat g).oneLine = true ∨
        r = rule .char (plus (cls fun c => !(c = '$' || c = '%' || c = '"' || c = '\'' || c = '\\'))) := by
      revert r
      simp only [rulesOf, stringRules, List.forall_mem_cons]
      exact ⟨.inl rfl, .inl rfl, .inl (oneLine_lit hg), .inl rfl, .inl rfl, .inl rfl, .inl rfl, .inr trivial, by simp⟩
    rcases this with h | rfl
    · exact .inl (first_oneLine h b hs)
    · rcases first_plus (fun c => !(c = '$' || c = '%' || c = '"' || c = '\'' || c = '\\')) s b (by rintro rfl; cases hs) with h | h
      · exact .inl h
      · exact .inr ⟨rfl, h⟩

theorem firstRule_ext {g s b : Str} {rs : List Rule} (h : ∀ r ∈ rs, (r.pat g).first (s ++ b) = ((r.pat g).first s).map (Match.ext b) ∨
      r.sym = .char ∧ ∃ m, (r.pat g).first s = some m ∧ m.rest = [])
    {r : Rule} {m : Match} (hr : firstRule g s rs = some (r, m)) (hm : r.sym = .char → m.rest ≠ []) :
    firstRule g (s ++ b) rs = some (r, m.ext b) := by
  induction rs with
  | nil => cases hr
  | cons x rs ih =>
    simp only [firstRule] at hr ⊢
    rcases h x (by simp) with hx | ⟨hx, m', hx1, hx2⟩
    · rw [hx]
      cases e : (x.pat g).first s with
      | none =>
        rw [e] at hr
        exact ih (fun r hr => h r (by simp [hr])) hr
      | some m' =>
        rw [e] at hr
        cases hr
        rfl
    · rw [hx1] at hr
      cases hr
      exact absurd hx2 (hm hx)

theorem lexStep_ext {st st' : Stack} {s b : Str} {r : Rule} {m : Match} (hst : LineStack st) (hs : '\n' ∈ s)
    (hu : st.head?.any (·.1.core) = true → ¬ Unclosed s) (h : lexStep st s = some (r, m, st')) (hm : r.sym = .char → m.rest ≠ []) :
    lexStep st (s ++ b) = some (r, m.ext b, st') := by
  obtain ⟨state, g, below, rfl, hr, hne, rfl⟩ := lexStep_some h
  rw [lexStep_of (firstRule_ext (b := b) (fun r hr => rule_ext (hst (state, g) (by simp)) b hs (fun hc => hu hc) r hr) hr hm) hne]
  rfl

/-- Patterns with a line end. -/
theorem rule_lines {state : LexState} {g : Str} (hg : '\n' ∉ g) (r : Rule) (hr : r ∈ rulesOf state) :
    (r.pat g).chars '\n' = false ∨ r.sym ∈ [Sym.multilineComment, .heredoc, .lf, .char, .eol] := by
  have core : ∀ r ∈ coreRules, (r.pat g).chars '\n' = false ∨ r.sym ∈ [Sym.multilineComment, .heredoc, .lf, .char, .eol] := by
    unfold coreRules
    simp only [List.forall_mem_cons, rule]
    repeat' apply And.intro
    all_goals first | exact .inl rfl | exact .inr (by decide) | simp
  cases state with
  | root => exact core r hr
  | stringExpr =>
    rcases List.mem_cons.mp hr with rfl | hr
    · exact .inl rfl
    · exact core r hr
  | unicode =>
    revert r
    simp only [rulesOf, unicodeRules, List.forall_mem_cons]
    exact ⟨.inl rfl, .inl rfl, by simp⟩
  | heredoc =>
    revert r
    simp only [rulesOf, heredocRules, List.forall_mem_cons]
    exact ⟨.inl (by simp [chars, chars_lit hg]), .inr (by decide), .inl rfl, .inl rfl, .inl rfl, .inl rfl, by simp⟩
  | string =>
    revert r
    simp only [rulesOf, stringRules, List.forall_mem_cons]
    exact ⟨.inl rfl, .inl rfl, .inl (chars_lit hg), .inl rfl, .inl rfl, .inl rfl, .inl rfl, .inr (by decide), by simp⟩

/-- The characters of the group. -/
def Re.groupChars : Re → Char → Bool
  | seq a b, c | alt a b, c => a.groupChars c || b.groupChars c
  | star a, c | lazyStar a, c => a.groupChars c
  | grp a, c => a.chars c
  | _, _ => false

theorem Re.run_group (r : Re) : ∀ prev s, ∀ m ∈ r.run prev s, ∀ c ∈ m.cap.getD [], r.groupChars c = true := by
  have andThen : ∀ (m n : Match) (p : Char → Prop), (∀ c ∈ m.cap.getD [], p c) → (∀ c ∈ n.cap.getD [], p c) →
      ∀ c ∈ (m.andThen n).cap.getD [], p c := by
    intro m n p hm hn c hc
    simp only [Match.andThen_cap] at hc
    cases h : n.cap with
    | none => rw [h] at hc; exact hm c (by simpa using hc)
    | some w => rw [h] at hc; exact hn c (by rw [h]; simpa using hc)
  have hstar : ∀ a : Re, (∀ prev s, ∀ m ∈ a.run prev s, ∀ c ∈ m.cap.getD [], a.groupChars c = true) →
      ∀ n prev s, ∀ m ∈ starRun a.run n prev s, ∀ c ∈ m.cap.getD [], a.groupChars c = true := by
    intro a ih n
    induction n with
    | zero => intro prev s m hm; simp [starRun] at hm; simp [hm]
    | succ n ihn =>
      intro prev s m hm
      simp only [starRun, List.mem_append, List.mem_flatMap, List.mem_filter, List.mem_map, List.mem_singleton] at hm
      rcases hm with ⟨m1, ⟨h1, -⟩, m2, h2, rfl⟩ | rfl
      · exact andThen _ _ _ (ih _ _ _ h1) (ihn _ _ _ h2)
      · simp
  have hlazy : ∀ a : Re, (∀ prev s, ∀ m ∈ a.run prev s, ∀ c ∈ m.cap.getD [], a.groupChars c = true) →
      ∀ n prev s, ∀ m ∈ lazyRun a.run n prev s, ∀ c ∈ m.cap.getD [], a.groupChars c = true := by
    intro a ih n
    induction n with
    | zero => intro prev s m hm; simp [lazyRun] at hm; simp [hm]
    | succ n ihn =>
      intro prev s m hm
      simp only [lazyRun, List.mem_cons, List.mem_flatMap, List.mem_filter, List.mem_map] at hm
      rcases hm with rfl | ⟨m1, ⟨h1, -⟩, m2, h2, rfl⟩
      · simp
      · exact andThen _ _ _ (ih _ _ _ h1) (ihn _ _ _ h2)
  induction r with
  | eps => intro prev s m hm; simp [run] at hm; simp [hm]
  | cls p =>
    intro prev s m hm
    cases s with
    | nil => simp [run] at hm
    | cons d s =>
      simp only [run] at hm
      split at hm
      · simp at hm; subst hm; simp
      · simp at hm
  | seq a b iha ihb =>
    intro prev s m hm
    simp only [run, List.mem_flatMap, List.mem_map] at hm
    obtain ⟨m1, h1, m2, h2, rfl⟩ := hm
    exact andThen _ _ (fun c => (seq a b).groupChars c = true) (fun c hc => by simp [groupChars, iha _ _ _ h1 c hc])
      (fun c hc => by simp [groupChars, ihb _ _ _ h2 c hc])
  | alt a b iha ihb =>
    intro prev s m hm
    simp only [run, List.mem_append] at hm
    rcases hm with hm | hm
    · exact fun c hc => by simp [groupChars, iha _ _ _ hm c hc]
    · exact fun c hc => by simp [groupChars, ihb _ _ _ hm c hc]
  | star a ih => intro prev s; exact hstar a ih _ _ _
  | lazyStar a ih => intro prev s; exact hlazy a ih _ _ _
  | bot => intro prev s m hm; simp only [run] at hm; split at hm <;> simp at hm; simp [hm]
  | eot => intro prev s m hm; simp only [run] at hm; split at hm <;> simp at hm; simp [hm]
  | wordB => intro prev s m hm; simp only [run] at hm; split at hm <;> simp at hm; simp [hm]
  | grp a ih =>
    intro prev s m hm
    simp only [run, List.mem_map] at hm
    obtain ⟨m1, h1, rfl⟩ := hm
    exact fun c hc => run_chars _ _ _ _ h1 c hc

theorem groupChars_lit (w : Str) (c : Char) : (lit w).groupChars c = false := by
  induction w with
  | nil => rfl
  | cons d w ih =>
    cases w with
    | nil => rfl
    | cons e w => simp only [lit, groupChars, ih]; rfl

theorem rule_group {state : LexState} (g : Str) (r : Rule) (hr : r ∈ rulesOf state) :
    (r.pat g).groupChars '\n' = false ∨ r.action = .none := by
  have core : ∀ r ∈ coreRules, (r.pat g).groupChars '\n' = false ∨ r.action = .none := by
    unfold coreRules
    simp only [List.forall_mem_cons, rule]
    repeat' apply And.intro
    all_goals first | exact .inl rfl | exact .inr trivial | simp
  cases state with
  | root => exact core r hr
  | stringExpr =>
    rcases List.mem_cons.mp hr with rfl | hr
    · exact .inl rfl
    · exact core r hr
  | unicode =>
    revert r
    simp only [rulesOf, unicodeRules, List.forall_mem_cons]
    exact ⟨.inl rfl, .inl rfl, by simp⟩
  | heredoc =>
    revert r
    simp only [rulesOf, heredocRules, List.forall_mem_cons]
    exact ⟨.inl (by simp [groupChars, groupChars_lit]), .inl rfl, .inl rfl, .inl rfl, .inl rfl, .inl rfl, by simp⟩
  | string =>
    revert r
    simp only [rulesOf, stringRules, List.forall_mem_cons]
    exact ⟨.inl rfl, .inl rfl, .inl (groupChars_lit _ _), .inl rfl, .inl rfl, .inl rfl, .inl rfl, .inl rfl, by simp⟩

theorem LineStack.step {st st' : Stack} {s : Str} {r : Rule} {m : Match} (h : LineStack st)
    (hs : lexStep st s = some (r, m, st')) : LineStack st' := by
  obtain ⟨state, g, below, rfl, hr, -, rfl⟩ := lexStep_some hs
  obtain ⟨hmem, hfirst⟩ := firstRule_some hr
  cases ha : r.action with
  | none => exact h
  | push new =>
    intro x hx
    rcases List.mem_cons.1 hx with rfl | hx
    · intro hc
      have hm := List.mem_of_head? hfirst
      rcases rule_group g r hmem with h1 | h1
      · rw [run_group _ _ _ _ hm _ hc] at h1; cases h1
      · rw [h1] at ha; cases ha
    · exact h x hx
  | pop => exact fun x hx => h x (List.mem_cons_of_mem _ hx)

/-- A step that reads up to the line end at the end of the text. -/
theorem lexStep_last {st st' : Stack} {s : Str} {r : Rule} {m : Match} (h : LineStack st) (hs : s.getLast? = some '\n')
    (hl : lexStep st s = some (r, m, st')) (hm : m.rest = []) : r.sym ∈ [Sym.heredoc, .lf, .char, .eol] := by
  have he := lexStep_exact hl
  have hsp := (lexStep_split hl).1
  rw [hm, List.append_nil] at hsp
  obtain ⟨state, g, below, rfl, hr, -, rfl⟩ := lexStep_some hl
  obtain ⟨hmem, hfirst⟩ := firstRule_some hr
  have hin : '\n' ∈ m.txt := by rw [hsp]; exact List.mem_of_getLast? hs
  rcases rule_lines (h (state, g) (by simp)) r hmem with h1 | h1
  · rw [run_chars _ _ _ _ (List.mem_of_head? hfirst) _ hin] at h1
    cases h1
  · rcases List.mem_cons.mp h1 with h1 | h1
    · rw [h1] at he
      simp only [Sym.exact, Sym.word, Bool.and_eq_true, decide_eq_true_eq] at he
      rw [hsp, hs] at he
      cases he.2
    · exact h1

/-- Division and multiplication do not follow each other. -/
def Apart (x y : Token) : Prop := ¬ (x.sym = .opDivision ∧ y.sym = .opMultiplication)

/-- After a comment that is not closed is read as an operator comes another one. -/
theorem lexAll_unclosed {st st' : Stack} {pos : Position} {s : Str} {r : Rule} {m : Match} {ts : List Token} (hu : Unclosed s)
    (hc : st.head?.any (·.1.core) = true) (h : lexStep st s = some (r, m, st')) (ht : lexAll st' pos m.rest = some ts) :
    r.sym = .opDivision ∧ ∃ t ts', ts = t :: ts' ∧ t.sym = .opMultiplication := by
  obtain ⟨y, rfl, hy⟩ := hu
  have div : ∀ state, LexState.core state = true → ∀ g, firstRule g ('/' :: '*' :: y) (rulesOf state) =
      some (rule .opDivision (lit c!"/"), ⟨c!"/", none, '*' :: y⟩) := by
    intro state hs g
    have h1 : reMultiline.first ('/' :: '*' :: y) = none := by
      have := first_multiline y
      rw [hy] at this
      exact this
    rw [firstRule_filter]
    have : (rulesOf state).filter (Rule.can g '/') =
        [rule .singleLineComment reSingleLine, rule .multilineComment reMultiline, rule .opDivision (lit c!"/")] := by
      cases state <;> first | rfl | cases hs
    rw [this, firstRule_miss, firstRule_miss h1, firstRule_hit]
    · exact (by rw [first, show '/' :: '*' :: y = c!"/" ++ '*' :: y from rfl, run_lit] :
        (lit c!"/").first ('/' :: '*' :: y) = _)
    · rw [Re.first_none]
      rfl
  have mul : ∀ state, LexState.core state = true → ∀ g, firstRule g ('*' :: y) (rulesOf state) =
      some (rule .opMultiplication (lit c!"*"), ⟨c!"*", none, y⟩) := by
    intro state hs g
    rw [firstRule_filter]
    have : (rulesOf state).filter (Rule.can g '*') = [rule .opMultiplication (lit c!"*")] := by
      cases state <;> first | rfl | cases hs
    rw [this, firstRule_hit]
    exact (by rw [first, show '*' :: y = c!"*" ++ y from rfl, run_lit] :
        (lit c!"*").first ('*' :: y) = _)
  obtain ⟨state, g, below, rfl, hr, -, rfl⟩ := lexStep_some h
  have hr : firstRule g ('/' :: '*' :: y) (rulesOf state) = some (r, m) := hr
  rw [div state hc g] at hr
  cases hr
  refine ⟨rfl, ?_⟩
  have ht : lexAll ((state, g) :: below) pos ('*' :: y) = some ts := ht
  rw [lexAll_step (by simp), lexStep_of (mul state hc g) (by simp)] at ht
  simp only [Option.bind_some, Option.map_eq_some_iff] at ht
  obtain ⟨ts', -, rfl⟩ := ht
  exact ⟨_, ts', rfl, rfl⟩

theorem advance_append (pos : Position) (u v : Str) : pos.advance (u ++ v) = (pos.advance u).advance v := by
  have tw : ∀ x y : Str, '\n' ∉ x → ((x ++ y).takeWhile (· ≠ '\n')) = x ++ y.takeWhile (· ≠ '\n') := by
    intro x y hx
    induction x with
    | nil => rfl
    | cons c x ih =>
      simp only [List.mem_cons, not_or] at hx
      have := ih hx.2
      simp only [ne_eq, decide_not] at this
      simp [Ne.symm hx.1, this]
  have tw' : ∀ x y : Str, '\n' ∈ x → ((x ++ y).takeWhile (· ≠ '\n')) = x.takeWhile (· ≠ '\n') := by
    intro x y hx
    induction x with
    | nil => cases hx
    | cons c x ih =>
      by_cases hc : c = '\n'
      · simp [hc]
      · have := ih (by simpa [Ne.symm hc] using hx)
        simp only [ne_eq, decide_not] at this
        simp [hc, this]
  simp only [Position.advance, Position.mk.injEq, true_and, List.reverse_append, List.mem_append]
  refine ⟨by simp [byteLen, Nat.add_assoc], by simp [Nat.add_assoc], ?_⟩
  by_cases hv : '\n' ∈ v
  · rw [tw' _ _ (by simpa using hv)]
    simp [hv]
  · rw [tw _ _ (by simpa using hv)]
    by_cases hu : '\n' ∈ u
    · simp [hu, hv]
      omega
    · simp [hu, hv, Nat.add_assoc]

/-- Line ends are read in the states of items and expressions. -/
theorem lexStep_lf_core {st st' : Stack} {s : Str} {r : Rule} {m : Match} (h : lexStep st s = some (r, m, st')) (hr : r.sym = .lf) :
    st'.head?.any (·.1.core) = true := by
  obtain ⟨state, g, below, rfl, h1, -, h4⟩ := lexStep_some h
  have h2 := (firstRule_some h1).1
  rw [rules_action state r h2, hr] at h4
  subst h4
  show state.core = true
  have : state.core = true ∨ ∀ r ∈ rulesOf state, r.sym ≠ .lf := by
    cases state <;> simp [LexState.core, rulesOf, stringRules, unicodeRules, heredocRules, rule]
  rcases this with h | h
  · exact h
  · exact absurd hr (h r h2)

/-- **Lexing a text that ends with a line end outside of quotes and comments**, followed by another one. -/
theorem lexAll_join (n : Nat) (s : Str) (hn : s.length ≤ n) (st : Stack) (pos : Position) (ts : List Token) (hst : LineStack st)
    (hs : s = [] ∨ s.getLast? = some '\n') (h : lexAll st pos s = some ts) (hc : ts.IsChain Apart)
    (hl : ∀ t ∈ ts.getLast?, t.sym = .lf) :
    ∃ st', TokRun st ts st' ∧ (ts ≠ [] → st'.head?.any (·.1.core) = true) ∧
      ∀ b, lexAll st pos (s ++ b) = (lexAll st' (pos.advance s) b).map (ts ++ ·) := by
  have base : ∀ st pos, ∃ st', TokRun st [] st' ∧ (([] : List Token) ≠ [] → st'.head?.any (·.1.core) = true) ∧
      ∀ b, lexAll st pos ([] ++ b) = (lexAll st' (pos.advance []) b).map ([] ++ ·) := by
    intro st pos
    refine ⟨st, .nil st, by simp, fun b => ?_⟩
    have : pos.advance [] = pos := by simp [Position.advance, byteLen]
    simp [this]
  induction n generalizing s st pos ts with
  | zero =>
    cases s with
    | nil => cases h; exact base st pos
    | cons => simp at hn
  | succ n ih =>
    cases s with
    | nil => cases h; exact base st pos
    | cons c s =>
      have hlast : (c :: s).getLast? = some '\n' := hs.resolve_left (by simp)
      have hnl : '\n' ∈ c :: s := List.mem_of_getLast? hlast
      generalize hcs : c :: s = z at *
      have hz : z ≠ [] := by rw [← hcs]; simp
      rw [lexAll_step hz] at h
      simp only [Option.bind_eq_some_iff, Option.map_eq_some_iff] at h
      obtain ⟨⟨r, m, st'⟩, h1, ts', h2, h3⟩ := h
      simp only at h2 h3
      obtain ⟨hsp, hne, hlt⟩ := lexStep_split h1
      have hrest : m.rest = [] ∨ m.rest.getLast? = some '\n' := by
        by_cases e : m.rest = []
        · exact .inl e
        · right
          rw [← hsp, List.getLast?_append_of_ne_nil _ e] at hlast
          exact hlast
      have hsub : ts' <:+ ts := by
        rw [← h3]
        split
        · exact List.suffix_refl _
        · exact List.suffix_cons _ _
      have hc' : ts'.IsChain Apart := by
        obtain ⟨u, hu⟩ := hsub
        rw [← hu] at hc
        exact hc.right_of_append
      have hl' : ∀ t ∈ ts'.getLast?, t.sym = .lf := by
        intro t ht
        obtain ⟨u, hu⟩ := hsub
        refine hl t ?_
        rw [← hu, List.getLast?_append, ht]
        rfl
      obtain ⟨stF, r1, rc, r2⟩ := ih m.rest (by omega) st' (pos.advance m.txt) ts' (hst.step h1) hrest h2 hc' hl'
      have hchar : r.sym = .char → m.rest ≠ [] := by
        intro e1 e2
        rw [e2] at h2
        cases h2
        rw [e1] at h3
        have := hl ⟨r.sym, m.txt, pos⟩ (by rw [← h3]; simp [e1])
        simp [e1] at this
      have hu : st.head?.any (·.1.core) = true → ¬ Unclosed z := by
        intro e1 e2
        obtain ⟨e3, t, ts'', rfl, e4⟩ := lexAll_unclosed e2 e1 h1 h2
        rw [e3] at h3
        rw [← h3] at hc
        simp only [reduceCtorEq, if_false, List.isChain_cons_cons] at hc
        exact hc.1 ⟨rfl, e4⟩
      refine ⟨stF, ?_, fun hts => ?_, fun b => ?_⟩
      · rw [← h3]
        split
        · rename_i hw
          obtain ⟨-, state, g, below, rfl, -, -, h4⟩ := lexStep_tok pos h1
          simp only [hw, Sym.action] at h4
          rw [← h4]
          exact r1
        · exact .cons (lexStep_tok pos h1) r1
      · by_cases e : ts' = []
        · subst e
          cases r1
          split at h3
          · exact absurd h3.symm hts
          · have hlf := hl ⟨r.sym, m.txt, pos⟩ (by rw [← h3]; simp)
            exact lexStep_lf_core h1 hlf
        · exact rc e
      · rw [lexAll_step (by simp [hz]), lexStep_ext hst hnl hu h1 hchar]
        simp only [Option.bind_some, Match.ext, r2 b]
        rw [← hsp, advance_append, Option.map_map]
        congr 1
        funext x
        simp only [Function.comp, ← h3]
        split <;> rfl

end Verif.Etx
