import Verif.Etx.LexerLemmas
import Verif.Etx.NumberLemmas

/-!
# Lexing loses nothing and terminates (C39, C40)
-/

namespace Verif.Etx

open Re

/-! ## C39 -/

/-- The position after a text: bytes, newlines, characters since the last newline. -/
def specPosition (pre : Str) : Position where
  filename := []
  offset := byteLen pre
  line := 1 + (pre.filter (· = '\n')).length
  column := 1 + (pre.reverse.takeWhile (· ≠ '\n')).length

/-- `ts` are the tokens of `rest`, which follows `pre`: only blanks are left out, and every token has the position of
its first character. -/
inductive Pieces : Str → Str → List Token → Prop where
  | done (pre : Str) : Pieces pre [] []
  | blank (pre w rest : Str) (ts : List Token) : (∀ c ∈ w, c = ' ' ∨ c = '\t') →
      Pieces (pre ++ w) rest ts → Pieces pre (w ++ rest) ts
  | token (pre : Str) (t : Token) (rest : Str) (ts : List Token) : t.txt ≠ [] → t.pos = specPosition pre →
      Pieces (pre ++ t.txt) rest ts → Pieces pre (t.txt ++ rest) (t :: ts)

theorem takeWhile_append_reverse (pre w : Str) :
    ((pre ++ w).reverse.takeWhile (· ≠ '\n')).length =
      if '\n' ∈ w then (w.reverse.takeWhile (· ≠ '\n')).length
      else w.length + (pre.reverse.takeWhile (· ≠ '\n')).length := by
  rw [List.reverse_append]
  by_cases h : '\n' ∈ w
  · rw [if_pos h]
    have h' : '\n' ∈ w.reverse := by simpa using h
    generalize w.reverse = l at h'
    induction l with
    | nil => simp at h'
    | cons c l ih =>
      by_cases hc : c = '\n'
      · subst hc; simp
      · have : '\n' ∈ l := by
          rcases List.mem_cons.1 h' with h | h
          · exact absurd h.symm hc
          · exact h
        have := ih this
        simp [hc] at this ⊢
        exact this
  · rw [if_neg h]
    have h' : ∀ c ∈ w.reverse, c ≠ '\n' := by rintro c hc rfl; exact h (by simpa using hc)
    rw [← List.length_reverse (as := w)]
    generalize w.reverse = l at h'
    induction l with
    | nil => simp
    | cons c l ih =>
      have hc := h' c (by simp)
      have := ih fun c hc => h' c (by simp [hc])
      simp [hc] at this ⊢
      omega

theorem advance_spec (pre w : Str) : (specPosition pre).advance w = specPosition (pre ++ w) := by
  simp only [Position.advance, specPosition, Position.mk.injEq, true_and]
  refine ⟨?_, ?_, ?_⟩
  · simp [byteLen]
  · simp [List.count_eq_length_filter, Nat.add_assoc]
    congr 1
  · rw [takeWhile_append_reverse]
    split <;> omega

/-- The whitespace rule is the only one whose tokens are dropped. -/
theorem whitespace_rule {state : LexState} {r : Rule} (h : r ∈ rulesOf state) (hs : r.sym = .whitespace) :
    r = rule .whitespace (plus (cls fun c => c = '\t' || c = ' ')) := by
  have : ∀ r ∈ rulesOf state, r.sym = .whitespace → r = rule .whitespace (plus (cls fun c => c = '\t' || c = ' ')) := by
    cases state <;> simp [rulesOf, coreRules, stringRules, unicodeRules, heredocRules, rule]
  exact this r h hs

/-- C39: whenever lexing succeeds, the tokens and the blanks between them make up the text, and each token has the
offset, line and column of its first character. -/
theorem C39_lossless (s : Str) (ts : List Token) (h : lex s = some ts) : Pieces [] s ts := by
  have key : ∀ (n : Nat) (st : Stack) (pre s : Str) (ts : List Token),
      lexFrom n st (specPosition pre) s = some ts → Pieces pre s ts := by
    intro n
    induction n with
    | zero =>
      intro st pre s ts h
      cases s with
      | nil => simp [lexFrom] at h; subst h; exact .done _
      | cons c s => simp [lexFrom] at h
    | succ n ih =>
      intro st pre s ts h
      cases s with
      | nil => simp [lexFrom] at h; subst h; exact .done _
      | cons c s =>
        simp only [lexFrom, Option.bind_eq_bind, Option.bind_eq_some_iff] at h
        obtain ⟨⟨r, m, st'⟩, h1, ts', h2, h3⟩ := h
        rw [advance_spec] at h2
        have ih' := ih _ _ _ _ h2
        obtain ⟨hs, hne, -⟩ := lexStep_split h1
        rw [← hs]
        simp only [pure, Option.some.injEq] at h3
        split at h3
        · rename_i hw
          subst h3
          refine .blank _ _ _ _ ?_ ih'
          obtain ⟨state, g, below, -, hr, -, -⟩ := lexStep_some h1
          obtain ⟨hmem, hfirst⟩ := firstRule_some hr
          have := whitespace_rule hmem hw
          subst this
          intro c hc
          have := run_chars _ _ _ _ (List.mem_of_head? hfirst) c hc
          simpa [rule, chars, plus, or_comm] using this
        · subst h3
          exact .token _ ⟨r.sym, m.txt, specPosition pre⟩ _ _ hne rfl ih'
  exact key _ _ [] s ts h

/-- A text with blanks, a comment over two lines and a string. -/
example : lex c!"a =\t/* é\n*/ 'x'" = some [
    ⟨.ident, c!"a", ⟨[], 0, 1, 1⟩⟩, ⟨.opAssign, c!"=", ⟨[], 2, 1, 3⟩⟩, ⟨.multilineComment, c!"/* é\n*/", ⟨[], 4, 1, 5⟩⟩,
    ⟨.string, c!"'", ⟨[], 13, 2, 4⟩⟩, ⟨.char, c!"x", ⟨[], 14, 2, 5⟩⟩, ⟨.stringEnd, c!"'", ⟨[], 15, 2, 6⟩⟩] := by
  decide +kernel

/-! ## C40 -/

/-- `n` steps of the lexer. -/
inductive LexSteps : Stack → Str → Nat → Stack → Str → Prop where
  | refl (st : Stack) (s : Str) : LexSteps st s 0 st s
  | step {st st₁ st₂ : Stack} {s s₂ : Str} {r : Rule} {m : Match} {n : Nat} :
      lexStep st s = some (r, m, st₁) → LexSteps st₁ m.rest n st₂ s₂ → LexSteps st s (n + 1) st₂ s₂

/-- The stacks that occur: the root state is at the bottom and nowhere else. -/
def GoodStack (st : Stack) : Prop := ∃ above g, st = above ++ [(.root, g)] ∧ ∀ x ∈ above, x.1 ≠ .root

theorem root_no_pop {r : Rule} (h : r ∈ coreRules) : r.action ≠ .pop := by
  have : ∀ r ∈ coreRules, r.action ≠ .pop := by simp [coreRules, rule]
  exact this r h

theorem push_not_root {state new : LexState} {r : Rule} (h : r ∈ rulesOf state) (hp : r.action = .push new) :
    new ≠ .root := by
  have : ∀ r ∈ rulesOf state, r.action ≠ .push .root := by
    cases state <;> simp [rulesOf, coreRules, stringRules, unicodeRules, heredocRules, rule]
  rintro rfl
  exact this r h hp

theorem GoodStack.step {st st' : Stack} {s : Str} {r : Rule} {m : Match} (h : GoodStack st)
    (hs : lexStep st s = some (r, m, st')) : GoodStack st' := by
  obtain ⟨state, g, below, rfl, hr, -, rfl⟩ := lexStep_some hs
  have hmem := (firstRule_some hr).1
  obtain ⟨above, g', heq, hroot⟩ := h
  cases ha : r.action with
  | none => exact ⟨above, g', heq, hroot⟩
  | push new =>
    refine ⟨(new, m.cap.getD []) :: above, g', by simp [heq], ?_⟩
    intro x hx
    rcases List.mem_cons.1 hx with rfl | hx
    · exact push_not_root hmem ha
    · exact hroot x hx
  | pop =>
    cases above with
    | nil =>
      simp at heq
      obtain ⟨⟨rfl, -⟩, -⟩ := heq
      exact absurd ha (root_no_pop hmem)
    | cons x above =>
      simp at heq
      exact ⟨above, g', heq.2, fun y hy => hroot y (by simp [hy])⟩

/-- C40: every step consumes at least one character, so that there are at most as many steps as characters, and
the stack of states is never popped empty: the root state stays at the bottom. -/
theorem C40_terminates (s s' : Str) (n : Nat) (st : Stack) (h : LexSteps [(.root, [])] s n st s') :
    n + s'.length ≤ s.length ∧ GoodStack st ∧ s' <:+ s := by
  have key : ∀ {st₀ s n st s'}, LexSteps st₀ s n st s' → GoodStack st₀ →
      n + s'.length ≤ s.length ∧ GoodStack st ∧ s' <:+ s := by
    intro st₀ s n st s' h
    induction h with
    | refl st s => intro hg; exact ⟨by omega, hg, List.suffix_refl _⟩
    | step h1 _ ih =>
      intro hg
      obtain ⟨h2, h3, h4⟩ := ih (hg.step h1)
      obtain ⟨hs, -, hlt⟩ := lexStep_split h1
      exact ⟨by omega, h3, h4.trans ⟨_, hs⟩⟩
  exact key h ⟨[], [], rfl, by simp⟩

/-- … hence the number of steps that the model of the lexer is given is never the reason for an error: more steps
give the same result, and an error is a step that is not possible. -/
theorem C40_no_bound (s : Str) : (∀ n, s.length ≤ n → lexFrom n [(.root, [])] .start s = lex s) ∧
    (lex s = none → ∃ n st s', LexSteps [(.root, [])] s n st s' ∧ s' ≠ [] ∧ lexStep st s' = none) := by
  refine ⟨fun n hn => lexFrom_fuel _ _ _ _ _ hn (by omega), ?_⟩
  have key : ∀ (n : Nat) (st : Stack) (pos : Position) (s : Str), s.length ≤ n → lexAll st pos s = none →
      ∃ k st' s', LexSteps st s k st' s' ∧ s' ≠ [] ∧ lexStep st' s' = none := by
    intro n
    induction n with
    | zero =>
      intro st pos s hn h
      have : s = [] := List.length_eq_zero_iff.1 (by omega)
      subst this
      simp [lexAll_nil] at h
    | succ n ih =>
      intro st pos s hn h
      by_cases hs : s = []
      · subst hs; simp [lexAll_nil] at h
      · cases h1 : lexStep st s with
        | none => exact ⟨0, st, s, .refl _ _, hs, h1⟩
        | some x =>
          obtain ⟨r, m, st'⟩ := x
          rw [lexAll_step hs, h1] at h
          simp at h
          have := (lexStep_split h1).2.2
          obtain ⟨k, st2, s2, h2, h3⟩ := ih st' _ m.rest (by omega) h
          exact ⟨k + 1, st2, s2, .step h1 h2, h3⟩
  intro h
  exact key _ _ _ s (Nat.le_refl _) h

/-- Three steps into a string. -/
example : ∃ st s', LexSteps [(.root, [])] c!"x='a'" 3 st s' ∧ st = [(.string, c!"'"), (.root, [])] ∧ s' = c!"a'" :=
  ⟨_, _, .step (m := ⟨c!"x", none, c!"='a'"⟩) rfl (.step (m := ⟨c!"=", none, c!"'a'"⟩) rfl
    (.step (m := ⟨c!"'", some c!"'", c!"a'"⟩) rfl (.refl _ _))), rfl, rfl⟩

end Verif.Etx
