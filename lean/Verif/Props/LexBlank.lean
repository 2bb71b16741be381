import Verif.Etx.BlankLemmas
import Verif.Props.LexCore

/-!
# Blanks between tokens are insignificant (C41)
-/

namespace Verif.Etx

open Re

/-- The types and texts of tokens. -/
def kinds (ts : Option (List Token)) : Option (List (Sym × Str)) := ts.map (·.map fun t => (t.sym, t.txt))

/-- Some steps of the lexer and the tokens they give. -/
inductive LexRun : Stack → Str → List (Sym × Str) → Stack → Str → Prop where
  | refl (st : Stack) (s : Str) : LexRun st s [] st s
  | step {st st₁ st₂ : Stack} {s s₂ : Str} {r : Rule} {m : Match} {ks : List (Sym × Str)} :
      lexStep st s = some (r, m, st₁) → LexRun st₁ m.rest ks st₂ s₂ →
      LexRun st s ((if r.sym = .whitespace then [] else [(r.sym, m.txt)]) ++ ks) st₂ s₂

theorem LexRun.suffix {st st' : Stack} {s s' : Str} {ks : List (Sym × Str)} (h : LexRun st s ks st' s') : s' <:+ s := by
  induction h with
  | refl => exact List.suffix_refl _
  | step h _ ih => exact ih.trans ⟨_, (lexStep_split h).1⟩

theorem kinds_pos (s : Str) : ∀ (n : Nat) (st : Stack) (p p' : Position), s.length ≤ n →
    kinds (lexAll st p s) = kinds (lexAll st p' s) := by
  intro n
  induction n generalizing s with
  | zero =>
    intro st p p' h
    have : s = [] := List.length_eq_zero_iff.1 (by omega)
    subst this; rfl
  | succ n ih =>
    intro st p p' h
    by_cases hs : s = []
    · subst hs; rfl
    · rw [lexAll_step hs, lexAll_step hs]
      cases h1 : lexStep st s with
      | none => rfl
      | some x =>
        obtain ⟨r, m, st'⟩ := x
        have := (lexStep_split h1).2.2
        have ih' := ih m.rest st' (p.advance m.txt) (p'.advance m.txt) (by omega)
        simp only [Option.bind_some]
        simp only [kinds] at ih' ⊢
        cases h2 : lexAll st' (p.advance m.txt) m.rest <;> cases h3 : lexAll st' (p'.advance m.txt) m.rest <;>
          rw [h2, h3] at ih' <;> simp at ih' ⊢
        split <;> simp [ih']

theorem kinds_step {st st' : Stack} {s : Str} {r : Rule} {m : Match} (h : lexStep st s = some (r, m, st'))
    (p p' : Position) : kinds (lexAll st p s) =
      (kinds (lexAll st' p' m.rest)).map ((if r.sym = .whitespace then [] else [(r.sym, m.txt)]) ++ ·) := by
  have hs : s ≠ [] := by
    rintro rfl
    have := (lexStep_split h).2.2
    simp at this
  rw [lexAll_step hs, h]
  simp only [Option.bind_some]
  rw [kinds_pos m.rest _ st' p' (p.advance m.txt) (Nat.le_refl _)]
  cases lexAll st' (p.advance m.txt) m.rest with
  | none => rfl
  | some ts =>
    simp only [kinds, Option.map_some]
    split <;> simp

theorem LexRun.kinds {st st' : Stack} {s s' : Str} {ks : List (Sym × Str)} (h : LexRun st s ks st' s') :
    ∀ p p', kinds (lexAll st p s) = (kinds (lexAll st' p' s')).map (ks ++ ·) := by
  induction h with
  | refl st s => intro p p'; rw [kinds_pos s _ st p p' (Nat.le_refl _)]; cases Etx.kinds (lexAll st p' s) <;> simp
  | @step st st₁ st₂ s s₂ r m ks h1 h2 ih =>
    intro p p'
    rw [kinds_step h1 p p', ih p' p']
    cases Etx.kinds (lexAll st₂ p' s₂) <;> simp

/-- A run up to a blank does not depend on what follows the blank. -/
theorem LexRun.same {z₁ z₂ : Str} (hz : BlankLike z₁ z₂) {st st' : Stack} {s s' : Str}
    {ks : List (Sym × Str)} (h : LexRun st s ks st' s') : CleanStack st → s' = z₁ → ∀ u, s = u ++ z₁ →
    LexRun st (u ++ z₂) ks st' z₂ := by
  induction h with
  | refl st s =>
    rintro _ rfl u hu
    have := congrArg List.length hu
    simp at this
    subst this
    exact .refl _ _
  | @step st st₁ st₂ s s₂ r m ks h1 h2 ih =>
    rintro hc rfl u rfl
    obtain ⟨v, hv⟩ := h2.suffix
    have hlt := (lexStep_split h1).2.2
    have hu : u ≠ [] := by
      rintro rfl
      rw [← hv] at hlt
      simp only [List.nil_append, List.length_append] at hlt
      omega
    have := lexStep_same hz hc hu h1 hv.symm
    exact .step (m := { m with rest := v ++ z₂ }) this (ih (hc.step h1) rfl v hv.symm)

/-- Outside strings and heredocs, a run of blanks is skipped. -/
theorem lexStep_blank {state : LexState} (hst : state = .root ∨ state = .stringExpr) (g : Str) (below : Stack) (w y : Str)
    (hw : w ≠ []) (hb : ∀ c ∈ w, isBlank c = true) :
    lexStep ((state, g) :: below) (w ++ y) = some (rule .whitespace (plus (cls fun c => c = '\t' || c = ' ')),
      ⟨w ++ y.takeWhile isBlank, none, y.dropWhile isBlank⟩, (state, g) :: below) := by
  obtain ⟨c, w, rfl⟩ := List.exists_cons_of_ne_nil hw
  have hp : (fun c => decide (c = '\t') || decide (c = ' ')) = isBlank := by
    funext c; simp [isBlank, Bool.or_comm]
  have hc := hb c (by simp)
  have hfirst : (plus (cls fun c => c = '\t' || c = ' ')).first (c :: w ++ y) =
      some ⟨c :: w ++ y.takeWhile isBlank, none, y.dropWhile isBlank⟩ := by
    rw [hp, first, List.cons_append, head_plus_cls _ _ _ hc]
    have h : ∀ (w : Str), (∀ c ∈ w, isBlank c = true) → (w ++ y).takeWhile isBlank = w ++ y.takeWhile isBlank ∧
        (w ++ y).dropWhile isBlank = y.dropWhile isBlank := by
      intro w hw
      induction w with
      | nil => simp
      | cons d w ih =>
        have := ih fun c hc => hw c (by simp [hc])
        simp [hw d (by simp), this]
    have := h w fun c hc => hb c (by simp [hc])
    rw [this.1, this.2]
    rfl
  rw [lexStep_of (r := rule .whitespace (plus (cls fun c => c = '\t' || c = ' ')))
    (m := ⟨c :: w ++ y.takeWhile isBlank, none, y.dropWhile isBlank⟩) ?_ (by simp)]
  · rfl
  · rw [List.cons_append, firstRule_filter]
    have : (rulesOf state).filter (Rule.can g c) = [rule .whitespace (plus (cls fun c => c = '\t' || c = ' '))] := by
      simp [isBlank] at hc
      rcases hst with rfl | rfl <;> rcases hc with rfl | rfl <;> rfl
    rw [this, firstRule_hit]
    exact hfirst

/-- C41: if the lexer stops after `x` (so that what follows is not inside a comment) outside a string or a heredoc,
then replacing a run of blanks there by another one, which may be longer or shorter, changes no token. -/
theorem C41_blanks (x w₁ w₂ y : Str) (ks : List (Sym × Str)) (state : LexState) (g : Str) (st : Stack)
    (hw₁ : w₁ ≠ []) (hb₁ : ∀ c ∈ w₁, c = ' ' ∨ c = '\t') (hw₂ : w₂ ≠ []) (hb₂ : ∀ c ∈ w₂, c = ' ' ∨ c = '\t')
    (hrun : LexRun [(.root, [])] (x ++ w₁ ++ y) ks ((state, g) :: st) (w₁ ++ y))
    (hst : state = .root ∨ state = .stringExpr) :
    kinds (lex (x ++ w₂ ++ y)) = kinds (lex (x ++ w₁ ++ y)) := by
  have hb₁ : ∀ c ∈ w₁, isBlank c = true := by simpa [isBlank] using hb₁
  have hb₂ : ∀ c ∈ w₂, isBlank c = true := by simpa [isBlank] using hb₂
  have hz : BlankPair w₁ w₂ y (w₁ ++ y) (w₂ ++ y) := ⟨hw₁, hw₂, hb₁, hb₂, rfl, rfl⟩
  have hrun₂ := hrun.same hz.like (by simp [CleanStack]) rfl x (by simp)
  rw [List.append_assoc] at hrun ⊢
  rw [lex_eq, lex_eq, List.append_assoc, hrun.kinds _ .start, hrun₂.kinds _ .start,
    kinds_step (lexStep_blank hst g st w₁ y hw₁ hb₁) _ .start, kinds_step (lexStep_blank hst g st w₂ y hw₂ hb₂) _ .start]
  rfl

/-- `n` steps, computed. -/
def runSteps : Nat → Stack → Str → Option (List (Sym × Str) × Stack × Str)
  | 0, st, s => some ([], st, s)
  | n + 1, st, s =>
    match lexStep st s with
    | none => none
    | some (r, m, st₁) => (runSteps n st₁ m.rest).map fun (ks, st₂, s₂) =>
        ((if r.sym = .whitespace then [] else [(r.sym, m.txt)]) ++ ks, st₂, s₂)

theorem LexRun.of_runSteps : ∀ (n : Nat) {st st' : Stack} {s s' : Str} {ks : List (Sym × Str)},
    runSteps n st s = some (ks, st', s') → LexRun st s ks st' s' := by
  intro n
  induction n with
  | zero => intro st st' s s' ks h; simp [runSteps] at h; obtain ⟨rfl, rfl, rfl⟩ := h; exact .refl _ _
  | succ n ih =>
    intro st st' s s' ks h
    simp only [runSteps] at h
    split at h
    · cases h
    · rename_i r m st₁ h1
      simp only [Option.map_eq_some_iff] at h
      obtain ⟨⟨ks₁, st₂, s₂⟩, h2, h3⟩ := h
      simp at h3
      obtain ⟨rfl, rfl, rfl⟩ := h3
      exact .step h1 (ih h2)

/-- Blanks inside an expression in a string. -/
example : LexRun [(.root, [])] c!"'a ${ b +  1}'" [(.string, c!"'"), (.char, c!"a "), (.expr, c!"${"), (.ident, c!"b"),
      (.opPlus, c!"+")] [(.stringExpr, []), (.string, c!"'"), (.root, [])] c!"  1}'" :=
  .of_runSteps 7 (by decide +kernel)

end Verif.Etx
