import Verif.Props.LexStrings
import Verif.Etx.IndentLemmas

/-!
# Texts that are read as given tokens, also when they are indented

`Writes st st' f p s ks`: the text `s`, indented by any number of tabs, is read as the tokens `ks`, from the state `st` to the
state `st'`.  `f` says which characters `s` may begin with, `p` which ones may follow it.
-/

namespace Verif.Etx

/-- See above. -/
structure Writes (st st' : Stack) (f p : Char → Bool) (s : Str) (ks : List (Sym × Str)) : Prop where
  ne : s ≠ []
  first : ∀ c ∈ s.head?, f c = true
  run : ∀ pre y, (∀ c ∈ pre, c = '\t') → (∀ c ∈ y.head?, p c = true) →
    LexRun st (indentFrom '\n' pre false s ++ y) ks st' y

/-! ## Indentation -/

/-- The text ends with a newline, or it is empty and `b`. -/
def endsLine (b : Bool) (s : Str) : Bool := (s.getLast?.map fun c => decide (c = '\n')).getD b

theorem endsLine_cons (b : Bool) (c : Char) (s : Str) : endsLine b (c :: s) = endsLine (decide (c = '\n')) s := by
  cases s with
  | nil => rfl
  | cons d s =>
    have : (c :: d :: s).getLast? = (d :: s).getLast? := by rw [List.getLast?_cons]; cases h : (d :: s).getLast? <;> simp_all
    simp only [endsLine, this]
    cases h : (d :: s).getLast? with
    | none => simp at h
    | some e => rfl

theorem indentFrom_split (pre : Str) (b : Bool) (s t : Str) :
    indentFrom '\n' pre b (s ++ t) = indentFrom '\n' pre b s ++ indentFrom '\n' pre (endsLine b s) t := by
  induction s generalizing b with
  | nil => rfl
  | cons c s ih => simp [indentFrom, ih, endsLine_cons]

theorem indentFrom_ne {pre : Str} {b : Bool} {s : Str} (h : s ≠ []) : indentFrom '\n' pre b s ≠ [] := by
  cases s with
  | nil => exact absurd rfl h
  | cons c s => simp [indentFrom]

theorem indentFrom_head {pre : Str} {s : Str} : (indentFrom '\n' pre false s).head? = s.head? := by
  cases s with
  | nil => rfl
  | cons c s => simp [indentFrom]

theorem indentFrom_true (pre : Str) (s : Str) : indentFrom '\n' pre true s =
    (if s.head?.any (· ≠ '\n') then pre else []) ++ indentFrom '\n' pre false s := by
  cases s with
  | nil => rfl
  | cons c s => simp [indentFrom]

theorem indentFrom_skip {pre l : Str} (t : Str) (h : '\n' ∉ l) :
    indentFrom '\n' pre false (l ++ t) = l ++ indentFrom '\n' pre false t := by
  induction l with
  | nil => rfl
  | cons c l ih =>
    simp only [List.mem_cons, not_or] at h
    have : ¬ c = '\n' := fun e => h.1 e.symm
    simp [indentFrom, this, ih h.2]

/-- Indenting twice. -/
theorem indentFrom_indentFrom (pre pre' : Str) (hp : '\n' ∉ pre') (b : Bool) (s : Str) :
    indentFrom '\n' pre b (indentFrom '\n' pre' b s) = indentFrom '\n' (pre ++ pre') b s := by
  induction s generalizing b with
  | nil => simp [indentFrom]
  | cons c s ih =>
    cases b with
    | false => simp [indentFrom, ih]
    | true =>
      by_cases hc : c = '\n'
      · subst hc; simp [indentFrom, ih]
      · cases pre' with
        | nil => simp [indentFrom, hc, ih]
        | cons d l =>
          simp only [List.mem_cons, not_or] at hp
          have hd : ¬ d = '\n' := fun e => hp.1 e.symm
          have := indentFrom_skip (pre := pre) (l := l ++ [c]) (indentFrom '\n' (d :: l) false s) (by simp [hp.2, Ne.symm hc])
          simp only [List.append_assoc, List.cons_append, List.nil_append] at this
          simp [indentFrom, hc, hd, this, ih]

theorem indentFrom_plain {pre s : Str} (h : '\n' ∉ s) : indentFrom '\n' pre false s = s := indentFrom_last '\n' pre s h

/-! ## Blanks -/

/-- Tabs in front of a text do not matter. -/
theorem LexRun.blanks {st st' : Stack} {w s y : Str} {ks : List (Sym × Str)} (hst : Plain st) (hw : ∀ c ∈ w, isBlank c = true)
    (hs : s ≠ []) (h : LexRun st (s ++ y) ks st' y) : LexRun st (w ++ (s ++ y)) ks st' y := by
  by_cases hn : w = []
  · subst hn; exact h
  obtain ⟨state, g, below, hst⟩ := hst
  have hb := lexStep_blank hst g below w (s ++ y) hn hw
  generalize e : s ++ y = t at h
  cases h with
  | refl =>
    have := congrArg List.length e
    simp at this
    exact absurd this hs
  | @step _ st₁ _ _ _ r m ks h1 h2 =>
    rw [e] at hb
    cases ht : t with
    | nil => subst ht; simp at e; exact absurd e.1 hs
    | cons c u =>
      subst ht
      by_cases hc : isBlank c = true
      · have h1' := lexStep_blank hst g below [c] u (by simp) (by simpa using hc)
        rw [List.singleton_append, h1] at h1'
        simp only [Option.some.injEq, Prod.mk.injEq] at h1'
        obtain ⟨rfl, rfl, rfl⟩ := h1'
        have := LexRun.step hb (ks := ks) (st₂ := st') (s₂ := y) (by simpa [hc] using h2)
        simpa [rule] using this
      · simp only [Bool.not_eq_true] at hc
        have := LexRun.step hb (by simpa [hc] using LexRun.step h1 h2)
        simpa [rule] using this

theorem tab_blank {pre : Str} (h : ∀ c ∈ pre, c = '\t') : ∀ c ∈ pre, isBlank c = true := by
  intro c hc; rw [h c hc]; rfl

namespace Writes

variable {st st₁ st' : Stack} {f g p q : Char → Bool} {s t : Str} {ks ls : List (Sym × Str)}

theorem mono (h : Writes st st' f p s ks) (hf : ∀ c, f c = true → g c = true) (hp : ∀ c, q c = true → p c = true) :
    Writes st st' g q s ks :=
  ⟨h.ne, fun c hc => hf c (h.first c hc), fun pre y h1 h2 => h.run pre y h1 fun c hc => hp c (h2 c hc)⟩

/-- At the beginning of a line. -/
theorem runLine (h : Writes st st' f p s ks) (hst : Plain st) {pre y : Str} (hpre : ∀ c ∈ pre, c = '\t')
    (hy : ∀ c ∈ y.head?, p c = true) : LexRun st (indentFrom '\n' pre true s ++ y) ks st' y := by
  have := h.run pre y hpre hy
  rw [indentFrom_true]
  split
  · rw [List.append_assoc]
    exact this.blanks hst (tab_blank hpre) (indentFrom_ne h.ne)
  · exact this

theorem append (h : Writes st st₁ f p s ks) (h' : Writes st₁ st' g q t ls) (hst : Plain st₁) (hg : ∀ c, g c = true → p c = true)
    (ht : p '\t' = true) : Writes st st' f q (s ++ t) (ks ++ ls) := by
  refine ⟨by simp [h.ne], ?_, fun pre y hpre hy => ?_⟩
  · intro c hc
    refine h.first c ?_
    cases s with
    | nil => exact absurd rfl h.ne
    | cons d s => exact hc
  · rw [indentFrom_split, List.append_assoc]
    refine (h.run pre _ hpre ?_).trans ?_
    · intro c hc
      cases hb : endsLine false s with
      | false =>
        rw [hb, List.head?_append_of_ne_nil _ (indentFrom_ne h'.ne), indentFrom_head] at hc
        exact hg c (h'.first c hc)
      | true =>
        rw [hb, indentFrom_true] at hc
        split at hc
        · cases pre with
          | nil =>
            rw [List.nil_append, List.head?_append_of_ne_nil _ (indentFrom_ne h'.ne), indentFrom_head] at hc
            exact hg c (h'.first c hc)
          | cons d pre =>
            simp only [List.cons_append, List.head?_cons, Option.mem_some_iff] at hc
            rw [← hc, hpre d (by simp)]
            exact ht
        · rw [List.nil_append, List.head?_append_of_ne_nil _ (indentFrom_ne h'.ne), indentFrom_head] at hc
          exact hg c (h'.first c hc)
    · cases hb : endsLine false s with
      | false => exact h'.run pre y hpre hy
      | true => exact h'.runLine hst hpre hy

/-- The same without a line end. -/
theorem append' (h : Writes st st₁ f p s ks) (h' : Writes st₁ st' g q t ls) (hs : endsLine false s = false)
    (hg : ∀ c, g c = true → p c = true) : Writes st st' f q (s ++ t) (ks ++ ls) := by
  refine ⟨by simp [h.ne], ?_, fun pre y hpre hy => ?_⟩
  · intro c hc
    refine h.first c ?_
    cases s with
    | nil => exact absurd rfl h.ne
    | cons d s => exact hc
  · rw [indentFrom_split, List.append_assoc, hs]
    refine (h.run pre _ hpre ?_).trans (h'.run pre y hpre hy)
    intro c hc
    rw [List.head?_append_of_ne_nil _ (indentFrom_ne h'.ne), indentFrom_head] at hc
    exact hg c (h'.first c hc)

/-- Spaces in front. -/
theorem gap (h : Writes st st' f p s ks) (hst : Plain st) {w : Str} (hw : ∀ c ∈ w, c = ' ') :
    Writes st st' (fun c => f c || c = ' ') p (w ++ s) ks := by
  refine ⟨by simp [h.ne], ?_, fun pre y hpre hy => ?_⟩
  · intro c hc
    cases w with
    | nil => simp [h.first c hc]
    | cons d w =>
      simp only [List.cons_append, List.head?_cons, Option.mem_some_iff] at hc
      simp [← hc, hw d (by simp)]
  · rw [indentFrom_skip _ (by intro hn; have := hw _ hn; revert this; decide), List.append_assoc]
    exact (h.run pre y hpre hy).blanks hst (fun c hc => by rw [hw c hc]; rfl) (indentFrom_ne h.ne)

/-- An indented text. -/
theorem indent (h : Writes st st' f p s ks) (hst : Plain st) :
    Writes st st' (fun c => f c || c = '\t') p (Etx.indent s tab) ks := by
  refine ⟨indentFrom_ne h.ne, ?_, fun pre y hpre hy => ?_⟩
  · intro c hc
    rw [Etx.indent, indentFrom_true] at hc
    split at hc
    · simp only [tab, List.cons_append, List.head?_cons, Option.mem_some_iff] at hc
      simp [← hc]
    · rw [List.nil_append, indentFrom_head] at hc
      simp [h.first c hc]
  · rw [Etx.indent, indentFrom_true]
    have hrun := h.run (pre ++ tab) y (by simpa [tab, or_imp, forall_and] using hpre) hy
    split
    · rw [indentFrom_skip _ (by decide), indentFrom_indentFrom _ _ (by decide), List.append_assoc]
      exact hrun.blanks hst (by decide) (indentFrom_ne h.ne)
    · rw [List.nil_append, indentFrom_indentFrom _ _ (by decide)]
      exact hrun

/-- One token. -/
theorem of_token {sym : Sym} {w : Str} (hne : w ≠ []) (hf : ∀ c ∈ w.head?, f c = true) (hs : sym ≠ .whitespace)
    (hn : '\n' ∉ w) (h : ∀ y, (∀ c ∈ y.head?, p c = true) → TokenOf st (w ++ y) sym w y) : Writes st st f p w [(sym, w)] :=
  ⟨hne, hf, fun pre y _ hy => by rw [indentFrom_plain hn]; exact (h y hy).run hs⟩

/-- A line feed. -/
theorem newline (hst : Plain st) : Writes st st (fun c => c = '\n') (fun _ => true) c!"\n" [(.lf, c!"\n")] :=
  ⟨by simp, by simp, fun pre y _ _ => by
    simpa [indentFrom] using (lexStep_lf st y hst).run (by decide)⟩

end Writes

end Verif.Etx
