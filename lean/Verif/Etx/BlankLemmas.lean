import Verif.Etx.LexerLemmas
import Verif.Etx.NumberLemmas
import Mathlib.Data.List.Forall2

/-!
# Runs of blanks

How the match of a rule depends on a run of blanks in the text: `Same u z₁ z₂` relates the matches on
`u ++ z₁` and `u ++ z₂`, where `z₁`, `z₂` begin with different runs of blanks and are equal otherwise.
-/

namespace Verif.Etx

open Re

/-- Space or tab. -/
def isBlank (c : Char) : Bool := c = ' ' || c = '\t'

/-- Two matches with the same text that end before `z₁`, `z₂`. -/
def Alike (z₁ z₂ : Str) (m₁ m₂ : Match) : Prop :=
  m₁.txt = m₂.txt ∧ m₁.cap = m₂.cap ∧ ∃ v, m₁.rest = v ++ z₁ ∧ m₂.rest = v ++ z₂

theorem Alike.andThen {z₁ z₂ : Str} {m₁ m₂ n₁ n₂ : Match} (h : Alike z₁ z₂ m₁ m₂) (h' : Alike z₁ z₂ n₁ n₂) :
    Alike z₁ z₂ (m₁.andThen n₁) (m₂.andThen n₂) :=
  ⟨by simp [h.1, h'.1], by simp [h.2.1, h'.2.1], h'.2.2⟩

theorem forall₂_flatMap {α β : Type} {R : α → α → Prop} {S : β → β → Prop} {l₁ l₂ : List α} {f g : α → List β}
    (h : List.Forall₂ R l₁ l₂) (hf : ∀ a b, a ∈ l₁ → b ∈ l₂ → R a b → List.Forall₂ S (f a) (g b)) :
    List.Forall₂ S (l₁.flatMap f) (l₂.flatMap g) := by
  induction h with
  | nil => simp
  | cons h _ ih =>
    rw [List.flatMap_cons, List.flatMap_cons]
    exact List.rel_append (hf _ _ (by simp) (by simp) h) (ih fun a b ha hb => hf a b (by simp [ha]) (by simp [hb]))

theorem forall₂_map {α β : Type} {R : α → α → Prop} {S : β → β → Prop} {l₁ l₂ : List α} {f g : α → β}
    (h : List.Forall₂ R l₁ l₂) (hf : ∀ a b, R a b → S (f a) (g b)) :
    List.Forall₂ S (l₁.map f) (l₂.map g) := by
  induction h with
  | nil => simp
  | cons h _ ih => simp [hf _ _ h, ih]

theorem forall₂_filter {α : Type} {R : α → α → Prop} {p : α → Bool} {l₁ l₂ : List α}
    (h : List.Forall₂ R l₁ l₂) (hf : ∀ a b, R a b → p a = p b) :
    List.Forall₂ R (l₁.filter p) (l₂.filter p) := by
  induction h with
  | nil => simp
  | @cons a b _ _ h _ ih =>
    have := hf _ _ h
    cases hp : p b <;> simp [this, hp, ih, h]

/-- Texts that begin with a blank. -/
def BlankHead (z : Str) : Prop := ∃ b x, z = b :: x ∧ isBlank b = true

theorem blank_not_word {c : Char} (h : isBlank c = true) : isWord c = false := by
  simp [isBlank] at h
  rcases h with rfl | rfl <;> decide

theorem blank_chars {r : Re} (h : r.chars ' ' = false ∧ r.chars '\t' = false) {c : Char} (hc : isBlank c = true) :
    r.chars c = false := by
  simp [isBlank] at hc
  rcases hc with rfl | rfl
  · exact h.1
  · exact h.2

/-- An expression that contains no blanks does not look past a blank. -/
theorem Re.run_alike (r : Re) (hr : r.chars ' ' = false ∧ r.chars '\t' = false) {z₁ z₂ : Str} (h₁ : BlankHead z₁)
    (h₂ : BlankHead z₂) : ∀ (n : Nat) (u : Str), u.length ≤ n → ∀ prev : Option Char,
    List.Forall₂ (Alike z₁ z₂) (r.run prev (u ++ z₁)) (r.run prev (u ++ z₂)) := by
  have nothing : ∀ u : Str, Alike z₁ z₂ (.nothing (u ++ z₁)) (.nothing (u ++ z₂)) := fun u => ⟨rfl, rfl, u, rfl, rfl⟩
  have last : ∀ m₁ m₂ prev, Alike z₁ z₂ m₁ m₂ → m₁.last prev = m₂.last prev := by
    intro m₁ m₂ prev h; simp [Match.last, h.1]
  induction r with
  | eps => intro n u _ prev; simp only [run, List.forall₂_cons]; exact ⟨nothing u, .nil⟩
  | cls p =>
    intro n u _ prev
    cases u with
    | nil =>
      obtain ⟨b₁, x₁, rfl, hb₁⟩ := h₁
      obtain ⟨b₂, x₂, rfl, hb₂⟩ := h₂
      have e₁ : p b₁ = false := blank_chars hr hb₁
      have e₂ : p b₂ = false := blank_chars hr hb₂
      simp [run, e₁, e₂]
    | cons c u =>
      simp only [List.cons_append, run_cls_cons]
      split
      · simp only [List.forall₂_cons, List.Forall₂.nil, and_true]
        exact ⟨rfl, rfl, u, rfl, rfl⟩
      · exact .nil
  | seq a b iha ihb =>
    intro n u hu prev
    simp only [chars, Bool.or_eq_false_iff] at hr
    have iha := iha ⟨hr.1.1, hr.2.1⟩
    have ihb := ihb ⟨hr.1.2, hr.2.2⟩
    simp only [run]
    refine forall₂_flatMap (iha n u hu prev) ?_
    intro m₁ m₂ hm₁ _ h
    refine forall₂_map (R := Alike z₁ z₂) ?_ fun _ _ h' => h.andThen h'
    rw [last _ _ prev h]
    obtain ⟨-, -, v, hv₁, hv₂⟩ := h
    rw [hv₁, hv₂]
    exact ihb v.length v (Nat.le_refl _) _
  | alt a b iha ihb =>
    intro n u hu prev
    simp only [chars, Bool.or_eq_false_iff] at hr
    exact List.rel_append (iha ⟨hr.1.1, hr.2.1⟩ n u hu prev) (ihb ⟨hr.1.2, hr.2.2⟩ n u hu prev)
  | star a ih =>
    intro n
    have ih := ih hr
    induction n with
    | zero =>
      intro u hu prev
      have : u = [] := List.length_eq_zero_iff.1 (by omega)
      subst this
      rw [run_star, run_star]
      refine List.rel_append ?_ (.cons (nothing _) .nil)
      refine forall₂_flatMap (forall₂_filter (ih 0 [] (by simp) prev) fun _ _ h => by simp [h.1]) ?_
      rintro m₁ m₂ hm₁ _ ⟨-, -, v, hv, -⟩
      simp only [List.mem_filter, decide_eq_true_eq] at hm₁
      have := run_rest_lt hm₁.1 hm₁.2
      rw [hv] at this
      simp only [List.nil_append, List.length_append] at this
      omega
    | succ n ihn =>
      intro u hu prev
      rw [run_star, run_star]
      refine List.rel_append ?_ (.cons (nothing _) .nil)
      refine forall₂_flatMap (forall₂_filter (ih (n + 1) u hu prev) fun _ _ h => by simp [h.1]) ?_
      intro m₁ m₂ hm₁ _ h
      refine forall₂_map (R := Alike z₁ z₂) ?_ fun _ _ h' => h.andThen h'
      rw [last _ _ prev h]
      obtain ⟨-, -, v, hv₁, hv₂⟩ := h
      simp only [List.mem_filter, decide_eq_true_eq] at hm₁
      have := run_rest_lt hm₁.1 hm₁.2
      rw [hv₁] at this
      simp at this
      rw [hv₁, hv₂]
      exact ihn v (by omega) _
  | lazyStar a ih =>
    intro n
    have ih := ih hr
    induction n with
    | zero =>
      intro u hu prev
      have : u = [] := List.length_eq_zero_iff.1 (by omega)
      subst this
      rw [run_lazyStar, run_lazyStar]
      refine .cons (nothing _) ?_
      refine forall₂_flatMap (forall₂_filter (ih 0 [] (by simp) prev) fun _ _ h => by simp [h.1]) ?_
      rintro m₁ m₂ hm₁ _ ⟨-, -, v, hv, -⟩
      simp only [List.mem_filter, decide_eq_true_eq] at hm₁
      have := run_rest_lt hm₁.1 hm₁.2
      rw [hv] at this
      simp only [List.nil_append, List.length_append] at this
      omega
    | succ n ihn =>
      intro u hu prev
      rw [run_lazyStar, run_lazyStar]
      refine .cons (nothing _) ?_
      refine forall₂_flatMap (forall₂_filter (ih (n + 1) u hu prev) fun _ _ h => by simp [h.1]) ?_
      intro m₁ m₂ hm₁ _ h
      refine forall₂_map (R := Alike z₁ z₂) ?_ fun _ _ h' => h.andThen h'
      rw [last _ _ prev h]
      obtain ⟨-, -, v, hv₁, hv₂⟩ := h
      simp only [List.mem_filter, decide_eq_true_eq] at hm₁
      have := run_rest_lt hm₁.1 hm₁.2
      rw [hv₁] at this
      simp at this
      rw [hv₁, hv₂]
      exact ihn v (by omega) _
  | bot =>
    intro n u _ prev
    simp only [run]
    split
    · exact .cons (nothing _) .nil
    · exact .nil
  | eot =>
    intro n u _ prev
    obtain ⟨b₁, x₁, rfl, hb₁⟩ := h₁
    obtain ⟨b₂, x₂, rfl, hb₂⟩ := h₂
    simp [run]
  | wordB =>
    intro n u _ prev
    have : ((u ++ z₁).head?.any isWord) = ((u ++ z₂).head?.any isWord) := by
      cases u with
      | nil =>
        obtain ⟨b₁, x₁, rfl, hb₁⟩ := h₁
        obtain ⟨b₂, x₂, rfl, hb₂⟩ := h₂
        simp [blank_not_word hb₁, blank_not_word hb₂]
      | cons c u => simp
    simp only [run, this]
    split
    · exact .cons (nothing _) .nil
    · exact .nil
  | grp a ih =>
    intro n u hu prev
    exact forall₂_map (ih hr n u hu prev) fun _ _ h => ⟨h.1, by simp [h.1], h.2.2⟩

/-- The first matches on `u ++ z₁` and `u ++ z₂`: both fail, both end before `z₁`, `z₂` and are the same, or
both extend beyond `u`. -/
inductive Same (u z₁ z₂ : Str) : Option Match → Option Match → Prop where
  | fail : Same u z₁ z₂ none none
  | alike (m₁ m₂ : Match) : Alike z₁ z₂ m₁ m₂ → Same u z₁ z₂ (some m₁) (some m₂)
  | beyond (m₁ m₂ : Match) : u.length < m₁.txt.length → u.length < m₂.txt.length → Same u z₁ z₂ (some m₁) (some m₂)

theorem same_of_chars {r : Re} (hr : r.chars ' ' = false ∧ r.chars '\t' = false) {z₁ z₂ : Str} (h₁ : BlankHead z₁)
    (h₂ : BlankHead z₂) (u : Str) : Same u z₁ z₂ (r.first (u ++ z₁)) (r.first (u ++ z₂)) := by
  have := r.run_alike hr h₁ h₂ u.length u (Nat.le_refl _) none
  simp only [first]
  cases hl₁ : r.run none (u ++ z₁) with
  | nil =>
    rw [hl₁] at this
    cases hl₂ : r.run none (u ++ z₂) with
    | nil => exact .fail
    | cons => rw [hl₂] at this; cases this
  | cons m₁ l₁ =>
    rw [hl₁] at this
    cases hl₂ : r.run none (u ++ z₂) with
    | nil => rw [hl₂] at this; cases this
    | cons m₂ l₂ =>
      rw [hl₂] at this
      cases this with
      | cons h _ => exact .alike _ _ h

/-- `z₁` and `z₂` are the same up to a run of blanks at the beginning. -/
structure BlankPair (w₁ w₂ y z₁ z₂ : Str) : Prop where
  ne₁ : w₁ ≠ []
  ne₂ : w₂ ≠ []
  blank₁ : ∀ c ∈ w₁, isBlank c = true
  blank₂ : ∀ c ∈ w₂, isBlank c = true
  eq₁ : z₁ = w₁ ++ y
  eq₂ : z₂ = w₂ ++ y

theorem BlankPair.head {w₁ w₂ y z₁ z₂ : Str} (h : BlankPair w₁ w₂ y z₁ z₂) : BlankHead z₁ ∧ BlankHead z₂ := by
  obtain ⟨h1, h2, h3, h4, rfl, rfl⟩ := h
  obtain ⟨b₁, x₁, rfl⟩ := List.exists_cons_of_ne_nil h1
  obtain ⟨b₂, x₂, rfl⟩ := List.exists_cons_of_ne_nil h2
  exact ⟨⟨b₁, x₁ ++ y, rfl, h3 b₁ (by simp)⟩, ⟨b₂, x₂ ++ y, rfl, h4 b₂ (by simp)⟩⟩

theorem takeWhile_append_cases {p : Char → Bool} (u : Str) :
    (∃ a v, u = a ++ v ∧ v ≠ [] ∧ (∀ z, (u ++ z).takeWhile p = a ∧ (u ++ z).dropWhile p = v ++ z)) ∨
    (∀ z, (u ++ z).takeWhile p = u ++ z.takeWhile p) := by
  induction u with
  | nil => right; intro z; rfl
  | cons c u ih =>
    by_cases hc : p c = true
    · rcases ih with ⟨a, v, rfl, hv, h⟩ | h
      · left
        refine ⟨c :: a, v, rfl, hv, fun z => ?_⟩
        simpa [hc] using h z
      · right; intro z; simp [hc, h]
    · left
      exact ⟨[], c :: u, rfl, by simp, fun z => by simp [hc]⟩

theorem takeWhile_blank_pos {p : Char → Bool} (hp : ∀ c, isBlank c = true → p c = true) {z : Str} (h : BlankHead z) :
    0 < (z.takeWhile p).length := by
  obtain ⟨b, x, rfl, hb⟩ := h
  simp [hp b hb]

/-- `p+` for a class that contains the blanks. -/
theorem same_plus {p : Char → Bool} (hp : ∀ c, isBlank c = true → p c = true) {z₁ z₂ : Str} (h₁ : BlankHead z₁)
    (h₂ : BlankHead z₂) (u : Str) (hu : u ≠ []) :
    Same u z₁ z₂ ((plus (cls p)).first (u ++ z₁)) ((plus (cls p)).first (u ++ z₂)) := by
  obtain ⟨c, u, rfl⟩ := List.exists_cons_of_ne_nil hu
  by_cases hc : p c = true
  · simp only [first, List.cons_append, head_plus_cls p c _ hc]
    rcases takeWhile_append_cases (p := p) u with ⟨a, v, rfl, hv, h⟩ | h
    · refine .alike _ _ ⟨?_, rfl, v, ?_, ?_⟩
      · rw [(h z₁).1, (h z₂).1]
      · exact (h z₁).2
      · exact (h z₂).2
    · have e₁ := takeWhile_blank_pos hp h₁
      have e₂ := takeWhile_blank_pos hp h₂
      refine .beyond _ _ ?_ ?_ <;> simp [h] <;> omega
  · have : ∀ z, (plus (cls p)).first ((c :: u) ++ z) = none := by
      intro z
      rw [Re.first_none]
      exact run_plus_cls_fail (by simp [hc])
    rw [this, this]
    exact .fail

/-- What the pattern of a single-line comment matches. -/
theorem first_singleLine (s : Str) : reSingleLine.first s =
    if c!"//" <+: s ∨ c!"#" <+: s then some ⟨s.takeWhile (· ≠ '\n'), none, s.dropWhile (· ≠ '\n')⟩ else none := by
  by_cases h1 : c!"//" <+: s
  · obtain ⟨t, rfl⟩ := h1
    rw [if_pos (.inl ⟨t, rfl⟩), first, reSingleLine,
      head_seq (head_alt_left (m := ⟨c!"//", none, t⟩) (by rw [run_lit]; rfl)) (head_star_cls _ t _)]
    simp [Match.andThen]
  · by_cases h2 : c!"#" <+: s
    · obtain ⟨t, rfl⟩ := h2
      rw [if_pos (.inr ⟨t, rfl⟩), first, reSingleLine,
        head_seq (m := ⟨c!"#", none, t⟩) (by
          rw [head_alt_right (run_lit_fail _ _ _ h1), run_lit]; rfl) (head_star_cls _ t _)]
      simp [Match.andThen]
    · rw [if_neg (by simp [h1, h2]), Re.first_none, reSingleLine, run_seq_nil]
      simp [run, run_lit_fail _ _ _ h1, run_lit_fail _ _ _ h2]

theorem prefix_append_blank {p u z : Str} (hp : ∀ c ∈ p, isBlank c = false) (h : BlankHead z) :
    p <+: u ++ z ↔ p <+: u := by
  constructor
  · intro hpre
    induction u generalizing p with
    | nil =>
      cases p with
      | nil => simp
      | cons c t =>
        obtain ⟨b, x, rfl, hb⟩ := h
        simp only [List.nil_append, List.cons_prefix_cons] at hpre
        rw [← hpre.1, hp c (by simp)] at hb
        cases hb
    | cons d u ih =>
      cases p with
      | nil => simp
      | cons c t =>
        simp only [List.cons_append, List.cons_prefix_cons] at hpre ⊢
        exact ⟨hpre.1, ih (fun c hc => hp c (by simp [hc])) hpre.2⟩
  · intro hpre; exact hpre.trans (List.prefix_append _ _)

theorem same_singleLine {z₁ z₂ : Str} (h₁ : BlankHead z₁) (h₂ : BlankHead z₂) (u : Str) :
    Same u z₁ z₂ (reSingleLine.first (u ++ z₁)) (reSingleLine.first (u ++ z₂)) := by
  rw [first_singleLine, first_singleLine]
  simp only [prefix_append_blank (by decide : ∀ c ∈ c!"//", isBlank c = false) h₁,
    prefix_append_blank (by decide : ∀ c ∈ c!"//", isBlank c = false) h₂,
    prefix_append_blank (by decide : ∀ c ∈ c!"#", isBlank c = false) h₁,
    prefix_append_blank (by decide : ∀ c ∈ c!"#", isBlank c = false) h₂]
  split
  · have hp : ∀ c, isBlank c = true → (fun c => decide (c ≠ '\n')) c = true := by
      intro c hc; simp [isBlank] at hc; rcases hc with rfl | rfl <;> decide
    rcases takeWhile_append_cases (p := fun c => decide (c ≠ '\n')) u with ⟨a, v, rfl, hv, h⟩ | h
    · refine .alike _ _ ⟨?_, rfl, v, ?_, ?_⟩
      · exact (h z₁).1.trans (h z₂).1.symm
      · exact (h z₁).2
      · exact (h z₂).2
    · have e₁ := takeWhile_blank_pos hp h₁
      have e₂ := takeWhile_blank_pos hp h₂
      refine .beyond _ _ ?_ ?_ <;> rw [h] <;> simp only [List.length_append] <;> omega
  · exact .fail

/-- The text up to the first `*/`, and what follows. -/
def closeAt : Str → Option (Str × Str)
  | '*' :: '/' :: s => some ([], s)
  | [] => none
  | c :: s => (closeAt s).map fun (a, b) => (c :: a, b)

theorem closeAt_close (s : Str) : closeAt ('*' :: '/' :: s) = some ([], s) := by rw [closeAt]

theorem closeAt_cons (c : Char) (s : Str) (h : ¬ c!"*/" <+: c :: s) :
    closeAt (c :: s) = (closeAt s).map fun (a, b) => (c :: a, b) := by
  rw [closeAt.eq_def]
  split
  · rename_i t heq
    exact absurd ⟨t, heq.symm⟩ h
  · rename_i heq; cases heq
  · rename_i heq; cases heq; rfl

/-- `.|\n` -/
theorem run_any (prev : Option Char) (c : Char) (s : Str) :
    (grp (alt (cls (· ≠ '\n')) (lit c!"\n"))).run prev (c :: s) = [⟨[c], some [c], s⟩] := by
  by_cases hc : c = '\n'
  · subst hc; simp [run, lit]
  · simp [run, lit, hc]

/-- What `(.|\n)*?\*\/` matches. -/
theorem head_close (s : Str) : ∀ prev : Option Char,
    ((seq (lazyStar (grp (alt (cls (· ≠ '\n')) (lit c!"\n")))) (lit c!"*/")).run prev s).head? =
      (closeAt s).map fun (a, b) => ⟨a ++ c!"*/", a.getLast?.map ([·]), b⟩ := by
  induction s with
  | nil => intro prev; rfl
  | cons c s ih =>
    intro prev
    by_cases h : c!"*/" <+: c :: s
    · obtain ⟨t, ht⟩ := h
      rw [← ht]
      rw [head_seq (m := .nothing (c!"*/" ++ t)) (n := ⟨c!"*/", none, t⟩)]
      · simp [closeAt_close, Match.andThen, Match.nothing]
      · rw [run_lazyStar]; rfl
      · rw [Match.nothing_rest, run_lit]; rfl
    · rw [closeAt_cons c s h, run_lazyStar_seq, run_lit_fail _ _ _ h, run_any]
      have ih' := ih (some c)
      generalize hL : (seq (lazyStar (grp (alt (cls (· ≠ '\n')) (lit c!"\n")))) (lit c!"*/")).run (some c) s = L at ih'
      have : Match.last ⟨[c], some [c], s⟩ prev = some c := by simp [Match.last]
      simp only [ne_eq, List.cons_ne_self, not_false_eq_true, decide_true, List.filter_cons, List.filter_nil, if_true,
        List.flatMap_cons, List.flatMap_nil, List.append_nil, List.nil_append, this]
      simp only [ne_eq] at hL
      rw [hL, List.head?_map, ih']
      cases closeAt s with
      | none => rfl
      | some x =>
        obtain ⟨a, b⟩ := x
        cases ha : a.getLast? with
        | none =>
          rw [List.getLast?_eq_none_iff] at ha
          subst ha
          simp [Match.andThen]
        | some d =>
          simp only [Option.map_some, Match.andThen, List.getLast?_cons, ha]
          simp

theorem first_multiline (s : Str) : reMultiline.first (c!"/*" ++ s) =
    (closeAt s).map fun (a, b) => ⟨c!"/*" ++ a ++ c!"*/", a.getLast?.map ([·]), b⟩ := by
  rw [first, reMultiline, run, run_lit]
  simp only [List.flatMap_cons, List.flatMap_nil, List.append_nil, List.head?_map, head_close]
  cases closeAt s with
  | none => rfl
  | some x => simp [Match.andThen]

theorem first_multiline_none (s : Str) (h : ¬ c!"/*" <+: s) : reMultiline.first s = none := by
  rw [Re.first_none, reMultiline, run_seq_nil (run_lit_fail _ _ _ h)]

theorem closeAt_append (u : Str) :
    (∃ a v, ∀ z, BlankHead z → closeAt (u ++ z) = some (a, v ++ z)) ∨
    (∀ z, BlankHead z → closeAt (u ++ z) = (closeAt z).map fun (a, b) => (u ++ a, b)) := by
  induction u with
  | nil =>
    right; intro z _
    rw [List.nil_append]
    cases closeAt z <;> rfl
  | cons c u ih =>
    by_cases h : c!"*/" <+: c :: u
    · obtain ⟨t, ht⟩ := h
      left
      refine ⟨[], t, fun z _ => ?_⟩
      rw [← ht]
      exact closeAt_close _
    · have h' : ∀ z, BlankHead z → ¬ c!"*/" <+: c :: (u ++ z) := by
        intro z hz hp
        exact h ((prefix_append_blank (u := c :: u) (by decide) hz).1 hp)
      rcases ih with ⟨a, v, ih⟩ | ih
      · left
        refine ⟨c :: a, v, fun z hz => ?_⟩
        rw [List.cons_append, closeAt_cons _ _ (h' z hz), ih z hz]
        rfl
      · right
        intro z hz
        rw [List.cons_append, closeAt_cons _ _ (h' z hz), ih z hz]
        cases closeAt z <;> simp

theorem closeAt_blank (w y : Str) (h : ∀ c ∈ w, isBlank c = true) :
    closeAt (w ++ y) = (closeAt y).map fun (a, b) => (w ++ a, b) := by
  induction w with
  | nil =>
    rw [List.nil_append]
    cases closeAt y <;> rfl
  | cons c w ih =>
    rw [List.cons_append, closeAt_cons, ih fun c hc => h c (by simp [hc])]
    · cases closeAt y <;> simp
    · intro hp
      have := h c (by simp)
      simp only [List.cons_prefix_cons] at hp
      rw [← hp.1] at this
      revert this; decide

/-- `z₁` and `z₂` begin with a blank, and a comment that is still open is closed in both or in none. -/
structure BlankLike (z₁ z₂ : Str) : Prop where
  head₁ : BlankHead z₁
  head₂ : BlankHead z₂
  close : closeAt z₁ = none ↔ closeAt z₂ = none

theorem BlankPair.like {w₁ w₂ y z₁ z₂ : Str} (h : BlankPair w₁ w₂ y z₁ z₂) : BlankLike z₁ z₂ := by
  obtain ⟨h₁, h₂⟩ := h.head
  refine ⟨h₁, h₂, ?_⟩
  rw [h.eq₁, h.eq₂, closeAt_blank w₁ y h.blank₁, closeAt_blank w₂ y h.blank₂]
  simp only [Option.map_eq_none_iff]

theorem same_multiline {z₁ z₂ : Str} (h : BlankLike z₁ z₂) (u : Str) :
    Same u z₁ z₂ (reMultiline.first (u ++ z₁)) (reMultiline.first (u ++ z₂)) := by
  obtain ⟨h₁, h₂, h₃⟩ := h
  by_cases hu : c!"/*" <+: u
  · obtain ⟨u, rfl⟩ := hu
    rw [List.append_assoc, List.append_assoc, first_multiline, first_multiline]
    rcases closeAt_append u with ⟨a, v, hc⟩ | hc
    · rw [hc _ h₁, hc _ h₂]
      exact .alike _ _ ⟨rfl, rfl, v, rfl, rfl⟩
    · rw [hc _ h₁, hc _ h₂]
      cases e₁ : closeAt z₁ with
      | none => rw [h₃.mp e₁]; exact .fail
      | some x₁ =>
        cases e₂ : closeAt z₂ with
        | none => rw [h₃.mpr e₂] at e₁; cases e₁
        | some x₂ => exact .beyond _ _ (by simp) (by simp)
  · rw [first_multiline_none, first_multiline_none]
    · exact .fail
    · rwa [prefix_append_blank (by decide) h₂]
    · rwa [prefix_append_blank (by decide) h₁]

theorem same_escaped {z₁ z₂ : Str} (h₁ : BlankHead z₁) (h₂ : BlankHead z₂) (u : Str) (hu : u ≠ []) :
    Same u z₁ z₂ ((seq (lit c!"\\") (cls (· ≠ '\n'))).first (u ++ z₁))
      ((seq (lit c!"\\") (cls (· ≠ '\n'))).first (u ++ z₂)) := by
  have formula : ∀ c d s, (seq (lit c!"\\") (cls (· ≠ '\n'))).first (c :: d :: s) =
      if c = '\\' ∧ d ≠ '\n' then some ⟨[c, d], none, s⟩ else none := by
    intro c d s
    by_cases hc : c = '\\' <;> by_cases hd : d = '\n' <;> simp [first, run, lit, hc, hd, Match.andThen]
  obtain ⟨c, u, rfl⟩ := List.exists_cons_of_ne_nil hu
  cases u with
  | nil =>
    obtain ⟨b₁, x₁, rfl, hb₁⟩ := h₁
    obtain ⟨b₂, x₂, rfl, hb₂⟩ := h₂
    have ne : ∀ b, isBlank b = true → b ≠ '\n' := by rintro b h rfl; revert h; decide
    simp only [List.cons_append, List.nil_append, formula]
    by_cases hc : c = '\\'
    · rw [if_pos ⟨hc, ne b₁ hb₁⟩, if_pos ⟨hc, ne b₂ hb₂⟩]
      exact .beyond _ _ (by simp) (by simp)
    · rw [if_neg (by simp [hc]), if_neg (by simp [hc])]
      exact .fail
  | cons d u =>
    simp only [List.cons_append, formula]
    split
    · exact .alike _ _ ⟨rfl, rfl, u, rfl, rfl⟩
    · exact .fail

/-! ## All rules -/

theorem lit_chars {w : Str} {c : Char} (h : (lit w).chars c = true) : c ∈ w := by
  induction w with
  | nil => simp [lit, chars] at h
  | cons d w ih =>
    cases w with
    | nil => simp [lit, chars] at h; simp [h]
    | cons e w =>
      simp only [lit, chars, Bool.or_eq_true, decide_eq_true_eq] at h
      rcases h with rfl | h
      · simp
      · exact List.mem_cons_of_mem _ (ih h)

/-- Patterns without blanks. -/
def Rule.NoBlank (g : Str) (r : Rule) : Prop := (r.pat g).chars ' ' = false ∧ (r.pat g).chars '\t' = false

theorem rule_cases {state : LexState} {g : Str} (hg : ∀ c ∈ g, isBlank c = false) : ∀ r ∈ rulesOf state,
    r.NoBlank g ∨ r.pat g = reSingleLine ∨ r.pat g = reMultiline ∨ r.pat g = seq (lit c!"\\") (cls (· ≠ '\n')) ∨
      ∃ p, (∀ c, isBlank c = true → p c = true) ∧ r.pat g = plus (cls p) := by
  have blank : ∀ p : Char → Bool, p ' ' = true → p '\t' = true → ∀ c, isBlank c = true → p c = true := by
    intro p h1 h2 c hc
    simp [isBlank] at hc
    rcases hc with rfl | rfl
    · exact h1
    · exact h2
  have hl : (lit g).chars ' ' = false ∧ (lit g).chars '\t' = false := by
    constructor
    · cases h : (lit g).chars ' ' with
      | false => rfl
      | true => have := hg _ (lit_chars h); revert this; decide
    · cases h : (lit g).chars '\t' with
      | false => rfl
      | true => have := hg _ (lit_chars h); revert this; decide
  have core : ∀ r ∈ coreRules, r.NoBlank g ∨ r.pat g = reSingleLine ∨ r.pat g = reMultiline ∨
      r.pat g = seq (lit c!"\\") (cls (· ≠ '\n')) ∨
      ∃ p, (∀ c, isBlank c = true → p c = true) ∧ r.pat g = plus (cls p) := by
    have split : coreRules = rule .singleLineComment reSingleLine :: rule .multilineComment reMultiline ::
        ((coreRules.drop 2).take 44 ++ [rule .whitespace (plus (cls fun c => c = '\t' || c = ' '))]) := rfl
    rw [split]
    intro r hr
    simp only [List.mem_cons, List.mem_append, List.not_mem_nil, or_false] at hr
    rcases hr with rfl | rfl | hr | rfl
    · exact .inr (.inl rfl)
    · exact .inr (.inr (.inl rfl))
    · left
      have all : ∀ r ∈ (coreRules.drop 2).take 44, (r.pat g).chars ' ' = false ∧ (r.pat g).chars '\t' = false := by
        simp only [coreRules, List.drop_succ_cons, List.drop_zero, List.take_succ_cons, List.take_zero,
          List.forall_mem_cons]
        refine ⟨?_, ?_, ?_, ?_, ?_, ?_, ?_, ?_, ?_, ?_, ?_, ?_, ?_, ?_, ?_, ?_, ?_, ?_, ?_, ?_, ?_, ?_, ?_, ?_, ?_, ?_, ?_,
          ?_, ?_, ?_, ?_, ?_, ?_, ?_, ?_, ?_, ?_, ?_, ?_, ?_, ?_, ?_, ?_, ?_, by simp⟩ <;> exact ⟨rfl, rfl⟩
      exact all r hr
    · exact .inr (.inr (.inr (.inr ⟨_, blank _ rfl rfl, rfl⟩)))
  cases state with
  | root => exact core
  | stringExpr =>
    intro r hr
    rcases List.mem_cons.1 hr with rfl | hr
    · exact .inl ⟨rfl, rfl⟩
    · exact core r hr
  | string =>
    simp only [rulesOf, stringRules, List.forall_mem_cons]
    exact ⟨.inl ⟨rfl, rfl⟩, .inr (.inr (.inr (.inl rfl))), .inl hl, .inl ⟨rfl, rfl⟩, .inl ⟨rfl, rfl⟩, .inl ⟨rfl, rfl⟩,
      .inl ⟨rfl, rfl⟩, .inr (.inr (.inr (.inr ⟨_, blank _ rfl rfl, rfl⟩))), by simp⟩
  | unicode =>
    simp only [rulesOf, unicodeRules, List.forall_mem_cons]
    exact ⟨.inl ⟨rfl, rfl⟩, .inl ⟨rfl, rfl⟩, by simp⟩
  | heredoc =>
    simp only [rulesOf, heredocRules, List.forall_mem_cons]
    exact ⟨.inl hl, .inl ⟨rfl, rfl⟩, .inl ⟨rfl, rfl⟩, .inl ⟨rfl, rfl⟩,
      .inl ⟨rfl, rfl⟩, .inr (.inr (.inr (.inr ⟨_, blank _ rfl rfl, rfl⟩))), by simp⟩

theorem rule_same {state : LexState} {g : Str} (hg : ∀ c ∈ g, isBlank c = false) {z₁ z₂ : Str}
    (h : BlankLike z₁ z₂) (u : Str) (hu : u ≠ []) (r : Rule) (hr : r ∈ rulesOf state) :
    Same u z₁ z₂ ((r.pat g).first (u ++ z₁)) ((r.pat g).first (u ++ z₂)) := by
  obtain ⟨h₁, h₂⟩ := And.intro h.head₁ h.head₂
  rcases rule_cases hg r hr with hn | he | he | he | ⟨p, hp, he⟩
  · exact same_of_chars hn h₁ h₂ u
  · rw [he]; exact same_singleLine h₁ h₂ u
  · rw [he]; exact same_multiline h u
  · rw [he]; exact same_escaped h₁ h₂ u hu
  · rw [he]; exact same_plus hp h₁ h₂ u hu

theorem firstRule_same {g : Str} {z₁ z₂ u : Str} {rs : List Rule}
    (hs : ∀ r ∈ rs, Same u z₁ z₂ ((r.pat g).first (u ++ z₁)) ((r.pat g).first (u ++ z₂))) {r : Rule} {m : Match}
    {v : Str} (h : firstRule g (u ++ z₁) rs = some (r, m)) (hm : m.rest = v ++ z₁) :
    firstRule g (u ++ z₂) rs = some (r, { m with rest := v ++ z₂ }) := by
  induction rs with
  | nil => simp [firstRule] at h
  | cons r' rs ih =>
    have hr := hs r' (by simp)
    simp only [firstRule] at h ⊢
    cases h₁ : (r'.pat g).first (u ++ z₁) with
    | none =>
      rw [h₁] at hr h
      cases h₂ : (r'.pat g).first (u ++ z₂) with
      | none => exact ih (fun r hr => hs r (by simp [hr])) h
      | some m₂ => rw [h₂] at hr; cases hr
    | some m₁ =>
      rw [h₁] at hr h
      simp at h
      obtain ⟨rfl, rfl⟩ := h
      cases h₂ : (r'.pat g).first (u ++ z₂) with
      | none => rw [h₂] at hr; cases hr
      | some m₂ =>
        rw [h₂] at hr
        cases hr with
        | alike _ _ ha =>
          obtain ⟨h1, h2, v', h3, h4⟩ := ha
          rw [hm] at h3
          have := List.append_cancel_right h3
          subst this
          simp only [Option.some.injEq, Prod.mk.injEq, true_and]
          cases m₂
          simp_all
        | beyond _ _ hb _ =>
          have := run_split _ _ _ _ (List.mem_of_head? h₁)
          rw [hm] at this
          have := congrArg List.length this
          simp at this
          omega

/-- No group on the stack contains a blank. -/
def CleanStack (st : Stack) : Prop := ∀ x ∈ st, ∀ c ∈ x.2, isBlank c = false

/-- The group is part of the match. -/
theorem Re.run_cap (r : Re) : ∀ prev s, ∀ m ∈ r.run prev s, ∀ c ∈ m.cap.getD [], c ∈ m.txt := by
  have andThen : ∀ m n : Match, (∀ c ∈ m.cap.getD [], c ∈ m.txt) → (∀ c ∈ n.cap.getD [], c ∈ n.txt) →
      ∀ c ∈ (m.andThen n).cap.getD [], c ∈ (m.andThen n).txt := by
    intro m n hm hn c hc
    simp only [Match.andThen_cap] at hc
    simp only [Match.andThen_txt, List.mem_append]
    cases h : n.cap with
    | none => rw [h] at hc; exact .inl (hm c hc)
    | some d => rw [h] at hc; right; apply hn; simpa [h] using hc
  have hstar : ∀ a : Re, (∀ prev s, ∀ m ∈ a.run prev s, ∀ c ∈ m.cap.getD [], c ∈ m.txt) →
      ∀ n prev s, ∀ m ∈ starRun a.run n prev s, ∀ c ∈ m.cap.getD [], c ∈ m.txt := by
    intro a ih n
    induction n with
    | zero => intro prev s m hm; simp [starRun] at hm; simp [hm]
    | succ n ihn =>
      intro prev s m hm
      simp only [starRun, List.mem_append, List.mem_flatMap, List.mem_filter, List.mem_map, List.mem_singleton] at hm
      rcases hm with ⟨m1, ⟨h1, -⟩, m2, h2, rfl⟩ | rfl
      · exact andThen _ _ (ih _ _ _ h1) (ihn _ _ _ h2)
      · simp
  have hlazy : ∀ a : Re, (∀ prev s, ∀ m ∈ a.run prev s, ∀ c ∈ m.cap.getD [], c ∈ m.txt) →
      ∀ n prev s, ∀ m ∈ lazyRun a.run n prev s, ∀ c ∈ m.cap.getD [], c ∈ m.txt := by
    intro a ih n
    induction n with
    | zero => intro prev s m hm; simp [lazyRun] at hm; simp [hm]
    | succ n ihn =>
      intro prev s m hm
      simp only [lazyRun, List.mem_cons, List.mem_flatMap, List.mem_filter, List.mem_map] at hm
      rcases hm with rfl | ⟨m1, ⟨h1, -⟩, m2, h2, rfl⟩
      · simp
      · exact andThen _ _ (ih _ _ _ h1) (ihn _ _ _ h2)
  induction r with
  | eps => intro prev s m hm; simp [run] at hm; simp [hm]
  | cls p =>
    intro prev s m hm
    cases s with
    | nil => simp [run] at hm
    | cons d s =>
      simp only [run] at hm
      split at hm
      · simp at hm; subst hm; simp
      · simp at hm
  | seq a b iha ihb =>
    intro prev s m hm
    simp only [run, List.mem_flatMap, List.mem_map] at hm
    obtain ⟨m1, h1, m2, h2, rfl⟩ := hm
    exact andThen _ _ (iha _ _ _ h1) (ihb _ _ _ h2)
  | alt a b iha ihb =>
    intro prev s m hm
    simp only [run, List.mem_append] at hm
    exact hm.elim (iha _ _ _) (ihb _ _ _)
  | star a ih => intro prev s; exact hstar a ih _ _ _
  | lazyStar a ih => intro prev s; exact hlazy a ih _ _ _
  | bot => intro prev s m hm; simp only [run] at hm; split at hm <;> simp at hm; simp [hm]
  | eot => intro prev s m hm; simp only [run] at hm; split at hm <;> simp at hm; simp [hm]
  | wordB => intro prev s m hm; simp only [run] at hm; split at hm <;> simp at hm; simp [hm]
  | grp a ih =>
    intro prev s m hm
    simp only [run, List.mem_map] at hm
    obtain ⟨m1, h1, rfl⟩ := hm
    simp

theorem push_noBlank (state : LexState) (g : Str) (r : Rule) (hr : r ∈ rulesOf state) (new : LexState)
    (hp : r.action = .push new) : r.NoBlank g := by
  have core : ∀ r ∈ coreRules, ∀ new, r.action = .push new →
      r = rule .heredoc reHeredoc (.push .heredoc) ∨
      r = rule .string (grp (cls fun c => c = '"' || c = '\'')) (.push .string) := by
    simp only [coreRules, rule, List.forall_mem_cons]
    simp
  have core' : ∀ r ∈ coreRules, ∀ new, r.action = .push new → r.NoBlank g := by
    intro r hr new hp
    rcases core r hr new hp with rfl | rfl <;> exact ⟨rfl, rfl⟩
  cases state with
  | root => exact core' r hr new hp
  | stringExpr =>
    rcases List.mem_cons.1 hr with rfl | hr
    · exact ⟨rfl, rfl⟩
    · exact core' r hr new hp
  | string =>
    have : ∀ r ∈ stringRules, r.action = .push new → r.NoBlank g := by
      simp only [stringRules, List.forall_mem_cons]
      refine ⟨fun _ => ⟨rfl, rfl⟩, ?_, ?_, fun _ => ⟨rfl, rfl⟩, fun _ => ⟨rfl, rfl⟩, fun _ => ⟨rfl, rfl⟩,
        fun _ => ⟨rfl, rfl⟩, ?_, by simp⟩ <;> (intro h; cases h)
    exact this r hr hp
  | unicode =>
    have : ∀ r ∈ unicodeRules, r.action = .push new → r.NoBlank g := by
      simp only [unicodeRules, List.forall_mem_cons]
      exact ⟨fun _ => ⟨rfl, rfl⟩, fun _ => ⟨rfl, rfl⟩, by simp⟩
    exact this r hr hp
  | heredoc =>
    have : ∀ r ∈ heredocRules, r.action = .push new → r.NoBlank g := by
      simp only [heredocRules, List.forall_mem_cons]
      refine ⟨?_, fun _ => ⟨rfl, rfl⟩, fun _ => ⟨rfl, rfl⟩, fun _ => ⟨rfl, rfl⟩,
        fun _ => ⟨rfl, rfl⟩, ?_, by simp⟩ <;> (intro h; cases h)
    exact this r hr hp

theorem CleanStack.step {st st' : Stack} {s : Str} {r : Rule} {m : Match} (h : CleanStack st)
    (hs : lexStep st s = some (r, m, st')) : CleanStack st' := by
  obtain ⟨state, g, below, rfl, hr, -, rfl⟩ := lexStep_some hs
  obtain ⟨hmem, hfirst⟩ := firstRule_some hr
  cases ha : r.action with
  | none => exact h
  | push new =>
    intro x hx
    rcases List.mem_cons.1 hx with rfl | hx
    · intro c hc
      have hm := List.mem_of_head? hfirst
      have h1 := run_chars _ _ _ _ hm c (run_cap _ _ _ _ hm c hc)
      have h2 := push_noBlank state g r hmem new ha
      cases hb : isBlank c with
      | false => rfl
      | true => rw [blank_chars h2 hb] at h1; cases h1
    · exact h x hx
  | pop => exact fun x hx => h x (List.mem_cons_of_mem _ hx)

/-- A step that ends before the blanks does not depend on them. -/
theorem lexStep_same {st st' : Stack} {z₁ z₂ : Str} (hz : BlankLike z₁ z₂) (hst : CleanStack st)
    {u v : Str} (hu : u ≠ []) {r : Rule} {m : Match} (h : lexStep st (u ++ z₁) = some (r, m, st'))
    (hm : m.rest = v ++ z₁) : lexStep st (u ++ z₂) = some (r, { m with rest := v ++ z₂ }, st') := by
  obtain ⟨state, g, below, rfl, hr, hne, rfl⟩ := lexStep_some h
  have hg : ∀ c ∈ g, isBlank c = false := hst (state, g) (by simp)
  have := firstRule_same (fun r hr => rule_same hg hz u hu r hr) hr hm
  rw [lexStep_of this hne]

end Verif.Etx
