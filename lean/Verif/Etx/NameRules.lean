import Verif.Etx.NameAfter
import Verif.Props.LexBlank

/-!
# The rules of the lexer before a name

Every rule of the lexer treats two texts alike that differ in a name only: its match ends before the name in both and is the same, or goes
beyond the beginning of the name in both.
-/

namespace Verif.Etx

open Re

theorem Re.ends_chars (r : Re) (c : Char) : r.ends c = true → r.chars c = true := by
  induction r with
  | seq a b iha ihb => simp only [ends, chars, Bool.or_eq_true, Bool.and_eq_true]; tauto
  | alt a b iha ihb => simp only [ends, chars, Bool.or_eq_true]; tauto
  | star a ih => exact ih
  | lazyStar a ih => exact ih
  | grp a ih => exact ih
  | cls p => exact id
  | _ => simp [ends]

theorem Re.starts_chars (r : Re) (c : Char) : r.starts c = true → r.chars c = true := by
  induction r with
  | seq a b iha ihb => simp only [starts, chars, Bool.or_eq_true, Bool.and_eq_true]; tauto
  | alt a b iha ihb => simp only [starts, chars, Bool.or_eq_true]; tauto
  | star a ih => exact ih
  | lazyStar a ih => exact ih
  | grp a ih => exact ih
  | cls p => exact id
  | _ => simp [starts]

theorem Re.pair_chars (r : Re) (c d : Char) : r.pair c d = true → r.chars c = true ∧ r.chars d = true := by
  induction r with
  | seq a b iha ihb =>
    have := a.ends_chars c
    have := b.starts_chars d
    simp only [pair, chars, Bool.or_eq_true, Bool.and_eq_true]
    tauto
  | alt a b iha ihb => simp only [pair, chars, Bool.or_eq_true]; tauto
  | star a ih =>
    have := a.ends_chars c
    have := a.starts_chars d
    simp only [pair, chars, Bool.or_eq_true, Bool.and_eq_true]
    tauto
  | lazyStar a ih =>
    have := a.ends_chars c
    have := a.starts_chars d
    simp only [pair, chars, Bool.or_eq_true, Bool.and_eq_true]
    tauto
  | grp a ih => exact ih
  | _ => simp [pair]

/-- Two names followed by the same text. -/
structure NamePair (w₁ w₂ y : Str) : Prop where
  ident₁ : IsIdent w₁
  ident₂ : IsIdent w₂
  ends : EndsWord y

theorem IsIdent.alphaHead {w : Str} (h : IsIdent w) (y : Str) : AlphaHead (w ++ y) := by
  obtain ⟨c, a, parts, hc, -, -⟩ := h
  exact ⟨c, a ++ dashed parts ++ y, by simp, hc⟩

theorem NamePair.head₁ {w₁ w₂ y : Str} (h : NamePair w₁ w₂ y) : AlphaHead (w₁ ++ y) := h.ident₁.alphaHead y

theorem NamePair.head₂ {w₁ w₂ y : Str} (h : NamePair w₁ w₂ y) : AlphaHead (w₂ ++ y) := h.ident₂.alphaHead y

/-! ## Comments and texts -/

theorem takeWhile_alpha_pos {p : Char → Bool} (hp : ∀ c, isAlpha c = true → p c = true) {z : Str} (h : AlphaHead z) :
    0 < (z.takeWhile p).length := by
  obtain ⟨b, x, rfl, hb⟩ := h
  simp [hp b hb]

/-- `p+` for a class that contains the letters. -/
theorem same_plus_alpha {p : Char → Bool} (hp : ∀ c, isAlpha c = true → p c = true) {z₁ z₂ : Str} (h₁ : AlphaHead z₁)
    (h₂ : AlphaHead z₂) (u : Str) (hu : u ≠ []) :
    Same u z₁ z₂ ((plus (cls p)).first (u ++ z₁)) ((plus (cls p)).first (u ++ z₂)) := by
  obtain ⟨c, u, rfl⟩ := List.exists_cons_of_ne_nil hu
  by_cases hc : p c = true
  · simp only [first, List.cons_append, head_plus_cls p c _ hc]
    rcases takeWhile_append_cases (p := p) u with ⟨a, v, rfl, hv, h⟩ | h
    · refine .alike _ _ ⟨?_, rfl, v, ?_, ?_⟩
      · rw [(h z₁).1, (h z₂).1]
      · exact (h z₁).2
      · exact (h z₂).2
    · have e₁ := takeWhile_alpha_pos hp h₁
      have e₂ := takeWhile_alpha_pos hp h₂
      refine .beyond _ _ ?_ ?_ <;> simp [h] <;> omega
  · have : ∀ z, (plus (cls p)).first ((c :: u) ++ z) = none := by
      intro z
      rw [Re.first_none]
      exact run_plus_cls_fail (by simp [hc])
    rw [this, this]
    exact .fail

theorem prefix_append_alpha {p u z : Str} (hp : ∀ c ∈ p, isAlpha c = false) (h : AlphaHead z) : p <+: u ++ z ↔ p <+: u := by
  constructor
  · intro hpre
    induction u generalizing p with
    | nil =>
      cases p with
      | nil => simp
      | cons c t =>
        obtain ⟨b, x, rfl, hb⟩ := h
        simp only [List.nil_append, List.cons_prefix_cons] at hpre
        rw [← hpre.1, hp c (by simp)] at hb
        cases hb
    | cons d u ih =>
      cases p with
      | nil => simp
      | cons c t =>
        simp only [List.cons_append, List.cons_prefix_cons] at hpre ⊢
        exact ⟨hpre.1, ih (fun c hc => hp c (by simp [hc])) hpre.2⟩
  · intro hpre; exact hpre.trans (List.prefix_append _ _)

theorem same_singleLine_alpha {z₁ z₂ : Str} (h₁ : AlphaHead z₁) (h₂ : AlphaHead z₂) (u : Str) :
    Same u z₁ z₂ (reSingleLine.first (u ++ z₁)) (reSingleLine.first (u ++ z₂)) := by
  rw [first_singleLine, first_singleLine]
  simp only [prefix_append_alpha (by decide : ∀ c ∈ c!"//", isAlpha c = false) h₁,
    prefix_append_alpha (by decide : ∀ c ∈ c!"//", isAlpha c = false) h₂,
    prefix_append_alpha (by decide : ∀ c ∈ c!"#", isAlpha c = false) h₁,
    prefix_append_alpha (by decide : ∀ c ∈ c!"#", isAlpha c = false) h₂]
  split
  · have hp : ∀ c, isAlpha c = true → (fun c => decide (c ≠ '\n')) c = true := by
      intro c hc
      rw [decide_eq_true_eq]
      rintro rfl
      revert hc; decide
    rcases takeWhile_append_cases (p := fun c => decide (c ≠ '\n')) u with ⟨a, v, rfl, hv, h⟩ | h
    · refine .alike _ _ ⟨?_, rfl, v, ?_, ?_⟩
      · exact (h z₁).1.trans (h z₂).1.symm
      · exact (h z₁).2
      · exact (h z₂).2
    · have e₁ := takeWhile_alpha_pos hp h₁
      have e₂ := takeWhile_alpha_pos hp h₂
      refine .beyond _ _ ?_ ?_ <;> rw [h] <;> simp only [List.length_append] <;> omega
  · exact .fail

theorem closeAt_append_alpha (u : Str) :
    (∃ a v, ∀ z, AlphaHead z → closeAt (u ++ z) = some (a, v ++ z)) ∨
    (∀ z, AlphaHead z → closeAt (u ++ z) = (closeAt z).map fun (a, b) => (u ++ a, b)) := by
  induction u with
  | nil =>
    right; intro z _
    rw [List.nil_append]
    cases closeAt z <;> rfl
  | cons c u ih =>
    by_cases h : c!"*/" <+: c :: u
    · obtain ⟨t, ht⟩ := h
      left
      refine ⟨[], t, fun z _ => ?_⟩
      rw [← ht]
      exact closeAt_close _
    · have h' : ∀ z, AlphaHead z → ¬ c!"*/" <+: c :: (u ++ z) := by
        intro z hz hp
        exact h ((prefix_append_alpha (u := c :: u) (by decide) hz).1 hp)
      rcases ih with ⟨a, v, ih⟩ | ih
      · left
        refine ⟨c :: a, v, fun z hz => ?_⟩
        rw [List.cons_append, closeAt_cons _ _ (h' z hz), ih z hz]
        rfl
      · right
        intro z hz
        rw [List.cons_append, closeAt_cons _ _ (h' z hz), ih z hz]
        cases closeAt z <;> simp

theorem closeAt_name (w y : Str) (h : '*' ∉ w) : closeAt (w ++ y) = (closeAt y).map fun (a, b) => (w ++ a, b) := by
  induction w with
  | nil =>
    rw [List.nil_append]
    cases closeAt y <;> rfl
  | cons c w ih =>
    rw [List.mem_cons, not_or] at h
    rw [List.cons_append, closeAt_cons, ih h.2]
    · cases closeAt y <;> simp
    · intro hp
      rw [List.cons_prefix_cons] at hp
      exact h.1 hp.1

theorem ident_no_star {w : Str} (h : IsIdent w) : '*' ∉ w := by
  obtain ⟨c, a, parts, hc, ha, hp⟩ := h
  have hd : ∀ ps : List Str, (∀ p ∈ ps, WordPart p) → '*' ∉ dashed ps := by
    intro ps
    induction ps with
    | nil => intro _ h; cases h
    | cons p ps ih =>
      intro hps h
      rw [dashed, List.map_cons, List.flatten_cons, List.cons_append, List.mem_cons, List.mem_append] at h
      rcases h with h | h | h
      · cases h
      · have := (hps p (by simp)).2 _ h
        revert this; decide
      · exact ih (fun p hp => hps p (by simp [hp])) h
  intro h
  simp only [List.cons_append, List.mem_cons, List.mem_append] at h
  rcases h with rfl | h | h
  · revert hc; decide
  · have := ha _ h
    revert this; decide
  · exact hd _ hp h

theorem same_multiline_alpha {w₁ w₂ y : Str} (h : NamePair w₁ w₂ y) (u : Str) :
    Same u (w₁ ++ y) (w₂ ++ y) (reMultiline.first (u ++ (w₁ ++ y))) (reMultiline.first (u ++ (w₂ ++ y))) := by
  have h₁ := h.head₁
  have h₂ := h.head₂
  by_cases hu : c!"/*" <+: u
  · obtain ⟨u, rfl⟩ := hu
    rw [List.append_assoc, List.append_assoc, first_multiline, first_multiline]
    rcases closeAt_append_alpha u with ⟨a, v, hc⟩ | hc
    · rw [hc _ h₁, hc _ h₂]
      exact .alike _ _ ⟨rfl, rfl, v, rfl, rfl⟩
    · rw [hc _ h₁, hc _ h₂, closeAt_name _ _ (ident_no_star h.ident₁), closeAt_name _ _ (ident_no_star h.ident₂)]
      cases closeAt y with
      | none => exact .fail
      | some x =>
        exact .beyond _ _ (by simp; omega) (by simp; omega)
  · rw [first_multiline_none, first_multiline_none]
    · exact .fail
    · rwa [prefix_append_alpha (by decide) h₂]
    · rwa [prefix_append_alpha (by decide) h₁]

/-! ## Identifiers: a name after a hyphen continues an identifier, whatever the name is -/

theorem run_star_parts (n : Nat) : ∀ prev s, ∀ m ∈ starRun (grp (seq (lit c!"-") (plus (cls isWord)))).run n prev s,
    ∃ parts, (∀ p ∈ parts, WordPart p) ∧ m.txt = dashed parts := by
  induction n with
  | zero => intro prev s m hm; simp [starRun] at hm; subst hm; exact ⟨[], by simp, rfl⟩
  | succ n ih =>
    intro prev s m hm
    simp only [starRun, List.mem_append, List.mem_flatMap, List.mem_filter, List.mem_map, List.mem_singleton, decide_eq_true_eq] at hm
    rcases hm with ⟨m1, ⟨h1, -⟩, m2, h2, rfl⟩ | rfl
    · obtain ⟨parts, hp, h3⟩ := ih _ _ _ h2
      simp only [run, lit, List.mem_map, List.mem_flatMap] at h1
      obtain ⟨k, ⟨k1, hk1, k2, hk2, rfl⟩, rfl⟩ := h1
      have e1 : k1.txt = c!"-" := by
        cases s with
        | nil => simp [run] at hk1
        | cons d s =>
          rw [run_cls_cons] at hk1
          split at hk1
          · rename_i hd
            simp at hk1 hd
            subst hk1 hd
            rfl
          · simp at hk1
      have hk2' : ∀ c ∈ k2.txt, isWord c = true := fun c hc => by
        have := (plus (cls isWord)).run_chars _ _ _ hk2 c hc
        simpa [plus, chars] using this
      have hne : k2.txt ≠ [] := fun he => by
        have := ((plus (cls isWord)).run_start _ _ _ hk2).1 he
        simp [plus, nullable] at this
      refine ⟨k2.txt :: parts, ?_, ?_⟩
      · intro p hp'
        rcases List.mem_cons.1 hp' with rfl | hp'
        · exact ⟨hne, hk2'⟩
        · exact hp p hp'
      · simp only [Match.andThen_txt, e1, h3]
        simp [dashed]
    · exact ⟨[], by simp, rfl⟩

theorem run_ident {prev : Option Char} {s : Str} {m : Match} (hm : m ∈ reIdent.run prev s) : IsIdent m.txt := by
  rw [reIdent, run] at hm
  simp only [List.mem_flatMap, List.mem_map] at hm
  obtain ⟨m0, h0, m1, h1, rfl⟩ := hm
  rw [run] at h1
  simp only [List.mem_flatMap, List.mem_map] at h1
  obtain ⟨ma, ha, m2, h2, rfl⟩ := h1
  rw [run] at h2
  simp only [List.mem_flatMap, List.mem_map] at h2
  obtain ⟨mw, hw, m3, h3, rfl⟩ := h2
  rw [run] at h3
  simp only [List.mem_flatMap, List.mem_map] at h3
  obtain ⟨mp, hp, me, he, rfl⟩ := h3
  have e0 : m0.txt = [] := by
    rw [run] at h0
    split at h0 <;> simp at h0
    rw [h0]; rfl
  have ee : me.txt = [] := by
    rw [run] at he
    split at he <;> simp at he
    rw [he]; rfl
  obtain ⟨c, hc, ea⟩ : ∃ c, isAlpha c = true ∧ ma.txt = [c] := by
    cases hs : m0.rest with
    | nil => rw [hs] at ha; simp [run] at ha
    | cons d s =>
      rw [hs, run_cls_cons] at ha
      split at ha <;> simp at ha
      rename_i hd
      exact ⟨d, hd, by rw [ha]⟩
  have hw' : ∀ c ∈ mw.txt, isWord c = true := fun c hc => by
    have := (star (cls isWord)).run_chars _ _ _ hw c hc
    simpa [chars] using this
  obtain ⟨parts, hp, ep⟩ := run_star_parts _ _ _ _ hp
  have : (m0.andThen (ma.andThen (mw.andThen (mp.andThen me)))).txt = c :: mw.txt ++ dashed parts := by
    simp [e0, ea, ep, ee]
  rw [this]
  exact .mk c mw.txt parts hc hw' hp

theorem dashed_split : ∀ (parts : List Str) (u q : Str), (∀ p ∈ parts, WordPart p) → dashed parts = u ++ '-' :: q →
    ∃ ps, (∀ p ∈ ps, WordPart p) ∧ u = dashed ps := by
  intro parts
  induction parts with
  | nil => intro u q _ h; simp [dashed] at h
  | cons p ps ih =>
    intro u q hp h
    have e : dashed (p :: ps) = '-' :: p ++ dashed ps := by simp [dashed]
    rw [e] at h
    cases u with
    | nil => exact ⟨[], by simp, rfl⟩
    | cons d u =>
      rw [List.cons_append, List.cons_append, List.cons.injEq] at h
      obtain ⟨rfl, h⟩ := h
      rw [List.append_eq_append_iff] at h
      rcases h with ⟨v, rfl, h⟩ | ⟨v, h, h'⟩
      · obtain ⟨qs, hq, rfl⟩ := ih v q (fun p hp' => hp p (by simp [hp'])) h
        refine ⟨p :: qs, ?_, by simp [dashed]⟩
        intro p' hp'
        rcases List.mem_cons.1 hp' with rfl | hp'
        · exact hp _ (by simp)
        · exact hq _ hp'
      · cases v with
        | nil =>
          rw [List.append_nil] at h
          subst h
          exact ⟨[p], by simpa using hp p (by simp), by simp [dashed]⟩
        | cons d v =>
          rw [List.cons_append, List.cons.injEq] at h'
          obtain ⟨rfl, -⟩ := h'
          have := (hp p (by simp)).2 '-' (by simp [h])
          rw [dash_not_word] at this
          cases this

/-- The part of an identifier before a hyphen, continued with a name. -/
theorem ident_hyphen {u q w : Str} (h : IsIdent (u ++ '-' :: q)) (hw : IsIdent w) : IsIdent (u ++ '-' :: w) := by
  generalize ht : u ++ '-' :: q = t at h
  obtain ⟨c, a, parts, hc, ha, hp⟩ := h
  obtain ⟨c', a', parts', hc', ha', hp'⟩ := hw
  cases u with
  | nil =>
    rw [List.nil_append, List.cons_append, List.cons.injEq] at ht
    rw [← ht.1] at hc
    have := alpha_word hc
    rw [dash_not_word] at this
    cases this
  | cons d u =>
    rw [List.cons_append, List.cons_append, List.cons.injEq] at ht
    obtain ⟨rfl, ht⟩ := ht
    rw [List.append_eq_append_iff] at ht
    have key : ∃ ps, (∀ p ∈ ps, WordPart p) ∧ u = a ++ dashed ps := by
      rcases ht with ⟨v, h, h'⟩ | ⟨v, rfl, h'⟩
      · cases v with
        | nil => exact ⟨[], by simp, by simpa [dashed] using h.symm⟩
        | cons e v =>
          rw [List.cons_append, List.cons.injEq] at h'
          obtain ⟨rfl, -⟩ := h'
          have := ha '-' (by simp [h])
          rw [dash_not_word] at this
          cases this
      · obtain ⟨ps, hps, rfl⟩ := dashed_split parts v q hp h'
        exact ⟨ps, hps, rfl⟩
    obtain ⟨ps, hps, rfl⟩ := key
    have e : d :: (a ++ dashed ps) ++ '-' :: (c' :: a' ++ dashed parts') = d :: a ++ dashed (ps ++ (c' :: a') :: parts') := by
      simp [dashed]
    rw [e]
    refine .mk d a _ hc ha ?_
    intro p hp1
    rw [List.mem_append, List.mem_cons] at hp1
    rcases hp1 with h | rfl | h
    · exact hps p h
    · refine ⟨by simp, ?_⟩
      intro e he
      rcases List.mem_cons.1 he with rfl | he
      · exact alpha_word hc'
      · exact ha' e he
    · exact hp' p h

theorem same_ident_alpha {w₁ w₂ y : Str} (h : NamePair w₁ w₂ y) {u : Str} {c : Char} (hu : u.getLast? = some c) (hc : isWord c = false) :
    Same u (w₁ ++ y) (w₂ ++ y) (reIdent.first (u ++ (w₁ ++ y))) (reIdent.first (u ++ (w₂ ++ y))) := by
  have key : ∀ w y m, IsIdent w → m ∈ reIdent.run none (u ++ (w ++ y)) → m.ahead (w ++ y) = false →
      ∃ u', u = u' ++ ['-'] ∧ ∀ w, IsIdent w → IsIdent (u ++ w) := by
    intro w y m hw hm hb
    obtain ⟨b, q, -, ht, hp⟩ := reach (hw.alphaHead y) hu hm hb
    have hi := run_ident hm
    have hcd : c = '-' := by
      have := (reIdent.pair_chars _ _ hp).1
      simp only [reIdent, chars, plus, lit, Bool.or_eq_true, Bool.or_false, Bool.false_or, decide_eq_true_eq, hc] at this
      rcases this with h | h
      · rw [alpha_word h] at hc; cases hc
      · simpa using h
    subst hcd
    rw [List.getLast?_eq_some_iff] at hu
    obtain ⟨u', rfl⟩ := hu
    rw [ht] at hi
    refine ⟨u', rfl, fun w hw => ?_⟩
    have := ident_hyphen (u := u') (q := b :: q) (by simpa using hi) hw
    simpa using this
  have beyond : (∀ w, IsIdent w → IsIdent (u ++ w)) →
      Same u (w₁ ++ y) (w₂ ++ y) (reIdent.first (u ++ (w₁ ++ y))) (reIdent.first (u ++ (w₂ ++ y))) := by
    intro hi
    obtain ⟨c₁, e₁⟩ := first_ident (hi w₁ h.ident₁) y h.ends
    obtain ⟨c₂, e₂⟩ := first_ident (hi w₂ h.ident₂) y h.ends
    rw [List.append_assoc] at e₁ e₂
    rw [e₁, e₂]
    have n₁ : 0 < w₁.length := by obtain ⟨c, a, parts, -, -, -⟩ := h.ident₁; simp
    have n₂ : 0 < w₂.length := by obtain ⟨c, a, parts, -, -, -⟩ := h.ident₂; simp
    exact .beyond _ _ (by simp; omega) (by simp; omega)
  by_cases hb : (∀ m ∈ reIdent.run none (u ++ (w₁ ++ y)), m.ahead (w₁ ++ y) = true) ∧
      ∀ m ∈ reIdent.run none (u ++ (w₂ ++ y)), m.ahead (w₂ ++ y) = true
  · exact same_of_ahead h.head₁ h.head₂ u hb.1 hb.2
  · rw [not_and_or] at hb
    push Not at hb
    rcases hb with ⟨m, hm, hb⟩ | ⟨m, hm, hb⟩
    · exact beyond (key w₁ y m h.ident₁ hm (by simpa using hb)).choose_spec.2
    · exact beyond (key w₂ y m h.ident₂ hm (by simpa using hb)).choose_spec.2

/-! ## Numbers and heredocs -/

theorem isHex_word {c : Char} (h : isHex c = true) : isWord c = true := by
  simp only [isHex, isDigit, isWord, Bool.or_eq_true, Bool.and_eq_true, decide_eq_true_eq] at *
  rcases h with (h | h) | h
  · exact .inl (.inl (.inl h))
  · exact .inl (.inr ⟨h.1, Char.le_trans h.2 (by decide)⟩)
  · exact .inl (.inl (.inr ⟨h.1, Char.le_trans h.2 (by decide)⟩))

theorem number_pair {c b : Char} (hc : isWord c = false) (hb : isAlpha b = true) : reNumber.pair c b = false := by
  cases hp : reNumber.pair c b with
  | false => rfl
  | true =>
    have h := (reNumber.pair_chars _ _ hp).1
    have h3 : c = '.' ∨ c = '-' ∨ c = '+' := by
      have ne : ∀ d : Char, isWord d = true → c ≠ d := by
        rintro d hd rfl
        rw [hd] at hc
        cases hc
      have hd : isDigit c = false := by
        simp only [isWord, Bool.or_eq_false_iff] at hc
        exact hc.1.1.1
      have hx : isHex c = false := by
        cases hx : isHex c with
        | false => rfl
        | true =>
          have := isHex_word hx
          rw [hc] at this
          cases this
      have ho : (decide ('0' ≤ c) && decide (c ≤ '7')) = false := by
        cases ho : (decide ('0' ≤ c) && decide (c ≤ '7')) with
        | false => rfl
        | true =>
          simp only [isDigit, Bool.and_eq_true, Bool.and_eq_false_iff, decide_eq_true_eq, decide_eq_false_iff_not] at ho hd
          rcases hd with h | h
          · exact absurd ho.1 h
          · exact absurd (Char.le_trans ho.2 (by decide)) h
      simp only [reNumber, reHex, reBin, reOct, reDec, chars, plus, opt, lit, isDigitSep, hd, hx, ho, ne '_' rfl, ne '0' rfl, ne '1' rfl,
        ne 'x' rfl, ne 'X' rfl, ne 'b' rfl, ne 'B' rfl, ne 'o' rfl, ne 'O' rfl, ne 'e' rfl, ne 'E' rfl, decide_false, Bool.or_false,
        Bool.false_or, Bool.or_eq_true, decide_eq_true_eq] at h
      exact h
    rw [← hp]
    rcases h3 with rfl | rfl | rfl
    · exact alpha_cases (q := fun b => reNumber.pair '.' b = false) (by decide +kernel) b hb
    · exact alpha_cases (q := fun b => reNumber.pair '-' b = false) (by decide +kernel) b hb
    · exact alpha_cases (q := fun b => reNumber.pair '+' b = false) (by decide +kernel) b hb

theorem run_lit_txt {l : Str} {prev : Option Char} {s : Str} {m : Match} (hm : m ∈ (lit l).run prev s) : m.txt = l ∧ m.cap = none := by
  by_cases hp : l <+: s
  · obtain ⟨t, rfl⟩ := hp
    rw [run_lit] at hm
    simp at hm
    simp [hm]
  · rw [run_lit_fail l prev s hp] at hm
    cases hm

theorem run_cls_txt {p : Char → Bool} {prev : Option Char} {s : Str} {m : Match} (hm : m ∈ (cls p).run prev s) :
    ∃ c, p c = true ∧ m.txt = [c] ∧ m.cap = none := by
  cases s with
  | nil => simp [run] at hm
  | cons c s =>
    rw [run_cls_cons] at hm
    split at hm
    · rename_i hp
      simp at hm
      subst hm
      exact ⟨c, hp, rfl, rfl⟩
    · simp at hm

theorem run_heredoc {prev : Option Char} {s : Str} {m : Match} (hm : m ∈ reHeredoc.run prev s) :
    ∃ o w, (o = [] ∨ o = c!"-") ∧ WordPart w ∧ m.txt = c!"<<" ++ o ++ w ++ c!"\n" ∧ m.cap = some w := by
  rw [reHeredoc, run] at hm
  simp only [List.mem_flatMap, List.mem_map] at hm
  obtain ⟨ml, hl, m1, h1, rfl⟩ := hm
  rw [run] at h1
  simp only [List.mem_flatMap, List.mem_map] at h1
  obtain ⟨mo, ho, m2, h2, rfl⟩ := h1
  rw [run] at h2
  simp only [List.mem_flatMap, List.mem_map] at h2
  obtain ⟨mw, hw, me, he, rfl⟩ := h2
  have ho' : mo.txt = [] ∨ mo.txt = c!"-" := by
    rw [opt, run] at ho
    simp only [List.mem_append, run, List.mem_singleton] at ho
    rcases ho with ho | rfl
    · cases hr : ml.rest with
      | nil => rw [hr] at ho; simp [run] at ho
      | cons d s =>
        rw [hr, run_cls_cons] at ho
        split at ho
        · rename_i hd
          simp at ho hd
          subst ho hd
          exact .inr rfl
        · simp at ho
    · exact .inl rfl
  simp only [run, List.mem_map] at hw
  obtain ⟨k, hk, rfl⟩ := hw
  have hk' : WordPart k.txt := by
    refine ⟨fun h => ?_, fun c hc => ?_⟩
    · have := ((plus (cls isWord)).run_start _ _ _ hk).1 h
      simp [plus, nullable] at this
    · have := (plus (cls isWord)).run_chars _ _ _ hk c hc
      simpa [plus, chars] using this
  obtain ⟨e1, e2⟩ := run_lit_txt hl
  obtain ⟨e3, e4⟩ := run_lit_txt he
  refine ⟨mo.txt, k.txt, ho', hk', ?_, ?_⟩
  · simp [e1, e3]
  · simp [Match.andThen, e4]

/-- A heredoc after which a name follows: `<<` and the name and the end of the line. -/
theorem heredoc_ahead {w y u : Str} {c : Char} (hw : IsIdent w) (hy : EndsWord y) (hu : u.getLast? = some c) (hc : isWord c = false)
    (hh : y.head? = some '\n' → u ≠ c!"<<" ∧ u ≠ c!"<<-") : ∀ m ∈ reHeredoc.run none (u ++ (w ++ y)), m.ahead (w ++ y) = true := by
  intro m hm
  cases hb : m.ahead (w ++ y) with
  | true => rfl
  | false =>
    exfalso
    obtain ⟨b, q, hb1, ht, -⟩ := reach (hw.alphaHead y) hu hm hb
    obtain ⟨o, v, ho, hv, ht', -⟩ := run_heredoc hm
    have hs := reHeredoc.run_split _ _ _ hm
    rw [List.getLast?_eq_some_iff] at hu
    obtain ⟨u', rfl⟩ := hu
    -- where `u` ends
    have e : (u' ++ [c]) ++ b :: q = (c!"<<" ++ o) ++ (v ++ c!"\n") := by rw [← ht, ht']; simp
    have hu : u' ++ [c] = c!"<<" ++ o ∧ b :: q = v ++ c!"\n" := by
      rw [List.append_eq_append_iff] at e
      rcases e with ⟨x, h, h'⟩ | ⟨x, h, h'⟩
      · cases x with
        | nil => exact ⟨by simpa using h.symm, by simpa using h'⟩
        | cons d x =>
          rw [List.cons_append, List.cons.injEq] at h'
          obtain ⟨rfl, -⟩ := h'
          exfalso
          have hb' : b ∈ c!"<<" ++ o := by rw [h]; simp
          rcases ho with rfl | rfl
          · have : b = '<' := by simpa using hb'
            subst this
            revert hb1; decide
          · have : b = '<' ∨ b = '-' := by simpa using hb'
            rcases this with rfl | rfl <;> revert hb1 <;> decide
      · cases hx : x.getLast? with
        | none =>
          rw [List.getLast?_eq_none_iff] at hx
          subst hx
          exact ⟨by simpa using h, by simpa using h'.symm⟩
        | some d =>
          exfalso
          rw [List.getLast?_eq_some_iff] at hx
          obtain ⟨x, rfl⟩ := hx
          have hcd : c = d := by
            have := congrArg List.getLast? h
            rw [← List.append_assoc, List.getLast?_concat, List.getLast?_concat] at this
            simpa using this
          subst hcd
          have := congrArg List.dropLast h'
          rw [List.dropLast_concat, List.append_assoc, List.dropLast_append_of_ne_nil (by simp), List.singleton_append,
            List.dropLast_cons_of_ne_nil (by simp)] at this
          rw [hv.2 c (by rw [this]; simp)] at hc
          cases hc
    obtain ⟨hu, hbq⟩ := hu
    rw [ht, hbq, List.append_assoc] at hs
    have hs := List.append_cancel_left hs
    obtain ⟨c', a, parts, hc', ha, hp⟩ := hw
    have t1 := takeWhile_stop (p := isWord) (l := v) (r := c!"\n" ++ m.rest) hv.2 (by simp; decide)
    have t2 := takeWhile_stop (p := isWord) (l := c' :: a) (r := dashed parts ++ y)
      (by intro e he; rcases List.mem_cons.1 he with rfl | he; exacts [alpha_word hc', ha e he]) (head_dashed_append parts y hy.1)
    rw [← List.append_assoc, hs, List.append_assoc, t2.2] at t1
    have hy' : y.head? = some '\n' := by
      cases parts with
      | nil => simpa [dashed] using congrArg List.head? t1.2
      | cons p ps =>
        have := congrArg List.head? t1.2
        simp [dashed] at this
    obtain ⟨n1, n2⟩ := hh hy'
    rcases ho with rfl | rfl
    · exact n1 hu
    · exact n2 hu

/-! ## All rules -/

/-- Nothing is read across the end of `u`: no letter in the pattern, … -/
theorem same_no_alpha {r : Re} (hr : ∀ n < 128, isAlpha (Char.ofNat n) = true → r.chars (Char.ofNat n) = false) {w₁ w₂ y : Str}
    (h : NamePair w₁ w₂ y) {u : Str} {c : Char} (hu : u.getLast? = some c) :
    Same u (w₁ ++ y) (w₂ ++ y) (r.first (u ++ (w₁ ++ y))) (r.first (u ++ (w₂ ++ y))) := by
  refine same_of_pair h.head₁ h.head₂ hu fun b hb => ?_
  cases hp : r.pair c b with
  | false => rfl
  | true =>
    have := alpha_cases (q := fun b => r.chars b = false) hr b hb
    rw [(r.pair_chars _ _ hp).2] at this
    cases this

/-- … or only word characters. -/
theorem same_word {r : Re} (hr : ∀ c, r.chars c = true → isWord c = true) {w₁ w₂ y : Str} (h : NamePair w₁ w₂ y) {u : Str} {c : Char}
    (hu : u.getLast? = some c) (hc : isWord c = false) :
    Same u (w₁ ++ y) (w₂ ++ y) (r.first (u ++ (w₁ ++ y))) (r.first (u ++ (w₂ ++ y))) := by
  refine same_of_pair h.head₁ h.head₂ hu fun b hb => ?_
  cases hp : r.pair c b with
  | false => rfl
  | true => rw [hr c (r.pair_chars _ _ hp).1] at hc; cases hc

/-- The groups of the rules that push states: the word of a heredoc, a quote, or none. -/
def GroupOk (g : Str) : Prop := (∀ c ∈ g, isWord c = true) ∨ g.length ≤ 1

theorem lit_pair_short {g : Str} (h : g.length ≤ 1) (c d : Char) : (lit g).pair c d = false := by
  match g, h with
  | [], _ => rfl
  | [_], _ => rfl

theorem same_group {g : Str} (hg : GroupOk g) {w₁ w₂ y : Str} (h : NamePair w₁ w₂ y) {u : Str} {c : Char} (hu : u.getLast? = some c)
    (hc : isWord c = false) :
    Same u (w₁ ++ y) (w₂ ++ y) ((lit g).first (u ++ (w₁ ++ y))) ((lit g).first (u ++ (w₂ ++ y))) := by
  rcases hg with hg | hg
  · exact same_word (fun c hc => hg c (lit_chars hc)) h hu hc
  · exact same_of_pair h.head₁ h.head₂ hu fun b _ => lit_pair_short hg c b

theorem same_group_bot {g : Str} (hg : GroupOk g) {w₁ w₂ y : Str} (h : NamePair w₁ w₂ y) {u : Str} {c : Char} (hu : u.getLast? = some c)
    (hc : isWord c = false) : Same u (w₁ ++ y) (w₂ ++ y) ((seq bot (lit g)).first (u ++ (w₁ ++ y)))
      ((seq bot (lit g)).first (u ++ (w₂ ++ y))) := by
  rcases hg with hg | hg
  · refine same_word (fun c hc => hg c (lit_chars ?_)) h hu hc
    simpa [chars] using hc
  · exact same_of_pair h.head₁ h.head₂ hu fun b _ => by simp [pair, ends, lit_pair_short hg c b]

theorem same_keyword {k : Str} (hk : ∀ c ∈ k, isWord c = true) {w₁ w₂ y : Str} (h : NamePair w₁ w₂ y) {u : Str} {c : Char}
    (hu : u.getLast? = some c) (hc : isWord c = false) :
    Same u (w₁ ++ y) (w₂ ++ y) ((reKeyword k).first (u ++ (w₁ ++ y))) ((reKeyword k).first (u ++ (w₂ ++ y))) := by
  refine same_word (fun c hc => hk c (lit_chars ?_)) h hu hc
  simpa [reKeyword, chars] using hc

theorem rep_chars {r : Re} {c : Char} : ∀ n, (rep r n).chars c = true → r.chars c = true := by
  intro n
  induction n with
  | zero => simp [rep, chars]
  | succ n ih =>
    intro h
    simp only [rep, chars, Bool.or_eq_true] at h
    rcases h with h | h
    · exact h
    · exact ih h

theorem same_escape {r : Re} (hr : ∀ c d, r.pair c d = true → c = '\\') {w₁ w₂ y : Str} (h : NamePair w₁ w₂ y) {u : Str} {c : Char}
    (hu : u.getLast? = some c) (hs : ∀ prev s, ∀ m ∈ r.run prev s, m.txt.length ≤ 2) (hn : u ≠ c!"\\") :
    Same u (w₁ ++ y) (w₂ ++ y) (r.first (u ++ (w₁ ++ y))) (r.first (u ++ (w₂ ++ y))) := by
  have key : ∀ z, AlphaHead z → ∀ m ∈ r.run none (u ++ z), m.ahead z = true := by
    intro z hz m hm
    cases hb : m.ahead z with
    | true => rfl
    | false =>
      obtain ⟨b, q, -, ht, hp⟩ := reach hz hu hm hb
      have hl := hs _ _ m hm
      rw [ht] at hl
      rw [hr _ _ hp] at hu
      exfalso
      apply hn
      match u, hu, hl with
      | [d], hu, _ => simpa using hu
      | _ :: _ :: _, _, hl => simp at hl
  exact same_of_ahead h.head₁ h.head₂ u (key _ h.head₁) (key _ h.head₂)

theorem rule_same_name {state : LexState} {g : Str} (hg : GroupOk g) {w₁ w₂ y : Str} (h : NamePair w₁ w₂ y) {u : Str} {c : Char}
    (hu : u.getLast? = some c) (hc : isWord c = false) (hh : y.head? = some '\n' → u ≠ c!"<<" ∧ u ≠ c!"<<-")
    (hb : state = .string → u ≠ c!"\\") : ∀ r ∈ rulesOf state,
      Same u (w₁ ++ y) (w₂ ++ y) ((r.pat g).first (u ++ (w₁ ++ y))) ((r.pat g).first (u ++ (w₂ ++ y))) := by
  have hne : u ≠ [] := by rintro rfl; simp at hu
  have core : ∀ r ∈ coreRules,
      Same u (w₁ ++ y) (w₂ ++ y) ((r.pat g).first (u ++ (w₁ ++ y))) ((r.pat g).first (u ++ (w₂ ++ y))) := by
    have hw : Same u (w₁ ++ y) (w₂ ++ y) (reHeredoc.first (u ++ (w₁ ++ y))) (reHeredoc.first (u ++ (w₂ ++ y))) :=
      same_of_ahead h.head₁ h.head₂ u (heredoc_ahead h.ident₁ h.ends hu hc hh) (heredoc_ahead h.ident₂ h.ends hu hc hh)
    simp only [coreRules, List.forall_mem_cons, rule]
    refine ⟨same_singleLine_alpha h.head₁ h.head₂ u, same_multiline_alpha h u, ?_, ?_, ?_, ?_, same_keyword (by decide) h hu hc,
      same_keyword (by decide) h hu hc, same_keyword (by decide) h hu hc, same_keyword (by decide) h hu hc, ?_, ?_, same_ident_alpha h hu hc,
      same_of_pair h.head₁ h.head₂ hu fun b hb => number_pair hc hb, hw, ?_⟩
    rotate_right
    · refine ⟨?_, ?_, ?_, ?_, ?_, ?_, ?_, ?_, ?_, ?_, ?_, ?_, ?_, ?_, ?_, ?_, ?_, ?_, ?_, ?_, ?_, ?_, ?_, ?_, ?_, ?_, ?_, ?_, ?_, ?_, ?_, ?_,
        by simp⟩ <;> exact same_no_alpha (by decide +kernel) h hu
    all_goals exact same_no_alpha (by decide +kernel) h hu
  have alpha : ∀ (p : Char → Bool), (∀ n < 128, isAlpha (Char.ofNat n) = true → p (Char.ofNat n) = true) →
      Same u (w₁ ++ y) (w₂ ++ y) ((plus (cls p)).first (u ++ (w₁ ++ y))) ((plus (cls p)).first (u ++ (w₂ ++ y))) :=
    fun p hp => same_plus_alpha (alpha_cases hp) h.head₁ h.head₂ u hne
  cases state with
  | root => exact core
  | stringExpr =>
    intro r hr
    rcases List.mem_cons.1 hr with rfl | hr
    · exact same_no_alpha (r := lit c!"}") (by decide +kernel) h hu
    · exact core r hr
  | string =>
    simp only [rulesOf, stringRules, List.forall_mem_cons, rule]
    have hb := hb rfl
    refine ⟨same_escape ?_ h hu ?_ hb, same_escape ?_ h hu ?_ hb, same_group hg h hu hc, same_no_alpha (by decide +kernel) h hu,
      same_no_alpha (by decide +kernel) h hu, same_no_alpha (by decide +kernel) h hu, same_no_alpha (by decide +kernel) h hu,
      alpha _ (by decide +kernel), by simp⟩
    · intro c d
      simp [lit, pair, ends, starts]
      tauto
    · intro prev s m hm
      rw [(run_lit_txt hm).1]
      simp
    · intro c d
      simp [lit, pair, ends, starts]
      tauto
    · intro prev s m hm
      rw [run] at hm
      simp only [List.mem_flatMap, List.mem_map] at hm
      obtain ⟨m1, h1, m2, h2, rfl⟩ := hm
      obtain ⟨c, -, e, -⟩ := run_cls_txt h2
      rw [Match.andThen_txt, (run_lit_txt h1).1, e]
      simp
  | unicode =>
    simp only [rulesOf, unicodeRules, List.forall_mem_cons, rule]
    exact ⟨same_word (fun c hc => isHex_word (rep_chars (r := cls isHex) _ hc)) h hu hc, same_word (fun c hc => isHex_word (rep_chars (r := cls isHex) _ hc)) h hu hc, by simp⟩
  | heredoc =>
    simp only [rulesOf, heredocRules, List.forall_mem_cons, rule]
    exact ⟨same_group_bot hg h hu hc, same_no_alpha (by decide +kernel) h hu,
      same_no_alpha (by decide +kernel) h hu, same_no_alpha (by decide +kernel) h hu, same_no_alpha (by decide +kernel) h hu,
      alpha _ (by decide +kernel), by simp⟩

/-! ## Steps and runs -/

theorem push_group (state : LexState) (g : Str) (r : Rule) (hr : r ∈ rulesOf state) (new : LexState) (hp : r.action = .push new)
    {s : Str} {m : Match} (hm : (r.pat g).first s = some m) : GroupOk (m.cap.getD []) := by
  have here : ∀ {s : Str} {m : Match}, reHeredoc.first s = some m → GroupOk (m.cap.getD []) := by
    intro s m hm
    obtain ⟨-, w, -, hw, -, e⟩ := run_heredoc (List.mem_of_head? hm)
    rw [e]
    exact .inl hw.2
  have quote : ∀ {p : Char → Bool} {s : Str} {m : Match}, (grp (cls p)).first s = some m → GroupOk (m.cap.getD []) := by
    intro p s m hm
    have hm := List.mem_of_head? hm
    rw [run, List.mem_map] at hm
    obtain ⟨k, hk, rfl⟩ := hm
    obtain ⟨c, -, e, -⟩ := run_cls_txt hk
    exact .inr (by simp [e])
  have lits : ∀ {l s : Str} {m : Match}, (lit l).first s = some m → GroupOk (m.cap.getD []) := by
    intro l s m hm
    rw [(run_lit_txt (List.mem_of_head? hm)).2]
    exact .inr (by simp)
  have core : ∀ r ∈ coreRules, ∀ new, r.action = .push new →
      r = rule .heredoc reHeredoc (.push .heredoc) ∨
      r = rule .string (grp (cls fun c => c = '"' || c = '\'')) (.push .string) := by
    simp only [coreRules, rule, List.forall_mem_cons]
    simp
  have core' : ∀ r ∈ coreRules, ∀ new, r.action = .push new → (r.pat g).first s = some m → GroupOk (m.cap.getD []) := by
    intro r hr new hp hm
    rcases core r hr new hp with rfl | rfl
    · exact here hm
    · exact quote hm
  cases state with
  | root => exact core' r hr new hp hm
  | stringExpr =>
    rcases List.mem_cons.1 hr with rfl | hr
    · cases hp
    · exact core' r hr new hp hm
  | string =>
    have : ∀ r ∈ stringRules, r.action = .push new → (r.pat g).first s = some m → GroupOk (m.cap.getD []) := by
      simp only [stringRules, List.forall_mem_cons]
      refine ⟨fun _ => lits, ?_, ?_, ?_, ?_, fun _ => lits, fun _ => lits, ?_, by simp⟩ <;> (intro h; cases h)
    exact this r hr hp hm
  | unicode =>
    have : ∀ r ∈ unicodeRules, r.action = .push new → GroupOk (m.cap.getD []) := by
      simp only [unicodeRules, List.forall_mem_cons]
      refine ⟨?_, ?_, by simp⟩ <;> (intro h; cases h)
    exact this r hr hp
  | heredoc =>
    have : ∀ r ∈ heredocRules, r.action = .push new → (r.pat g).first s = some m → GroupOk (m.cap.getD []) := by
      simp only [heredocRules, List.forall_mem_cons]
      refine ⟨?_, ?_, ?_, fun _ => lits, fun _ => lits, ?_, by simp⟩ <;> (intro h; cases h)
    exact this r hr hp hm

/-- All groups on the stack. -/
def GroupStack (st : Stack) : Prop := ∀ x ∈ st, GroupOk x.2

theorem GroupStack.step {st st' : Stack} {s : Str} {r : Rule} {m : Match} (h : GroupStack st)
    (hs : lexStep st s = some (r, m, st')) : GroupStack st' := by
  obtain ⟨state, g, below, rfl, hr, -, rfl⟩ := lexStep_some hs
  obtain ⟨hmem, hfirst⟩ := firstRule_some hr
  cases ha : r.action with
  | none => exact h
  | push new =>
    intro x hx
    rcases List.mem_cons.1 hx with rfl | hx
    · exact push_group state g r hmem new ha hfirst
    · exact h x hx
  | pop => exact fun x hx => h x (List.mem_cons_of_mem _ hx)

/-- A step that ends before a name does not depend on it. -/
theorem lexStep_same_name {st st' : Stack} {w₁ w₂ y : Str} (hz : NamePair w₁ w₂ y) (hst : GroupStack st) {u v : Str} {c : Char}
    (hu : u.getLast? = some c) (hc : isWord c = false) (hh : y.head? = some '\n' → u ≠ c!"<<" ∧ u ≠ c!"<<-") {r : Rule} {m : Match}
    (h : lexStep st (u ++ (w₁ ++ y)) = some (r, m, st')) (hm : m.rest = v ++ (w₁ ++ y)) :
    lexStep st (u ++ (w₂ ++ y)) = some (r, { m with rest := v ++ (w₂ ++ y) }, st') := by
  obtain ⟨state, g, below, rfl, hr, hne, rfl⟩ := lexStep_some h
  have hb : state = .string → u ≠ c!"\\" := by
    rintro rfl rfl
    obtain ⟨b, x, hbx, ha⟩ := hz.head₁
    rw [hbx] at hr hm
    have hn : b ≠ '\n' := by rintro rfl; revert ha; decide
    have : m.rest = x := by
      simp only [rulesOf, stringRules, firstRule, rule, List.singleton_append] at hr
      by_cases hbu : b = 'u'
      · subst hbu
        simp [first, run, lit, Match.andThen] at hr
        rw [← hr.2]
      · simp [first, run, lit, Match.andThen, hbu, hn] at hr
        rw [← hr.2]
    rw [this] at hm
    have := congrArg List.length hm
    simp at this
    omega
  have := firstRule_same (fun r hr => rule_same_name (hst (state, g) (by simp)) hz hu hc hh hb r hr) hr hm
  rw [lexStep_of this hne]

/-- A run up to a name does not depend on the name: if the character before it is no word character, and the name is not the word of a
heredoc. -/
theorem LexRun.same_name {w₁ w₂ y : Str} (hz : NamePair w₁ w₂ y) {st st' : Stack} {s s' : Str} {ks : List (Sym × Str)}
    (h : LexRun st s ks st' s') : GroupStack st → s' = w₁ ++ y → ∀ u, s = u ++ (w₁ ++ y) → (∀ c, u.getLast? = some c → isWord c = false) →
    (y.head? = some '\n' → ¬ c!"<<" <:+ u ∧ ¬ c!"<<-" <:+ u) → LexRun st (u ++ (w₂ ++ y)) ks st' (w₂ ++ y) := by
  induction h with
  | refl st s =>
    rintro _ rfl u hu _ _
    have := congrArg List.length hu
    simp at this
    subst this
    exact .refl _ _
  | @step st st₁ st₂ s s₂ r m ks h1 h2 ih =>
    rintro hc rfl u rfl hw hh
    obtain ⟨v, hv⟩ := h2.suffix
    have hlt := (lexStep_split h1).2.2
    have hsplit := (lexStep_split h1).1
    have hu : u ≠ [] := by
      rintro rfl
      rw [← hv] at hlt
      simp only [List.nil_append, List.length_append] at hlt
      omega
    have hsuf : v <:+ u := by
      rw [← hv, ← List.append_assoc] at hsplit
      exact ⟨m.txt, List.append_cancel_right hsplit⟩
    obtain ⟨c, hcu⟩ : ∃ c, u.getLast? = some c := by
      cases hl : u.getLast? with
      | none => rw [List.getLast?_eq_none_iff] at hl; exact absurd hl hu
      | some c => exact ⟨c, rfl⟩
    have := lexStep_same_name hz hc hcu (hw c hcu)
      (fun hy => ⟨fun e => (hh hy).1 (e ▸ List.suffix_refl _), fun e => (hh hy).2 (e ▸ List.suffix_refl _)⟩) h1 hv.symm
    refine .step (m := { m with rest := v ++ (w₂ ++ y) }) this (ih (hc.step h1) rfl v hv.symm ?_ ?_)
    · intro d hd
      obtain ⟨t, rfl⟩ := hsuf
      refine hw d ?_
      have hvne : v ≠ [] := by rintro rfl; simp at hd
      rw [List.getLast?_append_of_ne_nil _ hvne, hd]
    · exact fun hy => ⟨fun e => (hh hy).1 (e.trans hsuf), fun e => (hh hy).2 (e.trans hsuf)⟩

end Verif.Etx
