import Verif.Etx.Peg

/-!
# The grammar has a result for every list of tokens

No repetition of the grammar has a body that matches nothing and no struct begins with itself, so a parsing expression of the
grammar always gives a result.
-/

namespace Verif.Etx
open Gram

variable [FloatValue] {eof : Position}

theorem Peg.suffix {g : Gram} {s : List Token} {x : Option (Out × List Token)} (h : Peg eof g s x) : ∀ o r, x = some (o, r) → r <:+ s := by
  induction h with
  | lit | tok => rintro _ _ ⟨⟩; exact List.suffix_cons _ _
  | noLit | noTok | seqL | seqR | noPlus | noCap | noSub | noBuild => rintro _ _ ⟨⟩
  | seq _ _ iha ihb | cons _ _ iha ihb | plus _ _ iha ihb => rintro _ _ ⟨⟩; exact (ihb _ _ rfl).trans (iha _ _ rfl)
  | altL _ ih | once _ ih | cap _ ih => rintro _ _ ⟨⟩; exact ih _ _ rfl
  | altR _ _ _ ih => exact ih
  | skip | nil => rintro _ _ ⟨⟩; exact List.suffix_refl _
  | sub _ _ ih => rintro _ _ ⟨⟩; exact ih _ _ rfl

theorem Peg.progress {g : Gram} {s : List Token} {x : Option (Out × List Token)} (h : Peg eof g s x) :
    ∀ o r, x = some (o, r) → null g = true ∨ r.length < s.length := by
  induction h with
  | lit | tok => rintro _ _ ⟨⟩; exact .inr (by simp)
  | noLit | noTok | seqL | seqR | noPlus | noCap | noSub | noBuild => rintro _ _ ⟨⟩
  | seq ha hb iha ihb =>
    rintro _ _ ⟨⟩
    have h1 := (ha.suffix _ _ rfl).length_le
    have h2 := (hb.suffix _ _ rfl).length_le
    rcases iha _ _ rfl with h | h
    · rcases ihb _ _ rfl with h' | h'
      · exact .inl (by simp [null, h, h'])
      · exact .inr (by omega)
    · exact .inr (by omega)
  | altL _ ih =>
    rintro _ _ ⟨⟩
    rcases ih _ _ rfl with h | h
    · exact .inl (by simp [null, h])
    · exact .inr h
  | altR _ _ _ ih =>
    rintro _ _ rfl
    rcases ih _ _ rfl with h | h
    · exact .inl (by simp [null, h])
    · exact .inr h
  | once | skip | nil | cons => rintro _ _ ⟨⟩; exact .inl rfl
  | plus ha hb iha ihb =>
    rintro _ _ ⟨⟩
    have h2 := (hb.suffix _ _ rfl).length_le
    rcases iha _ _ rfl with h | h
    · exact .inl (by simpa [null] using h)
    · exact .inr (by omega)
  | cap _ ih => rintro _ _ ⟨⟩; exact ih _ _ rfl
  | @sub f k s r o x h hb ih =>
    rintro _ _ ⟨⟩
    rcases ih _ _ rfl with h | h
    · exact .inl (by rw [null_of] at h; exact h)
    · exact .inr h

/-- There is a result. -/
def Peg.Has (eof : Position) (g : Gram) (s : List Token) : Prop := ∃ x, Peg eof g s x

theorem star_total {a : Gram} (ha : solid (.star a) = true) (n : Nat) (s : List Token) (hn : s.length < n)
    (h : ∀ r, r <:+ s → Peg.Has eof a r) : ∃ o r, Peg eof (.star a) s (some (o, r)) := by
  induction n generalizing s with
  | zero => omega
  | succ n ih =>
    obtain ⟨x, hx⟩ := h s (List.suffix_refl _)
    cases x with
    | none => exact ⟨_, _, .nil hx⟩
    | some x =>
      obtain ⟨o, r⟩ := x
      have hsuf := hx.suffix _ _ rfl
      have hlt : r.length < s.length := by
        rcases hx.progress _ _ rfl with hnull | hlt
        · simp [solid, hnull] at ha
        · exact hlt
      obtain ⟨o', r', h'⟩ := ih r (by omega) fun r' hr' => h r' (hr'.trans hsuf)
      exact ⟨_, _, .cons hx h'⟩

theorem gram_total (g : Gram) (s : List Token) (hg : solid g = true) (h1 : ∀ f k r, r.length < s.length → Peg.Has eof (.sub f k) r)
    (h2 : ∀ f, ∀ k ∈ lefts g, Peg.Has eof (.sub f k) s) : Peg.Has eof g s := by
  induction g generalizing s with
  | lit w =>
    cases s with
    | nil => exact ⟨_, .noLit (by simp)⟩
    | cons t r =>
      by_cases e : t.txt = w
      · exact ⟨_, .lit e⟩
      · exact ⟨_, .noLit (by simpa using e)⟩
  | tok y =>
    cases s with
    | nil => exact ⟨_, .noTok (by simp)⟩
    | cons t r =>
      by_cases e : t.sym = y
      · exact ⟨_, .tok e⟩
      · exact ⟨_, .noTok (by simpa using e)⟩
  | seq a b iha ihb =>
    simp only [lefts, List.mem_append] at h2
    simp only [solid, Bool.and_eq_true] at hg
    obtain ⟨x, ha⟩ := iha s hg.1 h1 fun f k hk => h2 f k (.inl hk)
    cases x with
    | none => exact ⟨_, .seqL ha⟩
    | some x =>
      obtain ⟨o, r⟩ := x
      have hs := ha.suffix _ _ rfl
      have hle := hs.length_le
      obtain ⟨y, hb⟩ := ihb r hg.2 (fun f k r' hr' => h1 f k r' (by omega)) fun f k hk => by
        rcases Nat.lt_or_ge r.length s.length with hlt | hge
        · exact h1 f k r hlt
        · rcases ha.progress _ _ rfl with hn | hlt
          · rw [hs.eq_of_length_le hge]
            exact h2 f k (.inr (by simpa [hn] using hk))
          · omega
      cases y with
      | none => exact ⟨_, .seqR ha hb⟩
      | some y => exact ⟨_, .seq ha hb⟩
  | alt a b iha ihb =>
    simp only [lefts, List.mem_append] at h2
    simp only [solid, Bool.and_eq_true] at hg
    obtain ⟨x, ha⟩ := iha s hg.1 h1 fun f k hk => h2 f k (.inl hk)
    cases x with
    | none =>
      obtain ⟨y, hb⟩ := ihb s hg.2 h1 fun f k hk => h2 f k (.inr hk)
      exact ⟨_, .altR ha hb⟩
    | some x => exact ⟨_, .altL ha⟩
  | opt a iha =>
    obtain ⟨x, ha⟩ := iha s hg h1 h2
    cases x with
    | none => exact ⟨_, .skip ha⟩
    | some x => exact ⟨_, .once ha⟩
  | star a iha =>
    have hga : solid a = true := by simp only [solid, Bool.and_eq_true] at hg; exact hg.1
    obtain ⟨o, r, h⟩ := star_total (eof := eof) hg (s.length + 1) s (by omega) fun r hr => by
      have hle := hr.length_le
      refine iha r hga (fun f k r' hr' => h1 f k r' (by omega)) fun f k hk => ?_
      rcases Nat.lt_or_ge r.length s.length with hlt | hge
      · exact h1 f k r hlt
      · rw [hr.eq_of_length_le hge]
        exact h2 f k hk
    exact ⟨_, h⟩
  | plus a iha =>
    have hga : solid a = true := by simp only [solid, Bool.and_eq_true] at hg; exact hg.1
    obtain ⟨x, ha⟩ := iha s hga h1 h2
    cases x with
    | none => exact ⟨_, .noPlus ha⟩
    | some x =>
      obtain ⟨o, r⟩ := x
      have hs := ha.suffix _ _ rfl
      obtain ⟨o', r', h⟩ := star_total (eof := eof) (a := a) hg (r.length + 1) r (by omega) fun r' hr' => by
        have hle := (hr'.trans hs).length_le
        refine iha r' hga (fun f k r' hr' => h1 f k r' (by omega)) fun f k hk => ?_
        rcases Nat.lt_or_ge r'.length s.length with hlt | hge
        · exact h1 f k r' hlt
        · rw [(hr'.trans hs).eq_of_length_le hge]
          exact h2 f k hk
      exact ⟨_, .plus ha h⟩
  | cap f a iha =>
    obtain ⟨x, ha⟩ := iha s hg h1 h2
    cases x with
    | none => exact ⟨_, .noCap ha⟩
    | some x => exact ⟨_, .cap ha⟩
  | sub f k => exact h2 f k (by simp [lefts])

theorem kind_total (n : Nat) (f : Field) (k : Kind) (s : List Token) (hn : 32 * s.length + rank k < n) : Peg.Has eof (.sub f k) s := by
  induction n generalizing f k s with
  | zero => omega
  | succ n ih =>
    obtain ⟨x, h⟩ := gram_total (eof := eof) (Gram.of k) s (solid_of k)
      (fun f' k' r hr => by have := rank_lt k'; exact ih f' k' r (by omega))
      (fun f' k' hk' => by have := lefts_rank k k' hk'; exact ih f' k' s (by omega))
    cases x with
    | none => exact ⟨_, .noSub h⟩
    | some x =>
      obtain ⟨o, r⟩ := x
      cases hb : build { addr := 0, pos := posOf eof s } o k with
      | none => exact ⟨_, .noBuild h hb⟩
      | some x => exact ⟨_, .sub h hb⟩

/-- A parsing expression of the grammar has a result. -/
theorem Peg.total {g : Gram} (hg : solid g = true) (s : List Token) : Peg.Has eof g s :=
  gram_total g s hg (fun f k r _ => kind_total _ f k r (Nat.lt_succ_self _)) (fun f k _ => kind_total _ f k s (Nat.lt_succ_self _))

end Verif.Etx
