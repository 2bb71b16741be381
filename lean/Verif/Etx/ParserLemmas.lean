import Verif.Etx.Parser

/-!
# General facts about the parser

What a production reads, which productions can match nothing, and that the depth of the recursion is bounded.
-/

namespace Verif.Etx

/-- The tokens left are at the end of the given ones. -/
def Res.Suffix {α : Type} (s : List Token) : Res α → Prop
  | .miss => True
  | .err r => r <:+ s
  | .ok _ r => r <:+ s

theorem many_suffix {p : List Token → Res Out} (hp : ∀ s, (p s).Suffix s) (n : Nat) (s : List Token) :
    (many p n s).Suffix s := by
  induction n generalizing s with
  | zero => exact List.suffix_refl _
  | succ n ih =>
    have h := hp s
    unfold many
    cases e : p s with
    | miss => exact List.suffix_refl _
    | err r =>
      rw [e] at h
      simp only
      split
      · exact h
      · exact List.suffix_refl _
    | ok o r =>
      rw [e] at h
      simp only
      split
      · have h' := ih r
        cases e' : many p n r with
        | miss => trivial
        | err r' => rw [e'] at h'; exact h'.trans h
        | ok o' r' => rw [e'] at h'; exact h'.trans h
      · exact h

theorem run_suffix {p : (k : Kind) → List Token → Res (Node k)} (hp : ∀ k s, (p k s).Suffix s) (g : Gram)
    (s : List Token) : (run p g s).Suffix s := by
  induction g generalizing s with
  | lit w =>
    unfold run
    cases s with
    | nil => trivial
    | cons t r =>
      simp only
      split
      · exact List.suffix_cons _ _
      · trivial
  | tok y =>
    unfold run
    cases s with
    | nil => trivial
    | cons t r =>
      simp only
      split
      · exact List.suffix_cons _ _
      · trivial
  | seq a b iha ihb =>
    have ha := iha s
    unfold run
    cases ea : run p a s with
    | miss => trivial
    | err r => rw [ea] at ha; exact ha
    | ok o r =>
      rw [ea] at ha
      have hb := ihb r
      simp only
      cases eb : run p b r with
      | miss => exact ha
      | err r' => rw [eb] at hb; exact hb.trans ha
      | ok o' r' => rw [eb] at hb; exact hb.trans ha
  | alt a b iha ihb =>
    have ha := iha s
    have hb := ihb s
    unfold run
    cases ea : run p a s with
    | ok o r => rw [ea] at ha; exact ha
    | miss =>
      simp only
      cases eb : run p b s with
      | miss => trivial
      | ok o r => rw [eb] at hb; exact hb
      | err r =>
        rw [eb] at hb
        simp only
        split
        · exact hb
        · exact List.suffix_refl _
    | err r =>
      rw [ea] at ha
      simp only
      split
      · exact ha
      · cases eb : run p b s with
        | miss => exact List.suffix_refl _
        | ok o r => rw [eb] at hb; exact hb
        | err r =>
          rw [eb] at hb
          simp only
          split
          · exact hb
          · exact List.suffix_refl _
  | opt a iha =>
    have ha := iha s
    unfold run
    cases ea : run p a s with
    | ok o r => rw [ea] at ha; exact ha
    | miss => exact List.suffix_refl _
    | err r =>
      rw [ea] at ha
      simp only
      split
      · exact ha
      · exact List.suffix_refl _
  | star a iha =>
    unfold run
    exact many_suffix iha _ _
  | plus a iha =>
    have ha := iha s
    unfold run
    cases ea : run p a s with
    | miss => exact List.suffix_refl _
    | err r =>
      rw [ea] at ha
      simp only
      split
      · exact ha
      · exact List.suffix_refl _
    | ok o r =>
      rw [ea] at ha
      simp only
      have hm := many_suffix iha (r.length + 1) r
      cases em : many (run p a) (r.length + 1) r with
      | miss => trivial
      | err r' => rw [em] at hm; exact hm.trans ha
      | ok o' r' => rw [em] at hm; exact hm.trans ha
  | cap f a iha =>
    have ha := iha s
    unfold run
    cases ea : run p a s with
    | miss => trivial
    | err r => rw [ea] at ha; exact ha
    | ok o r => rw [ea] at ha; exact ha
  | sub f k =>
    have h := hp k s
    unfold run
    cases e : p k s with
    | miss => trivial
    | err r => rw [e] at h; exact h
    | ok o r => rw [e] at h; exact h

theorem structStep_suffix [FloatValue] (eof : Position) {p : (k : Kind) → List Token → Res (Node k)}
    (hp : ∀ k s, (p k s).Suffix s) (k : Kind) (s : List Token) : (structStep eof p k s).Suffix s := by
  have h := run_suffix hp (Gram.of k) s
  unfold structStep
  cases e : run p (Gram.of k) s with
  | miss => trivial
  | err r => rw [e] at h; exact h
  | ok o r =>
    rw [e] at h
    simp only
    split <;> exact h

theorem parseFuel_suffix [FloatValue] (eof : Position) (n : Nat) (k : Kind) (s : List Token) :
    (parseFuel eof n k s).Suffix s := by
  induction n generalizing k s with
  | zero => exact List.suffix_refl _
  | succ n ih => exact structStep_suffix eof ih k s

theorem parseKind_suffix [FloatValue] (eof : Position) (k : Kind) (s : List Token) :
    (parseKind eof k s).Suffix s := parseFuel_suffix eof _ k s

/-! ## Productions that can match nothing -/

namespace Gram

/-- The structs that match without reading a token. -/
def nullKind : Kind → Bool
  | .typeEnum | .typeObject | .invocation => true
  | _ => false

/-- Whether a production can match without reading a token. -/
def null : Gram → Bool
  | lit _ | tok _ => false
  | seq a b => null a && null b
  | alt a b => null a || null b
  | opt _ | star _ => true
  | plus a => null a
  | cap _ a => null a
  | sub _ k => nullKind k

/-- The structs that may be tried without having read a token. -/
def lefts : Gram → List Kind
  | lit _ | tok _ => []
  | seq a b => lefts a ++ if null a then lefts b else []
  | alt a b => lefts a ++ lefts b
  | opt a | star a | plus a | cap _ a => lefts a
  | sub _ k => [k]

/-- No repetition has a body that can match nothing. -/
def solid : Gram → Bool
  | lit _ | tok _ | sub _ _ => true
  | seq a b | alt a b => solid a && solid b
  | opt a | cap _ a => solid a
  | star a | plus a => solid a && !null a

theorem null_of (k : Kind) : null (of k) = nullKind k := by
  cases k <;> first | rfl | (rename_i l; cases l <;> rfl)

theorem solid_of (k : Kind) : solid (of k) = true := by
  cases k <;> first | rfl | (rename_i l; cases l <;> rfl)

/-- A measure that decreases from a struct to those tried without having read a token. -/
def rank : Kind → Nat
  | .value | .parameterType | .blockItem | .typeEnumItem | .typeObjectItem | .rootItem | .mapKey | .lambda => 1
  | .primary | .typeEnum | .typeObject | .mapItem => 2
  | .postfixE => 3
  | .unary => 4
  | .bin .multiplicative => 5
  | .bin .additive => 6
  | .bin .shift => 7
  | .bin .relational => 8
  | .bin .equality => 9
  | .bin .bitwiseAnd => 10
  | .bin .bitwiseXor => 11
  | .bin .bitwiseOr => 12
  | .bin .logicalAnd => 13
  | .bin .logicalOr => 14
  | .conditional => 15
  | .expr => 16
  | .funcStatement | .listItem | .invocation => 17
  | _ => 0

theorem rank_lt (k : Kind) : rank k < 32 := by
  cases k <;> first | decide | (rename_i l; cases l <;> decide) | simp [rank]

theorem lefts_rank (k : Kind) : ∀ k' ∈ lefts (of k), rank k' < rank k := by
  cases k <;> first | decide | (rename_i l; cases l <;> decide) | simp [lefts, of]

end Gram

open Gram

/-- The structs read something, except for those that can match nothing. -/
def Progress (p : (k : Kind) → List Token → Res (Node k)) : Prop :=
  ∀ k s x r, p k s = .ok x r → nullKind k = true ∨ r.length < s.length

theorem suffix_le {α : Type} {s r : List α} (h : r <:+ s) : r.length ≤ s.length := h.length_le

theorem many_le {p : List Token → Res Out} (hp : ∀ s, (p s).Suffix s) {n : Nat} {s r : List Token} {o : Out}
    (h : many p n s = .ok o r) : r.length ≤ s.length := by
  have := many_suffix hp n s
  rw [h] at this
  exact this.length_le

theorem run_progress {p : (k : Kind) → List Token → Res (Node k)} (hp : ∀ k s, (p k s).Suffix s) (hg : Progress p)
    (g : Gram) (s r : List Token) (o : Out) (h : run p g s = .ok o r) : null g = true ∨ r.length < s.length := by
  induction g generalizing s r o with
  | lit w =>
    right
    unfold run at h
    cases s with
    | nil => simp at h
    | cons t r' =>
      simp only at h
      split at h
      · simp only [Res.ok.injEq] at h
        simp [← h.2]
      · simp at h
  | tok y =>
    right
    unfold run at h
    cases s with
    | nil => simp at h
    | cons t r' =>
      simp only at h
      split at h
      · simp only [Res.ok.injEq] at h
        simp [← h.2]
      · simp at h
  | seq a b iha ihb =>
    unfold run at h
    cases ea : run p a s with
    | miss => simp [ea] at h
    | err r' => simp [ea] at h
    | ok o' r' =>
      simp only [ea] at h
      cases eb : run p b r' with
      | miss => simp [eb] at h
      | err r' => simp [eb] at h
      | ok o'' r'' =>
        simp only [eb, Res.ok.injEq] at h
        obtain ⟨-, rfl⟩ := h
        have h1 := run_suffix hp a s
        have h2 := run_suffix hp b r'
        rw [ea] at h1
        rw [eb] at h2
        have h1 := suffix_le h1
        have h2 := suffix_le h2
        rcases iha _ _ _ ea with ha | ha
        · rcases ihb _ _ _ eb with hb | hb
          · left
            simp [null, ha, hb]
          · right; omega
        · right; omega
  | alt a b iha ihb =>
    unfold run at h
    have key : run p a s = .ok o r ∨ run p b s = .ok o r := by
      cases ea : run p a s with
      | ok o' r' =>
        rw [ea] at h
        exact .inl h
      | miss =>
        rw [ea] at h
        simp only at h
        cases eb : run p b s with
        | ok o' r' => rw [eb] at h; exact .inr h
        | miss => simp [eb] at h
        | err r' => simp [eb] at h
      | err r' =>
        rw [ea] at h
        simp only at h
        split at h
        · simp at h
        · cases eb : run p b s with
          | ok o' r' => rw [eb] at h; exact .inr h
          | miss => simp [eb] at h
          | err r' => simp [eb] at h
    rcases key with h | h
    · rcases iha _ _ _ h with h | h
      · simp [null, h]
      · exact .inr h
    · rcases ihb _ _ _ h with h | h
      · simp [null, h]
      · exact .inr h
  | opt a iha => simp [null]
  | star a iha => simp [null]
  | plus a iha =>
    unfold run at h
    cases ea : run p a s with
    | miss => simp [ea] at h
    | err r' => simp [ea] at h
    | ok o' r' =>
      simp only [ea] at h
      cases em : many (run p a) (r'.length + 1) r' with
      | miss => simp [em] at h
      | err r' => simp [em] at h
      | ok o'' r'' =>
        simp only [em, Res.ok.injEq] at h
        obtain ⟨-, rfl⟩ := h
        have h2 := many_le (run_suffix hp a) em
        rcases iha _ _ _ ea with ha | ha
        · exact .inl ha
        · right; omega
  | cap f a iha =>
    unfold run at h
    cases ea : run p a s with
    | miss => simp [ea] at h
    | err r' => simp [ea] at h
    | ok o' r' =>
      simp only [ea, Res.ok.injEq] at h
      obtain ⟨-, rfl⟩ := h
      exact iha _ _ _ ea
  | sub f k =>
    unfold run at h
    cases e : p k s with
    | miss => simp [e] at h
    | err r' => simp [e] at h
    | ok o' r' =>
      simp only [e, Res.ok.injEq] at h
      obtain ⟨-, rfl⟩ := h
      exact hg _ _ _ _ e

theorem structStep_progress [FloatValue] (eof : Position) {p : (k : Kind) → List Token → Res (Node k)}
    (hp : ∀ k s, (p k s).Suffix s) (hg : Progress p) : Progress (structStep eof p) := by
  intro k s x r h
  unfold structStep at h
  cases e : run p (of k) s with
  | miss => simp [e] at h
  | err r' => simp [e] at h
  | ok o r' =>
    simp only [e] at h
    split at h
    · simp only [Res.ok.injEq] at h
      obtain ⟨-, rfl⟩ := h
      rw [← null_of]
      exact run_progress hp hg _ _ _ _ e
    · simp at h

theorem parseFuel_progress [FloatValue] (eof : Position) (n : Nat) : Progress (parseFuel eof n) := by
  induction n with
  | zero => intro k s x r h; simp [parseFuel] at h
  | succ n ih => exact structStep_progress eof (parseFuel_suffix eof n) ih

theorem parseKind_progress [FloatValue] (eof : Position) : Progress (parseKind eof) :=
  fun k s => parseFuel_progress eof _ k s

/-! ## The depth of the recursion -/

theorem many_congr {p q : List Token → Res Out} (n : Nat) (s : List Token)
    (h : ∀ r, r.length ≤ s.length → r <:+ s → p r = q r) (hp : ∀ s, (p s).Suffix s) : many p n s = many q n s := by
  induction n generalizing s with
  | zero => rfl
  | succ n ih =>
    unfold many
    rw [← h s (Nat.le_refl _) (List.suffix_refl _)]
    have hs := hp s
    cases e : p s with
    | miss => rfl
    | err r => rfl
    | ok o r =>
      rw [e] at hs
      simp only
      split
      · rw [ih r]
        intro r' hr' hr''
        exact h r' (Nat.le_trans hr' (suffix_le hs)) (hr''.trans hs)
      · rfl

theorem run_congr {p q : (k : Kind) → List Token → Res (Node k)} (hp : ∀ k s, (p k s).Suffix s) (hg : Progress p)
    (g : Gram) (s : List Token) (h1 : ∀ k r, r.length < s.length → p k r = q k r)
    (h2 : ∀ k ∈ lefts g, p k s = q k s) : run p g s = run q g s := by
  have short : ∀ (g : Gram) (r : List Token), r <:+ s → (∀ k ∈ lefts g, p k s = q k s) → ∀ k ∈ lefts g, p k r = q k r := by
    intro g r hr h k hk
    rcases Nat.lt_or_ge r.length s.length with hlt | hge
    · exact h1 k r hlt
    · rw [hr.eq_of_length_le hge]
      exact h k hk
  induction g generalizing s with
  | lit w => unfold run; rfl
  | tok y => unfold run; rfl
  | seq a b iha ihb =>
    simp only [lefts, List.mem_append] at h2
    have ha := iha s h1 (fun k hk => h2 k (.inl hk)) short
    unfold run
    rw [← ha]
    have hs := run_suffix hp a s
    cases ea : run p a s with
    | miss => rfl
    | err r => rfl
    | ok o r =>
      rw [ea] at hs
      simp only
      rw [ihb r]
      · intro k r' hr'
        exact h1 k r' (Nat.lt_of_lt_of_le hr' (suffix_le hs))
      · intro k hk
        rcases run_progress hp hg _ _ _ _ ea with hn | hlt
        · refine short b r hs ?_ k hk
          intro k hk
          exact h2 k (.inr (by simpa [hn] using hk))
        · exact h1 k r hlt
      · intro g r' hr' h k hk
        rcases Nat.lt_or_ge r'.length r.length with hlt | hge
        · exact h1 k r' (Nat.lt_of_lt_of_le hlt (suffix_le hs))
        · rw [hr'.eq_of_length_le hge]
          exact h k hk
  | alt a b iha ihb =>
    simp only [lefts, List.mem_append] at h2
    have ha := iha s h1 (fun k hk => h2 k (.inl hk)) short
    have hb := ihb s h1 (fun k hk => h2 k (.inr hk)) short
    unfold run
    rw [← ha, ← hb]
  | opt a iha =>
    have ha := iha s h1 h2 short
    unfold run
    rw [← ha]
  | star a iha =>
    unfold run
    refine many_congr _ _ ?_ (run_suffix hp a)
    intro r hr hrs
    refine iha r (fun k r' hr' => h1 k r' (Nat.lt_of_lt_of_le hr' hr)) (short a r hrs h2) ?_
    intro g r' hr' h k hk
    rcases Nat.lt_or_ge r'.length r.length with hlt | hge
    · exact h1 k r' (Nat.lt_of_lt_of_le hlt hr)
    · rw [hr'.eq_of_length_le hge]
      exact h k hk
  | plus a iha =>
    have ha := iha s h1 h2 short
    unfold run
    rw [← ha]
    have hs := run_suffix hp a s
    cases ea : run p a s with
    | miss => rfl
    | err r => rfl
    | ok o r =>
      rw [ea] at hs
      simp only
      rw [many_congr (p := run p a) (q := run q a) _ _ ?_ (run_suffix hp a)]
      intro r' hr'' hrs
      have hr := Nat.le_trans hr'' (suffix_le hs)
      refine iha r' (fun k r'' hr' => h1 k r'' (Nat.lt_of_lt_of_le hr' hr)) (short a r' (hrs.trans hs) h2) ?_
      intro g r'' hr' h k hk
      rcases Nat.lt_or_ge r''.length r'.length with hlt | hge
      · exact h1 k r'' (Nat.lt_of_lt_of_le hlt hr)
      · rw [hr'.eq_of_length_le hge]
        exact h k hk
  | cap f a iha =>
    have ha := iha s h1 h2 short
    unfold run
    rw [← ha]
  | sub f k =>
    unfold run
    rw [h2 k (by simp [lefts])]

theorem parseFuel_enough [FloatValue] (eof : Position) (n m : Nat) (k : Kind) (s : List Token)
    (hn : 32 * s.length + rank k < n) (hm : 32 * s.length + rank k < m) : parseFuel eof n k s = parseFuel eof m k s := by
  induction n generalizing m k s with
  | zero => omega
  | succ n ih =>
    cases m with
    | zero => omega
    | succ m =>
      unfold parseFuel structStep
      rw [run_congr (q := parseFuel eof m) (parseFuel_suffix eof n) (parseFuel_progress eof n)]
      · intro k' r hr
        have := rank_lt k'
        exact ih m k' r (by omega) (by omega)
      · intro k' hk'
        have := lefts_rank k k' hk'
        exact ih m k' s (by omega) (by omega)

/-- A struct is parsed by its production, with the structs inside parsed likewise. -/
theorem parseKind_eq [FloatValue] (eof : Position) (k : Kind) (s : List Token) :
    parseKind eof k s = structStep eof (parseKind eof) k s := by
  have e : enough s.length = (32 * s.length + 31) + 1 := by unfold enough; omega
  conv => lhs; unfold parseKind
  rw [e]
  conv => lhs; unfold parseFuel
  unfold structStep
  rw [run_congr (q := parseKind eof) (parseFuel_suffix eof _) (parseFuel_progress eof _)]
  · intro k' r hr
    have := rank_lt k'
    exact parseFuel_enough eof _ _ k' r (by omega) (by unfold enough; omega)
  · intro k' hk'
    have := lefts_rank k k' hk'
    have := rank_lt k
    exact parseFuel_enough eof _ _ k' s (by omega) (by unfold enough; omega)

end Verif.Etx
