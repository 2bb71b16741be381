import Verif.Etx.ParserLemmas

/-!
# The grammar as a parsing expression grammar

`Peg` is the usual reading of a grammar with ordered choice and greedy repetition: an alternative is tried if the ones before it
fail, with no limit to how much is read before failing.  The parser follows it, except that it gives up after a failure that
is more than `lookahead` tokens away.
-/

namespace Verif.Etx
open Gram

variable [FloatValue] {eof : Position}

/-- `Peg eof g s x`: on the tokens `s` the expression `g` gives `x`, which is a failure or captures together with the tokens left
over. -/
inductive Peg (eof : Position) : Gram → List Token → Option (Out × List Token) → Prop
  | lit {w : Str} {t : Token} {r : List Token} : t.txt = w → Peg eof (.lit w) (t :: r) (some (⟨[t.txt], []⟩, r))
  | noLit {w : Str} {s : List Token} : (∀ t ∈ s.head?, t.txt ≠ w) → Peg eof (.lit w) s none
  | tok {y : Sym} {t : Token} {r : List Token} : t.sym = y → Peg eof (.tok y) (t :: r) (some (⟨[t.txt], []⟩, r))
  | noTok {y : Sym} {s : List Token} : (∀ t ∈ s.head?, t.sym ≠ y) → Peg eof (.tok y) s none
  | seq {a b : Gram} {s r r' : List Token} {o o' : Out} : Peg eof a s (some (o, r)) → Peg eof b r (some (o', r')) →
      Peg eof (.seq a b) s (some (o ++ o', r'))
  | seqL {a b : Gram} {s : List Token} : Peg eof a s none → Peg eof (.seq a b) s none
  | seqR {a b : Gram} {s r : List Token} {o : Out} : Peg eof a s (some (o, r)) → Peg eof b r none → Peg eof (.seq a b) s none
  | altL {a b : Gram} {s r : List Token} {o : Out} : Peg eof a s (some (o, r)) → Peg eof (.alt a b) s (some (o, r))
  | altR {a b : Gram} {s : List Token} {x : Option (Out × List Token)} : Peg eof a s none → Peg eof b s x →
      Peg eof (.alt a b) s x
  | once {a : Gram} {s r : List Token} {o : Out} : Peg eof a s (some (o, r)) → Peg eof (.opt a) s (some (o, r))
  | skip {a : Gram} {s : List Token} : Peg eof a s none → Peg eof (.opt a) s (some ({}, s))
  | nil {a : Gram} {s : List Token} : Peg eof a s none → Peg eof (.star a) s (some ({}, s))
  | cons {a : Gram} {s r r' : List Token} {o o' : Out} : Peg eof a s (some (o, r)) → Peg eof (.star a) r (some (o', r')) →
      Peg eof (.star a) s (some (o ++ o', r'))
  | plus {a : Gram} {s r r' : List Token} {o o' : Out} : Peg eof a s (some (o, r)) → Peg eof (.star a) r (some (o', r')) →
      Peg eof (.plus a) s (some (o ++ o', r'))
  | noPlus {a : Gram} {s : List Token} : Peg eof a s none → Peg eof (.plus a) s none
  | cap {f : Field} {a : Gram} {s r : List Token} {o : Out} : Peg eof a s (some (o, r)) →
      Peg eof (.cap f a) s (some (⟨o.txt, [.toks f o.txt]⟩, r))
  | noCap {f : Field} {a : Gram} {s : List Token} : Peg eof a s none → Peg eof (.cap f a) s none
  | sub {f : Field} {k : Kind} {s r : List Token} {o : Out} {x : Node k} : Peg eof (Gram.of k) s (some (o, r)) →
      build { addr := 0, pos := posOf eof s } o k = some x → Peg eof (.sub f k) s (some (⟨[], [.node f k x]⟩, r))
  | noSub {f : Field} {k : Kind} {s : List Token} : Peg eof (Gram.of k) s none → Peg eof (.sub f k) s none
  | noBuild {f : Field} {k : Kind} {s r : List Token} {o : Out} : Peg eof (Gram.of k) s (some (o, r)) →
      build { addr := 0, pos := posOf eof s } o k = none → Peg eof (.sub f k) s none

/-- A parsing expression has one result. -/
theorem Peg.unique {g : Gram} {s : List Token} {x y : Option (Out × List Token)} (h : Peg eof g s x) (h' : Peg eof g s y) :
    x = y := by
  induction h generalizing y with
  | lit e =>
    cases h' with
    | lit => rfl
    | noLit h => exact absurd e (h _ rfl)
  | noLit h =>
    cases h' with
    | lit e => exact absurd e (h _ rfl)
    | noLit => rfl
  | tok e =>
    cases h' with
    | tok => rfl
    | noTok h => exact absurd e (h _ rfl)
  | noTok h =>
    cases h' with
    | tok e => exact absurd e (h _ rfl)
    | noTok => rfl
  | seq _ _ iha ihb =>
    cases h' with
    | seq ha hb => cases iha ha; cases ihb hb; rfl
    | seqL ha => cases iha ha
    | seqR ha hb => cases iha ha; cases ihb hb
  | seqL _ iha =>
    cases h' with
    | seq ha hb => cases iha ha
    | seqL ha => rfl
    | seqR ha hb => rfl
  | seqR _ _ iha ihb =>
    cases h' with
    | seq ha hb => cases iha ha; cases ihb hb
    | seqL ha => rfl
    | seqR ha hb => rfl
  | altL _ iha =>
    cases h' with
    | altL ha => exact iha ha
    | altR ha => cases iha ha
  | altR _ _ iha ihb =>
    cases h' with
    | altL ha => cases iha ha
    | altR ha hb => exact ihb hb
  | once _ iha =>
    cases h' with
    | once ha => exact iha ha
    | skip ha => cases iha ha
  | skip _ iha =>
    cases h' with
    | once ha => cases iha ha
    | skip ha => rfl
  | nil _ iha =>
    cases h' with
    | nil ha => rfl
    | cons ha hb => cases iha ha
  | cons _ _ iha ihb =>
    cases h' with
    | nil ha => cases iha ha
    | cons ha hb => cases iha ha; cases ihb hb; rfl
  | plus _ _ iha ihb =>
    cases h' with
    | plus ha hb => cases iha ha; cases ihb hb; rfl
    | noPlus ha => cases iha ha
  | noPlus _ iha =>
    cases h' with
    | plus ha hb => cases iha ha
    | noPlus ha => rfl
  | cap _ iha =>
    cases h' with
    | cap ha => cases iha ha; rfl
    | noCap ha => cases iha ha
  | noCap _ iha =>
    cases h' with
    | cap ha => cases iha ha
    | noCap ha => rfl
  | sub _ e iha =>
    cases h' with
    | sub ha e' => cases iha ha; rw [e] at e'; cases e'; rfl
    | noSub ha => cases iha ha
    | noBuild ha e' => cases iha ha; rw [e] at e'; cases e'
  | noSub _ iha =>
    cases h' with
    | sub ha e' => cases iha ha
    | noSub ha => rfl
    | noBuild ha e' => rfl
  | noBuild _ e iha =>
    cases h' with
    | sub ha e' => cases iha ha; rw [e] at e'; cases e'
    | noSub ha => rfl
    | noBuild ha e' => rfl

/-- The result agrees with the reading of `g` as a parsing expression, unless it is an error far away. -/
def Res.AsPeg (eof : Position) (g : Gram) (s : List Token) : Res Out → Prop
  | .miss => Peg eof g s none
  | .err r => stops s r = false → Peg eof g s none
  | .ok o r => Peg eof g s (some (o, r))

/-- The same for a struct. -/
def AsPegKind (eof : Position) (k : Kind) (s : List Token) : Prop := ∀ f, (run (parseKind eof) (.sub f k) s).AsPeg eof (.sub f k) s

omit [FloatValue] in
theorem stops_refl (s : List Token) : stops s s = false := decide_eq_false (by unfold lookahead; omega)

omit [FloatValue] in
/-- An error far away from `r` is far away from everything before. -/
theorem stops_mono {s r r' : List Token} (h : r <:+ s) (h' : stops s r' = false) : stops r r' = false := by
  have := h.length_le
  unfold stops at *
  simp only [decide_eq_false_iff_not] at *
  omega

theorem many_peg {a : Gram} (ha : solid (.star a) = true) (n : Nat) (s : List Token) (hn : s.length < n)
    (h : ∀ r, r <:+ s → (run (parseKind eof) a r).AsPeg eof a r) :
    (many (run (parseKind eof) a) n s).AsPeg eof (.star a) s := by
  induction n generalizing s with
  | zero => omega
  | succ n ih =>
    have hs := h s (List.suffix_refl _)
    unfold many
    cases e : run (parseKind eof) a s with
    | miss => rw [e] at hs; exact .nil hs
    | err r =>
      rw [e] at hs
      simp only
      split
      · rename_i h'
        intro h''
        rw [h'] at h''
        cases h''
      · rename_i h'
        exact .nil (hs (by simpa using h'))
    | ok o r =>
      rw [e] at hs
      have hsuf := run_suffix (parseKind_suffix eof) a s
      rw [e] at hsuf
      have hlt : r.length < s.length := by
        rcases run_progress (parseKind_suffix eof) (parseKind_progress eof) _ _ _ _ e with hnull | hlt
        · simp [solid, hnull] at ha
        · exact hlt
      simp only [hlt, if_true]
      have := ih r (by omega) fun r' hr' => h r' (hr'.trans hsuf)
      cases e' : many (run (parseKind eof) a) n r with
      | miss =>
        rw [e'] at this
        cases this
      | err r' =>
        rw [e'] at this
        intro h'
        exact nomatch this (stops_mono hsuf h')
      | ok o' r' =>
        rw [e'] at this
        exact .cons hs this

theorem run_peg (g : Gram) (s : List Token) (hg : solid g = true) (h1 : ∀ k r, r.length < s.length → AsPegKind eof k r)
    (h2 : ∀ k ∈ lefts g, AsPegKind eof k s) : (run (parseKind eof) g s).AsPeg eof g s := by
  induction g generalizing s with
  | lit w =>
    unfold run
    cases s with
    | nil => exact .noLit (by simp)
    | cons t r =>
      simp only
      split
      · rename_i e; exact .lit e
      · rename_i e; exact .noLit (by simpa using e)
  | tok y =>
    unfold run
    cases s with
    | nil => exact .noTok (by simp)
    | cons t r =>
      simp only
      split
      · rename_i e; exact .tok e
      · rename_i e; exact .noTok (by simpa using e)
  | seq a b iha ihb =>
    simp only [lefts, List.mem_append] at h2
    simp only [solid, Bool.and_eq_true] at hg
    have ha := iha s hg.1 h1 fun k hk => h2 k (.inl hk)
    have hs := run_suffix (parseKind_suffix eof) a s
    unfold run
    cases ea : run (parseKind eof) a s with
    | miss => rw [ea] at ha; exact .seqL ha
    | err r => rw [ea] at ha; exact fun h => .seqL (ha h)
    | ok o r =>
      rw [ea] at ha hs
      have hle : r.length ≤ s.length := suffix_le hs
      have hb := ihb r hg.2 (fun k r' hr' => h1 k r' (by omega)) fun k hk => by
        rcases Nat.lt_or_ge r.length s.length with hlt | hge
        · exact h1 k r hlt
        · rcases run_progress (parseKind_suffix eof) (parseKind_progress eof) _ _ _ _ ea with hn | hlt
          · rw [hs.eq_of_length_le hge]
            exact h2 k (.inr (by simpa [hn] using hk))
          · omega
      simp only
      cases eb : run (parseKind eof) b r with
      | miss => rw [eb] at hb; exact fun _ => .seqR ha hb
      | err r' => rw [eb] at hb; exact fun h => .seqR ha (hb (stops_mono hs h))
      | ok o' r' => rw [eb] at hb; exact .seq ha hb
  | alt a b iha ihb =>
    simp only [lefts, List.mem_append] at h2
    simp only [solid, Bool.and_eq_true] at hg
    have ha := iha s hg.1 h1 fun k hk => h2 k (.inl hk)
    have hb := ihb s hg.2 h1 fun k hk => h2 k (.inr hk)
    unfold run
    cases ea : run (parseKind eof) a s with
    | miss =>
      rw [ea] at ha
      simp only
      cases eb : run (parseKind eof) b s with
      | miss => rw [eb] at hb; exact .altR ha hb
      | err r' =>
        rw [eb] at hb
        intro h
        split at h
        · rename_i h'; rw [h'] at h; cases h
        · rename_i h'; exact .altR ha (hb (by simpa using h'))
      | ok o' r' => rw [eb] at hb; exact .altR ha hb
    | err r =>
      rw [ea] at ha
      simp only
      split
      · rename_i h'
        intro h
        rw [h'] at h
        cases h
      · rename_i h'
        have ha := ha (by simpa using h')
        cases eb : run (parseKind eof) b s with
        | miss => rw [eb] at hb; exact fun _ => .altR ha hb
        | err r' =>
          rw [eb] at hb
          intro h
          split at h
          · rename_i h'; rw [h'] at h; cases h
          · rename_i h'; exact .altR ha (hb (by simpa using h'))
        | ok o' r' => rw [eb] at hb; exact .altR ha hb
    | ok o r => rw [ea] at ha; exact .altL ha
  | opt a iha =>
    have ha := iha s hg h1 h2
    unfold run
    cases ea : run (parseKind eof) a s with
    | miss => rw [ea] at ha; exact .skip ha
    | err r =>
      rw [ea] at ha
      simp only
      split
      · rename_i h'
        intro h
        rw [h'] at h
        cases h
      · rename_i h'
        exact .skip (ha (by simpa using h'))
    | ok o r => rw [ea] at ha; exact .once ha
  | star a iha =>
    have hga : solid a = true := by simp only [solid, Bool.and_eq_true] at hg; exact hg.1
    unfold run
    refine many_peg hg _ _ (by omega) fun r hr => ?_
    have hle : r.length ≤ s.length := suffix_le hr
    refine iha r hga (fun k r' hr' => h1 k r' (by omega)) fun k hk => ?_
    rcases Nat.lt_or_ge r.length s.length with hlt | hge
    · exact h1 k r hlt
    · rw [hr.eq_of_length_le hge]
      exact h2 k hk
  | plus a iha =>
    have hga : solid a = true := by simp only [solid, Bool.and_eq_true] at hg; exact hg.1
    have ha := iha s hga h1 h2
    have hs := run_suffix (parseKind_suffix eof) a s
    unfold run
    cases ea : run (parseKind eof) a s with
    | miss => rw [ea] at ha; exact fun _ => .noPlus ha
    | err r =>
      rw [ea] at ha
      intro h
      split at h
      · rename_i h'; rw [h'] at h; cases h
      · rename_i h'; exact .noPlus (ha (by simpa using h'))
    | ok o r =>
      rw [ea] at ha hs
      have hm := many_peg (eof := eof) (a := a) hg (r.length + 1) r (by omega) fun r' hr' => by
        have hle : r'.length ≤ s.length := suffix_le (hr'.trans hs)
        refine iha r' hga (fun k r' hr' => h1 k r' (by omega)) fun k hk => ?_
        rcases Nat.lt_or_ge r'.length s.length with hlt | hge
        · exact h1 k r' hlt
        · rw [(hr'.trans hs).eq_of_length_le hge]
          exact h2 k hk
      simp only
      cases em : many (run (parseKind eof) a) (r.length + 1) r with
      | miss => rw [em] at hm; cases hm
      | err r' =>
        rw [em] at hm
        exact fun h => nomatch hm (stops_mono hs h)
      | ok o' r' => rw [em] at hm; exact .plus ha hm
  | cap f a iha =>
    have ha := iha s hg h1 h2
    unfold run
    cases ea : run (parseKind eof) a s with
    | miss => rw [ea] at ha; exact .noCap ha
    | err r => rw [ea] at ha; exact fun h => .noCap (ha h)
    | ok o r => rw [ea] at ha; exact .cap ha
  | sub f k => exact h2 k (by simp [lefts]) f

theorem kind_peg (n : Nat) (k : Kind) (s : List Token) (hn : 32 * s.length + rank k < n) : AsPegKind eof k s := by
  induction n generalizing k s with
  | zero => omega
  | succ n ih =>
    have h := run_peg (eof := eof) (Gram.of k) s (solid_of k)
      (fun k' r hr => by have := rank_lt k'; exact ih k' r (by omega))
      (fun k' hk' => by have := lefts_rank k k' hk'; exact ih k' s (by omega))
    intro f
    unfold run
    rw [parseKind_eq, structStep]
    cases e : run (parseKind eof) (Gram.of k) s with
    | miss => rw [e] at h; exact .noSub h
    | err r => rw [e] at h; exact fun h' => .noSub (h h')
    | ok o r =>
      rw [e] at h
      simp only
      cases hb : build { addr := 0, pos := posOf eof s } o k with
      | none => exact fun _ => .noBuild h hb
      | some x => exact .sub h hb

/-- What the parser does is the reading of the grammar as a parsing expression grammar, but for errors far away. -/
theorem asPeg {g : Gram} (hg : solid g = true) (s : List Token) : (run (parseKind eof) g s).AsPeg eof g s :=
  run_peg g s hg (fun k r _ => kind_peg _ k r (Nat.lt_succ_self _)) (fun k _ => kind_peg _ k s (Nat.lt_succ_self _))

end Verif.Etx
