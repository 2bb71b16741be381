import Verif.Etx.RunLemmas

/-!
# The work of the parser

What a call of the parser costs, along the control flow of `run` (`Parser.lean`): the comparisons of a token with a
literal or a token type, and the tokens the parser goes back over when the error of an alternative, of an optional part or of
a repetition is forgotten (participle v2.0.0-alpha8 parses those on a branch of the context and drops it).

*Simplification*: only comparisons of tokens are counted, not the calls between them, and neither the lexer nor the building of
the structs.
-/

namespace Verif.Etx

set_option linter.unusedSimpArgs false

open Gram

/-- Comparisons of tokens, and tokens gone back over. -/
structure Work where
  steps : Nat := 0
  back : Nat := 0
  deriving DecidableEq, Repr

namespace Work

instance : Add Work := ⟨fun a b => ⟨a.steps + b.steps, a.back + b.back⟩⟩

instance : Zero Work := ⟨⟨0, 0⟩⟩

@[simp] theorem steps_add (a b : Work) : (a + b).steps = a.steps + b.steps := rfl
@[simp] theorem back_add (a b : Work) : (a + b).back = a.back + b.back := rfl
@[simp] theorem steps_zero : (0 : Work).steps = 0 := rfl
@[simp] theorem back_zero : (0 : Work).back = 0 := rfl

end Work

/-- The tokens read before an error that is forgotten. -/
def again {α : Type} (s : List Token) : Res α → Work
  | .err r => if stops s r then 0 else ⟨0, s.length - r.length⟩
  | _ => 0

/-- The loop of a repetition (`many`). -/
def manyWork (p : List Token → Res Out) (w : List Token → Work) : Nat → List Token → Work
  | 0, _ => 0
  | n + 1, s =>
    w s + again s (p s) +
      match p s with
      | .ok _ r => if r.length < s.length then manyWork p w n r else 0
      | _ => 0

/-- A production (`run`); `p` parses the structs, and `w` is what that costs. -/
def work (p : (k : Kind) → List Token → Res (Node k)) (w : Kind → List Token → Work) : Gram → List Token → Work
  | .lit _, _ => ⟨1, 0⟩
  | .tok _, _ => ⟨1, 0⟩
  | .seq a b, s =>
    work p w a s +
      match run p a s with
      | .ok _ r => work p w b r
      | _ => 0
  | .alt a b, s =>
    work p w a s + again s (run p a s) +
      match run p a s with
      | .ok _ _ => 0
      | .miss => work p w b s + again s (run p b s)
      | .err r => if stops s r then 0 else work p w b s + again s (run p b s)
  | .opt a, s => work p w a s + again s (run p a s)
  | .star a, s => manyWork (run p a) (work p w a) (s.length + 1) s
  | .plus a, s =>
    work p w a s + again s (run p a s) +
      match run p a s with
      | .ok _ r => manyWork (run p a) (work p w a) (r.length + 1) r
      | _ => 0
  | .cap _ a, s => work p w a s
  | .sub _ k, s => w k s

/-- A struct (`parseFuel`). -/
def workFuel [FloatValue] (eof : Position) : Nat → Kind → List Token → Work
  | 0, _, _ => 0
  | n + 1, k, s => work (parseKind eof) (workFuel eof n) (Gram.of k) s

/-- A struct (`parseKind`). -/
def workKind [FloatValue] (eof : Position) (k : Kind) (s : List Token) : Work := workFuel eof (enough s.length) k s

/-- The document (`parseTokens`). -/
def workTokens [FloatValue] (eof : Position) (s : List Token) : Work :=
  work (parseKind eof) (workKind eof) (.star (.sub .items .rootItem)) s

/-! ## The depth of the recursion -/

theorem manyWork_congr {p : List Token → Res Out} {v w : List Token → Work} (n : Nat) (s : List Token)
    (h : ∀ r, r <:+ s → v r = w r) (hp : ∀ s, (p s).Suffix s) : manyWork p v n s = manyWork p w n s := by
  induction n generalizing s with
  | zero => rfl
  | succ n ih =>
    unfold manyWork
    rw [h s (List.suffix_refl _)]
    have hs := hp s
    cases e : p s with
    | miss => rfl
    | err r => rfl
    | ok o r =>
      rw [e] at hs
      simp only
      rw [ih r fun r' hr' => h r' (hr'.trans hs)]

theorem work_congr {p : (k : Kind) → List Token → Res (Node k)} {v w : Kind → List Token → Work}
    (hp : ∀ k s, (p k s).Suffix s) (hg : Progress p) (g : Gram) (s : List Token)
    (h1 : ∀ k r, r.length < s.length → v k r = w k r) (h2 : ∀ k ∈ lefts g, v k s = w k s) :
    work p v g s = work p w g s := by
  -- the productions inside, at a rest of the tokens
  have short : ∀ (g : Gram) (s r : List Token), r <:+ s → (∀ k r, r.length < s.length → v k r = w k r) →
      (∀ k ∈ lefts g, v k s = w k s) → ∀ k ∈ lefts g, v k r = w k r := by
    intro g s r hr h1 h k hk
    rcases Nat.lt_or_ge r.length s.length with hlt | hge
    · exact h1 k r hlt
    · rw [hr.eq_of_length_le hge]
      exact h k hk
  induction g generalizing s with
  | lit w => rfl
  | tok y => rfl
  | seq a b iha ihb =>
    simp only [lefts, List.mem_append] at h2
    unfold work
    rw [iha s h1 fun k hk => h2 k (.inl hk)]
    have hs := run_suffix hp a s
    cases ea : run p a s with
    | miss => rfl
    | err r => rfl
    | ok o r =>
      rw [ea] at hs
      simp only
      rw [ihb r fun k r' hr' => h1 k r' (Nat.lt_of_lt_of_le hr' (suffix_le hs))]
      intro k hk
      rcases run_progress hp hg _ _ _ _ ea with hn | hlt
      · exact short b s r hs h1 (fun k hk => h2 k (.inr (by simpa [hn] using hk))) k hk
      · exact h1 k r hlt
  | alt a b iha ihb =>
    simp only [lefts, List.mem_append] at h2
    unfold work
    rw [iha s h1 fun k hk => h2 k (.inl hk), ihb s h1 fun k hk => h2 k (.inr hk)]
  | opt a iha =>
    unfold work
    rw [iha s h1 h2]
  | star a iha =>
    unfold work
    refine manyWork_congr _ _ (fun r hr => ?_) (run_suffix hp a)
    exact iha r (fun k r' hr' => h1 k r' (Nat.lt_of_lt_of_le hr' (suffix_le hr))) (short a s r hr h1 h2)
  | plus a iha =>
    unfold work
    rw [iha s h1 h2]
    have hs := run_suffix hp a s
    cases ea : run p a s with
    | miss => rfl
    | err r => rfl
    | ok o r =>
      rw [ea] at hs
      simp only
      rw [manyWork_congr (v := work p v a) (w := work p w a) _ _ ?_ (run_suffix hp a)]
      intro r' hr'
      have hr := hr'.trans hs
      exact iha r' (fun k r'' hr' => h1 k r'' (Nat.lt_of_lt_of_le hr' (suffix_le hr))) (short a s r' hr h1 h2)
  | cap f a iha =>
    unfold work
    rw [iha s h1 h2]
  | sub f k =>
    unfold work
    exact h2 k (by simp [lefts])

theorem workFuel_enough [FloatValue] (eof : Position) (n m : Nat) (k : Kind) (s : List Token)
    (hn : 32 * s.length + rank k < n) (hm : 32 * s.length + rank k < m) : workFuel eof n k s = workFuel eof m k s := by
  induction n generalizing m k s with
  | zero => omega
  | succ n ih =>
    cases m with
    | zero => omega
    | succ m =>
      unfold workFuel
      refine work_congr (parseKind_suffix eof) (parseKind_progress eof) _ _ ?_ ?_
      · intro k' r hr
        have := rank_lt k'
        exact ih m k' r (by omega) (by omega)
      · intro k' hk'
        have := lefts_rank k k' hk'
        exact ih m k' s (by omega) (by omega)

/-- The cost of a struct is that of its production, with the structs inside counted likewise. -/
theorem workKind_eq [FloatValue] (eof : Position) (k : Kind) (s : List Token) :
    workKind eof k s = work (parseKind eof) (workKind eof) (Gram.of k) s := by
  have e : enough s.length = (32 * s.length + 31) + 1 := by unfold enough; omega
  conv => lhs; unfold workKind
  rw [e]
  conv => lhs; unfold workFuel
  refine work_congr (parseKind_suffix eof) (parseKind_progress eof) _ _ ?_ ?_
  · intro k' r hr
    have := rank_lt k'
    exact workFuel_enough eof _ _ k' r (by omega) (by unfold enough; omega)
  · intro k' hk'
    have := lefts_rank k k' hk'
    have := rank_lt k
    exact workFuel_enough eof _ _ k' s (by omega) (by unfold enough; omega)

/-! ## A bound -/

/-- The comparisons of a struct that reads nothing. -/
def idle : Kind → Nat
  | .rootItem => 11 | .parameterType => 2 | .comment => 2 | .blockItem => 5 | .decl => 4 | .lambda => 3
  | .funcStatement => 21 | .funcDecl => 2 | .typeEnum | .typeEnumItem | .typeObject | .typeObjectItem => 4
  | .value => 8 | .heredocFragment => 5 | .stringFragment => 7 | .listItem => 19 | .mapItem => 5
  | .mapKey => 2 | .expr => 16 | .exprCase => 2 | .conditional | .bin _ | .unary => 14 | .postfixE | .primary => 10
  | .invocation => 16 | _ => 1

/-- The comparisons of a struct that come on top of those charged to its tokens. -/
def extra : Kind → Nat
  | .rootItem => 11 | .parameterType => 1 | .ident => 1 | .comment => 2 | .attr => 1 | .blockItem => 5 | .lambda => 2
  | .lambdaParameter => 1 | .funcParameter => 1 | .funcStatement => 43 | .typeEnum => 7 | .typeEnumItem => 3
  | .typeObject => 7 | .typeObjectItem => 3 | .value => 7 | .heredocFragment => 7 | .stringFragment => 6
  | .listItem => 40 | .mapItem => 5 | .mapKey => 1 | .expr => 37 | .conditional => 37
  | .bin .logicalOr => 36 | .bin .logicalAnd => 35 | .bin .bitwiseOr => 34 | .bin .bitwiseXor => 33
  | .bin .bitwiseAnd => 32 | .bin .equality => 31 | .bin .relational => 29 | .bin .shift => 25
  | .bin .additive => 23 | .bin .multiplicative => 21 | .unary => 18 | .postfixE => 14 | .primary => 12
  | .invocation => 38 | _ => 0

/-- `idle` of a production. -/
def Gram.idle : Gram → Nat
  | .lit _ | .tok _ => 1
  | .seq a b => a.idle + if null a then b.idle else 0
  | .alt a b => a.idle + b.idle
  | .opt a | .star a | .plus a | .cap _ a => a.idle
  | .sub _ k => Etx.idle k

/-- `extra` of a production. -/
def Gram.extra : Gram → Nat
  | .lit _ | .tok _ => 0
  | .seq a b => max (if null a then a.idle + b.extra else 0) (if null b then a.extra + b.idle else 0)
  | .alt a b => max a.extra (a.idle + b.extra)
  | .opt a | .cap _ a => a.extra
  | .star a | .plus a => a.extra + a.idle
  | .sub _ k => Etx.extra k

/-- The reserve of 65 comparisons, left over from each part that reads a token, suffices for what follows it. -/
def Gram.fits : Gram → Bool
  | .lit _ | .tok _ => true
  | .seq a b => a.fits && b.fits && decide (a.extra + b.idle ≤ 65) && decide (a.extra + b.extra ≤ 65)
  | .alt a b => a.fits && b.fits
  | .opt a | .cap _ a => a.fits
  | .star a | .plus a => a.fits && !null a && decide (a.extra ≤ 65)
  | .sub _ k => decide (Etx.extra k ≤ 65)

theorem idle_of (k : Kind) : (of k).idle ≤ Etx.idle k := by
  cases k <;> first | decide | (rename_i l; cases l <;> decide) | exact Nat.le_refl 1

theorem extra_of (k : Kind) : (of k).extra ≤ Etx.extra k := by
  cases k <;> first | decide | (rename_i l; cases l <;> decide) | exact Nat.le_refl 0

theorem fits_of (k : Kind) : (of k).fits = true := by
  cases k <;> first | decide | (rename_i l; cases l <;> decide) | rfl

theorem extra_le (k : Kind) : Etx.extra k ≤ 65 := by
  cases k <;> first | decide | (rename_i l; cases l <;> decide) | exact Nat.zero_le _

/-- The comparisons `w` of a part begun at `s`: 66 for each token read or gone back over, and `i` more; if tokens are read,
65 less than that, and `x` more. -/
def Paid {α : Type} (i x : Nat) (s : List Token) (w : Work) : Res α → Prop
  | .miss => w.steps ≤ i + 66 * w.back
  | .err r => w.steps ≤ i + 66 * (s.length - r.length + w.back)
  | .ok _ r => (r.length < s.length ∧ w.steps + 65 ≤ x + 66 * (s.length - r.length + w.back)) ∨
      (s.length ≤ r.length ∧ w.steps ≤ i + 66 * w.back)

theorem Paid.mono {α : Type} {i x i' x' : Nat} {s : List Token} {w : Work} {r : Res α} (h : Paid i x s w r) (hi : i ≤ i')
    (hx : x ≤ x') : Paid i' x' s w r := by
  cases r <;> simp only [Paid] at * <;> omega

theorem many_ne_miss (p : List Token → Res Out) (n : Nat) (s : List Token) : many p n s ≠ .miss := by
  induction n generalizing s with
  | zero => unfold many; exact fun h => nomatch h
  | succ n ih =>
    unfold many
    cases p s with
    | miss => exact fun h => nomatch h
    | err r => simp only; split <;> exact fun h => nomatch h
    | ok o r =>
      simp only
      split
      · cases e : many p n r with
        | miss => exact absurd e (ih r)
        | err r' => exact fun h => nomatch h
        | ok o' r' => exact fun h => nomatch h
      · exact fun h => nomatch h

/-- A loop: what remains after an iteration is paid from its reserve. -/
theorem manyWork_paid {p : List Token → Res Out} {w : List Token → Work} {i x : Nat}
    (h : ∀ s, Paid i x s (w s) (p s)) (hp : ∀ s, (p s).Suffix s) (hx : x ≤ 65) (n : Nat) (s : List Token) :
    Paid i (x + i) s (manyWork p w n s) (many p n s) := by
  induction n generalizing s with
  | zero => exact .inr ⟨Nat.le_refl _, Nat.zero_le _⟩
  | succ n ih =>
    have hs := h s
    have hl := hp s
    unfold manyWork many
    cases e : p s with
    | miss =>
      rw [e] at hs
      simp only [Paid, again, Work.steps_add, Work.back_add, Work.steps_zero, Work.back_zero] at *
      omega
    | err r =>
      rw [e] at hs hl
      have hl := suffix_le hl
      simp only [again]
      split <;> simp only [Paid, Work.steps_add, Work.back_add, Work.steps_zero, Work.back_zero] at * <;> omega
    | ok o r =>
      rw [e] at hs hl
      have hl := suffix_le hl
      simp only [again]
      split
      · have hr := ih r
        have hrl := many_suffix hp n r
        cases e' : many p n r with
        | miss => exact absurd e' (many_ne_miss _ _ _)
        | err r' =>
          rw [e'] at hr hrl
          have hrl := suffix_le hrl
          simp only [Paid, Work.steps_add, Work.back_add, Work.steps_zero, Work.back_zero] at *
          omega
        | ok o' r' =>
          rw [e'] at hr hrl
          have hrl := suffix_le hrl
          simp only [Paid, Work.steps_add, Work.back_add, Work.steps_zero, Work.back_zero] at *
          omega
      · simp only [Paid, Work.steps_add, Work.back_add, Work.steps_zero, Work.back_zero] at *
        omega

theorem work_paid {p : (k : Kind) → List Token → Res (Node k)} {w : Kind → List Token → Work}
    (hp : ∀ k s, (p k s).Suffix s) (hg : Progress p) (hw : ∀ k s, Paid (Etx.idle k) (Etx.extra k) s (w k s) (p k s)) (g : Gram)
    (hf : g.fits = true) (s : List Token) : Paid g.idle g.extra s (work p w g s) (run p g s) := by
  induction g generalizing s with
  | lit l =>
    unfold work run
    cases s with
    | nil => simp only [Paid, Gram.idle]; omega
    | cons t r => simp only [Gram.idle, Gram.extra]; split <;> simp only [Paid, List.length_cons] <;> omega
  | tok y =>
    unfold work run
    cases s with
    | nil => simp only [Paid, Gram.idle]; omega
    | cons t r => simp only [Gram.idle, Gram.extra]; split <;> simp only [Paid, List.length_cons] <;> omega
  | seq a b iha ihb =>
    simp only [Gram.fits, Bool.and_eq_true, decide_eq_true_eq] at hf
    have ha := iha hf.1.1.1 s
    have hla := run_suffix hp a s
    rw [work, run]
    cases ea : run p a s with
    | miss =>
      rw [ea] at ha
      simp only [Paid, Gram.idle, Work.steps_add, Work.back_add, Work.steps_zero, Work.back_zero] at *
      omega
    | err r =>
      rw [ea] at ha
      simp only [Paid, Gram.idle, Work.steps_add, Work.back_add, Work.steps_zero, Work.back_zero] at *
      omega
    | ok o r =>
      have hb := ihb hf.1.1.2 r
      have hlb := run_suffix hp b r
      rw [ea] at ha hla
      have hla := suffix_le hla
      have hna := run_progress hp hg _ _ _ _ ea
      simp only
      cases eb : run p b r with
      | miss =>
        rw [eb] at hb
        simp only [Paid, Gram.idle, Work.steps_add, Work.back_add, Work.steps_zero, Work.back_zero] at *
        rcases hna with hna | hna
        · rw [if_pos hna]; omega
        · omega
      | err r' =>
        rw [eb] at hb hlb
        have hlb := suffix_le hlb
        simp only [Paid, Gram.idle, Work.steps_add, Work.back_add, Work.steps_zero, Work.back_zero] at *
        rcases hna with hna | hna
        · rw [if_pos hna]; omega
        · omega
      | ok o' r' =>
        rw [eb] at hb hlb
        have hlb := suffix_le hlb
        have hnb := run_progress hp hg _ _ _ _ eb
        simp only [Paid, Gram.idle, Gram.extra, Work.steps_add, Work.back_add, Work.steps_zero, Work.back_zero] at *
        have ia : null a = false ∨ (if null a = true then a.idle + b.extra else 0) = a.idle + b.extra := by
          cases null a <;> simp
        have ia' : null a = false ∨ (if null a = true then b.idle else 0) = b.idle := by cases null a <;> simp
        have ib : null b = false ∨ (if null b = true then a.extra + b.idle else 0) = a.extra + b.idle := by
          cases null b <;> simp
        generalize (if null a = true then a.idle + b.extra else 0) = u at *
        generalize (if null a = true then b.idle else 0) = u' at *
        generalize (if null b = true then a.extra + b.idle else 0) = v at *
        generalize null a = na at *
        generalize null b = nb at *
        cases na <;> cases nb <;> simp only [Bool.false_eq_true, reduceCtorEq, false_or, true_or] at * <;> omega
  | alt a b iha ihb =>
    simp only [Gram.fits, Bool.and_eq_true] at hf
    have ha := iha hf.1 s
    have hb := ihb hf.2 s
    have hla := run_suffix hp a s
    have hlb := run_suffix hp b s
    rw [work, run]
    cases ea : run p a s with
    | ok o r =>
      rw [ea] at ha
      simp only [again, Paid, Gram.idle, Gram.extra, Work.steps_add, Work.back_add, Work.steps_zero, Work.back_zero] at *
      omega
    | miss =>
      rw [ea] at ha
      cases eb : run p b s with
      | miss =>
        rw [eb] at hb
        simp only [again, Paid, Gram.idle, Gram.extra, Work.steps_add, Work.back_add, Work.steps_zero, Work.back_zero] at *
        omega
      | err r =>
        rw [eb] at hb hlb
        have hlb := suffix_le hlb
        simp only [again]
        split <;>
        simp only [Paid, Gram.idle, Gram.extra, Work.steps_add, Work.back_add, Work.steps_zero, Work.back_zero] at * <;>
        omega
      | ok o r =>
        rw [eb] at hb
        simp only [again, Paid, Gram.idle, Gram.extra, Work.steps_add, Work.back_add, Work.steps_zero, Work.back_zero] at *
        omega
    | err r =>
      rw [ea] at ha hla
      have hla := suffix_le hla
      simp only [again]
      cases stops s r with
      | true =>
        simp only [if_true, Paid, Gram.idle, Gram.extra, Work.steps_add, Work.back_add, Work.steps_zero, Work.back_zero] at *
        omega
      | false =>
        simp only [Bool.false_eq_true, if_false]
        cases eb : run p b s with
        | miss =>
          rw [eb] at hb
          simp only [again, Paid, Gram.idle, Gram.extra, Work.steps_add, Work.back_add, Work.steps_zero, Work.back_zero] at *
          omega
        | err r' =>
          rw [eb] at hb hlb
          have hlb := suffix_le hlb
          simp only
          split <;>
          simp only [Paid, Gram.idle, Gram.extra, Work.steps_add, Work.back_add, Work.steps_zero, Work.back_zero] at * <;>
          omega
        | ok o r' =>
          rw [eb] at hb
          simp only [again, Paid, Gram.idle, Gram.extra, Work.steps_add, Work.back_add, Work.steps_zero, Work.back_zero] at *
          omega
  | opt a iha =>
    have ha := iha hf s
    have hla := run_suffix hp a s
    rw [work, run]
    cases ea : run p a s with
    | miss =>
      rw [ea] at ha
      simp only [again, Paid, Gram.idle, Work.steps_add, Work.back_add, Work.steps_zero, Work.back_zero] at *
      omega
    | ok o r =>
      rw [ea] at ha
      simp only [again, Paid, Gram.idle, Gram.extra, Work.steps_add, Work.back_add, Work.steps_zero, Work.back_zero] at *
      omega
    | err r =>
      rw [ea] at ha hla
      have hla := suffix_le hla
      simp only [again]
      split <;> simp only [Paid, Gram.idle, Work.steps_add, Work.back_add, Work.steps_zero, Work.back_zero] at * <;> omega
  | star a iha =>
    simp only [Gram.fits, Bool.and_eq_true, decide_eq_true_eq] at hf
    rw [work, run]
    exact manyWork_paid (iha hf.1.1) (run_suffix hp a) hf.2 _ _
  | plus a iha =>
    simp only [Gram.fits, Bool.and_eq_true, decide_eq_true_eq, Bool.not_eq_true'] at hf
    have ha := iha hf.1.1 s
    have hla := run_suffix hp a s
    rw [work, run]
    cases ea : run p a s with
    | miss =>
      rw [ea] at ha
      simp only [again, Paid, Gram.idle, Work.steps_add, Work.back_add, Work.steps_zero, Work.back_zero] at *
      omega
    | err r =>
      rw [ea] at ha hla
      have hla := suffix_le hla
      simp only [again]
      split <;> simp only [Paid, Gram.idle, Work.steps_add, Work.back_add, Work.steps_zero, Work.back_zero] at * <;> omega
    | ok o r =>
      rw [ea] at ha hla
      have hla := suffix_le hla
      have hna := (run_progress hp hg _ _ _ _ ea).resolve_left (by simp [hf.1.2])
      have hm := manyWork_paid (iha hf.1.1) (run_suffix hp a) hf.2 (r.length + 1) r
      have hml := many_suffix (run_suffix hp a) (r.length + 1) r
      simp only
      cases em : many (run p a) (r.length + 1) r with
      | miss => exact absurd em (many_ne_miss _ _ _)
      | err r' =>
        rw [em] at hm hml
        have hml := suffix_le hml
        simp only [again, Paid, Gram.idle, Work.steps_add, Work.back_add, Work.steps_zero, Work.back_zero] at *
        omega
      | ok o' r' =>
        rw [em] at hm hml
        have hml := suffix_le hml
        simp only [again, Paid, Gram.idle, Gram.extra, Work.steps_add, Work.back_add, Work.steps_zero, Work.back_zero] at *
        omega
  | cap f a iha =>
    have ha := iha hf s
    rw [work, run]
    cases ea : run p a s <;> rw [ea] at ha <;> exact ha
  | sub f k =>
    have hk := hw k s
    rw [work, run]
    cases ek : p k s <;> rw [ek] at hk <;> exact hk

theorem structStep_paid [FloatValue] {eof : Position} {p : (k : Kind) → List Token → Res (Node k)} {w : Work} {k : Kind}
    {s : List Token} (hp : ∀ k s, (p k s).Suffix s) (h : Paid (of k).idle (of k).extra s w (run p (of k) s)) :
    Paid (Etx.idle k) (Etx.extra k) s w (structStep eof p k s) := by
  have hl := run_suffix hp (of k) s
  have h := h.mono (idle_of k) (extra_of k)
  have hx := extra_le k
  unfold structStep
  cases e : run p (of k) s with
  | miss => rw [e] at h; exact h
  | err r => rw [e] at h; exact h
  | ok o r =>
    rw [e] at h hl
    have hl := suffix_le hl
    simp only
    cases build { addr := 0, pos := posOf eof s } o k with
    | none => simp only [Paid] at *; omega
    | some x => exact h

theorem workFuel_paid [FloatValue] (eof : Position) (n : Nat) (k : Kind) (s : List Token) :
    Paid (Etx.idle k) (Etx.extra k) s (workFuel eof n k s) (parseKind eof k s) := by
  induction n generalizing k s with
  | zero =>
    have hl := parseKind_suffix eof k s
    have hg := parseKind_progress eof k s
    unfold workFuel
    cases e : parseKind eof k s with
    | miss => exact Nat.zero_le _
    | err r => exact Nat.zero_le _
    | ok x r =>
      rw [e] at hl
      have hl := suffix_le hl
      simp only [Paid, Work.steps_zero, Work.back_zero]
      omega
  | succ n ih =>
    rw [parseKind_eq]
    exact structStep_paid (parseKind_suffix eof) (work_paid (parseKind_suffix eof) (parseKind_progress eof) ih _ (fits_of k) s)

/-- The comparisons for a document are linear in its tokens and the tokens gone back over. -/
theorem workTokens_le [FloatValue] (eof : Position) (s : List Token) :
    (workTokens eof s).steps ≤ 66 * (s.length + (workTokens eof s).back) + 11 := by
  have h := work_paid (parseKind_suffix eof) (parseKind_progress eof) (fun k s => workFuel_paid eof (enough s.length) k s)
    (.star (.sub .items .rootItem)) rfl s
  have hl := run_suffix (parseKind_suffix eof) (.star (.sub .items .rootItem)) s
  change Paid 11 22 s (workTokens eof s) _ at h
  cases e : run (parseKind eof) (.star (.sub .items .rootItem)) s with
  | miss => rw [e] at h; simp only [Paid] at h; omega
  | err r => rw [e] at h; simp only [Paid] at h; omega
  | ok o r => rw [e] at h; simp only [Paid] at h; omega

end Verif.Etx
