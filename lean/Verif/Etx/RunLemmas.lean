import Verif.Etx.ParserLemmas

/-!
# Rules for running productions

A small calculus for showing what the parser does on a given list of tokens: `Ok` (a production matches), `Soft` (it fails, and
the failure is forgotten by alternatives, options and repetitions), and the first tokens of a production.
-/

namespace Verif.Etx
open Gram

variable [FloatValue] {eof : Position}

/-- The production `g` matches the beginning of `s`, with captures `o` and the tokens `r` left over. -/
def Ok (eof : Position) (g : Gram) (s : List Token) (o : Out) (r : List Token) : Prop := run (parseKind eof) g s = .ok o r

/-- The struct of kind `k` is read from the beginning of `s`. -/
def OkKind (eof : Position) {k : Kind} (s : List Token) (x : Node k) (r : List Token) : Prop := parseKind eof k s = .ok x r

/-- A failure that is not final. -/
def Res.Soft {α : Type} (s : List Token) : Res α → Prop
  | .miss => True
  | .err r => stops s r = false
  | .ok _ _ => False

/-- A failure before the first token. -/
def Res.Bare {α : Type} (s : List Token) : Res α → Prop
  | .miss => True
  | .err r => r = s
  | .ok _ _ => False

/-- The production does not match, and the parser will try something else. -/
def Soft (eof : Position) (g : Gram) (s : List Token) : Prop := (run (parseKind eof) g s).Soft s

/-- The production fails without having read anything. -/
def Bare (eof : Position) (g : Gram) (s : List Token) : Prop := (run (parseKind eof) g s).Bare s

omit [FloatValue] in
theorem stops_self (s : List Token) : stops s s = false := decide_eq_false (by unfold lookahead; omega)

theorem Bare.soft {g : Gram} {s : List Token} (h : Bare eof g s) : Soft eof g s := by
  unfold Bare at h
  unfold Soft
  cases e : run (parseKind eof) g s with
  | miss => trivial
  | err r => rw [e] at h; cases h; exact stops_self _
  | ok o r => rw [e] at h; exact h

namespace Ok

theorem lit {w : Str} {t : Token} {r : List Token} (h : t.txt = w) : Ok eof (.lit w) (t :: r) ⟨[w], []⟩ r := by
  subst h
  unfold Ok run
  simp

theorem tok {y : Sym} {t : Token} {r : List Token} (h : t.sym = y) : Ok eof (.tok y) (t :: r) ⟨[t.txt], []⟩ r := by
  subst h
  unfold Ok run
  simp

theorem seq {a b : Gram} {s s' r : List Token} {o o' : Out} (h : Ok eof a s o s') (h' : Ok eof b s' o' r) :
    Ok eof (.seq a b) s (o ++ o') r := by
  unfold Ok at *
  unfold run
  rw [h]
  simp only [h']

theorem altL {a b : Gram} {s r : List Token} {o : Out} (h : Ok eof a s o r) : Ok eof (.alt a b) s o r := by
  unfold Ok at *
  unfold run
  rw [h]

theorem altR {a b : Gram} {s r : List Token} {o : Out} (h : Soft eof a s) (h' : Ok eof b s o r) :
    Ok eof (.alt a b) s o r := by
  unfold Ok Soft at *
  unfold run
  cases e : run (parseKind eof) a s with
  | miss => simp only [h']
  | err r' =>
    rw [e] at h
    have h : stops s r' = false := h
    simp only [h, h', Bool.false_eq_true, if_false]
  | ok o r => rw [e] at h; exact h.elim

theorem once {a : Gram} {s r : List Token} {o : Out} (h : Ok eof a s o r) : Ok eof (.opt a) s o r := by
  unfold Ok at *
  unfold run
  rw [h]

theorem skip {a : Gram} {s : List Token} (h : Soft eof a s) : Ok eof (.opt a) s {} s := by
  unfold Ok Soft at *
  unfold run
  cases e : run (parseKind eof) a s with
  | miss => rfl
  | err r' =>
    rw [e] at h
    have h : stops s r' = false := h
    simp [h]
  | ok o r => rw [e] at h; exact h.elim

theorem cap {f : Field} {a : Gram} {s r : List Token} {o : Out} (h : Ok eof a s o r) :
    Ok eof (.cap f a) s ⟨o.txt, [.toks f o.txt]⟩ r := by
  unfold Ok at *
  unfold run
  rw [h]

theorem sub {f : Field} {k : Kind} {x : Node k} {s r : List Token} (h : OkKind eof s x r) :
    Ok eof (.sub f k) s ⟨[], [.node f k x]⟩ r := by
  unfold Ok OkKind at *
  unfold run
  rw [h]

end Ok

omit [FloatValue] in
theorem many_fuel {p : List Token → Res Out} (n m : Nat) (s : List Token) (hn : s.length < n) (hm : s.length < m) :
    many p n s = many p m s := by
  induction n generalizing m s with
  | zero => omega
  | succ n ih =>
    cases m with
    | zero => omega
    | succ m =>
      unfold many
      cases p s with
      | miss => rfl
      | err r => rfl
      | ok o r =>
        simp only
        split
        · rw [ih m r (by omega) (by omega)]
        · rfl

namespace Ok

theorem nil {a : Gram} {s : List Token} (h : Soft eof a s) : Ok eof (.star a) s {} s := by
  unfold Ok Soft at *
  unfold run many
  cases e : run (parseKind eof) a s with
  | miss => rfl
  | err r' =>
    rw [e] at h
    have h : stops s r' = false := h
    simp [h]
  | ok o r => rw [e] at h; exact h.elim

theorem cons {a : Gram} {s s' r : List Token} {o o' : Out} (h : Ok eof a s o s') (hl : s'.length < s.length)
    (h' : Ok eof (.star a) s' o' r) : Ok eof (.star a) s (o ++ o') r := by
  unfold Ok at *
  unfold run at h' ⊢
  unfold many
  rw [h]
  simp only [hl, if_true]
  rw [many_fuel _ (s'.length + 1) s' (by omega) (by omega), h']

theorem plus {a : Gram} {s s' r : List Token} {o o' : Out} (h : Ok eof a s o s')
    (h' : Ok eof (.star a) s' o' r) : Ok eof (.plus a) s (o ++ o') r := by
  unfold Ok at *
  unfold run at h' ⊢
  rw [h]
  simp only [h']

end Ok

/-- A struct is read if its production matches and the fields can be set. -/
theorem OkKind.mk {k : Kind} {s r : List Token} {o : Out} {x : Node k} (h : Ok eof (Gram.of k) s o r)
    (hb : build { addr := 0, pos := posOf eof s } o k = some x) : OkKind eof s x r := by
  unfold Ok OkKind at *
  rw [parseKind_eq, structStep, h]
  simp only [hb]

namespace Soft

theorem lit {w : Str} {s : List Token} (h : ∀ t ∈ s.head?, t.txt ≠ w) : Bare eof (.lit w) s := by
  unfold Bare run
  cases s with
  | nil => trivial
  | cons t r =>
    simp only [List.head?_cons, Option.mem_some_iff, forall_eq'] at h
    simp [h, Res.Bare]

theorem tok {y : Sym} {s : List Token} (h : ∀ t ∈ s.head?, t.sym ≠ y) : Bare eof (.tok y) s := by
  unfold Bare run
  cases s with
  | nil => trivial
  | cons t r =>
    simp only [List.head?_cons, Option.mem_some_iff, forall_eq'] at h
    simp [h, Res.Bare]

theorem seqL {a b : Gram} {s : List Token} (h : Soft eof a s) : Soft eof (.seq a b) s := by
  unfold Soft at *
  unfold run
  cases e : run (parseKind eof) a s with
  | miss => trivial
  | err r' => rw [e] at h; exact h
  | ok o r => rw [e] at h; exact h.elim

/-- The second part fails after the first one has read at most `lookahead` tokens. -/
theorem seqR {a b : Gram} {s s' : List Token} {o : Out} (h : Ok eof a s o s') (h' : Bare eof b s')
    (hl : s.length ≤ s'.length + lookahead) : Soft eof (.seq a b) s := by
  unfold Ok at h
  unfold Soft Bare at *
  have hs : stops s s' = false := by simpa [stops] using hl
  unfold run
  rw [h]
  simp only
  cases e : run (parseKind eof) b s' with
  | miss => exact hs
  | err r' => rw [e] at h'; cases h'; exact hs
  | ok o r => rw [e] at h'; exact h'.elim

theorem alt {a b : Gram} {s : List Token} (h : Soft eof a s) (h' : Soft eof b s) : Soft eof (.alt a b) s := by
  unfold Soft at *
  unfold run
  cases e : run (parseKind eof) a s with
  | miss =>
    simp only
    cases e' : run (parseKind eof) b s with
    | miss => trivial
    | err r' =>
      rw [e'] at h'
      have h' : stops s r' = false := h'
      simp only [h', Bool.false_eq_true, if_false]
      exact stops_self s
    | ok o r => rw [e'] at h'; exact h'.elim
  | err r' =>
    rw [e] at h
    have h : stops s r' = false := h
    simp only [h, Bool.false_eq_true, if_false]
    cases e' : run (parseKind eof) b s with
    | miss => exact stops_self s
    | err r' =>
      rw [e'] at h'
      have h' : stops s r' = false := h'
      simp only [h', Bool.false_eq_true, if_false]
      exact stops_self s
    | ok o r => rw [e'] at h'; exact h'.elim
  | ok o r => rw [e] at h; exact h.elim

theorem plus {a : Gram} {s : List Token} (h : Soft eof a s) : Soft eof (.plus a) s := by
  unfold Soft at *
  unfold run
  cases e : run (parseKind eof) a s with
  | miss => exact stops_self s
  | err r' =>
    rw [e] at h
    have h : stops s r' = false := h
    simp only [h, Bool.false_eq_true, if_false]
    exact stops_self s
  | ok o r => rw [e] at h; exact h.elim

theorem cap {f : Field} {a : Gram} {s : List Token} (h : Soft eof a s) : Soft eof (.cap f a) s := by
  unfold Soft at *
  unfold run
  cases e : run (parseKind eof) a s with
  | miss => trivial
  | err r' => rw [e] at h; exact h
  | ok o r => rw [e] at h; exact h.elim

/-- A struct fails if its production does. -/
theorem sub {f : Field} {k : Kind} {s : List Token} (h : Soft eof (Gram.of k) s) : Soft eof (.sub f k) s := by
  unfold Soft at *
  unfold run
  rw [parseKind_eq, structStep]
  cases e : run (parseKind eof) (Gram.of k) s with
  | miss => trivial
  | err r' => rw [e] at h; exact h
  | ok o r => rw [e] at h; exact h.elim

end Soft

/-! ## First tokens -/

/-- A test of a token. -/
inductive Test where
  | lit (w : Str)
  | sym (y : Sym)

/-- The token passes the test. -/
def Test.ok (t : Token) : Test → Bool
  | lit w => t.txt = w
  | sym y => t.sym = y

namespace Gram

/-- The tests that the first token of a match passes one of. -/
def firstG (fk : Kind → List Test) : Gram → List Test
  | .lit w => [.lit w]
  | .tok y => [.sym y]
  | .seq a b => firstG fk a ++ if null a then firstG fk b else []
  | .alt a b => firstG fk a ++ firstG fk b
  | .opt a | .star a | .plus a | .cap _ a => firstG fk a
  | .sub _ k => fk k

/-- The same for structs. -/
def firstK : Nat → Kind → List Test
  | 0, _ => []
  | n + 1, k => firstG (firstK n) (of k)

/-- The first tokens of a struct. -/
def first (k : Kind) : List Test := firstK 20 k

end Gram

/-- The first token passes none of the tests. -/
def NoFirst (l : List Test) (s : List Token) : Prop := ∀ t ∈ s.head?, l.any (Test.ok t) = false

omit [FloatValue] in
theorem NoFirst.append {l l' : List Test} {s : List Token} : NoFirst (l ++ l') s ↔ NoFirst l s ∧ NoFirst l' s := by
  cases s <;> simp [NoFirst]

theorem build_nullKind {m : Meta} {o : Out} {k : Kind} (h : nullKind k = true) : ∃ x, build m o k = some x := by
  cases k <;> first | exact ⟨_, rfl⟩ | cases h

theorem run_noFirst {fk : Kind → List Test} (g : Gram) (s : List Token) (hg : solid g = true)
    (hk : ∀ k ∈ lefts g, NoFirst (fk k) s →
      (nullKind k = false → (parseKind eof k s).Bare s) ∧ (nullKind k = true → ∃ x, parseKind eof k s = .ok x s))
    (h : NoFirst (firstG fk g) s) :
    (null g = false → Bare eof g s) ∧ (null g = true → ∃ o, Ok eof g s o s) := by
  induction g with
  | lit w =>
    refine ⟨fun _ => Soft.lit fun t ht => ?_, by simp [null]⟩
    simpa [firstG, Test.ok] using h t ht
  | tok y =>
    refine ⟨fun _ => Soft.tok fun t ht => ?_, by simp [null]⟩
    simpa [firstG, Test.ok] using h t ht
  | seq a b iha ihb =>
    simp only [firstG, NoFirst.append] at h
    simp only [lefts, List.mem_append] at hk
    simp only [solid, Bool.and_eq_true] at hg
    have ha := iha hg.1 (fun k h => hk k (.inl h)) h.1
    cases hn : null a with
    | false =>
      refine ⟨fun _ => ?_, by simp [null, hn]⟩
      have ha := ha.1 hn
      unfold Bare at *
      unfold run
      cases e : run (parseKind eof) a s with
      | miss => trivial
      | err r => rw [e] at ha; exact ha
      | ok o r => rw [e] at ha; exact ha.elim
    | true =>
      obtain ⟨o, ho⟩ := ha.2 hn
      have hb := ihb hg.2 (fun k h => hk k (.inr (by simpa [hn] using h))) (by simpa [hn] using h.2)
      constructor
      · intro h'
        have hb := hb.1 (by simpa [null, hn] using h')
        unfold Bare Ok at *
        unfold run
        rw [ho]
        simp only
        cases e : run (parseKind eof) b s with
        | miss => rfl
        | err r => rw [e] at hb; exact hb
        | ok o r => rw [e] at hb; exact hb.elim
      · intro h'
        obtain ⟨o', ho'⟩ := hb.2 (by simpa [null, hn] using h')
        exact ⟨_, ho.seq ho'⟩
  | alt a b iha ihb =>
    simp only [firstG, NoFirst.append] at h
    simp only [lefts, List.mem_append] at hk
    simp only [solid, Bool.and_eq_true] at hg
    have ha := iha hg.1 (fun k h => hk k (.inl h)) h.1
    have hb := ihb hg.2 (fun k h => hk k (.inr h)) h.2
    constructor
    · intro hn
      simp only [null, Bool.or_eq_false_iff] at hn
      have ha := ha.1 hn.1
      have hb := hb.1 hn.2
      unfold Bare at *
      unfold run
      cases e : run (parseKind eof) a s with
      | miss =>
        simp only
        cases e' : run (parseKind eof) b s with
        | miss => trivial
        | err r => rw [e'] at hb; cases hb; simp [stops_self, Res.Bare]
        | ok o r => rw [e'] at hb; exact hb.elim
      | err r =>
        rw [e] at ha
        cases ha
        simp only [stops_self, Bool.false_eq_true, if_false]
        cases e' : run (parseKind eof) b s with
        | miss => rfl
        | err r => rw [e'] at hb; cases hb; simp [stops_self, Res.Bare]
        | ok o r => rw [e'] at hb; exact hb.elim
      | ok o r => rw [e] at ha; exact ha.elim
    · intro hn
      cases hna : null a with
      | true =>
        obtain ⟨o, ho⟩ := ha.2 hna
        exact ⟨o, ho.altL⟩
      | false =>
        obtain ⟨o, ho⟩ := hb.2 (by simpa [null, hna] using hn)
        exact ⟨o, .altR (ha.1 hna).soft ho⟩
  | opt a iha =>
    refine ⟨by simp [null], fun _ => ?_⟩
    have ha := iha hg hk h
    cases hn : null a with
    | true =>
      obtain ⟨o, ho⟩ := ha.2 hn
      exact ⟨o, ho.once⟩
    | false => exact ⟨_, .skip (ha.1 hn).soft⟩
  | star a iha =>
    simp only [solid, Bool.and_eq_true, Bool.not_eq_true'] at hg
    exact ⟨by simp [null], fun _ => ⟨_, .nil ((iha hg.1 hk h).1 hg.2).soft⟩⟩
  | plus a iha =>
    simp only [solid, Bool.and_eq_true, Bool.not_eq_true'] at hg
    refine ⟨fun _ => ?_, by simp [null, hg.2]⟩
    have ha := (iha hg.1 hk h).1 hg.2
    unfold Bare at *
    unfold run
    cases e : run (parseKind eof) a s with
    | miss => rfl
    | err r => rw [e] at ha; cases ha; simp [stops_self, Res.Bare]
    | ok o r => rw [e] at ha; exact ha.elim
  | cap f a iha =>
    have ha := iha hg hk h
    constructor
    · intro hn
      have ha := ha.1 hn
      unfold Bare at *
      unfold run
      cases e : run (parseKind eof) a s with
      | miss => trivial
      | err r => rw [e] at ha; exact ha
      | ok o r => rw [e] at ha; exact ha.elim
    · intro hn
      obtain ⟨o, ho⟩ := ha.2 hn
      exact ⟨_, ho.cap⟩
  | sub f k =>
    have := hk k (by simp [lefts]) h
    constructor
    · intro hn
      have ha := this.1 hn
      unfold Bare
      unfold run
      cases e : parseKind eof k s with
      | miss => trivial
      | err r => rw [e] at ha; exact ha
      | ok o r => rw [e] at ha; exact ha.elim
    · intro hn
      obtain ⟨x, hx⟩ := this.2 hn
      exact ⟨_, Ok.sub hx⟩

theorem parseKind_noFirst (n : Nat) (k : Kind) (s : List Token) (hr : rank k < n) (h : NoFirst (firstK n k) s) :
    (nullKind k = false → (parseKind eof k s).Bare s) ∧ (nullKind k = true → ∃ x, parseKind eof k s = .ok x s) := by
  induction n generalizing k with
  | zero => omega
  | succ n ih =>
    have key := run_noFirst (eof := eof) (Gram.of k) s (solid_of k) (fun k' hk' h' => by
      have := lefts_rank k k' hk'
      exact ih k' (by omega) h') h
    rw [null_of] at key
    rw [parseKind_eq, structStep]
    constructor
    · intro hn
      have := key.1 hn
      unfold Bare at this
      cases e : run (parseKind eof) (Gram.of k) s with
      | miss => trivial
      | err r => rw [e] at this; exact this
      | ok o r => rw [e] at this; exact this.elim
    · intro hn
      obtain ⟨o, ho⟩ := key.2 hn
      unfold Ok at ho
      rw [ho]
      obtain ⟨x, hx⟩ := build_nullKind (m := { addr := 0, pos := posOf eof s }) (o := o) hn
      exact ⟨x, by simp only [hx]⟩

omit [FloatValue] in
theorem rank_lt' (k : Kind) : rank k < 20 := by
  cases k <;> first | decide | (rename_i l; cases l <;> decide) | simp [rank]

/-- A production that does not begin with the next token fails without having read anything. -/
theorem Bare.of {g : Gram} {s : List Token} (h : NoFirst (firstG first g) s) (hg : solid g = true := by rfl)
    (hn : null g = false := by rfl) : Bare eof g s :=
  (run_noFirst g s hg (fun k _ h => parseKind_noFirst 20 k s (rank_lt' k) h) h).1 hn

attribute [irreducible] Bare Soft

end Verif.Etx
