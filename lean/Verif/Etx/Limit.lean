import Verif.Etx.ParserLemmas

/-!
# The limit on repetitions

participle gives up (`group.Parse`: "too many iterations") when the body of a repetition has matched `MaxIterations` times,
10^6 unless the program sets it, which `/repo` does not.  `runL`, `parseKindL`, … are `run`, `parseKind`, … of
`Parser.lean` with this limit; here a repetition also goes on when its body matched nothing, as in participle.  `none` is
giving up: whether this is an error or a panic, nothing is read any more.  (As an error it would be more than `lookahead`
tokens behind the beginning of every alternative that contains the repetition, so that it is final.)
-/

namespace Verif.Etx

/-- `participle.MaxIterations` -/
def maxIterations : Nat := 1000000

/-- The loop of a repetition whose body may still match `n` times (`group.Parse`). -/
def manyL (p : List Token → Option (Res Out)) : Nat → List Token → Option (Res Out)
  | 0, _ => none
  | n + 1, s =>
    match p s with
    | none => none
    | some .miss => some (.ok {} s)
    | some (.err r) => some (if stops s r then .err r else .ok {} s)
    | some (.ok o r) =>
      match manyL p n r with
      | some (.ok o' r') => some (.ok (o ++ o') r')
      | e => e

/-- A production with at most `M` repetitions; `p` parses the structs. -/
def runL (M : Nat) (p : (k : Kind) → List Token → Option (Res (Node k))) : Gram → List Token → Option (Res Out)
  | .lit w, s =>
    match s with
    | t :: r => if t.txt = w then some (.ok ⟨[t.txt], []⟩ r) else some .miss
    | [] => some .miss
  | .tok y, s =>
    match s with
    | t :: r => if t.sym = y then some (.ok ⟨[t.txt], []⟩ r) else some .miss
    | [] => some .miss
  | .seq a b, s =>
    match runL M p a s with
    | some (.ok o r) =>
      match runL M p b r with
      | some (.ok o' r') => some (.ok (o ++ o') r')
      | some .miss => some (.err r)
      | some (.err r') => some (.err r')
      | none => none
    | e => e
  | .alt a b, s =>
    match runL M p a s with
    | none => none
    | some (.ok o r) => some (.ok o r)
    | some .miss =>
      match runL M p b s with
      | some (.err r) => some (.err (if stops s r then r else s))
      | x => x
    | some (.err r) =>
      if stops s r then some (.err r)
      else
        match runL M p b s with
        | none => none
        | some (.ok o' r') => some (.ok o' r')
        | some .miss => some (.err s)
        | some (.err r') => some (.err (if stops s r' then r' else s))
  | .opt a, s =>
    match runL M p a s with
    | none => none
    | some (.ok o r) => some (.ok o r)
    | some .miss => some (.ok {} s)
    | some (.err r) => some (if stops s r then .err r else .ok {} s)
  | .star a, s => manyL (runL M p a) M s
  | .plus a, s =>
    match runL M p a s with
    | none => none
    | some (.ok o r) =>
      match manyL (runL M p a) (M - 1) r with
      | some (.ok o' r') => some (.ok (o ++ o') r')
      | e => e
    | some .miss => some (.err s)
    | some (.err r) => some (.err (if stops s r then r else s))
  | .cap f a, s =>
    match runL M p a s with
    | some (.ok o r) => some (.ok ⟨o.txt, [.toks f o.txt]⟩ r)
    | e => e
  | .sub f k, s =>
    match p k s with
    | none => none
    | some (.ok x r) => some (.ok ⟨[], [.node f k x]⟩ r)
    | some .miss => some .miss
    | some (.err r) => some (.err r)

/-- A struct, given the parser of the structs inside (`strct.Parse`). -/
def structStepL [FloatValue] (M : Nat) (eof : Position) (p : (k : Kind) → List Token → Option (Res (Node k))) (k : Kind)
    (s : List Token) : Option (Res (Node k)) :=
  match runL M p (Gram.of k) s with
  | none => none
  | some .miss => some .miss
  | some (.err r) => some (.err r)
  | some (.ok o r) =>
    match build { addr := 0, pos := posOf eof s } o k with
    | some x => some (.ok x r)
    | none => some (.err r)

/-- A struct; `fuel` bounds the depth of the recursion. -/
def parseFuelL [FloatValue] (M : Nat) (eof : Position) : Nat → (k : Kind) → List Token → Option (Res (Node k))
  | 0, _, s => some (.err s)
  | n + 1, k, s => structStepL M eof (parseFuelL M eof n) k s

/-- A struct. -/
def parseKindL [FloatValue] (M : Nat) (eof : Position) (k : Kind) (s : List Token) : Option (Res (Node k)) :=
  parseFuelL M eof (enough s.length) k s

/-- `AST` (`ast.go:42-44`): all tokens must be read. -/
def parseTokensL [FloatValue] (M : Nat) (eof : Position) (s : List Token) : Option (Option (Node (.slice .rootItem))) :=
  match runL M (fun k s => parseKindL M eof k s) (.star (.sub .items .rootItem)) s with
  | none => none
  | some (.ok o []) => some (some (o.slice .items))
  | _ => some none

/-- `parser().ParseString` (`parser.go:37-38`): lexing and parsing. -/
def parseTreeL [FloatValue] (M : Nat) (s : Str) : Option (Option (Node (.slice .rootItem))) :=
  match lex s with
  | none => some none
  | some ts => parseTokensL M (Position.start.advance s) ts

/-- `parser.go:35-44`, `none` if participle gives up. -/
def parseStringL [FloatValue] (M : Nat) (s : Str) : Option (Outcome AST) :=
  match parseTreeL M s with
  | none => none
  | some none => some .error
  | some (some items) =>
    some (match AST.updateParentRefs ⟨0, (items.place 1).1⟩ with
    | none => .panic
    | some t => .ok t)

/-! ## Comparison with the parser without the limit -/

open Gram

/-- `x` is `y`, or, unless `b`, nothing. -/
def Agree {α : Type} (b : Bool) (x : Option α) (y : α) : Prop := x = some y ∨ b = false ∧ x = none

theorem Agree.some {α : Type} (b : Bool) (y : α) : Agree b (some y) y := .inl rfl

theorem manyL_agree {b : Bool} {p : List Token → Res Out} {pL : List Token → Option (Res Out)} {N : Nat}
    (_hp : ∀ s, (p s).Suffix s) (hprog : ∀ s o r, p s = .ok o r → r.length < s.length)
    (hA : ∀ s, s.length ≤ N → Agree b (pL s) (p s)) (n fuel : Nat) (s : List Token) (hN : s.length ≤ N)
    (hn : b = true → s.length < n) (hf : s.length < fuel) : Agree b (manyL pL n s) (many p fuel s) := by
  induction n generalizing s fuel with
  | zero =>
    cases b with
    | true => exact absurd (hn rfl) (Nat.not_lt_zero _)
    | false => exact .inr ⟨rfl, rfl⟩
  | succ n ih =>
    cases fuel with
    | zero => omega
    | succ fuel =>
      unfold manyL many
      rcases hA s hN with h | ⟨hb, h⟩
      · rw [h]
        cases e : p s with
        | miss => exact .some _ _
        | err r =>
          simp only
          split <;> exact .some _ _
        | ok o r =>
          have hlt := hprog s o r e
          simp only [hlt, if_true]
          rcases ih fuel r (by omega) (fun hb => by have := hn hb; omega) (by omega) with h' | ⟨hb, h'⟩
          · rw [h']
            cases many p fuel r <;> exact .some _ _
          · rw [h']; exact .inr ⟨hb, rfl⟩
      · rw [h]; exact .inr ⟨hb, rfl⟩

theorem runL_agree {b : Bool} {M N : Nat} {p : (k : Kind) → List Token → Res (Node k)}
    {pL : (k : Kind) → List Token → Option (Res (Node k))} (hp : ∀ k s, (p k s).Suffix s) (hg : Progress p)
    (hA : ∀ k s, s.length ≤ N → Agree b (pL k s) (p k s)) (hM : b = true → N < M) (g : Gram) (hsol : solid g = true)
    (s : List Token) (hN : s.length ≤ N) : Agree b (runL M pL g s) (run p g s) := by
  induction g generalizing s with
  | lit w =>
    unfold runL run
    cases s with
    | nil => exact .some _ _
    | cons t r => simp only; split <;> exact .some _ _
  | tok y =>
    unfold runL run
    cases s with
    | nil => exact .some _ _
    | cons t r => simp only; split <;> exact .some _ _
  | seq a c iha ihc =>
    simp only [solid, Bool.and_eq_true] at hsol
    unfold runL run
    rcases iha hsol.1 s hN with h | ⟨hb, h⟩
    · rw [h]
      have hs := run_suffix hp a s
      cases e : run p a s with
      | miss => exact .some _ _
      | err r => exact .some _ _
      | ok o r =>
        rw [e] at hs
        simp only
        rcases ihc hsol.2 r (Nat.le_trans (suffix_le hs) hN) with h' | ⟨hb, h'⟩
        · rw [h']; cases run p c r <;> exact .some _ _
        · rw [h']; exact .inr ⟨hb, rfl⟩
    · rw [h]; exact .inr ⟨hb, rfl⟩
  | alt a c iha ihc =>
    simp only [solid, Bool.and_eq_true] at hsol
    unfold runL run
    rcases iha hsol.1 s hN with h | ⟨hb, h⟩
    · rw [h]
      cases e : run p a s with
      | ok o r => exact .some _ _
      | miss =>
        simp only
        rcases ihc hsol.2 s hN with h' | ⟨hb, h'⟩
        · rw [h']; cases run p c s <;> exact .some _ _
        · rw [h']; exact .inr ⟨hb, rfl⟩
      | err r =>
        simp only
        split
        · exact .some _ _
        · rcases ihc hsol.2 s hN with h' | ⟨hb, h'⟩
          · rw [h']; cases run p c s <;> exact .some _ _
          · rw [h']; exact .inr ⟨hb, rfl⟩
    · rw [h]; exact .inr ⟨hb, rfl⟩
  | opt a iha =>
    unfold runL run
    rcases iha hsol s hN with h | ⟨hb, h⟩
    · rw [h]
      cases run p a s with
      | ok o r => exact .some _ _
      | miss => exact .some _ _
      | err r => simp only; split <;> exact .some _ _
    · rw [h]; exact .inr ⟨hb, rfl⟩
  | star a iha =>
    simp only [solid, Bool.and_eq_true, Bool.not_eq_true'] at hsol
    unfold runL run
    refine manyL_agree (run_suffix hp a) ?_ (fun s hs => iha hsol.1 s hs) _ _ s hN (fun hb => ?_) (Nat.lt_succ_self _)
    · intro s o r h
      exact (run_progress hp hg a s r o h).resolve_left (by rw [hsol.2]; simp)
    · have := hM hb; omega
  | plus a iha =>
    simp only [solid, Bool.and_eq_true, Bool.not_eq_true'] at hsol
    have hprog : ∀ s o r, run p a s = .ok o r → r.length < s.length := fun s o r h =>
      (run_progress hp hg a s r o h).resolve_left (by rw [hsol.2]; simp)
    unfold runL run
    rcases iha hsol.1 s hN with h | ⟨hb, h⟩
    · rw [h]
      cases e : run p a s with
      | miss => exact .some _ _
      | err r => exact .some _ _
      | ok o r =>
        have hlt := hprog s o r e
        simp only
        rcases manyL_agree (b := b) (pL := runL M pL a) (run_suffix hp a) hprog (fun s hs => iha hsol.1 s hs) (M - 1) (r.length + 1) r
          (by omega) (fun hb => by have := hM hb; omega) (Nat.lt_succ_self _) with h' | ⟨hb, h'⟩
        · rw [h']; cases many (run p a) (r.length + 1) r <;> exact .some _ _
        · rw [h']; exact .inr ⟨hb, rfl⟩
    · rw [h]; exact .inr ⟨hb, rfl⟩
  | cap f a iha =>
    unfold runL run
    rcases iha hsol s hN with h | ⟨hb, h⟩
    · rw [h]; cases run p a s <;> exact .some _ _
    · rw [h]; exact .inr ⟨hb, rfl⟩
  | sub f k =>
    unfold runL run
    rcases hA k s hN with h | ⟨hb, h⟩
    · rw [h]; cases p k s <;> exact .some _ _
    · rw [h]; exact .inr ⟨hb, rfl⟩

theorem parseFuelL_agree [FloatValue] {b : Bool} {M N : Nat} (hM : b = true → N < M) (eof : Position) (n : Nat) (k : Kind)
    (s : List Token) (hN : s.length ≤ N) : Agree b (parseFuelL M eof n k s) (parseFuel eof n k s) := by
  induction n generalizing k s with
  | zero => exact .some _ _
  | succ n ih =>
    unfold parseFuelL parseFuel structStepL structStep
    rcases runL_agree (parseFuel_suffix eof n) (parseFuel_progress eof n) ih hM (of k) (solid_of k) s hN with h | ⟨hb, h⟩
    · rw [h]
      cases run (parseFuel eof n) (of k) s with
      | miss => exact .some _ _
      | err r => exact .some _ _
      | ok o r =>
        simp only
        cases build { addr := 0, pos := posOf eof s } o k <;> exact .some _ _
    · rw [h]; exact .inr ⟨hb, rfl⟩

theorem parseTokensL_agree [FloatValue] {b : Bool} {M : Nat} (eof : Position) (s : List Token) (hM : b = true → s.length < M) :
    Agree b (parseTokensL M eof s) (parseTokens eof s) := by
  unfold parseTokensL parseTokens
  rcases runL_agree (p := fun k s => parseKind eof k s) (parseKind_suffix eof) (parseKind_progress eof)
    (fun k s hs => parseFuelL_agree hM eof (enough s.length) k s hs) hM (.star (.sub .items .rootItem)) rfl s (Nat.le_refl _)
    with h | ⟨hb, h⟩
  · have h' : runL M (fun k s => parseKindL M eof k s) (.star (.sub .items .rootItem)) s =
      some (run (fun k s => parseKind eof k s) (.star (.sub .items .rootItem)) s) := h
    rw [h']
    cases run (fun k s => parseKind eof k s) (.star (.sub .items .rootItem)) s with
    | miss => exact .some _ _
    | err r => exact .some _ _
    | ok o r => cases r <;> exact .some _ _
  · have h' : runL M (fun k s => parseKindL M eof k s) (.star (.sub .items .rootItem)) s = none := h
    rw [h']; exact .inr ⟨hb, rfl⟩

theorem parseStringL_agree [FloatValue] {b : Bool} {M : Nat} (s : Str) (hM : b = true → ∀ ts, lex s = some ts → ts.length < M) :
    Agree b (parseStringL M s) (parseString s) := by
  unfold parseStringL parseString parseTreeL parseTree
  cases hl : lex s with
  | none => exact .some _ _
  | some ts =>
    show Agree b _ (match parseTokens (Position.start.advance s) ts with
      | none => Outcome.error
      | some items => _)
    simp only
    rcases parseTokensL_agree (b := b) (M := M) (Position.start.advance s) ts (fun hb => hM hb ts hl) with h | ⟨hb, h⟩
    · rw [h]
      cases parseTokens (Position.start.advance s) ts <;> exact .some _ _
    · rw [h]; exact .inr ⟨hb, rfl⟩

/-! ## The recursion -/

theorem manyL_congr {p q : List Token → Option (Res Out)} (n : Nat) (s : List Token)
    (h : ∀ r, r <:+ s → p r = q r) (hp : ∀ s x, p s = some x → x.Suffix s) : manyL p n s = manyL q n s := by
  induction n generalizing s with
  | zero => rfl
  | succ n ih =>
    unfold manyL
    rw [← h s (List.suffix_refl _)]
    cases e : p s with
    | none => rfl
    | some x =>
      have hs := hp s x e
      cases x with
      | miss => rfl
      | err r => rfl
      | ok o r =>
        simp only
        rw [ih r (fun r' hr' => h r' (hr'.trans hs))]

theorem runL_congr {M : Nat} {p q : (k : Kind) → List Token → Option (Res (Node k))}
    {p' : (k : Kind) → List Token → Res (Node k)} (hA : ∀ k s, Agree false (p k s) (p' k s))
    (hp : ∀ k s, (p' k s).Suffix s) (hg : Progress p')
    (g : Gram) (hsol : solid g = true) (s : List Token) (h1 : ∀ k r, r.length < s.length → p k r = q k r)
    (h2 : ∀ k ∈ lefts g, p k s = q k s) : runL M p g s = runL M q g s := by
  have some' : ∀ {g : Gram} (_ : solid g = true) {s : List Token} {x : Res Out}, runL M p g s = some x → run p' g s = x := by
    intro g hsol s x h
    rcases runL_agree (b := false) (M := M) (N := s.length) hp hg (fun k s _ => hA k s) (fun h => by cases h) g hsol s (Nat.le_refl _)
      with h' | ⟨-, h'⟩
    · rw [h] at h'; exact (Option.some.inj h').symm
    · rw [h] at h'; cases h'
  have suf : ∀ {g : Gram} (_ : solid g = true) {s : List Token} {x : Res Out}, runL M p g s = some x → x.Suffix s := by
    intro g hsol s x h
    rw [← some' hsol h]; exact run_suffix hp g s
  have short : ∀ (g : Gram) (r : List Token), r <:+ s → (∀ k ∈ lefts g, p k s = q k s) → ∀ k ∈ lefts g, p k r = q k r := by
    intro g r hr h k hk
    rcases Nat.lt_or_ge r.length s.length with hlt | hge
    · exact h1 k r hlt
    · rw [hr.eq_of_length_le hge]
      exact h k hk
  induction g generalizing s with
  | lit w => unfold runL; rfl
  | tok y => unfold runL; rfl
  | seq a b iha ihb =>
    simp only [solid, Bool.and_eq_true] at hsol
    simp only [lefts, List.mem_append] at h2
    have ha := iha hsol.1 s h1 (fun k hk => h2 k (.inl hk)) short
    unfold runL
    rw [← ha]
    cases ea : runL M p a s with
    | none => rfl
    | some x =>
      have hs := suf hsol.1 ea
      cases x with
      | miss => rfl
      | err r => rfl
      | ok o r =>
        simp only
        rw [ihb hsol.2 r]
        · intro k r' hr'
          exact h1 k r' (Nat.lt_of_lt_of_le hr' (suffix_le hs))
        · intro k hk
          rcases run_progress hp hg _ _ _ _ (some' hsol.1 ea) with hn | hlt
          · refine short b r hs ?_ k hk
            intro k hk
            exact h2 k (.inr (by simpa [hn] using hk))
          · exact h1 k r hlt
        · intro g r' hr' h k hk
          rcases Nat.lt_or_ge r'.length r.length with hlt | hge
          · exact h1 k r' (Nat.lt_of_lt_of_le hlt (suffix_le hs))
          · rw [hr'.eq_of_length_le hge]
            exact h k hk
  | alt a b iha ihb =>
    simp only [solid, Bool.and_eq_true] at hsol
    simp only [lefts, List.mem_append] at h2
    have ha := iha hsol.1 s h1 (fun k hk => h2 k (.inl hk)) short
    have hb := ihb hsol.2 s h1 (fun k hk => h2 k (.inr hk)) short
    unfold runL
    rw [← ha, ← hb]
  | opt a iha =>
    have ha := iha hsol s h1 h2 short
    unfold runL
    rw [← ha]
  | star a iha =>
    simp only [solid, Bool.and_eq_true] at hsol
    unfold runL
    refine manyL_congr _ _ ?_ (fun s x => suf hsol.1)
    intro r hrs
    have hr := suffix_le hrs
    refine iha hsol.1 r (fun k r' hr' => h1 k r' (Nat.lt_of_lt_of_le hr' hr)) (short a r hrs h2) ?_
    intro g r' hr' h k hk
    rcases Nat.lt_or_ge r'.length r.length with hlt | hge
    · exact h1 k r' (Nat.lt_of_lt_of_le hlt hr)
    · rw [hr'.eq_of_length_le hge]
      exact h k hk
  | plus a iha =>
    simp only [solid, Bool.and_eq_true] at hsol
    have ha := iha hsol.1 s h1 h2 short
    unfold runL
    rw [← ha]
    cases ea : runL M p a s with
    | none => rfl
    | some x =>
      have hs := suf hsol.1 ea
      cases x with
      | miss => rfl
      | err r => rfl
      | ok o r =>
        simp only
        rw [manyL_congr (p := runL M p a) (q := runL M q a) _ _ ?_ (fun s x => suf hsol.1)]
        intro r' hrs
        have hr := Nat.le_trans (suffix_le hrs) (suffix_le hs)
        refine iha hsol.1 r' (fun k r'' hr' => h1 k r'' (Nat.lt_of_lt_of_le hr' hr)) (short a r' (hrs.trans hs) h2) ?_
        intro g r'' hr' h k hk
        rcases Nat.lt_or_ge r''.length r'.length with hlt | hge
        · exact h1 k r'' (Nat.lt_of_lt_of_le hlt hr)
        · rw [hr'.eq_of_length_le hge]
          exact h k hk
  | cap f a iha =>
    have ha := iha hsol s h1 h2 short
    unfold runL
    rw [← ha]
  | sub f k =>
    unfold runL
    rw [h2 k (by simp [lefts])]

theorem parseFuelL_cut [FloatValue] (M : Nat) (eof : Position) (n : Nat) (k : Kind) (s : List Token) :
    Agree false (parseFuelL M eof n k s) (parseFuel eof n k s) :=
  parseFuelL_agree (N := s.length) (fun h => by cases h) eof n k s (Nat.le_refl _)

theorem parseFuelL_enough [FloatValue] (M : Nat) (eof : Position) (n m : Nat) (k : Kind) (s : List Token)
    (hn : 32 * s.length + rank k < n) (hm : 32 * s.length + rank k < m) : parseFuelL M eof n k s = parseFuelL M eof m k s := by
  induction n generalizing m k s with
  | zero => omega
  | succ n ih =>
    cases m with
    | zero => omega
    | succ m =>
      unfold parseFuelL structStepL
      rw [runL_congr (q := parseFuelL M eof m) (parseFuelL_cut M eof n) (parseFuel_suffix eof n) (parseFuel_progress eof n)
        _ (solid_of k)]
      · intro k' r hr
        have := rank_lt k'
        exact ih m k' r (by omega) (by omega)
      · intro k' hk'
        have := lefts_rank k k' hk'
        exact ih m k' s (by omega) (by omega)

/-- A struct is parsed by its production, with the structs inside parsed likewise. -/
theorem parseKindL_eq [FloatValue] (M : Nat) (eof : Position) (k : Kind) (s : List Token) :
    parseKindL M eof k s = structStepL M eof (parseKindL M eof) k s := by
  have e : enough s.length = (32 * s.length + 31) + 1 := by unfold enough; omega
  conv => lhs; unfold parseKindL
  rw [e]
  conv => lhs; unfold parseFuelL
  unfold structStepL
  rw [runL_congr (q := parseKindL M eof) (parseFuelL_cut M eof _) (parseFuel_suffix eof _) (parseFuel_progress eof _) _ (solid_of k)]
  · intro k' r hr
    have := rank_lt k'
    exact parseFuelL_enough M eof _ _ k' r (by omega) (by unfold enough; omega)
  · intro k' hk'
    have := lefts_rank k k' hk'
    have := rank_lt k
    exact parseFuelL_enough M eof _ _ k' s (by omega) (by unfold enough; omega)

/-! ## Too many items -/

theorem Out.nodes_append (a b : Out) (f : Field) (k : Kind) : (a ++ b).nodes f k = a.nodes f k ++ b.nodes f k := by
  show (Out.append a b).nodes f k = _
  unfold Out.append Out.nodes
  simp only [List.flatMap_append]

theorem manyL_too_many {M : Nat} {p : (k : Kind) → List Token → Res (Node k)}
    {pL : (k : Kind) → List Token → Option (Res (Node k))} (hA : ∀ k s, Agree false (pL k s) (p k s)) (f : Field) (k : Kind)
    (n fuel : Nat) (s r : List Token) (o : Out) (h : many (run p (.sub f k)) fuel s = .ok o r) (hn : n ≤ (o.nodes f k).length) :
    manyL (runL M pL (.sub f k)) n s = none := by
  induction n generalizing fuel s r o with
  | zero => rfl
  | succ n ih =>
    cases fuel with
    | zero =>
      unfold many at h
      cases h
      simp [Out.nodes] at hn
    | succ fuel =>
      unfold many at h
      unfold manyL
      have e : run p (.sub f k) s = (match p k s with
        | .ok x r => .ok ⟨[], [.node f k x]⟩ r
        | .miss => .miss
        | .err r => .err r) := rfl
      have eL : runL M pL (.sub f k) s = (match pL k s with
        | none => none
        | some (.ok x r) => some (.ok ⟨[], [.node f k x]⟩ r)
        | some .miss => some .miss
        | some (.err r) => some (.err r)) := rfl
      rw [e] at h
      rw [eL]
      rcases hA k s with h' | ⟨-, h'⟩
      · rw [h']
        cases hx : p k s with
        | miss =>
          rw [hx] at h
          cases h
          simp [Out.nodes] at hn
        | err r =>
          rw [hx] at h
          simp only at h
          split at h
          · cases h
          · cases h; simp [Out.nodes] at hn
        | ok x r1 =>
          rw [hx] at h
          simp only at h ⊢
          have one : (Out.nodes ⟨[], [.node f k x]⟩ f k).length = 1 := by simp [Out.nodes]
          split at h
          · cases hm : many (run p (.sub f k)) fuel r1 with
            | miss => rw [hm] at h; cases h
            | err r => rw [hm] at h; cases h
            | ok o' r' =>
              rw [hm] at h
              cases h
              rw [Out.nodes_append, List.length_append, one] at hn
              rw [ih fuel r1 _ o' hm (by omega)]
          · cases h
            have : n = 0 := by omega
            subst this
            rfl
      · rw [h']

theorem parseTokensL_too_many [FloatValue] {M : Nat} (eof : Position) (s : List Token) (x : Node (.slice .rootItem))
    (h : parseTokens eof s = some x) (hx : M ≤ x.elems.length) : parseTokensL M eof s = none := by
  unfold parseTokens at h
  unfold parseTokensL
  cases hr : run (fun k s => parseKind eof k s) (.star (.sub .items .rootItem)) s with
  | miss => rw [hr] at h; cases h
  | err r => rw [hr] at h; cases h
  | ok o r =>
    cases r with
    | cons => rw [hr] at h; cases h
    | nil =>
      rw [hr] at h
      cases h
      have hn : M ≤ (o.nodes .items .rootItem).length := by
        have items_len : ∀ l : List (Node .rootItem), (Out.items l).elems.length = l.length := by
          intro l
          induction l with
          | nil => rfl
          | cons a l ih => simp [Out.items, Node.elems, ih]
        unfold Out.slice at hx
        cases hl : o.nodes .items .rootItem with
        | nil => rw [hl] at hx; exact hx
        | cons a l => rw [hl] at hx; rw [← items_len]; exact hx
      have hm : runL M (fun k s => parseKindL M eof k s) (.star (.sub .items .rootItem)) s = none := by
        unfold runL
        unfold run at hr
        exact manyL_too_many (p := fun k s => parseKind eof k s)
          (fun k s => parseFuelL_cut M eof (enough s.length) k s) .items .rootItem M _ s [] o hr hn
      rw [hm]

end Verif.Etx
