import Verif.Etx.ParserLemmas
import Verif.Props.LexCore
import Verif.KernelRfl

/-! # Property C52: the recursive descent ends -/

namespace Verif.Etx
open Gram

variable [FloatValue]

/-- `parseTree` with at most `n` structs inside each other. -/
def parseDepth (n : Nat) (s : Str) : Option (Node (.slice .rootItem)) := do
  match run (parseFuel (Position.start.advance s) n) (.star (.sub .items .rootItem)) (← lex s) with
  | .ok o [] => some (o.slice .items)
  | _ => none

/-- The equations of the recursive descent: each struct is parsed by its production, in which the structs are parsed
likewise. -/
def Descends (eof : Position) (p : (k : Kind) → List Token → Res (Node k)) : Prop :=
  ∀ k s, p k s = structStep eof p k s

theorem descends_unique (eof : Position) (q : (k : Kind) → List Token → Res (Node k)) (hq : Descends eof q) (n : Nat)
    (k : Kind) (s : List Token) (hn : 32 * s.length + rank k < n) : parseKind eof k s = q k s := by
  induction n generalizing k s with
  | zero => omega
  | succ n ih =>
    rw [parseKind_eq, hq k s]
    unfold structStep
    rw [run_congr (q := q) (parseKind_suffix eof) (parseKind_progress eof)]
    · intro k' r hr
      have := rank_lt k'
      exact ih k' r (by omega)
    · intro k' hk'
      have := lefts_rank k k' hk'
      exact ih k' s (by omega)

/-- **C52.** The equations of the recursive descent have one solution: the parser of the model, which is defined by recursion
on a number, is what the recursion of the code computes, and this recursion always ends. -/
theorem C52_descent (eof : Position) (p : (k : Kind) → List Token → Res (Node k)) :
    Descends eof p ↔ p = parseKind eof := by
  constructor
  · intro h
    funext k s
    exact (descends_unique eof p h _ k s (Nat.lt_succ_self _)).symm
  · rintro rfl
    exact parseKind_eq eof

/-- It never is deeper than 32 structs for each token, however the text is written: with more room the parse gives the
same. -/
theorem C52_depth (s : Str) (ts : List Token) (h : lex s = some ts) (n : Nat) (hn : 32 * (ts.length + 1) ≤ n) :
    parseDepth n s = parseTree s := by
  unfold parseDepth parseTree
  rw [h]
  show (match run (parseFuel (Position.start.advance s) n) (.star (.sub .items .rootItem)) ts with
    | .ok o [] => some (o.slice .items)
    | _ => none) = parseTokens _ ts
  unfold parseTokens
  rw [run_congr (q := parseKind (Position.start.advance s)) (parseFuel_suffix _ n) (parseFuel_progress _ n)]
  · rfl
  · intro k r hr
    have := rank_lt k
    exact parseFuel_enough _ _ _ k r (by omega) (by unfold enough; omega)
  · intro k hk
    have := rank_lt k
    exact parseFuel_enough _ _ _ k ts (by omega) (by unfold enough; omega)

omit [FloatValue] in
theorem Pieces.length_le {pre s : Str} {ts : List Token} (h : Pieces pre s ts) : ts.length ≤ s.length := by
  induction h with
  | done => simp
  | blank => simp only [List.length_append]; omega
  | token _ t _ _ hne _ _ ih =>
    have := List.length_pos_iff.mpr hne
    simp only [List.length_cons, List.length_append]
    omega

/-- … hence not deeper than 32 structs for each character. -/
theorem C52_depth_chars (s : Str) (n : Nat) (hn : 32 * (s.length + 1) ≤ n) : parseDepth n s = parseTree s := by
  cases h : lex s with
  | none =>
    unfold parseDepth parseTree
    rw [h]
    rfl
  | some ts =>
    have := (C39_lossless s ts h).length_le
    exact C52_depth s ts h n (by omega)

/-- The depth of the structs matters: an attribute with an identifier as its value is 18 structs deep. -/
example : (parseDepth 17 c!"x = a\n").isSome = false ∧ (parseDepth 18 c!"x = a\n").isSome = true := by
  constructor <;> kernel_rfl

end Verif.Etx
