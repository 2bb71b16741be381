import Verif.Etx.Steps
import Verif.Props.LexStrings
import Verif.KernelRfl

/-! # Property C67: the work of reading a text -/

namespace Verif.Etx
open Gram

variable [FloatValue]

/-- The comparisons of tokens that `ParseString` makes for a text. -/
def comparisons (s : Str) : Nat :=
  match lex s with
  | some ts => (workTokens (Position.start.advance s) ts).steps
  | none => 0

/-- The tokens that `ParseString` goes back over for a text. -/
def backtracked (s : Str) : Nat :=
  match lex s with
  | some ts => (workTokens (Position.start.advance s) ts).back
  | none => 0

/-- **C67, the full claim.** The comparisons grow at most as a polynomial of the number of tokens. -/
def C67_full : Prop := ∃ c d : Nat, ∀ s ts, lex s = some ts → comparisons s ≤ c * (ts.length + 1) ^ d

/-- **C67, what holds.** The comparisons are linear in the tokens and the tokens gone back over. -/
theorem C67_linear_partial (s : Str) (ts : List Token) (h : lex s = some ts) :
    comparisons s ≤ 66 * (ts.length + backtracked s) + 11 := by
  unfold comparisons backtracked
  rw [h]
  exact workTokens_le _ _

/-! ## A text with exponential work -/

section
variable {eof : Position}

theorem Bare.alt {a b : Gram} {s : List Token} (h : Soft eof a s) (h' : Soft eof b s) : Bare eof (.alt a b) s := by
  unfold Soft at h h'
  unfold Bare
  rw [run]
  cases e : run (parseKind eof) a s with
  | miss =>
    cases e' : run (parseKind eof) b s with
    | miss => trivial
    | err r =>
      rw [e'] at h'
      have h' : stops s r = false := h'
      simp only [h', Bool.false_eq_true, if_false]
      rfl
    | ok o r => rw [e'] at h'; exact h'.elim
  | err r =>
    rw [e] at h
    have h : stops s r = false := h
    simp only [h, Bool.false_eq_true, if_false]
    cases e' : run (parseKind eof) b s with
    | miss => rfl
    | err r =>
      rw [e'] at h'
      have h' : stops s r = false := h'
      simp only [h', Bool.false_eq_true, if_false]
      rfl
    | ok o r => rw [e'] at h'; exact h'.elim
  | ok o r => rw [e] at h; exact h.elim

theorem Bare.seqL {a b : Gram} {s : List Token} (h : Bare eof a s) : Bare eof (.seq a b) s := by
  unfold Bare at *
  rw [run]
  cases e : run (parseKind eof) a s with
  | miss => trivial
  | err r => rw [e] at h; exact h
  | ok o r => rw [e] at h; exact h.elim

theorem Bare.sub {f : Field} {k : Kind} {s : List Token} (h : Bare eof (Gram.of k) s) : Bare eof (.sub f k) s := by
  unfold Bare at *
  rw [run, parseKind_eq, structStep]
  cases e : run (parseKind eof) (Gram.of k) s with
  | miss => trivial
  | err r => rw [e] at h; exact h
  | ok o r => rw [e] at h; exact h.elim

theorem Soft.seqRR {a b c : Gram} {s s' r : List Token} {o o' : Out} (h : Ok eof a s o s') (h' : Ok eof b s' o' r)
    (hc : Bare eof c r) (hl : s.length ≤ r.length + lookahead) : Soft eof (.seq a (.seq b c)) s := by
  unfold Ok at h h'
  unfold Soft Bare at *
  have hs : stops s r = false := by simpa [stops] using hl
  rw [run, h]
  simp only
  rw [run, h']
  simp only
  cases e : run (parseKind eof) c r with
  | miss => exact hs
  | err r' => rw [e] at hc; cases hc; exact hs
  | ok o r => rw [e] at hc; exact hc.elim

/-- The comparisons of a production. -/
def steps (eof : Position) (g : Gram) (s : List Token) : Nat := (work (parseKind eof) (workKind eof) g s).steps

theorem steps_seqL {a b : Gram} {s : List Token} : steps eof a s ≤ steps eof (.seq a b) s := by
  unfold steps
  rw [work, Work.steps_add]
  omega

theorem steps_seq {a b : Gram} {s r : List Token} {o : Out} (h : Ok eof a s o r) :
    steps eof (.seq a b) s = steps eof a s + steps eof b r := by
  unfold Ok at h
  unfold steps
  rw [work, h]
  rfl

theorem steps_seqR {a b : Gram} {s r : List Token} {o : Out} (h : Ok eof a s o r) : steps eof b r ≤ steps eof (.seq a b) s := by
  rw [steps_seq h]
  omega

theorem steps_altL {a b : Gram} {s : List Token} : steps eof a s ≤ steps eof (.alt a b) s := by
  unfold steps
  rw [work, Work.steps_add, Work.steps_add]
  omega

theorem steps_altR {a b : Gram} {s : List Token} (h : Soft eof a s) : steps eof b s ≤ steps eof (.alt a b) s := by
  unfold Soft at h
  unfold steps
  rw [work, Work.steps_add, Work.steps_add]
  cases e : run (parseKind eof) a s with
  | miss => simp only [Work.steps_add]; omega
  | err r =>
    rw [e] at h
    have h : stops s r = false := h
    simp only [h, Bool.false_eq_true, if_false, Work.steps_add]
    omega
  | ok o r => rw [e] at h; exact h.elim

theorem steps_opt {a : Gram} {s : List Token} : steps eof a s ≤ steps eof (.opt a) s := by
  unfold steps
  rw [work, Work.steps_add]
  omega

theorem steps_star {a : Gram} {s : List Token} : steps eof a s ≤ steps eof (.star a) s := by
  unfold steps
  rw [work, manyWork, Work.steps_add, Work.steps_add]
  omega

theorem steps_sub {f : Field} {k : Kind} {s : List Token} : steps eof (.sub f k) s = steps eof (of k) s := by
  unfold steps
  rw [work, workKind_eq]

/-- The tokens of `a.(a.(a.(…`. -/
inductive Ladder : Nat → List Token → Prop where
  | nil : Ladder 0 []
  | cons {n : Nat} {a d p : Token} {r : List Token} : (a.sym, a.txt) = (.ident, c!"a") → (d.sym, d.txt) = (.dot, c!".") →
      (p.sym, p.txt) = (.opLParen, c!"(") → Ladder n r → Ladder (n + 1) (a :: d :: p :: r)

omit [FloatValue] in
/-- The first token decides. -/
theorem noFirst_cons {l : List Test} {t : Token} {y : Sym} {w : Str} {r : List Token} (h : (t.sym, t.txt) = (y, w))
    (hl : l.any (Test.ok ⟨y, w, {}⟩) = false) : NoFirst l (t :: r) := by
  obtain ⟨y', w', p⟩ := t
  cases h
  intro t ht
  cases ht
  rw [← hl]
  congr 1

/-- A struct is read, whatever it is. -/
def Read (eof : Position) (k : Kind) (s r : List Token) : Prop := ∃ x : Node k, OkKind eof s x r

variable {a d p : Token} {r : List Token}

theorem read_ident (ha : (a.sym, a.txt) = (.ident, c!"a")) (hd : (d.sym, d.txt) = (.dot, c!"."))
    (hp : (p.sym, p.txt) = (.opLParen, c!"(")) : Read eof .ident (a :: d :: p :: r) (d :: p :: r) := by
  refine ⟨_, OkKind.mk (Ok.seq (Ok.tok (Prod.mk.inj ha).1).cap (Ok.once (Ok.nil ?_))) rfl⟩
  refine Soft.seqR (Ok.lit (Prod.mk.inj hd).2) (Bare.of (noFirst_cons hp (by rfl))) ?_
  simp [lookahead]

/-- What follows the dot is not read. -/
theorem soft_post (hd : (d.sym, d.txt) = (.dot, c!".")) (h : Bare eof (of .postfixE) (p :: r)) (f : Field) :
    Soft eof (.seq (.lit c!".") (.sub f .postfixE)) (d :: p :: r) :=
  Soft.seqR (Ok.lit (Prod.mk.inj hd).2) h.sub (by simp [lookahead])

theorem read_primary (ha : (a.sym, a.txt) = (.ident, c!"a")) (hd : (d.sym, d.txt) = (.dot, c!"."))
    (hp : (p.sym, p.txt) = (.opLParen, c!"(")) (h : Bare eof (of .postfixE) (p :: r)) :
    Read eof .primary (a :: d :: p :: r) (d :: p :: r) := by
  obtain ⟨x, hx⟩ := read_ident (eof := eof) (r := r) ha hd hp
  refine ⟨_, OkKind.mk (Ok.altR (Bare.of (noFirst_cons ha (by rfl))).soft (Ok.altR (Bare.of (noFirst_cons ha (by rfl))).soft
    (Ok.seq (Ok.sub hx) (Ok.seq (Ok.skip (Bare.of (noFirst_cons hd (by rfl))).soft) (Ok.skip (soft_post hd h _)))))) rfl⟩

theorem read_postfixE (ha : (a.sym, a.txt) = (.ident, c!"a")) (hd : (d.sym, d.txt) = (.dot, c!"."))
    (hp : (p.sym, p.txt) = (.opLParen, c!"(")) (h : Bare eof (of .postfixE) (p :: r)) :
    Read eof .postfixE (a :: d :: p :: r) (d :: p :: r) := by
  obtain ⟨x, hx⟩ := read_primary (eof := eof) (r := r) ha hd hp h
  exact ⟨_, OkKind.mk (Ok.seq (Ok.sub hx) (Ok.seq (Ok.skip (Bare.of (noFirst_cons hd (by rfl))).soft) (Ok.skip (soft_post hd h _))))
    rfl⟩

theorem read_bin (l : Level) (hd : (d.sym, d.txt) = (.dot, c!".")) {s : List Token} (h : Read eof l.operand s (d :: r)) :
    Read eof (.bin l) s (d :: r) := by
  obtain ⟨x, hx⟩ := h
  cases l <;> exact ⟨_, OkKind.mk (Ok.seq (Ok.sub hx) (Ok.skip (Bare.of (noFirst_cons hd (by rfl))).soft)) rfl⟩

/-- `a` is read as an expression if what follows the dot is not. -/
theorem read_expr (ha : (a.sym, a.txt) = (.ident, c!"a")) (hd : (d.sym, d.txt) = (.dot, c!"."))
    (hp : (p.sym, p.txt) = (.opLParen, c!"(")) (h : Bare eof (of .postfixE) (p :: r)) :
    Read eof .expr (a :: d :: p :: r) (d :: p :: r) := by
  obtain ⟨x, hx⟩ := read_postfixE (eof := eof) (r := r) ha hd hp h
  have hu : Read eof .unary (a :: d :: p :: r) (d :: p :: r) :=
    ⟨_, OkKind.mk (Ok.seq (Ok.skip (Bare.of (noFirst_cons ha (by rfl))).soft) (Ok.sub hx)) rfl⟩
  obtain ⟨y, hy⟩ := read_bin .logicalOr hd (read_bin .logicalAnd hd (read_bin .bitwiseOr hd (read_bin .bitwiseXor hd
    (read_bin .bitwiseAnd hd (read_bin .equality hd (read_bin .relational hd (read_bin .shift hd (read_bin .additive hd
    (read_bin .multiplicative hd hu)))))))))
  have hc : OkKind eof (k := .conditional) (a :: d :: p :: r) _ (d :: p :: r) :=
    OkKind.mk (Ok.seq (Ok.sub hy) (Ok.skip (Bare.of (noFirst_cons hd (by rfl))).soft)) rfl
  exact ⟨_, OkKind.mk (Ok.altL (Ok.sub hc)) rfl⟩

/-- What follows a dot is never read. -/
theorem bare_postfixE {n : Nat} {s : List Token} (h : Ladder n s) (hp : (p.sym, p.txt) = (.opLParen, c!"(")) :
    Bare eof (of .postfixE) (p :: s) := by
  induction h generalizing p with
  | nil =>
    refine (Bare.sub (Bare.alt ?_ (Bare.of (noFirst_cons hp (by rfl))).soft)).seqL
    exact Soft.seqR (Ok.lit (Prod.mk.inj hp).2) (Bare.of (by simp [NoFirst])) (by simp [lookahead])
  | @cons n a d q r ha hd hq _ ih =>
    refine (Bare.sub (Bare.alt ?_ (Bare.of (noFirst_cons hp (by rfl))).soft)).seqL
    obtain ⟨x, hx⟩ := read_expr (eof := eof) ha hd hq (ih hq)
    exact Soft.seqRR (Ok.lit (Prod.mk.inj hp).2) (Ok.sub hx) (Bare.of (noFirst_cons hd (by rfl))) (by simp [lookahead])

/-- What follows the dot is read twice. -/
theorem steps_postfixE (ha : (a.sym, a.txt) = (.ident, c!"a")) (hd : (d.sym, d.txt) = (.dot, c!"."))
    (hp : (p.sym, p.txt) = (.opLParen, c!"(")) (h : Bare eof (of .postfixE) (p :: r)) :
    2 * steps eof (of .postfixE) (p :: r) ≤ steps eof (of .postfixE) (a :: d :: p :: r) := by
  have post (f : Field) : steps eof (of .postfixE) (p :: r) ≤
      steps eof (.opt (.seq (.lit c!".") (.sub f .postfixE))) (d :: p :: r) := by
    rw [← steps_sub (f := f)]
    exact Nat.le_trans (steps_seqR (Ok.lit (Prod.mk.inj hd).2)) steps_opt
  obtain ⟨x, hx⟩ := read_ident (eof := eof) (r := r) ha hd hp
  obtain ⟨y, hy⟩ := read_primary (eof := eof) (r := r) ha hd hp h
  have h1 : steps eof (of .postfixE) (p :: r) ≤ steps eof (.sub .value .primary) (a :: d :: p :: r) := by
    rw [steps_sub]
    refine Nat.le_trans ?_ (steps_altR (Bare.of (noFirst_cons ha (by rfl))).soft)
    refine Nat.le_trans ?_ (steps_altR (Bare.of (noFirst_cons ha (by rfl))).soft)
    refine Nat.le_trans ?_ (steps_seqR (Ok.sub hx))
    exact Nat.le_trans (post _) (steps_seqR (Ok.skip (Bare.of (noFirst_cons hd (by rfl))).soft))
  have h2 : steps eof (of .postfixE) (a :: d :: p :: r) = steps eof (.sub .value .primary) (a :: d :: p :: r) + _ :=
    steps_seq (Ok.sub hy)
  have h3 : steps eof (of .postfixE) (p :: r) ≤ steps eof (sq [opt (sq [lit c!"[", sub .index .expr, lit c!"]"]),
      opt (seq (lit c!".") (sub .post .postfixE))]) (d :: p :: r) :=
    Nat.le_trans (post .post) (steps_seqR (Ok.skip (Bare.of (noFirst_cons hd (by rfl))).soft))
  rw [h2]
  omega

theorem steps_bin (l : Level) {s : List Token} : steps eof (of l.operand) s ≤ steps eof (of (.bin l)) s := by
  rw [← steps_sub (f := .left)]
  exact steps_seqL

/-- An expression is read by reading a postfix expression. -/
theorem steps_expr {s : List Token} (h : NoFirst (firstG first (al (unaryOp.map tok))) s) :
    steps eof (of .postfixE) s ≤ steps eof (of .expr) s := by
  have h1 : steps eof (of .postfixE) s ≤ steps eof (of .unary) s := by
    rw [← steps_sub (f := .right)]
    exact steps_seqR (Ok.skip (Bare.of h).soft.cap)
  have h2 := Nat.le_trans h1 (steps_bin .multiplicative)
  have h3 := Nat.le_trans h2 (steps_bin .additive)
  have h4 := Nat.le_trans h3 (steps_bin .shift)
  have h5 := Nat.le_trans h4 (steps_bin .relational)
  have h6 := Nat.le_trans h5 (steps_bin .equality)
  have h7 := Nat.le_trans h6 (steps_bin .bitwiseAnd)
  have h8 := Nat.le_trans h7 (steps_bin .bitwiseXor)
  have h9 := Nat.le_trans h8 (steps_bin .bitwiseOr)
  have h10 := Nat.le_trans h9 (steps_bin .logicalAnd)
  have h11 := Nat.le_trans h10 (steps_bin .logicalOr)
  have h12 : steps eof (of (.bin .logicalOr)) s ≤ steps eof (of .conditional) s := by
    rw [← steps_sub (f := .condition)]
    exact steps_seqL
  have h13 : steps eof (of .conditional) s ≤ steps eof (of .expr) s := by
    rw [← steps_sub (f := .left)]
    exact steps_altL
  omega

/-- What is between parentheses is read as an expression. -/
theorem steps_paren (hp : (p.sym, p.txt) = (.opLParen, c!"(")) :
    steps eof (of .expr) r ≤ steps eof (of .postfixE) (p :: r) := by
  rw [← steps_sub (f := .subExpression)]
  refine Nat.le_trans ?_ (steps_seqL (a := .sub .value .primary))
  rw [steps_sub (k := .primary)]
  refine Nat.le_trans ?_ steps_altL
  exact Nat.le_trans steps_seqL (steps_seqR (Ok.lit (Prod.mk.inj hp).2))

theorem steps_pos {s : List Token} : 1 ≤ steps eof (of .postfixE) s := by
  refine Nat.le_trans ?_ (steps_seqL (a := .sub .value .primary))
  rw [steps_sub]
  refine Nat.le_trans ?_ steps_altL
  exact Nat.le_trans (Nat.le_refl 1) (steps_seqL (a := .lit c!"("))

omit [FloatValue] in
theorem Ladder.noUnary {n : Nat} {s : List Token} (h : Ladder n s) : NoFirst (firstG first (al (unaryOp.map tok))) s := by
  cases h with
  | nil => simp [NoFirst]
  | cons ha _ _ _ => exact noFirst_cons ha (by rfl)

/-- Every step of the ladder doubles the comparisons. -/
theorem Ladder.steps {n : Nat} {s : List Token} (h : Ladder n s) : 2 ^ n ≤ steps eof (of .postfixE) s := by
  induction h with
  | nil => exact steps_pos
  | @cons n a d q r ha hd hq h ih =>
    have h1 := steps_postfixE (eof := eof) ha hd hq (bare_postfixE h hq)
    have h2 := steps_paren (eof := eof) (r := r) hq
    have h3 := steps_expr (eof := eof) h.noUnary
    rw [Nat.pow_succ]
    omega

/-- The same for an attribute with this value. -/
theorem Ladder.document {n : Nat} {s : List Token} (h : Ladder n s) {x e : Token} (hx : (x.sym, x.txt) = (.ident, c!"x"))
    (he : (e.sym, e.txt) = (.opAssign, c!"=")) : 2 ^ n ≤ (workTokens eof (x :: e :: s)).steps := by
  change _ ≤ Etx.steps eof (.star (.sub .items .rootItem)) _
  refine Nat.le_trans ?_ steps_star
  rw [steps_sub]
  refine Nat.le_trans ?_ (steps_altR (Bare.of (noFirst_cons hx (by rfl))).soft)
  refine Nat.le_trans ?_ (steps_altR (Bare.of (noFirst_cons hx (by rfl))).soft)
  refine Nat.le_trans ?_ (steps_altR (Bare.of (noFirst_cons hx (by rfl))).soft)
  refine Nat.le_trans ?_ (steps_altR (Bare.of (noFirst_cons hx (by rfl))).soft)
  refine Nat.le_trans ?_ (steps_altR ?_)
  · refine Nat.le_trans ?_ steps_altL
    refine Nat.le_trans ?_ steps_seqL
    rw [steps_sub]
    refine Nat.le_trans ?_ (steps_seqR (Ok.tok (Prod.mk.inj hx).1).cap)
    refine Nat.le_trans ?_ steps_opt
    refine Nat.le_trans ?_ (steps_seqR (Ok.lit (Prod.mk.inj he).2))
    rw [steps_sub]
    exact Nat.le_trans h.steps (steps_expr h.noUnary)
  · refine Soft.seqL (Soft.sub (Soft.seqRR (Ok.tok (Prod.mk.inj hx).1).cap (Ok.nil (Bare.of (noFirst_cons he (by rfl))).soft) ?_ ?_))
    · exact (Bare.of (noFirst_cons he (by rfl)))
    · simp [lookahead]

end

omit [FloatValue] in
/-- The text `a.(a.(a.(…`. -/
def ladderText : Nat → Str
  | 0 => []
  | n + 1 => 'a' :: '.' :: '(' :: ladderText n

/-- Its tokens. -/
def ladderKinds : Nat → List (Sym × Str)
  | 0 => []
  | n + 1 => (.ident, c!"a") :: (.dot, c!".") :: (.opLParen, c!"(") :: ladderKinds n

omit [FloatValue] in
theorem ladder_run (n : Nat) : LexRun [(.root, [])] (ladderText n) (ladderKinds n) [(.root, [])] [] := by
  induction n with
  | zero => exact .refl _ _
  | succ n ih =>
    have h1 : LexRun [(.root, [])] (ladderText (n + 1)) [(.ident, c!"a")] [(.root, [])] ('.' :: '(' :: ladderText n) :=
      (C42_ident_partial _ c!"a" _ .root (.mk 'a' [] [] (by decide) (by decide) (by simp)) (by decide)
        ⟨by simp; decide, by simp⟩).run (by decide)
    have h2 : LexRun [(.root, [])] ('.' :: '(' :: ladderText n) [(.dot, c!".")] [(.root, [])] ('(' :: ladderText n) :=
      (C43_longest_partial _ c!"." _ _ .root (by decide) (by simp [LongestOp, operators]) (by simp [NotOp]; decide)).run (by decide)
    have h3 : LexRun [(.root, [])] ('(' :: ladderText n) [(.opLParen, c!"(")] [(.root, [])] (ladderText n) :=
      (C43_longest_partial _ c!"(" _ _ .root (by decide) (by simp [LongestOp, operators]) (by simp [NotOp])).run (by decide)
    exact h1.trans (h2.trans (h3.trans ih))

omit [FloatValue] in
theorem ladder_lex (n : Nat) : ∃ x e r, lex (c!"x=" ++ ladderText n) = some (x :: e :: r) ∧
    (x.sym, x.txt) = (.ident, c!"x") ∧ (e.sym, e.txt) = (.opAssign, c!"=") ∧ Ladder n r := by
  have h1 : LexRun [(.root, [])] (c!"x=" ++ ladderText n) [(.ident, c!"x")] [(.root, [])] ('=' :: ladderText n) :=
    (C42_ident_partial _ c!"x" _ .root (.mk 'x' [] [] (by decide) (by decide) (by simp)) (by decide)
      ⟨by simp; decide, by simp⟩).run (by decide)
  have h2 : LexRun [(.root, [])] ('=' :: ladderText n) [(.opAssign, c!"=")] [(.root, [])] (ladderText n) :=
    (C43_longest_partial _ c!"=" _ _ .root (by decide) (by cases n <;> simp [LongestOp, operators, ladderText])
      (by simp [NotOp])).run (by decide)
  have h := (h1.trans (h2.trans (ladder_run n))).kinds .start .start
  have e : lexAll [(.root, [])] .start (c!"x=" ++ ladderText n) = lex (c!"x=" ++ ladderText n) := rfl
  rw [e] at h
  have of_kinds : ∀ (n : Nat) (r : List Token), r.map (fun t => (t.sym, t.txt)) = ladderKinds n → Ladder n r := by
    intro n
    induction n with
    | zero =>
      intro r hr
      cases r with
      | nil => exact .nil
      | cons t r => cases hr
    | succ n ih =>
      intro r hr
      match r, hr with
      | [], hr | [_], hr | [_, _], hr => simp [ladderKinds] at hr
      | a :: d :: p :: r, hr =>
        simp only [List.map_cons, ladderKinds, List.cons.injEq] at hr
        exact .cons hr.1 hr.2.1 hr.2.2.1 (ih r hr.2.2.2)
  cases hl : lex (c!"x=" ++ ladderText n) with
  | none => rw [hl] at h; cases h
  | some ts =>
    rw [hl] at h
    have h := Option.some.inj h
    match ts, h with
    | [], h | [_], h => simp at h
    | x :: e :: r, h =>
      simp only [List.map_cons, List.map_nil, List.cons_append, List.nil_append, List.append_nil, List.cons.injEq] at h
      exact ⟨x, e, r, rfl, h.1, h.2.1, of_kinds n r h.2.2⟩

/-- **C67, the witness.** For the text `x=a.(a.(a.(…` of `3 n + 2` tokens, `ParseString` makes at least `2 ^ n`
comparisons. -/
theorem C67_exponential (n : Nat) : 2 ^ n ≤ comparisons (c!"x=" ++ ladderText n) := by
  obtain ⟨x, e, r, h, hx, he, hr⟩ := ladder_lex n
  unfold comparisons
  rw [h]
  exact hr.document hx he

omit [FloatValue] in
theorem Ladder.length {n : Nat} {s : List Token} (h : Ladder n s) : s.length = 3 * n := by
  induction h with
  | nil => rfl
  | cons _ _ _ _ ih => simp only [List.length_cons, ih]; omega

omit [FloatValue] in
/-- A power of two outgrows a polynomial. -/
theorem exists_pow (c d : Nat) : ∃ n, c * (3 * n + 3) ^ d < 2 ^ n := by
  let m := c + 3 * d + 2
  let k := 2 * m
  refine ⟨2 ^ k, ?_⟩
  have h1 : 3 * 2 ^ k + 3 ≤ 2 ^ (k + 3) := by
    have := Nat.one_le_two_pow (n := k)
    rw [Nat.pow_add]
    omega
  have h2 : (3 * 2 ^ k + 3) ^ d ≤ 2 ^ ((k + 3) * d) := by
    rw [Nat.pow_mul 2 (k + 3) d]
    exact Nat.pow_le_pow_left h1 d
  have h3 : c < 2 ^ c := Nat.lt_two_pow_self
  have h4 : c + (k + 3) * d ≤ 2 ^ k := by
    have e : 2 ^ k = 2 ^ m * 2 ^ m := by rw [← Nat.pow_add]; congr 1; omega
    have hm : m < 2 ^ m := Nat.lt_two_pow_self
    have h5 : (m + 1) * (m + 1) ≤ 2 ^ k := e ▸ Nat.mul_le_mul hm hm
    have h6 : 2 * m * d ≤ m * m := by
      have : 2 * d ≤ m := by omega
      calc 2 * m * d = m * (2 * d) := by rw [Nat.mul_comm 2 m, Nat.mul_assoc]
        _ ≤ m * m := Nat.mul_le_mul_left m this
    have h7 : (m + 1) * (m + 1) = m * m + 2 * m + 1 := by
      rw [Nat.add_mul, Nat.mul_add]; omega
    have h8 : (k + 3) * d = 2 * m * d + 3 * d := Nat.add_mul ..
    omega
  calc c * (3 * 2 ^ k + 3) ^ d ≤ c * 2 ^ ((k + 3) * d) := Nat.mul_le_mul_left c h2
    _ < 2 ^ c * 2 ^ ((k + 3) * d) := Nat.mul_lt_mul_of_pos_right h3 (Nat.two_pow_pos _)
    _ = 2 ^ (c + (k + 3) * d) := (Nat.pow_add ..).symm
    _ ≤ 2 ^ 2 ^ k := Nat.pow_le_pow_right (by decide) h4

/-- The full claim is false. -/
theorem C67_full_false : ¬ C67_full := by
  rintro ⟨c, d, h⟩
  obtain ⟨n, hn⟩ := exists_pow c d
  obtain ⟨x, e, r, hl, -, -, hr⟩ := ladder_lex n
  have h1 := h _ _ hl
  have h2 := C67_exponential n
  have h3 : (x :: e :: r).length + 1 = 3 * n + 3 := by simp only [List.length_cons, hr.length]
  rw [h3] at h1
  omega


/-! ## Examples -/

/-- A document in which only the attempts to read a block are given up: one token is gone back over for each attribute. -/
example : lex c!"a = b + c\nb = [c, d]\n" ≠ none ∧ comparisons c!"a = b + c\nb = [c, d]\n" = 237 ∧
    backtracked c!"a = b + c\nb = [c, d]\n" = 2 := by
  refine ⟨by decide +kernel, ?_, ?_⟩ <;> kernel_rfl

/-- Three steps of the ladder more, nearly nine times the comparisons. -/
example : comparisons (c!"x=" ++ ladderText 2) = 268 ∧ comparisons (c!"x=" ++ ladderText 5) = 2396 := by
  constructor <;> kernel_rfl

end Verif.Etx
