import Verif.Etx.Relocate

/-!
# The parser does not look at names

Changing the names in the tokens changes the names in the result in the same way, and nothing else.
-/

namespace Verif.Etx
open Gram

/-- The texts that the grammar mentions: keywords that are identifiers for the lexer, and punctuation. -/
def grammarWords : List Str := [[], c!"input", c!"output", c!"const", c!"val", c!"def", c!"type", c!"enum", c!"object", c!"null",
  c!"true", c!"false", c!"default", c!"(", c!")", c!",", c!".", c!"=", c!":", c!"{", c!"}", c!"[", c!"]", c!"?"]

/-- The fields that names are captured into. -/
def Field.isName : Field → Bool
  | .parts | .key | .name | .labels | .label => true
  | _ => false

/-- The same strings with other names. -/
def renStrs (ρ : Str → Str) : Strs → Strs
  | .nil => .nil
  | .mk a l => .mk a (l.map ρ)

/-- The same value with other names: the parts of an identifier, the key of an attribute, the name and the labels of a block, and
the labels of declarations, functions, parameters, types and the items of types. -/
def Node.ren (ρ : Str → Str) : {k : Kind} → Node k → Node k
  | _, .rootItem m s1 x1 x2 x3 x4 x5 x6 => .rootItem m s1 (x1.ren ρ) (x2.ren ρ) (x3.ren ρ) (x4.ren ρ) (x5.ren ρ) (x6.ren ρ)
  | _, .parameterType m x1 x2 => .parameterType m (x1.ren ρ) (x2.ren ρ)
  | _, .funcSignature m x1 x2 => .funcSignature m (x1.ren ρ) (x2.ren ρ)
  | _, .ident m s1 => .ident m (renStrs ρ s1)
  | _, .comment m s1 s2 => .comment m s1 s2
  | _, .attr m s1 x1 => .attr m (ρ s1) (x1.ren ρ)
  | _, .block m s1 s2 x1 => .block m (ρ s1) (renStrs ρ s2) (x1.ren ρ)
  | _, .blockItem m s1 x1 x2 x3 => .blockItem m s1 (x1.ren ρ) (x2.ren ρ) (x3.ren ρ)
  | _, .decl m s1 s2 x1 x2 => .decl m s1 (ρ s2) (x1.ren ρ) (x2.ren ρ)
  | _, .lambda m x1 x2 x3 => .lambda m (x1.ren ρ) (x2.ren ρ) (x3.ren ρ)
  | _, .lambdaParameter m s1 x1 => .lambdaParameter m (ρ s1) (x1.ren ρ)
  | _, .func m s1 x1 x2 x3 => .func m (ρ s1) (x1.ren ρ) (x2.ren ρ) (x3.ren ρ)
  | _, .funcParameter m s1 x1 => .funcParameter m (ρ s1) (x1.ren ρ)
  | _, .funcStatement m s1 x1 x2 x3 => .funcStatement m s1 (x1.ren ρ) (x2.ren ρ) (x3.ren ρ)
  | _, .funcDecl m s1 s2 x1 x2 => .funcDecl m s1 (ρ s2) (x1.ren ρ) (x2.ren ρ)
  | _, .type m s1 x1 x2 => .type m (ρ s1) (x1.ren ρ) (x2.ren ρ)
  | _, .typeEnum m x1 => .typeEnum m (x1.ren ρ)
  | _, .typeEnumItem m s1 x1 s2 x2 => .typeEnumItem m s1 (x1.ren ρ) (ρ s2) (x2.ren ρ)
  | _, .typeObject m x1 => .typeObject m (x1.ren ρ)
  | _, .typeObjectItem m s1 x1 s2 x2 => .typeObjectItem m s1 (x1.ren ρ) (ρ s2) (x2.ren ρ)
  | _, .value m s1 x1 x2 x3 x4 x5 x6 => .value m s1 (x1.ren ρ) (x2.ren ρ) (x3.ren ρ) (x4.ren ρ) (x5.ren ρ) (x6.ren ρ)
  | _, .valueBool m s1 => .valueBool m s1
  | _, .valueNumber m s1 s2 => .valueNumber m s1 s2
  | _, .heredoc m s1 s2 x1 => .heredoc m s1 s2 (x1.ren ρ)
  | _, .heredocFragment m x1 x2 s1 => .heredocFragment m (x1.ren ρ) (x2.ren ρ) s1
  | _, .valueString m x1 => .valueString m (x1.ren ρ)
  | _, .stringFragment m s1 s2 x1 x2 s3 => .stringFragment m s1 s2 (x1.ren ρ) (x2.ren ρ) s3
  | _, .valueList m x1 => .valueList m (x1.ren ρ)
  | _, .listItem m s1 x1 x2 => .listItem m s1 (x1.ren ρ) (x2.ren ρ)
  | _, .valueMap m x1 => .valueMap m (x1.ren ρ)
  | _, .mapItem m s1 x1 x2 x3 => .mapItem m s1 (x1.ren ρ) (x2.ren ρ) (x3.ren ρ)
  | _, .mapKey m x1 x2 => .mapKey m (x1.ren ρ) (x2.ren ρ)
  | _, .expr m x1 x2 x3 => .expr m (x1.ren ρ) (x2.ren ρ) (x3.ren ρ)
  | _, .exprIf m x1 x2 x3 => .exprIf m (x1.ren ρ) (x2.ren ρ) (x3.ren ρ)
  | _, .exprSwitch m x1 x2 => .exprSwitch m (x1.ren ρ) (x2.ren ρ)
  | _, .exprCase m x1 s1 x2 => .exprCase m (x1.ren ρ) s1 (x2.ren ρ)
  | _, .conditional m x1 s1 x2 x3 => .conditional m (x1.ren ρ) s1 (x2.ren ρ) (x3.ren ρ)
  | _, .bin l m x1 s1 x2 => .bin l m (x1.ren ρ) s1 (x2.ren ρ)
  | _, .unary m s1 x1 => .unary m s1 (x1.ren ρ)
  | _, .postfixE m x1 x2 x3 => .postfixE m (x1.ren ρ) (x2.ren ρ) (x3.ren ρ)
  | _, .primary m x1 x2 x3 x4 x5 => .primary m (x1.ren ρ) (x2.ren ρ) (x3.ren ρ) (x4.ren ρ) (x5.ren ρ)
  | _, .invocation m x1 => .invocation m (x1.ren ρ)
  | _, .nil => .nil
  | _, .ref x1 => .ref (x1.ren ρ)
  | _, .nilSlice => .nilSlice
  | _, .mkSlice m x1 => .mkSlice m (x1.ren ρ)
  | _, .empty => .empty
  | _, .cons x1 x2 => .cons (x1.ren ρ) (x2.ren ρ)
/-- A token with another text. -/
def Token.ren (ρ : Str → Str) (t : Token) : Token := { t with txt := ρ t.txt }

/-- `ρ` changes the token only if it is a name, and neither from nor to a word of the grammar. -/
structure Token.Fits (ρ : Str → Str) (t : Token) : Prop where
  other : t.sym ≠ .ident → ρ t.txt = t.txt
  word : ∀ w ∈ grammarWords, ρ t.txt = w ↔ t.txt = w

/-- A capture with other names. -/
def Capture.ren (ρ : Str → Str) : Capture → Capture
  | .toks g l => .toks g (if g.isName then l.map ρ else l)
  | .node g k x => .node g k (x.ren ρ)

/-- The same captures with other names. -/
def Out.ren (ρ : Str → Str) (o : Out) : Out := ⟨o.txt.map ρ, o.caps.map (Capture.ren ρ)⟩

/-- The same result with other names. -/
def Res.ren {α : Type} (ρ : Str → Str) (g : α → α) : Res α → Res α
  | .miss => .miss
  | .err r => .err (r.map (Token.ren ρ))
  | .ok a r => .ok (g a) (r.map (Token.ren ρ))

variable {ρ : Str → Str}

namespace Out

theorem ren_append (a b : Out) : (a ++ b).ren ρ = a.ren ρ ++ b.ren ρ := by
  show Out.mk ((a.txt ++ b.txt).map ρ) ((a.caps ++ b.caps).map (Capture.ren ρ)) =
    Out.mk (a.txt.map ρ ++ b.txt.map ρ) (a.caps.map (Capture.ren ρ) ++ b.caps.map (Capture.ren ρ))
  rw [List.map_append, List.map_append]

theorem toks_append₂ (a b : Out) (f : Field) : (a ++ b).toks f = a.toks f ++ b.toks f := List.flatMap_append

theorem toks_ren_name (o : Out) {g : Field} (hg : g.isName = true) : (o.ren ρ).toks g = (o.toks g).map ρ := by
  unfold Out.toks Out.ren
  rw [List.flatMap_map, List.map_flatMap]
  congr 1
  funext c
  cases c with
  | node => rfl
  | toks g' l =>
    simp only [Capture.ren]
    by_cases e : g' = g
    · subst e; simp [hg]
    · simp [e]

theorem toks_ren (o : Out) {g : Field} (hg : g.isName = false) : (o.ren ρ).toks g = o.toks g := by
  unfold Out.toks Out.ren
  rw [List.flatMap_map]
  congr 1
  funext c
  cases c with
  | node => rfl
  | toks g' l =>
    simp only [Capture.ren]
    by_cases e : g' = g
    · subst e; simp [hg]
    · simp [e]

theorem str_ren (o : Out) {g : Field} (hg : g.isName = false) : (o.ren ρ).str g = o.str g := by rw [Out.str, toks_ren o hg]; rfl
theorem strs_ren (o : Out) {g : Field} (hg : g.isName = false) : (o.ren ρ).strs g = o.strs g := by rw [Out.strs, toks_ren o hg]; rfl
theorem flag_ren (o : Out) {g : Field} (hg : g.isName = false) : (o.ren ρ).flag g = o.flag g := by rw [Out.flag, toks_ren o hg]; rfl

theorem strs_ren_name (o : Out) {g : Field} (hg : g.isName = true) : (o.ren ρ).strs g = renStrs ρ (o.strs g) := by
  rw [Out.strs, toks_ren_name o hg, Out.strs]
  cases o.toks g <;> rfl

theorem str_ren_name (h0 : ρ [] = []) (o : Out) {g : Field} (hg : g.isName = true) (h1 : (o.toks g).length ≤ 1) :
    (o.ren ρ).str g = ρ (o.str g) := by
  rw [Out.str, toks_ren_name o hg, Out.str]
  match o.toks g, h1 with
  | [], _ => exact h0.symm
  | [w], _ => simp

theorem nodes_ren (o : Out) (g : Field) (k : Kind) : (o.ren ρ).nodes g k = (o.nodes g k).map (Node.ren ρ) := by
  unfold Out.nodes Out.ren
  rw [List.flatMap_map, List.map_flatMap]
  congr 1
  funext c
  cases c with
  | toks => rfl
  | node g' k' x =>
    simp only [Capture.ren]
    split
    · rename_i e
      subst e
      split <;> rfl
    · rfl

theorem ptr_ren (o : Out) (g : Field) (k : Kind) : (o.ren ρ).ptr g (k := k) = (o.ptr g).ren ρ := by
  rw [Out.ptr, nodes_ren, Out.ptr]
  cases o.nodes g k <;> rfl

theorem items_ren {k : Kind} (l : List (Node k)) : items (l.map (Node.ren ρ)) = (items l).ren ρ := by
  induction l with
  | nil => rfl
  | cons x l ih => simp only [List.map_cons, items, ih]; rfl

theorem slice_ren (o : Out) (g : Field) (k : Kind) : (o.ren ρ).slice g (k := k) = (o.slice g).ren ρ := by
  rw [Out.slice, nodes_ren, Out.slice]
  cases o.nodes g k with
  | nil => rfl
  | cons x l => show Node.mkSlice 0 (items ((x :: l).map (Node.ren ρ))) = _; rw [items_ren]; rfl

theorem struct_ren (o : Out) (g : Field) (k : Kind) : (o.ren ρ).struct g (k := k) = (o.struct g).map (Node.ren ρ) := by
  rw [Out.struct, nodes_ren, Out.struct]
  cases o.nodes g k <;> rfl

end Out

/-! ## What the productions capture -/

namespace Gram

/-- No identifier is matched by a token type. -/
def noIdent : Gram → Bool
  | .lit _ | .sub _ _ => true
  | .tok y => decide (y ≠ .ident)
  | .seq a b | .alt a b => noIdent a && noIdent b
  | .opt a | .star a | .plus a | .cap _ a => noIdent a

/-- Literals are words of the grammar, and identifiers are captured into fields for names only. -/
def fit : Gram → Bool
  | .lit w => decide (w ∈ grammarWords)
  | .tok _ | .sub _ _ => true
  | .seq a b | .alt a b => fit a && fit b
  | .opt a | .star a | .plus a => fit a
  | .cap f a => fit a && (f.isName || noIdent a)

/-- One token. -/
def single : Gram → Bool
  | .lit _ | .tok _ => true
  | .alt a b => single a && single b
  | _ => false

/-- Nothing is captured into `f`. -/
def noCap (f : Field) : Gram → Bool
  | .lit _ | .tok _ | .sub _ _ => true
  | .seq a b | .alt a b => noCap f a && noCap f b
  | .opt a | .star a | .plus a => noCap f a
  | .cap g _ => decide (g ≠ f)

/-- At most one token is captured into `f`. -/
def capsOne (f : Field) : Gram → Bool
  | .lit _ | .tok _ | .sub _ _ => true
  | .seq a b => capsOne f a && noCap f b || noCap f a && capsOne f b
  | .alt a b => capsOne f a && capsOne f b
  | .opt a => capsOne f a
  | .star a | .plus a => noCap f a
  | .cap g a => decide (g ≠ f) || single a

theorem fit_of (k : Kind) : fit (of k) = true := by
  cases k <;> first | decide | exact ⟨rfl, rfl, rfl⟩ | rfl | (rename_i l; cases l <;> decide)

theorem capsOne_of (k : Kind) : capsOne .key (of k) = true ∧ capsOne .name (of k) = true ∧ capsOne .label (of k) = true := by
  cases k <;> first | decide | exact ⟨rfl, rfl, rfl⟩ | rfl | (rename_i l; cases l <;> decide)

end Gram

theorem toks_cap (f g : Field) (l : List Str) (txt : List Str) : (Out.mk txt [.toks g l]).toks f = if g = f then l else [] := by
  simp [Out.toks]

theorem many_noCap {f : Field} {p : List Token → Res Out} (hp : ∀ s o r, p s = .ok o r → o.toks f = []) (n : Nat) (s : List Token) (o : Out)
    (r : List Token) (h : many p n s = .ok o r) : o.toks f = [] := by
  induction n generalizing s o with
  | zero => simp only [many, Res.ok.injEq] at h; rw [← h.1]; rfl
  | succ n ih =>
    unfold many at h
    cases e : p s with
    | miss => rw [e] at h; simp only [Res.ok.injEq] at h; rw [← h.1]; rfl
    | err r' =>
      rw [e] at h
      simp only at h
      split at h
      · cases h
      · simp only [Res.ok.injEq] at h; rw [← h.1]; rfl
    | ok o' r' =>
      rw [e] at h
      simp only at h
      split at h
      · cases e' : many p n r' with
        | miss => rw [e'] at h; cases h
        | err r'' => rw [e'] at h; cases h
        | ok o'' r'' =>
          rw [e'] at h
          simp only [Res.ok.injEq] at h
          rw [← h.1, Out.toks_append₂, hp _ _ _ e, ih _ _ (h.2 ▸ e')]
          rfl
      · simp only [Res.ok.injEq] at h
        rw [← h.1]; exact hp _ _ _ e

theorem run_noCap {f : Field} {p : (k : Kind) → List Token → Res (Node k)} (g : Gram) (hg : noCap f g = true) (s : List Token) (o : Out)
    (r : List Token) (h : run p g s = .ok o r) : o.toks f = [] := by
  induction g generalizing s o r with
  | lit w =>
    cases s with
    | nil => cases h
    | cons t s =>
      simp only [run] at h
      split at h
      · simp only [Res.ok.injEq] at h; rw [← h.1]; rfl
      · cases h
  | tok y =>
    cases s with
    | nil => cases h
    | cons t s =>
      simp only [run] at h
      split at h
      · simp only [Res.ok.injEq] at h; rw [← h.1]; rfl
      · cases h
  | seq a b iha ihb =>
    simp only [noCap, Bool.and_eq_true] at hg
    simp only [run] at h
    cases ea : run p a s with
    | miss => rw [ea] at h; cases h
    | err r => rw [ea] at h; cases h
    | ok o1 r1 =>
      rw [ea] at h
      simp only at h
      cases eb : run p b r1 with
      | miss => rw [eb] at h; cases h
      | err r => rw [eb] at h; cases h
      | ok o2 r2 =>
        rw [eb] at h
        simp only [Res.ok.injEq] at h
        rw [← h.1, Out.toks_append₂, iha hg.1 _ _ _ ea, ihb hg.2 _ _ _ eb]
        rfl
  | alt a b iha ihb =>
    simp only [noCap, Bool.and_eq_true] at hg
    simp only [run] at h
    cases ea : run p a s with
    | ok o1 r1 =>
      rw [ea] at h
      simp only [Res.ok.injEq] at h
      exact iha hg.1 _ _ _ (ea.trans (by rw [h.1, h.2]))
    | miss =>
      rw [ea] at h
      simp only at h
      cases eb : run p b s with
      | miss => rw [eb] at h; cases h
      | err r => rw [eb] at h; cases h
      | ok o2 r2 =>
        rw [eb] at h
        exact ihb hg.2 _ _ _ (eb.trans h)
    | err r' =>
      rw [ea] at h
      simp only at h
      split at h
      · cases h
      · cases eb : run p b s with
        | miss => rw [eb] at h; cases h
        | err r => rw [eb] at h; cases h
        | ok o2 r2 =>
          rw [eb] at h
          exact ihb hg.2 _ _ _ (eb.trans h)
  | opt a iha =>
    simp only [run] at h
    cases ea : run p a s with
    | ok o1 r1 => rw [ea] at h; exact iha hg _ _ _ (ea.trans h)
    | miss => rw [ea] at h; simp only [Res.ok.injEq] at h; rw [← h.1]; rfl
    | err r' =>
      rw [ea] at h
      simp only at h
      split at h
      · cases h
      · simp only [Res.ok.injEq] at h; rw [← h.1]; rfl
  | star a iha => exact many_noCap (iha hg) _ _ _ _ h
  | plus a iha =>
    simp only [run] at h
    cases ea : run p a s with
    | miss => rw [ea] at h; cases h
    | err r => rw [ea] at h; cases h
    | ok o1 r1 =>
      rw [ea] at h
      simp only at h
      cases eb : many (run p a) (r1.length + 1) r1 with
      | miss => rw [eb] at h; cases h
      | err r => rw [eb] at h; cases h
      | ok o2 r2 =>
        rw [eb] at h
        simp only [Res.ok.injEq] at h
        rw [← h.1, Out.toks_append₂, iha hg _ _ _ ea, many_noCap (iha hg) _ _ _ _ eb]
        rfl
  | cap g a iha =>
    simp only [noCap, decide_eq_true_eq] at hg
    simp only [run] at h
    cases ea : run p a s with
    | miss => rw [ea] at h; cases h
    | err r => rw [ea] at h; cases h
    | ok o1 r1 =>
      rw [ea] at h
      simp only [Res.ok.injEq] at h
      rw [← h.1, toks_cap, if_neg hg]
  | sub g k =>
    simp only [run] at h
    cases ea : p k s with
    | miss => rw [ea] at h; cases h
    | err r => rw [ea] at h; cases h
    | ok x r1 =>
      rw [ea] at h
      simp only [Res.ok.injEq] at h
      rw [← h.1]; rfl

theorem run_single {p : (k : Kind) → List Token → Res (Node k)} (g : Gram) (hg : single g = true) (s : List Token) (o : Out)
    (r : List Token) (h : run p g s = .ok o r) : o.txt.length ≤ 1 := by
  induction g generalizing s o r with
  | lit w =>
    cases s with
    | nil => cases h
    | cons t s =>
      simp only [run] at h
      split at h
      · simp only [Res.ok.injEq] at h; rw [← h.1]; exact Nat.le_refl 1
      · cases h
  | tok y =>
    cases s with
    | nil => cases h
    | cons t s =>
      simp only [run] at h
      split at h
      · simp only [Res.ok.injEq] at h; rw [← h.1]; exact Nat.le_refl 1
      · cases h
  | alt a b iha ihb =>
    simp only [single, Bool.and_eq_true] at hg
    simp only [run] at h
    cases ea : run p a s with
    | ok o1 r1 =>
      rw [ea] at h
      exact iha hg.1 _ _ _ (ea.trans h)
    | miss =>
      rw [ea] at h
      simp only at h
      cases eb : run p b s with
      | miss => rw [eb] at h; cases h
      | err r => rw [eb] at h; cases h
      | ok o2 r2 =>
        rw [eb] at h
        exact ihb hg.2 _ _ _ (eb.trans h)
    | err r' =>
      rw [ea] at h
      simp only at h
      split at h
      · cases h
      · cases eb : run p b s with
        | miss => rw [eb] at h; cases h
        | err r => rw [eb] at h; cases h
        | ok o2 r2 =>
          rw [eb] at h
          exact ihb hg.2 _ _ _ (eb.trans h)
  | seq => cases hg
  | opt => cases hg
  | star => cases hg
  | plus => cases hg
  | cap => cases hg
  | sub => cases hg

theorem run_capsOne {f : Field} {p : (k : Kind) → List Token → Res (Node k)} (g : Gram) (hg : capsOne f g = true) (s : List Token)
    (o : Out) (r : List Token) (h : run p g s = .ok o r) : (o.toks f).length ≤ 1 := by
  induction g generalizing s o r with
  | lit w => rw [run_noCap _ rfl _ _ _ h]; simp
  | tok w => rw [run_noCap _ rfl _ _ _ h]; simp
  | sub w => rw [run_noCap _ rfl _ _ _ h]; simp
  | star a => rw [run_noCap (.star a) hg _ _ _ h]; simp
  | plus a => rw [run_noCap (.plus a) hg _ _ _ h]; simp
  | seq a b iha ihb =>
    simp only [run] at h
    cases ea : run p a s with
    | miss => rw [ea] at h; cases h
    | err r => rw [ea] at h; cases h
    | ok o1 r1 =>
      rw [ea] at h
      simp only at h
      cases eb : run p b r1 with
      | miss => rw [eb] at h; cases h
      | err r => rw [eb] at h; cases h
      | ok o2 r2 =>
        rw [eb] at h
        simp only [Res.ok.injEq] at h
        rw [← h.1, Out.toks_append₂]
        simp only [capsOne, Bool.or_eq_true, Bool.and_eq_true] at hg
        rcases hg with ⟨h1, h2⟩ | ⟨h1, h2⟩
        · rw [run_noCap _ h2 _ _ _ eb, List.append_nil]; exact iha h1 _ _ _ ea
        · rw [run_noCap _ h1 _ _ _ ea, List.nil_append]; exact ihb h2 _ _ _ eb
  | alt a b iha ihb =>
    simp only [capsOne, Bool.and_eq_true] at hg
    simp only [run] at h
    cases ea : run p a s with
    | ok o1 r1 =>
      rw [ea] at h
      exact iha hg.1 _ _ _ (ea.trans h)
    | miss =>
      rw [ea] at h
      simp only at h
      cases eb : run p b s with
      | miss => rw [eb] at h; cases h
      | err r => rw [eb] at h; cases h
      | ok o2 r2 =>
        rw [eb] at h
        exact ihb hg.2 _ _ _ (eb.trans h)
    | err r' =>
      rw [ea] at h
      simp only at h
      split at h
      · cases h
      · cases eb : run p b s with
        | miss => rw [eb] at h; cases h
        | err r => rw [eb] at h; cases h
        | ok o2 r2 =>
          rw [eb] at h
          exact ihb hg.2 _ _ _ (eb.trans h)
  | opt a iha =>
    simp only [run] at h
    cases ea : run p a s with
    | ok o1 r1 => rw [ea] at h; exact iha hg _ _ _ (ea.trans h)
    | miss => rw [ea] at h; simp only [Res.ok.injEq] at h; rw [← h.1]; simp [Out.toks]
    | err r' =>
      rw [ea] at h
      simp only at h
      split at h
      · cases h
      · simp only [Res.ok.injEq] at h; rw [← h.1]; simp [Out.toks]
  | cap g a iha =>
    simp only [capsOne, Bool.or_eq_true, decide_eq_true_eq] at hg
    simp only [run] at h
    cases ea : run p a s with
    | miss => rw [ea] at h; cases h
    | err r => rw [ea] at h; cases h
    | ok o1 r1 =>
      rw [ea] at h
      simp only [Res.ok.injEq] at h
      rw [← h.1, toks_cap]
      split
      · rename_i e
        exact run_single a (hg.resolve_left (fun h => h e)) _ _ _ ea
      · simp

theorem run_noIdent {p : (k : Kind) → List Token → Res (Node k)} (hs : ∀ k s, (p k s).Suffix s) (g : Gram) (hg : noIdent g = true)
    (hf : fit g = true) (s : List Token) (ht : ∀ t ∈ s, t.Fits ρ) (o : Out) (r : List Token) (h : run p g s = .ok o r) :
    o.txt.map ρ = o.txt := by
  have hmany : ∀ (q : List Token → Res Out), (∀ s, (q s).Suffix s) →
      (∀ s, (∀ t ∈ s, t.Fits ρ) → ∀ o r, q s = .ok o r → o.txt.map ρ = o.txt) → ∀ n s, (∀ t ∈ s, t.Fits ρ) → ∀ o r,
      many q n s = .ok o r → o.txt.map ρ = o.txt := by
    intro q hq hq' n
    induction n with
    | zero => intro s _ o r h; simp only [many, Res.ok.injEq] at h; rw [← h.1]; rfl
    | succ n ih =>
      intro s ht o r h
      unfold many at h
      cases e : q s with
      | miss => rw [e] at h; simp only [Res.ok.injEq] at h; rw [← h.1]; rfl
      | err r' =>
        rw [e] at h
        simp only at h
        split at h
        · cases h
        · simp only [Res.ok.injEq] at h; rw [← h.1]; rfl
      | ok o' r' =>
        rw [e] at h
        simp only at h
        split at h
        · cases e' : many q n r' with
          | miss => rw [e'] at h; cases h
          | err r'' => rw [e'] at h; cases h
          | ok o'' r'' =>
            rw [e'] at h
            simp only [Res.ok.injEq] at h
            have hsub : r' <:+ s := by have := hq s; rwa [e] at this
            rw [← h.1]
            show (o'.txt ++ o''.txt).map ρ = o'.txt ++ o''.txt
            rw [List.map_append, hq' _ ht _ _ e, ih _ (fun t h => ht t (hsub.subset h)) _ _ e']
        · simp only [Res.ok.injEq] at h
          rw [← h.1]; exact hq' _ ht _ _ e
  induction g generalizing s o r with
  | lit w =>
    cases s with
    | nil => cases h
    | cons t s =>
      simp only [run] at h
      split at h
      · rename_i e
        simp only [Res.ok.injEq] at h
        rw [← h.1]
        simp only [List.map_cons, List.map_nil]
        have := ((ht t (by simp)).word w (by simpa [fit] using hf)).mpr e
        rw [this, e]
      · cases h
  | tok y =>
    cases s with
    | nil => cases h
    | cons t s =>
      simp only [run] at h
      split at h
      · rename_i e
        simp only [Res.ok.injEq] at h
        rw [← h.1]
        simp only [List.map_cons, List.map_nil]
        rw [(ht t (by simp)).other (by rw [e]; simpa [noIdent] using hg)]
      · cases h
  | seq a b iha ihb =>
    simp only [noIdent, fit, Bool.and_eq_true] at hg hf
    simp only [run] at h
    cases ea : run p a s with
    | miss => rw [ea] at h; cases h
    | err r => rw [ea] at h; cases h
    | ok o1 r1 =>
      rw [ea] at h
      simp only at h
      cases eb : run p b r1 with
      | miss => rw [eb] at h; cases h
      | err r => rw [eb] at h; cases h
      | ok o2 r2 =>
        rw [eb] at h
        simp only [Res.ok.injEq] at h
        have hsub : r1 <:+ s := by have := run_suffix hs a s; rwa [ea] at this
        rw [← h.1]
        show (o1.txt ++ o2.txt).map ρ = o1.txt ++ o2.txt
        rw [List.map_append, iha hg.1 hf.1 _ ht _ _ ea, ihb hg.2 hf.2 _ (fun t h => ht t (hsub.subset h)) _ _ eb]
  | alt a b iha ihb =>
    simp only [noIdent, fit, Bool.and_eq_true] at hg hf
    simp only [run] at h
    cases ea : run p a s with
    | ok o1 r1 =>
      rw [ea] at h
      exact iha hg.1 hf.1 _ ht _ _ (ea.trans h)
    | miss =>
      rw [ea] at h
      simp only at h
      cases eb : run p b s with
      | miss => rw [eb] at h; cases h
      | err r => rw [eb] at h; cases h
      | ok o2 r2 =>
        rw [eb] at h
        exact ihb hg.2 hf.2 _ ht _ _ (eb.trans h)
    | err r' =>
      rw [ea] at h
      simp only at h
      split at h
      · cases h
      · cases eb : run p b s with
        | miss => rw [eb] at h; cases h
        | err r => rw [eb] at h; cases h
        | ok o2 r2 =>
          rw [eb] at h
          exact ihb hg.2 hf.2 _ ht _ _ (eb.trans h)
  | opt a iha =>
    simp only [run] at h
    cases ea : run p a s with
    | ok o1 r1 => rw [ea] at h; exact iha hg hf _ ht _ _ (ea.trans h)
    | miss => rw [ea] at h; simp only [Res.ok.injEq] at h; rw [← h.1]; rfl
    | err r' =>
      rw [ea] at h
      simp only at h
      split at h
      · cases h
      · simp only [Res.ok.injEq] at h; rw [← h.1]; rfl
  | star a iha => exact hmany _ (run_suffix hs a) (iha hg hf) _ _ ht _ _ h
  | plus a iha =>
    simp only [run] at h
    cases ea : run p a s with
    | miss => rw [ea] at h; cases h
    | err r => rw [ea] at h; cases h
    | ok o1 r1 =>
      rw [ea] at h
      simp only at h
      cases eb : many (run p a) (r1.length + 1) r1 with
      | miss => rw [eb] at h; cases h
      | err r => rw [eb] at h; cases h
      | ok o2 r2 =>
        rw [eb] at h
        simp only [Res.ok.injEq] at h
        have hsub : r1 <:+ s := by have := run_suffix hs a s; rwa [ea] at this
        rw [← h.1]
        show (o1.txt ++ o2.txt).map ρ = o1.txt ++ o2.txt
        rw [List.map_append, iha hg hf _ ht _ _ ea,
          hmany _ (run_suffix hs a) (iha hg hf) _ _ (fun t h => ht t (hsub.subset h)) _ _ eb]
  | cap g a iha =>
    simp only [fit, Bool.and_eq_true] at hf
    simp only [run] at h
    cases ea : run p a s with
    | miss => rw [ea] at h; cases h
    | err r => rw [ea] at h; cases h
    | ok o1 r1 =>
      rw [ea] at h
      simp only [Res.ok.injEq] at h
      rw [← h.1]; exact (iha hg hf.1 _ ht _ _ ea : o1.txt.map ρ = o1.txt)
  | sub g k =>
    simp only [run] at h
    cases ea : p k s with
    | miss => rw [ea] at h; cases h
    | err r => rw [ea] at h; cases h
    | ok x r1 =>
      rw [ea] at h
      simp only [Res.ok.injEq] at h
      rw [← h.1]; rfl

/-! ## The parser on renamed tokens -/

theorem stops_ren (s r : List Token) : stops (s.map (Token.ren ρ)) (r.map (Token.ren ρ)) = stops s r := by
  simp [stops]

theorem many_ren {p p' : List Token → Res Out} (hs : ∀ s, (p s).Suffix s)
    (hp : ∀ s, (∀ t ∈ s, t.Fits ρ) → p' (s.map (Token.ren ρ)) = (p s).ren ρ (Out.ren ρ)) (n : Nat)
    (s : List Token) (ht : ∀ t ∈ s, t.Fits ρ) : many p' n (s.map (Token.ren ρ)) = (many p n s).ren ρ (Out.ren ρ) := by
  induction n generalizing s with
  | zero => rfl
  | succ n ih =>
    unfold many
    rw [hp s ht]
    have h := hs s
    cases e : p s with
    | miss => rfl
    | err r =>
      simp only [Res.ren, stops_ren]
      split <;> rfl
    | ok o r =>
      rw [e] at h
      simp only [Res.ren, List.length_map, ih r fun t hr => ht t (List.IsSuffix.subset h hr)]
      split
      · cases many p n r with
        | miss => rfl
        | err r' => rfl
        | ok o' r' => simp only [Out.ren_append]
      · rfl

theorem run_ren {p p' : (k : Kind) → List Token → Res (Node k)} (hs : ∀ k s, (p k s).Suffix s)
    (hp : ∀ k s, (∀ t ∈ s, t.Fits ρ) → p' k (s.map (Token.ren ρ)) = (p k s).ren ρ (Node.ren ρ)) (g : Gram) (hg : fit g = true)
    (s : List Token) (ht : ∀ t ∈ s, t.Fits ρ) : run p' g (s.map (Token.ren ρ)) = (run p g s).ren ρ (Out.ren ρ) := by
  induction g generalizing s with
  | lit w =>
    cases s with
    | nil => rfl
    | cons t s =>
      simp only [run, List.map_cons, Token.ren, (ht t (by simp)).word w (by simpa [fit] using hg)]
      split <;> rfl
  | tok y =>
    cases s with
    | nil => rfl
    | cons t s =>
      simp only [run, List.map_cons, Token.ren]
      split <;> rfl
  | seq a b iha ihb =>
    simp only [fit, Bool.and_eq_true] at hg
    have h := run_suffix hs a s
    simp only [run, iha hg.1 s ht]
    cases e : run p a s with
    | miss => rfl
    | err r => rfl
    | ok o r =>
      rw [e] at h
      simp only [Res.ren, ihb hg.2 r fun t hr => ht t (List.IsSuffix.subset h hr)]
      cases run p b r with
      | miss => rfl
      | err r => rfl
      | ok o' r' => simp only [Out.ren_append]
  | alt a b iha ihb =>
    simp only [fit, Bool.and_eq_true] at hg
    simp only [run, iha hg.1 s ht, ihb hg.2 s ht]
    cases run p a s with
    | ok o r => rfl
    | miss =>
      simp only [Res.ren]
      cases run p b s with
      | ok o r => rfl
      | miss => rfl
      | err r => simp only [stops_ren]; split <;> rfl
    | err r =>
      simp only [Res.ren, stops_ren]
      split
      · rfl
      · cases run p b s with
        | ok o r => rfl
        | miss => rfl
        | err r => simp only [stops_ren]; split <;> rfl
  | opt a iha =>
    simp only [run, iha hg s ht]
    cases run p a s with
    | ok o r => rfl
    | miss => rfl
    | err r => simp only [Res.ren, stops_ren]; split <;> rfl
  | star a iha =>
    simp only [run, List.length_map]
    exact many_ren (run_suffix hs a) (iha hg) _ _ ht
  | plus a iha =>
    have h := run_suffix hs a s
    simp only [run, iha hg s ht]
    cases e : run p a s with
    | miss => rfl
    | err r => simp only [Res.ren, stops_ren]; split <;> rfl
    | ok o r =>
      rw [e] at h
      simp only [Res.ren, List.length_map, many_ren (run_suffix hs a) (iha hg) _ r fun t hr => ht t (List.IsSuffix.subset h hr)]
      cases many (run p a) (r.length + 1) r with
      | miss => rfl
      | err r => rfl
      | ok o' r' => simp only [Out.ren_append]
  | cap g a iha =>
    simp only [fit, Bool.and_eq_true, Bool.or_eq_true] at hg
    simp only [run, iha hg.1 s ht]
    cases e : run p a s with
    | miss => rfl
    | err r => rfl
    | ok o r =>
      simp only [Res.ren, Out.ren, List.map_cons, List.map_nil, Capture.ren]
      rcases hg.2 with h | h
      · rw [if_pos h]
      · rw [run_noIdent hs a h hg.1 s ht o r e]; simp
  | sub g k =>
    simp only [run, hp k s ht]
    cases p k s with
    | miss => rfl
    | err r => rfl
    | ok o r => rfl

variable [FloatValue]

set_option linter.unusedSimpArgs false in
theorem build_ren (h0 : ρ [] = []) (m : Meta) (o : Out) (k : Kind) (hk : (o.toks .key).length ≤ 1) (hn : (o.toks .name).length ≤ 1)
    (hl : (o.toks .label).length ≤ 1) : build m (o.ren ρ) k = (build m o k).map (Node.ren ρ) := by
  have e1 := Out.str_ren_name h0 o (g := .key) rfl hk
  have e2 := Out.str_ren_name h0 o (g := .name) rfl hn
  have e3 := Out.str_ren_name h0 o (g := .label) rfl hl
  have e4 := Out.strs_ren_name (ρ := ρ) o (g := .labels) rfl
  have e5 := Out.strs_ren_name (ρ := ρ) o (g := .parts) rfl
  have t {f : Field} (hf : f.isName = false) := Out.toks_ren (ρ := ρ) o hf
  have s {f : Field} (hf : f.isName = false) := Out.str_ren (ρ := ρ) o hf
  have ss {f : Field} (hf : f.isName = false) := Out.strs_ren (ρ := ρ) o hf
  have fl {f : Field} (hf : f.isName = false) := Out.flag_ren (ρ := ρ) o hf
  cases k
  case value =>
    simp only [build, t (f := .number) rfl, t (f := .bool) rfl, Out.ptr_ren, fl (f := .null) rfl]
    cases o.toks .number with
    | nil =>
      simp only [Option.pure_def, Option.bind_eq_bind, Option.bind_some, Option.map_some, Node.ren]
      cases o.toks .bool <;> simp [Node.ren]
    | cons t l =>
      simp only [Option.pure_def, Option.bind_eq_bind, Option.bind_some]
      cases captureNumber t with
      | none => rfl
      | some c =>
        simp only [Option.bind_some, Option.map_some, Node.ren]
        cases o.toks .bool <;> simp [Node.ren]
  case heredoc =>
    simp only [build, s (f := .delimiter) rfl, Out.slice_ren]
    cases captureDelimiter (o.str .delimiter) with
    | none => rfl
    | some c => rfl
  case typeEnumItem =>
    simp only [build, e3, s (f := .emptyLine) rfl, Out.ptr_ren, Out.struct_ren, Option.map_some, Node.ren]
    cases o.struct .value with
    | some x => rfl
    | none => simp [zeroExpr, Node.ren]
  case typeObjectItem =>
    simp only [build, e3, s (f := .emptyLine) rfl, Out.ptr_ren, Out.struct_ren, Option.map_some, Node.ren]
    cases o.struct .type with
    | some x => rfl
    | none => simp [zeroParameterType, Node.ren]
  case funcSignature =>
    simp only [build, Out.slice_ren, Out.struct_ren]
    cases o.struct .ret <;> rfl
  case lambda =>
    simp only [build, Out.slice_ren, Out.struct_ren, Out.ptr_ren]
    cases o.struct .expr <;> rfl
  case exprIf =>
    simp only [build, Out.ptr_ren, Out.struct_ren]
    cases o.struct .condition <;> rfl
  case exprSwitch =>
    simp only [build, Out.slice_ren, Out.struct_ren]
    cases o.struct .selector <;> rfl
  case conditional =>
    simp only [build, fl (f := .conditionOp) rfl, Out.ptr_ren, Out.struct_ren]
    cases o.struct .condition <;> rfl
  case bin l =>
    simp only [build, s (f := .op) rfl, Out.ptr_ren, Out.struct_ren]
    cases o.struct .left <;> rfl
  case unary =>
    simp only [build, s (f := .op) rfl, Out.struct_ren]
    cases o.struct .right <;> rfl
  case postfixE =>
    simp only [build, Out.ptr_ren, Out.struct_ren]
    cases o.struct .value <;> rfl
  all_goals
    simp only [build, e1, e2, e3, e4, e5, Out.ptr_ren, Out.slice_ren, Option.map_some, Option.map_none, Node.ren]
    try simp (discharger := first | rfl | decide) only [s, ss, fl]

theorem parseFuel_ren (h0 : ρ [] = []) (eof : Position) (n : Nat) (k : Kind) (s : List Token) (ht : ∀ t ∈ s, t.Fits ρ) :
    parseFuel eof n k (s.map (Token.ren ρ)) = (parseFuel eof n k s).ren ρ (Node.ren ρ) := by
  induction n generalizing k s with
  | zero => rfl
  | succ n ih =>
    unfold parseFuel structStep
    rw [run_ren (parseFuel_suffix eof n) (fun k s h => ih k s h) _ (fit_of k) s ht]
    obtain ⟨c1, c2, c3⟩ := capsOne_of k
    cases e : run (parseFuel eof n) (Gram.of k) s with
    | miss => rfl
    | err r => rfl
    | ok o r =>
      simp only [Res.ren]
      have hm : posOf eof (s.map (Token.ren ρ)) = posOf eof s := by cases s <;> rfl
      rw [hm, build_ren h0 _ o k (run_capsOne _ c1 _ _ _ e) (run_capsOne _ c2 _ _ _ e) (run_capsOne _ c3 _ _ _ e)]
      cases build { addr := 0, pos := posOf eof s } o k <;> rfl

/-- The parser on renamed tokens. -/
theorem parseTokens_ren (h0 : ρ [] = []) (eof : Position) (s : List Token) (ht : ∀ t ∈ s, t.Fits ρ) :
    parseTokens eof (s.map (Token.ren ρ)) = (parseTokens eof s).map (Node.ren ρ) := by
  unfold parseTokens
  rw [run_ren (parseKind_suffix eof) (fun k s h => by unfold parseKind; rw [List.length_map, parseFuel_ren h0 eof _ k s h]) _ rfl s ht]
  cases run (fun k s => parseKind eof k s) (.star (.sub .items .rootItem)) s with
  | miss => rfl
  | err r => rfl
  | ok o r =>
    cases r with
    | nil => simp only [Res.ren, List.map_nil, Option.map_some, Out.slice_ren]
    | cons t r => rfl

omit [FloatValue] in
set_option linter.unusedSimpArgs false in
/-- Positions and names are independent of each other. -/
theorem Node.map_ren (fm : Meta → Meta) (fa : Nat → Nat) {k : Kind} (x : Node k) : (x.map fm fa).ren ρ = (x.ren ρ).map fm fa := by
  have hs : ∀ s : Strs, renStrs ρ (s.map fa) = (renStrs ρ s).map fa := by intro s; cases s <;> rfl
  induction x <;> simp only [Node.map, Node.ren, hs, *]

omit [FloatValue] in
set_option linter.unusedSimpArgs false in
/-- One renaming after the other. -/
theorem Node.ren_ren (ρ σ : Str → Str) {k : Kind} (x : Node k) : (x.ren ρ).ren σ = x.ren (σ ∘ ρ) := by
  have hs : ∀ s : Strs, renStrs σ (renStrs ρ s) = renStrs (σ ∘ ρ) s := by intro s; cases s <;> simp [renStrs]
  induction x <;> simp only [Node.ren, hs, Function.comp, *]

end Verif.Etx
