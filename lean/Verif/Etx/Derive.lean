import Verif.Etx.ParserLemmas

/-!
# Derivations

The grammar read as a context-free grammar, without any order of alternatives, greediness or lookahead; every parse is a
derivation.
-/

namespace Verif.Etx

/-- `Derives g s o`: the production `g` generates the tokens `s`, with the captures `o`; structs have the position of their
first token. -/
inductive Derives [FloatValue] : Gram → List Token → Out → Prop
  | lit {w : Str} {t : Token} : t.txt = w → Derives (.lit w) [t] ⟨[t.txt], []⟩
  | tok {y : Sym} {t : Token} : t.sym = y → Derives (.tok y) [t] ⟨[t.txt], []⟩
  | seq {a b : Gram} {s s' : List Token} {o o' : Out} : Derives a s o → Derives b s' o' →
      Derives (.seq a b) (s ++ s') (o ++ o')
  | altL {a b : Gram} {s : List Token} {o : Out} : Derives a s o → Derives (.alt a b) s o
  | altR {a b : Gram} {s : List Token} {o : Out} : Derives b s o → Derives (.alt a b) s o
  | skip {a : Gram} : Derives (.opt a) [] {}
  | once {a : Gram} {s : List Token} {o : Out} : Derives a s o → Derives (.opt a) s o
  | nil {a : Gram} : Derives (.star a) [] {}
  | cons {a : Gram} {s s' : List Token} {o o' : Out} : Derives a s o → Derives (.star a) s' o' →
      Derives (.star a) (s ++ s') (o ++ o')
  | plus {a : Gram} {s s' : List Token} {o o' : Out} : Derives a s o → Derives (.star a) s' o' →
      Derives (.plus a) (s ++ s') (o ++ o')
  | cap {f : Field} {a : Gram} {s : List Token} {o : Out} : Derives a s o →
      Derives (.cap f a) s ⟨o.txt, [.toks f o.txt]⟩
  | sub {f : Field} {k : Kind} {s : List Token} {o : Out} {pos : Position} {x : Node k} : Derives (Gram.of k) s o →
      build { addr := 0, pos := pos } o k = some x → (∀ t ∈ s.head?, pos = t.pos) → Derives (.sub f k) s ⟨[], [.node f k x]⟩

/-- `s` can be read as the struct `x` of kind `k`. -/
def DerivesKind [FloatValue] (k : Kind) (s : List Token) (x : Node k) : Prop :=
  ∃ o pos, Derives (Gram.of k) s o ∧ build { addr := 0, pos := pos } o k = some x ∧ ∀ t ∈ s.head?, pos = t.pos

namespace Out

@[simp] theorem toks_append (a b : Out) (f : Field) : (a ++ b).toks f = a.toks f ++ b.toks f := List.flatMap_append

@[simp] theorem nodes_append (a b : Out) (f : Field) (k : Kind) : (a ++ b).nodes f k = a.nodes f k ++ b.nodes f k :=
  List.flatMap_append

@[simp] theorem toks_empty (f : Field) : ({} : Out).toks f = [] := rfl

@[simp] theorem nodes_empty (f : Field) (k : Kind) : ({} : Out).nodes f k = [] := rfl

@[simp] theorem caps_append (a b : Out) : (a ++ b).caps = a.caps ++ b.caps := rfl

@[simp] theorem txt_append (a b : Out) : (a ++ b).txt = a.txt ++ b.txt := rfl

@[simp] theorem append_empty (a : Out) : a ++ ({} : Out) = a := by
  show Out.mk _ _ = a
  simp

@[simp] theorem empty_append (a : Out) : ({} : Out) ++ a = a := rfl

theorem append_assoc (a b c : Out) : a ++ b ++ c = a ++ (b ++ c) := by
  show Out.mk _ _ = Out.mk _ _
  simp

theorem mem_nodes {o : Out} {f : Field} {k : Kind} {x : Node k} (h : x ∈ o.nodes f k) : Capture.node f k x ∈ o.caps := by
  obtain ⟨c, hc, hx⟩ := List.mem_flatMap.mp h
  cases c with
  | toks g l => cases hx
  | node g k' y =>
    simp only at hx
    split at hx
    · rename_i e
      subst e
      split at hx
      · rename_i e
        subst e
        simp only [List.mem_singleton] at hx
        subst hx
        exact hc
      · cases hx
    · cases hx

end Out

variable [FloatValue]

theorem many_derives {p : List Token → Res Out} {g : Gram} (hp : ∀ s o r, p s = .ok o r → ∃ t, s = t ++ r ∧ Derives g t o)
    (n : Nat) (s : List Token) (o : Out) (r : List Token) (h : many p n s = .ok o r) :
    ∃ t, s = t ++ r ∧ Derives (.star g) t o := by
  induction n generalizing s o with
  | zero =>
    cases h
    exact ⟨[], rfl, .nil⟩
  | succ n ih =>
    unfold many at h
    cases e : p s with
    | miss =>
      rw [e] at h
      cases h
      exact ⟨[], rfl, .nil⟩
    | err r' =>
      rw [e] at h
      simp only at h
      split at h
      · cases h
      · cases h
        exact ⟨[], rfl, .nil⟩
    | ok o' r' =>
      rw [e] at h
      simp only at h
      obtain ⟨t, rfl, ht⟩ := hp _ _ _ e
      split at h
      · cases e' : many p n r' with
        | miss => rw [e'] at h; cases h
        | err r'' => rw [e'] at h; cases h
        | ok o'' r'' =>
          rw [e'] at h
          cases h
          obtain ⟨t', rfl, ht'⟩ := ih _ _ e'
          exact ⟨t ++ t', by simp, ht.cons ht'⟩
      · cases h
        exact ⟨t, rfl, by simpa using ht.cons .nil⟩

theorem run_derives {p : (k : Kind) → List Token → Res (Node k)}
    (hp : ∀ k s x r, p k s = .ok x r → ∃ t, s = t ++ r ∧ DerivesKind k t x) (g : Gram)
    (s : List Token) (o : Out) (r : List Token) (h : run p g s = .ok o r) : ∃ t, s = t ++ r ∧ Derives g t o := by
  induction g generalizing s o r with
  | lit w =>
    unfold run at h
    cases s with
    | nil => cases h
    | cons t s =>
      simp only at h
      split at h
      · rename_i e
        cases h
        exact ⟨[t], rfl, .lit e⟩
      · cases h
  | tok y =>
    unfold run at h
    cases s with
    | nil => cases h
    | cons t s =>
      simp only at h
      split at h
      · rename_i e
        cases h
        exact ⟨[t], rfl, .tok e⟩
      · cases h
  | seq a b iha ihb =>
    unfold run at h
    cases ea : run p a s with
    | miss => rw [ea] at h; cases h
    | err r' => rw [ea] at h; cases h
    | ok o1 r1 =>
      rw [ea] at h
      simp only at h
      cases eb : run p b r1 with
      | miss => rw [eb] at h; cases h
      | err r' => rw [eb] at h; cases h
      | ok o2 r2 =>
        rw [eb] at h
        cases h
        obtain ⟨t, rfl, ht⟩ := iha _ _ _ ea
        obtain ⟨t', rfl, ht'⟩ := ihb _ _ _ eb
        exact ⟨t ++ t', by simp, ht.seq ht'⟩
  | alt a b iha ihb =>
    have key : run p a s = .ok o r ∨ run p b s = .ok o r := by
      unfold run at h
      cases ea : run p a s with
      | ok o1 r1 => rw [ea] at h; exact .inl h
      | miss =>
        rw [ea] at h
        simp only at h
        cases eb : run p b s with
        | ok o2 r2 => rw [eb] at h; exact .inr h
        | miss => rw [eb] at h; cases h
        | err r' => rw [eb] at h; cases h
      | err r' =>
        rw [ea] at h
        simp only at h
        split at h
        · cases h
        · cases eb : run p b s with
          | ok o2 r2 => rw [eb] at h; exact .inr h
          | miss => rw [eb] at h; cases h
          | err r' => rw [eb] at h; cases h
    rcases key with h | h
    · obtain ⟨t, e, ht⟩ := iha _ _ _ h
      exact ⟨t, e, .altL ht⟩
    · obtain ⟨t, e, ht⟩ := ihb _ _ _ h
      exact ⟨t, e, .altR ht⟩
  | opt a iha =>
    unfold run at h
    cases ea : run p a s with
    | ok o1 r1 =>
      rw [ea] at h
      cases h
      obtain ⟨t, e, ht⟩ := iha _ _ _ ea
      exact ⟨t, e, .once ht⟩
    | miss =>
      rw [ea] at h
      cases h
      exact ⟨[], rfl, .skip⟩
    | err r' =>
      rw [ea] at h
      simp only at h
      split at h
      · cases h
      · cases h
        exact ⟨[], rfl, .skip⟩
  | star a iha => exact many_derives iha _ _ _ _ h
  | plus a iha =>
    unfold run at h
    cases ea : run p a s with
    | miss => rw [ea] at h; cases h
    | err r' => rw [ea] at h; cases h
    | ok o1 r1 =>
      rw [ea] at h
      simp only at h
      cases eb : many (run p a) (r1.length + 1) r1 with
      | miss => rw [eb] at h; cases h
      | err r' => rw [eb] at h; cases h
      | ok o2 r2 =>
        rw [eb] at h
        cases h
        obtain ⟨t, rfl, ht⟩ := iha _ _ _ ea
        obtain ⟨t', rfl, ht'⟩ := many_derives iha _ _ _ _ eb
        exact ⟨t ++ t', by simp, ht.plus ht'⟩
  | cap f a iha =>
    unfold run at h
    cases ea : run p a s with
    | miss => rw [ea] at h; cases h
    | err r' => rw [ea] at h; cases h
    | ok o1 r1 =>
      rw [ea] at h
      cases h
      obtain ⟨t, e, ht⟩ := iha _ _ _ ea
      exact ⟨t, e, .cap ht⟩
  | sub f k =>
    unfold run at h
    cases ea : p k s with
    | miss => rw [ea] at h; cases h
    | err r' => rw [ea] at h; cases h
    | ok x r1 =>
      rw [ea] at h
      cases h
      obtain ⟨t, e, o, pos, ht, hb, hpos⟩ := hp _ _ _ _ ea
      exact ⟨t, e, .sub ht hb hpos⟩

theorem parseFuel_derives (eof : Position) (n : Nat) (k : Kind) (s : List Token) (x : Node k) (r : List Token)
    (h : parseFuel eof n k s = .ok x r) : ∃ t, s = t ++ r ∧ DerivesKind k t x := by
  induction n generalizing k s r with
  | zero => cases h
  | succ n ih =>
    unfold parseFuel structStep at h
    cases e : run (parseFuel eof n) (Gram.of k) s with
    | miss => rw [e] at h; cases h
    | err r' => rw [e] at h; cases h
    | ok o r' =>
      rw [e] at h
      simp only at h
      cases eb : build { addr := 0, pos := posOf eof s } o k with
      | none => rw [eb] at h; cases h
      | some y =>
        rw [eb] at h
        cases h
        obtain ⟨t, e', ht⟩ := run_derives (fun k s x r => ih k s x r) _ _ _ _ e
        refine ⟨t, e', o, _, ht, eb, fun u hu => ?_⟩
        cases t with
        | nil => cases hu
        | cons v t =>
          cases hu
          rw [e']
          rfl

theorem parseKind_derives {eof : Position} {k : Kind} {s : List Token} {x : Node k} {r : List Token}
    (h : parseKind eof k s = .ok x r) : ∃ t, s = t ++ r ∧ DerivesKind k t x := parseFuel_derives _ _ _ _ _ _ h

theorem parseTokens_derives {eof : Position} {s : List Token} {x : Node (.slice .rootItem)}
    (h : parseTokens eof s = some x) : ∃ o, Derives (.star (.sub .items .rootItem)) s o ∧ x = o.slice .items := by
  unfold parseTokens at h
  split at h
  · rename_i o e
    cases h
    obtain ⟨t, rfl, ht⟩ := run_derives (fun k s x r => parseKind_derives) _ _ _ _ e
    exact ⟨o, by simpa using ht, rfl⟩
  · cases h

end Verif.Etx
