import Verif.Etx.Strict
import Verif.Etx.Tidy
import Verif.Etx.Limit
import Verif.Etx.RunLemmas

/-!
# What follows a document does not change how it is read

The brackets of the tokens of a document are nested (`Nest`): this is followed with a stack, on which strings, heredocs and the
expressions in them also count as brackets.  An attempt to read a part of the document keeps to this nesting
(`run_ext`), even if it fails, and outside of all brackets it does not get past a line end that is followed by a name.  So it gives the
same result whatever the document is followed by.
-/

namespace Verif.Etx

/-- What can be open. -/
inductive Br where
  | paren | square | brace | str | here | code | uni
  deriving DecidableEq, Repr

/-- The state in which the inside is lexed, up to the kind of expression. -/
def Br.state : Br → LexState
  | .str => .string
  | .here => .heredoc
  | .uni => .unicode
  | _ => .stringExpr

/-- The state, where `b` is the one outside. -/
def Br.top (b : LexState) : List Br → LexState
  | [] => b
  | x :: _ => x.state

/-- Close `x`. -/
def Br.pop (x : Br) : List Br → Option (List Br)
  | [] => none
  | z :: c => if z = x then some c else none

/-- What is open after a token, if it may stand there. -/
def Sym.nest (b : LexState) (c : List Br) (y : Sym) : Option (List Br) :=
  match Br.top b c with
  | .string =>
    match y with
    | .stringEnd => Br.pop .str c
    | .unicode => some (.uni :: c)
    | .expr | .directive => some (.code :: c)
    | .escaped | .quote | .nonExpr | .char => some c
    | _ => none
  | .heredoc =>
    match y with
    | .heredocEnd => Br.pop .here c
    | .expr | .directive => some (.code :: c)
    | .eol | .nonExpr | .body => some c
    | _ => none
  | .unicode =>
    match y with
    | .unicodeLong | .unicodeShort => Br.pop .uni c
    | _ => none
  | _ =>
    match y with
    | .opLParen => some (.paren :: c)
    | .opLBracket => some (.square :: c)
    | .blockStart => some (.brace :: c)
    | .string => some (.str :: c)
    | .heredoc => some (.here :: c)
    | .opRParen => Br.pop .paren c
    | .opRBracket => Br.pop .square c
    | .blockEnd => Br.pop .brace c
    | .exprEnd => Br.pop .code c
    | y => if y.core then some c else none

theorem Br.pop_append {x : Br} {c c' β : List Br} (h : Br.pop x c = some c') : Br.pop x (c ++ β) = some (c' ++ β) := by
  cases c with
  | nil => cases h
  | cons z c =>
    simp only [Br.pop, List.cons_append] at h ⊢
    split at h
    · cases h; rw [if_pos (by assumption)]
    · cases h

theorem Br.top_append {b : LexState} {c β : List Br} (h : Br.top .stringExpr β = b) : Br.top .stringExpr (c ++ β) = Br.top b c := by
  cases c with
  | nil => exact h
  | cons => rfl

theorem Sym.nest_append {b : LexState} {c c' β : List Br} {y : Sym} (hb : Br.top .stringExpr β = b) (h : y.nest b c = some c') :
    y.nest .stringExpr (c ++ β) = some (c' ++ β) := by
  unfold Sym.nest at h ⊢
  rw [Br.top_append hb]
  generalize Br.top b c = z at h ⊢
  cases z <;> cases y <;>
    first
    | exact Br.pop_append h
    | (have h : some _ = some c' := h
       cases h
       rfl)
    | (have h : none = some c' := h
       cases h)

/-- What is open after some tokens. -/
def nest : List Br → List Token → Option (List Br)
  | c, [] => some c
  | c, t :: s => (t.sym.nest .stringExpr c).bind (nest · s)

theorem nest_app (c : List Br) (s s' : List Token) : nest c (s ++ s') = (nest c s).bind (nest · s') := by
  induction s generalizing c with
  | nil => rfl
  | cons t s ih =>
    simp only [List.cons_append, nest]
    cases t.sym.nest .stringExpr c with
    | none => rfl
    | some c' => exact ih c'

namespace Gram

/-- What is open after a production. -/
def nest (b : LexState) : Gram → List Br → Option (List Br)
  | lit w, c => if Br.top b c = .stringExpr then (litSym w).nest b c else none
  | tok y, c => y.nest b c
  | seq g h, c => (g.nest b c).bind (h.nest b)
  | alt g h, c => if g.nest b c = h.nest b c then g.nest b c else none
  | opt g, c | star g, c | plus g, c => if g.nest b c = some c then some c else none
  | cap _ g, c => g.nest b c
  | sub _ k, c => if Br.top b c = k.state then some c else none

theorem nest_of (k : Kind) : (of k).nest k.state [] = some [] := by
  cases k
  case bin l => cases l <;> decide +kernel
  case ptr | slice | items => exact (by decide +kernel : (lit []).nest .stringExpr [] = some [])
  all_goals decide +kernel

end Gram

variable [FloatValue]

/-- The tokens of a derivation are nested. -/
theorem Strict.nested {g : Gram} {s : List Token} {o : Out} (h : Strict g s o) {b : LexState} {c c' β : List Br}
    (hb : Br.top .stringExpr β = b) (hf : g.nest b c = some c') : nest (c ++ β) s = some (c' ++ β) := by
  induction h generalizing b c c' β with
  | @lit w t e hs =>
    simp only [Gram.nest] at hf
    split at hf
    · simp only [Verif.Etx.nest]; rw [hs, Sym.nest_append hb hf]; rfl
    · cases hf
  | @tok y t e =>
    simp only [Gram.nest] at hf
    simp only [Verif.Etx.nest]; rw [e, Sym.nest_append hb hf]; rfl
  | seq _ _ iha ihb =>
    simp only [Gram.nest, Option.bind_eq_some_iff] at hf
    obtain ⟨c1, h1, h2⟩ := hf
    rw [nest_app, iha hb h1]
    exact ihb hb h2
  | altL _ ih =>
    simp only [Gram.nest] at hf
    split at hf
    · exact ih hb hf
    · cases hf
  | altR _ ih =>
    simp only [Gram.nest] at hf
    split at hf
    · rename_i e; exact ih hb (e ▸ hf)
    · cases hf
  | skip | nil =>
    simp only [Gram.nest] at hf
    split at hf
    · cases hf; rfl
    · cases hf
  | once _ ih =>
    simp only [Gram.nest] at hf
    split at hf
    · rename_i e; cases hf; exact ih hb e
    · cases hf
  | cons _ _ iha ihb =>
    simp only [Gram.nest] at hf
    split at hf
    · rename_i e; cases hf
      rw [nest_app, iha hb e]
      exact ihb hb (by simp only [Gram.nest]; rw [if_pos e])
    · cases hf
  | plus _ _ iha ihb =>
    simp only [Gram.nest] at hf
    split at hf
    · rename_i e; cases hf
      rw [nest_app, iha hb e]
      exact ihb hb (by simp only [Gram.nest]; rw [if_pos e])
    · cases hf
  | cap _ ih => exact ih hb hf
  | @sub f k s o pos x _ _ _ ih =>
    simp only [Gram.nest] at hf
    split at hf
    · rename_i e; cases hf
      exact ih (c := []) (β := c ++ β) (by rw [Br.top_append hb, e]) (Gram.nest_of k)
    · cases hf

/-! ## Attempts -/

/-- Structs that may end with a line end outside of their brackets. -/
def Kind.loose : Kind → Bool
  | .rootItem | .comment | .attr | .blockItem | .decl | .lambda | .funcStatement | .funcDecl | .typeEnumItem
  | .typeObjectItem | .listItem | .mapItem | .expr | .exprIf | .conditional | .invocation => true
  | _ => false

/-- Structs that are always in brackets. -/
def Kind.inner : Kind → Bool
  | .typeEnum | .typeObject => true
  | _ => false

/-- A literal that is no name or comment. -/
def apart (w : Str) : Bool := !(w.head?.any isAlpha || decide (w.head? = some '/'))

namespace Gram

/-- What is open after a production, and whether it may have ended with a line end outside of all brackets.  With
`l` such a line end comes before; then neither a name nor a comment `/* … */` is read next.  With `i` there are brackets outside. -/
def go (b : LexState) (i : Bool) : Gram → List Br → Bool → Option (List Br × Bool)
  | lit w, c, l =>
    if Br.top b c = .stringExpr ∧ litOk w = true ∧ (l = true → apart w = true) then ((litSym w).nest b c).map (·, false) else none
  | tok y, c, l =>
    if l = true ∧ (y = .ident ∨ y = .multilineComment) then none
    else (y.nest b c).map (·, decide (y = .lf) && c.isEmpty && !i)
  | seq g h, c, l => (g.go b i c l).bind fun x => h.go b i x.1 x.2
  | alt g h, c, l =>
    match g.go b i c l, h.go b i c l with
    | some x, some y => if x.1 = y.1 then some (x.1, x.2 || y.2) else none
    | _, _ => none
  | opt g, c, l =>
    match g.go b i c l with
    | some x => if x.1 = c then some (c, l || x.2) else none
    | none => none
  | star g, c, l =>
    match g.go b i c l with
    | some x => if g.go b i c (l || x.2) = some (c, l || x.2) then some (c, l || x.2) else none
    | none => none
  | plus g, c, l =>
    match g.go b i c l with
    | some x => if x.1 = c ∧ g.go b i c x.2 = some (c, x.2) then some (c, x.2) else none
    | none => none
  | cap _ g, c, l => g.go b i c l
  | sub _ k, c, l =>
    if l = false ∧ Br.top b c = k.state ∧ (k.inner = true → c.isEmpty = false ∨ i = true) then some (c, c.isEmpty && !i && k.loose)
    else none

omit [FloatValue] in
theorem go_of (k : Kind) : (of k).go k.state k.inner [] false = some ([], k.loose) := by
  cases k
  case bin l => cases l <;> decide +kernel
  case ptr | slice | items => exact (by decide +kernel : (lit []).go .stringExpr false [] false = some ([], false))
  all_goals decide +kernel

end Gram

/-- A result on tokens that are followed by others. -/
def Res.ext {α : Type} (z : List Token) : Res α → Res α
  | .miss => .miss
  | .err r => .err (r ++ z)
  | .ok a r => .ok a (r ++ z)

/-- The rest of a document: `β` is closed in it, and the last token is a line end.  `l` holds at the end of the document. -/
structure RestOf (β : List Br) (l : Bool) (u : List Token) : Prop where
  nest : nest β u = some []
  exact : ∀ t ∈ u, t.exact = true
  last : ∀ t ∈ u.getLast?, t.sym = .lf
  edge : u = [] → l = true

omit [FloatValue] in
theorem RestOf.mono {β : List Br} {l l' : Bool} {u : List Token} (h : RestOf β l u) (hl : l = true → l' = true) : RestOf β l' u :=
  ⟨h.nest, h.exact, h.last, fun e => hl (h.edge e)⟩

omit [FloatValue] in
theorem RestOf.ne {β : List Br} {u : List Token} (h : RestOf β false u) : u ≠ [] := fun e => nomatch h.edge e

omit [FloatValue] in
theorem RestOf.tail {β β' : List Br} {l l' : Bool} {t : Token} {r : List Token} (h : RestOf β l (t :: r))
    (hs : t.sym.nest .stringExpr β = some β') (hl : t.sym = .lf → β' = [] → l' = true) : RestOf β' l' r := by
  obtain ⟨h1, h2, h3, -⟩ := h
  simp only [Verif.Etx.nest, hs, Option.bind_some] at h1
  refine ⟨h1, fun u hu => h2 u (by simp [hu]), fun u hu => h3 u ?_, ?_⟩
  · cases r with
    | nil => cases hu
    | cons v r => simpa using hu
  · rintro rfl
    simp only [Verif.Etx.nest, Option.some.injEq] at h1
    exact hl (h3 t (by simp)) h1

omit [FloatValue] in
theorem stops_ext (s r z : List Token) : stops (s ++ z) (r ++ z) = stops s r := by
  simp only [stops, List.length_append]
  congr 1
  apply propext
  omega

omit [FloatValue] in
/-- The loop, if the body does not depend on what follows. -/
theorem many_ext {P P' : List Token → Res Out} {z : List Token} {β : List Br} {l : Bool}
    (hP : ∀ u, RestOf β l u → P' (u ++ z) = (P u).ext z ∧ ∀ o r, P u = .ok o r → RestOf β l r)
    (n n' : Nat) (u : List Token) (hn : u.length < n) (hn' : u.length < n') (hu : RestOf β l u) :
    many P' n' (u ++ z) = (many P n u).ext z ∧ ∀ o r, many P n u = .ok o r → RestOf β l r := by
  induction n generalizing n' u with
  | zero => omega
  | succ n ih =>
    cases n' with
    | zero => omega
    | succ n' =>
      obtain ⟨h1, h2⟩ := hP u hu
      simp only [many]
      rw [h1]
      cases e : P u with
      | miss => exact ⟨rfl, fun o r h => by cases h; exact hu⟩
      | err r =>
        simp only [Res.ext, stops_ext]
        split
        · exact ⟨rfl, fun o r h => by cases h⟩
        · exact ⟨rfl, fun o r h => by cases h; exact hu⟩
      | ok o r =>
        have hr := h2 o r e
        simp only [Res.ext, List.length_append, Nat.add_lt_add_iff_right]
        split
        · rename_i hlt
          obtain ⟨h3, h4⟩ := ih n' r (by omega) (by omega) hr
          rw [h3]
          cases e' : many P n r with
          | miss => exact ⟨rfl, fun o r h => by cases h⟩
          | err r' => exact ⟨rfl, fun o r h => by cases h⟩
          | ok o' r' => exact ⟨rfl, fun o r h => by cases h; exact h4 _ _ e'⟩
        · exact ⟨rfl, fun o r h => by cases h; exact hr⟩

/-- What comes after the document: a name, or a comment `/* … */`. -/
def Fresh (z : List Token) : Prop := ∃ t r, z = t :: r ∧ (t.sym = .ident ∨ t.sym = .multilineComment) ∧ t.exact = true

omit [FloatValue] in
theorem apart_ne {t : Token} {w : Str} (ht : t.sym = .ident ∨ t.sym = .multilineComment) (he : t.exact = true) (hw : apart w = true) :
    t.txt ≠ w := by
  rintro rfl
  simp only [apart, Bool.not_eq_true', Bool.or_eq_false_iff, decide_eq_false_iff_not] at hw
  simp only [Token.exact] at he
  rcases ht with h | h <;> rw [h] at he
  · simp only [Sym.exact, Sym.word] at he
    rw [hw.1] at he
    cases he
  · simp only [Sym.exact, Sym.word, Bool.and_eq_true, decide_eq_true_eq] at he
    exact hw.2 he.1

omit [FloatValue] in
/-- A literal matches a token of its own type. -/
theorem lit_nest {t : Token} {w : Str} {b : LexState} {c c' β β' : List Br} (hb : Br.top .stringExpr β = b)
    (hc : Br.top b c = .stringExpr) (hw : litOk w = true) (he : t.exact = true) (e : t.txt = w)
    (hn : (litSym w).nest b c = some c') (ht : t.sym.nest .stringExpr (c ++ β) = some β') : t.sym = litSym w := by
  have hc' := hc
  rw [← Br.top_append (c := c) hb] at hc
  have hcore : t.sym.core = true ∨ t.sym = .exprEnd := by
    unfold Sym.nest at ht
    rw [hc] at ht
    revert ht
    cases t.sym <;> first | (intro _; right; rfl) | (intro _; left; rfl) | (intro h; cases h)
  rcases hcore with h | h
  · exact lit_sym hw he e h
  · exfalso
    simp only [Token.exact, h] at he
    have hw' : w = c!"}" := by
      rw [← e]
      simpa [Sym.exact, Sym.word] using he
    subst hw'
    rw [h] at ht
    unfold Sym.nest at ht hn
    rw [hc] at ht
    rw [hc'] at hn
    have hn : Br.pop .brace c = some c' := hn
    have ht : Br.pop .code (c ++ β) = some β' := ht
    cases c with
    | nil => cases hn
    | cons x c =>
      simp only [Br.pop, List.cons_append] at hn ht
      split at hn
      · rename_i hx; subst hx; cases ht
      · cases hn

omit [FloatValue] in
theorem ite_ne {α : Type} {P : Prop} [Decidable P] {a b c : α} (ha : a ≠ c) (hb : b ≠ c) : (if P then a else b) ≠ c := by
  split
  · exact ha
  · exact hb

omit [FloatValue] in
theorem litSym_ne_lf (w : Str) : litSym w ≠ .lf := by
  unfold litSym
  repeat' first | apply ite_ne | decide

omit [FloatValue] in
/-- A production gives the same on a part of a document, whatever the document is followed by. -/
theorem run_ext {p p' : (k : Kind) → List Token → Res (Node k)} {z : List Token} (hz : Fresh z)
    (hp : ∀ k β u, Br.top .stringExpr β = k.state → (k.inner = true → β ≠ []) → RestOf β false u →
      p' k (u ++ z) = (p k u).ext z ∧ ∀ x r, p k u = .ok x r → RestOf β k.loose r)
    (g : Gram) {b : LexState} {i : Bool} {c c' β : List Br} {l l' : Bool} {u : List Token} (hb : Br.top .stringExpr β = b)
    (hi : i = true → β ≠ []) (hg : g.go b i c l = some (c', l')) (hu : RestOf (c ++ β) l u) :
    run p' g (u ++ z) = (run p g u).ext z ∧ ∀ o r, run p g u = .ok o r → RestOf (c' ++ β) l' r := by
  obtain ⟨t₀, z', rfl, hz1, hz2⟩ := hz
  induction g generalizing c c' l l' u with
  | lit w =>
    simp only [Gram.go] at hg
    split at hg
    · rename_i h
      obtain ⟨h1, h2, h3⟩ := h
      simp only [Option.map_eq_some_iff, Prod.mk.injEq] at hg
      obtain ⟨c1, hg, rfl, rfl⟩ := hg
      cases u with
      | nil =>
        have hne := apart_ne hz1 hz2 (h3 (hu.edge rfl))
        simp only [List.nil_append, run, if_neg hne]
        exact ⟨rfl, fun o r h => by cases h⟩
      | cons t r =>
        simp only [List.cons_append, run]
        split
        · rename_i e
          refine ⟨rfl, fun o r' h => ?_⟩
          cases h
          have hn := hu.nest
          simp only [Verif.Etx.nest, Option.bind_eq_some_iff] at hn
          obtain ⟨β', hn, -⟩ := hn
          have hs := lit_nest hb h1 h2 (hu.exact t (by simp)) e hg hn
          have hx := Sym.nest_append hb hg
          refine hu.tail (by rw [hs]; exact hx) fun hlf => ?_
          rw [hs] at hlf
          exact absurd hlf (litSym_ne_lf w)
        · exact ⟨rfl, fun o r h => by cases h⟩
    · cases hg
  | tok y =>
    simp only [Gram.go] at hg
    split at hg
    · cases hg
    · rename_i h
      simp only [Option.map_eq_some_iff, Prod.mk.injEq] at hg
      obtain ⟨c1, hg, rfl, rfl⟩ := hg
      cases u with
      | nil =>
        have hne : ¬ t₀.sym = y := fun e => h ⟨hu.edge rfl, by rw [← e]; exact hz1⟩
        simp only [List.nil_append, run, if_neg hne]
        exact ⟨rfl, fun o r h => by cases h⟩
      | cons t r =>
        simp only [List.cons_append, run]
        split
        · rename_i e
          refine ⟨rfl, fun o r' h => ?_⟩
          cases h
          refine hu.tail (by rw [e]; exact Sym.nest_append hb hg) fun hlf hnil => ?_
          rw [← e, hlf]
          obtain ⟨rfl, rfl⟩ := List.append_eq_nil_iff.mp hnil
          have hi : i = false := by
            cases i with
            | false => rfl
            | true => exact absurd rfl (hi rfl)
          have hc : c = [] := by
            rw [← e, hlf] at hg
            unfold Sym.nest at hg
            revert hg
            cases Br.top b c <;> intro hg <;> first | (cases hg; done) | exact Option.some.inj (by exact hg)
          rw [hc, hi]
          rfl
        · exact ⟨rfl, fun o r h => by cases h⟩
  | seq a d iha ihb =>
    simp only [Gram.go, Option.bind_eq_some_iff] at hg
    obtain ⟨⟨c1, l1⟩, hg1, hg2⟩ := hg
    obtain ⟨h1, h2⟩ := iha hg1 hu
    simp only [run, h1]
    cases e : run p a u with
    | miss => exact ⟨rfl, fun o r h => by cases h⟩
    | err r => exact ⟨rfl, fun o r h => by cases h⟩
    | ok o r =>
      obtain ⟨h3, h4⟩ := ihb hg2 (h2 o r e)
      simp only [Res.ext, h3]
      cases e' : run p d r with
      | miss => exact ⟨rfl, fun o r h => by cases h⟩
      | err r => exact ⟨rfl, fun o r h => by cases h⟩
      | ok o' r' => exact ⟨rfl, fun o r h => by cases h; exact h4 _ _ e'⟩
  | alt a d iha ihb =>
    simp only [Gram.go] at hg
    split at hg
    · rename_i x y ha hd
      split at hg
      · rename_i hxy
        cases hg
        obtain ⟨x1, x2⟩ := x
        obtain ⟨y1, y2⟩ := y
        simp only at hxy
        subst hxy
        obtain ⟨h1, h2⟩ := iha ha hu
        obtain ⟨h3, h4⟩ := ihb hd hu
        have m1 : ∀ r, RestOf (x1 ++ β) x2 r → RestOf (x1 ++ β) (x2 || y2) r := fun r h => h.mono (by simp +contextual)
        have m2 : ∀ r, RestOf (x1 ++ β) y2 r → RestOf (x1 ++ β) (x2 || y2) r := fun r h => h.mono (by simp +contextual)
        simp only [run, h1, h3]
        cases e : run p a u with
        | ok o r => exact ⟨rfl, fun o r h => by cases h; exact m1 _ (h2 _ _ e)⟩
        | miss =>
          simp only [Res.ext]
          cases e' : run p d u with
          | ok o r => exact ⟨rfl, fun o r h => by cases h; exact m2 _ (h4 _ _ e')⟩
          | miss => exact ⟨rfl, fun o r h => by cases h⟩
          | err r =>
            simp only [stops_ext]
            split <;> exact ⟨rfl, fun o r h => by cases h⟩
        | err r =>
          simp only [Res.ext, stops_ext]
          split
          · exact ⟨rfl, fun o r h => by cases h⟩
          · cases e' : run p d u with
            | ok o r => exact ⟨rfl, fun o r h => by cases h; exact m2 _ (h4 _ _ e')⟩
            | miss => exact ⟨rfl, fun o r h => by cases h⟩
            | err r =>
              simp only [stops_ext]
              split <;> exact ⟨rfl, fun o r h => by cases h⟩
      · cases hg
    · cases hg
  | opt a iha =>
    simp only [Gram.go] at hg
    split at hg
    · rename_i x ha
      obtain ⟨x1, x2⟩ := x
      split at hg
      · rename_i hx
        simp only at hx
        subst hx
        cases hg
        obtain ⟨h1, h2⟩ := iha ha hu
        simp only [run, h1]
        cases e : run p a u with
        | ok o r => exact ⟨rfl, fun o r h => by cases h; exact (h2 _ _ e).mono (by simp +contextual)⟩
        | miss => exact ⟨rfl, fun o r h => by cases h; exact hu.mono (by simp +contextual)⟩
        | err r =>
          simp only [Res.ext, stops_ext]
          split
          · exact ⟨rfl, fun o r h => by cases h⟩
          · exact ⟨rfl, fun o r h => by cases h; exact hu.mono (by simp +contextual)⟩
      · cases hg
    · cases hg
  | star a iha =>
    simp only [Gram.go] at hg
    split at hg
    · rename_i x ha
      split at hg
      · rename_i hx
        cases hg
        have hu' : RestOf (c ++ β) (l || x.2) u := hu.mono (by simp +contextual)
        simp only [run]
        exact many_ext (fun u hu => iha hx hu) _ _ _ (by omega) (by simp; omega) hu'
      · cases hg
    · cases hg
  | plus a iha =>
    simp only [Gram.go] at hg
    split at hg
    · rename_i x ha
      obtain ⟨x1, x2⟩ := x
      split at hg
      · rename_i hx
        obtain ⟨hx1, hx⟩ := hx
        simp only at hx1 hx
        subst hx1
        cases hg
        obtain ⟨h1, h2⟩ := iha ha hu
        simp only [run, h1]
        cases e : run p a u with
        | miss => exact ⟨rfl, fun o r h => by cases h⟩
        | err r =>
          simp only [Res.ext, stops_ext]
          split <;> exact ⟨rfl, fun o r h => by cases h⟩
        | ok o r =>
          obtain ⟨h3, h4⟩ := many_ext (z := t₀ :: z') (fun u hu => iha hx hu) (r.length + 1) ((r ++ t₀ :: z').length + 1) r (by omega)
            (by simp; omega) (h2 o r e)
          simp only [Res.ext, h3]
          cases e' : many (run p a) (r.length + 1) r with
          | miss => exact ⟨rfl, fun o r h => by cases h⟩
          | err r => exact ⟨rfl, fun o r h => by cases h⟩
          | ok o' r' => exact ⟨rfl, fun o r h => by cases h; exact h4 _ _ e'⟩
      · cases hg
    · cases hg
  | cap f a iha =>
    simp only [Gram.go] at hg
    obtain ⟨h1, h2⟩ := iha hg hu
    simp only [run, h1]
    cases e : run p a u with
    | miss => exact ⟨rfl, fun o r h => by cases h⟩
    | err r => exact ⟨rfl, fun o r h => by cases h⟩
    | ok o r => exact ⟨rfl, fun o r h => by cases h; exact h2 _ _ e⟩
  | sub f k =>
    simp only [Gram.go] at hg
    split at hg
    · rename_i h
      obtain ⟨rfl, hk, hin⟩ := h
      cases hg
      obtain ⟨h1, h2⟩ := hp k (c ++ β) u (by rw [Br.top_append hb, hk]) (fun h e => by
        obtain ⟨rfl, rfl⟩ := List.append_eq_nil_iff.mp e
        rcases hin h with h | h
        · cases h
        · exact hi h rfl) hu
      simp only [run, h1]
      cases e : p k u with
      | miss => exact ⟨rfl, fun o r h => by cases h⟩
      | err r => exact ⟨rfl, fun o r h => by cases h⟩
      | ok x r =>
        refine ⟨rfl, fun o r h => ?_⟩
        cases h
        have hr := h2 _ _ e
        refine ⟨hr.nest, hr.exact, hr.last, fun hnil => ?_⟩
        have hl := hr.edge hnil
        subst hnil
        have := hr.nest
        simp only [Verif.Etx.nest, Option.some.injEq] at this
        obtain ⟨rfl, rfl⟩ := List.append_eq_nil_iff.mp this
        have hi : i = false := by
          cases i with
          | false => rfl
          | true => exact absurd rfl (hi rfl)
        rw [hi, hl]
        rfl
    · cases hg

/-- A struct. -/
theorem parseFuel_ext {eof eof' : Position} {z : List Token} (hz : Fresh z) (n : Nat) (k : Kind) (β : List Br) (u : List Token)
    (hb : Br.top .stringExpr β = k.state) (hi : k.inner = true → β ≠ []) (hu : RestOf β false u) :
    parseFuel eof' n k (u ++ z) = (parseFuel eof n k u).ext z ∧ ∀ x r, parseFuel eof n k u = .ok x r → RestOf β k.loose r := by
  induction n generalizing k β u with
  | zero => exact ⟨rfl, fun x r h => by cases h⟩
  | succ n ih =>
    obtain ⟨h1, h2⟩ := run_ext (p := parseFuel eof n) (p' := parseFuel eof' n) hz (fun k β u hb hi hu => ih k β u hb hi hu)
      (Gram.of k) (c := []) hb hi (Gram.go_of k) hu
    simp only [parseFuel, structStep, h1]
    cases e : run (parseFuel eof n) (Gram.of k) u with
    | miss => exact ⟨rfl, fun o r h => by cases h⟩
    | err r => exact ⟨rfl, fun o r h => by cases h⟩
    | ok o r =>
      have hpos : posOf eof' (u ++ z) = posOf eof u := by
        have := hu.ne
        cases u with
        | nil => exact absurd rfl this
        | cons t u => rfl
      simp only [Res.ext, hpos]
      cases build { addr := 0, pos := posOf eof u } o k with
      | none => exact ⟨rfl, fun o r h => by cases h⟩
      | some x => exact ⟨rfl, fun o r h => by cases h; exact h2 _ _ e⟩

theorem parseKind_ext {eof eof' : Position} {z : List Token} (hz : Fresh z) {k : Kind} {β : List Br} {u : List Token}
    (hb : Br.top .stringExpr β = k.state) (hi : k.inner = true → β ≠ []) (hu : RestOf β false u) :
    parseKind eof' k (u ++ z) = (parseKind eof k u).ext z ∧ ∀ x r, parseKind eof k u = .ok x r → RestOf β k.loose r := by
  have hr := Gram.rank_lt k
  have e : parseKind eof k u = parseFuel eof (enough (u ++ z).length) k u :=
    parseFuel_enough _ _ _ _ _ (by unfold enough; omega) (by unfold enough; simp only [List.length_append]; omega)
  rw [e]
  exact parseFuel_ext hz _ k β u hb hi hu

/-- A result after `o` was read. -/
def Res.after (o : Out) : Res Out → Res Out
  | .ok o' r' => .ok (o ++ o') r'
  | e => e

/-- The items of a document, and of what follows. -/
theorem many_join {eof eof' : Position} {z : List Token} (hz : Fresh z) (n n' n'' : Nat) (u : List Token)
    (hn' : (u ++ z).length < n') (hn'' : z.length < n'') (hu : RestOf [] true u) {o : Out}
    (h : many (run (parseKind eof) (.sub .items .rootItem)) n u = .ok o []) :
    many (run (parseKind eof') (.sub .items .rootItem)) n' (u ++ z) =
      (many (run (parseKind eof') (.sub .items .rootItem)) n'' z).after o := by
  obtain ⟨M, hM⟩ : ∃ M, many (run (parseKind eof') (.sub .items .rootItem)) n'' z = M := ⟨_, rfl⟩
  rw [hM]
  have nil : ∀ (o : Out), o = {} → M = M.after o := by
    rintro o rfl
    cases M <;> rfl
  induction n generalizing n' u o with
  | zero =>
    cases h
    rw [List.nil_append, many_fuel n' n'' z hn' hn'', hM]
    exact nil _ rfl
  | succ n ih =>
    cases u with
    | nil =>
      rw [List.nil_append, many_fuel n' n'' z hn' hn'', hM]
      apply nil
      unfold many at h
      cases e : run (parseKind eof) (.sub .items .rootItem) [] with
      | miss => rw [e] at h; cases h; rfl
      | err r =>
        rw [e] at h
        simp only at h
        split at h
        · cases h
        · cases h; rfl
      | ok o' r =>
        exfalso
        have := run_progress (fun k s => parseKind_suffix eof k s) (parseKind_progress eof) _ _ _ _ e
        simp [Gram.null, Gram.nullKind] at this
    | cons t u =>
      cases n' with
      | zero => omega
      | succ n' =>
        have hu' : RestOf [] false (t :: u) := ⟨hu.nest, hu.exact, hu.last, nofun⟩
        obtain ⟨h1, h2⟩ := run_ext (p := parseKind eof) (p' := parseKind eof') hz (fun k β u hb hi hu => parseKind_ext hz hb hi hu)
          (.sub .items .rootItem) (b := .stringExpr) (i := false) (c := []) (β := []) (l := false) (l' := true) (c' := []) rfl nofun
          (by decide +kernel) hu'
        unfold many at h ⊢
        rw [h1]
        cases e : run (parseKind eof) (.sub .items .rootItem) (t :: u) with
        | miss => rw [e] at h; cases h
        | err r =>
          rw [e] at h
          simp only at h
          split at h <;> cases h
        | ok o₁ r =>
          rw [e] at h
          simp only [Res.ext, List.length_append, Nat.add_lt_add_iff_right] at h ⊢
          split at h
          · rename_i hlt
            rw [if_pos hlt]
            cases e' : many (run (parseKind eof) (.sub .items .rootItem)) n r with
            | miss => rw [e'] at h; cases h
            | err r => rw [e'] at h; cases h
            | ok o₂ r₂ =>
              rw [e'] at h
              cases h
              rw [ih n' r (by simp at hn' hlt ⊢; omega) (h2 _ _ e) e' ]
              cases M with
              | miss => rfl
              | err r => rfl
              | ok o' r' => simp only [Res.after, Out.append_assoc]
          · rename_i hlt
            cases h
            simp at hlt

/-- The items of a slice. -/
def Node.list {k : Kind} : Node (.slice k) → List (Node k)
  | .nilSlice => []
  | .mkSlice _ xs => xs.structs

omit [FloatValue] in
theorem Out.list_slice (o : Out) (f : Field) (k : Kind) : (o.slice f (k := k)).list = o.nodes f k := by
  have : ∀ l : List (Node k), (Out.items l).structs = l := by
    intro l
    induction l with
    | nil => simp [Out.items, Node.structs]
    | cons x l ih => simp [Out.items, Node.structs, ih]
  unfold Out.slice
  cases o.nodes f k with
  | nil => rfl
  | cons x l => exact this _

/-- **Parsing tokens that follow a document**: the items of both, whether or not the second part is a document. -/
theorem parseTokens_join {eof eof' : Position} {u z : List Token} {x : Node (.slice .rootItem)} (hz : Fresh z)
    (hu : ∀ t ∈ u, t.exact = true) (hn : nest [] u = some []) (hl : ∀ t ∈ u.getLast?, t.sym = .lf)
    (h : parseTokens eof u = some x) :
    (parseTokens eof' (u ++ z)).map Node.list = (parseTokens eof' z).map fun y => x.list ++ y.list := by
  unfold parseTokens at h ⊢
  cases e : run (fun k s => parseKind eof k s) (.star (.sub .items .rootItem)) u with
  | miss => rw [e] at h; cases h
  | err r => rw [e] at h; cases h
  | ok o r =>
    cases r with
    | cons => rw [e] at h; cases h
    | nil =>
      rw [e] at h
      cases h
      simp only [run] at e ⊢
      have := many_join (eof' := eof') hz (u.length + 1) ((u ++ z).length + 1) (z.length + 1) u (by omega) (by omega)
        ⟨hn, hu, hl, fun _ => rfl⟩ e
      simp only [run] at this
      rw [this]
      cases many _ (z.length + 1) z with
      | miss => rfl
      | err r => rfl
      | ok o' r' =>
        cases r' with
        | cons => rfl
        | nil =>
          simp only [Res.after, Option.map_some, Out.list_slice, Out.nodes_append]

end Verif.Etx
