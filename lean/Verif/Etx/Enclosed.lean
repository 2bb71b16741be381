import Verif.Etx.Nest

/-!
# Parsing tokens that are followed by a closing bracket

The brackets of the tokens of a struct are nested (`nest`).  An attempt to read a part of it keeps to this nesting, so a closing
bracket that comes after all of the tokens is read by none of them (`run_before_end`): the result is that on the tokens alone.  The
same holds for a comma, since commas are read in brackets only, and for a line end or a comment, if there is no `if` or `switch` outside
of brackets: these are the only parts of expressions that read line ends or comments outside of brackets.
-/

namespace Verif.Etx
open Gram

/-- Line ends and comments. -/
def Sym.endsLine (y : Sym) : Bool := y = .lf || y = .singleLineComment || y = .multilineComment

namespace Gram

/-- The structs that are read in brackets only: those that can be empty, and those with commas.  With `l`, a line end may follow:
then also those with line ends. -/
def inner (l : Bool) (k : Kind) : Bool := nullKind k || (k matches .listItem | .mapItem | .exprCase) ||
  l && k matches .rootItem | .blockItem | .funcStatement | .comment | .lambda | .func | .typeEnumItem | .typeObjectItem

/-- The structs with line ends that are also read outside of brackets. -/
def lined (l : Bool) (k : Kind) : Bool := l && k matches .exprIf | .exprSwitch

/-- What is open after a production.  With `i` there are brackets outside. -/
def suits (l : Bool) (b : LexState) (i : Bool) : Gram → List Br → Option (List Br)
  | lit w, c => if Br.top b c = .stringExpr ∧ litOk w = true ∧ (w = c!"," → c.isEmpty = false ∨ i = true) then
      (litSym w).nest b c else none
  | tok y, c => if y = .opComma ∨ l = true ∧ y.endsLine = true ∧ c.isEmpty = true ∧ i = false then none else y.nest b c
  | seq g h, c => (g.suits l b i c).bind (h.suits l b i)
  | alt g h, c => if g.suits l b i c = h.suits l b i c then g.suits l b i c else none
  | opt g, c | star g, c | plus g, c => if g.suits l b i c = some c then some c else none
  | cap _ g, c => g.suits l b i c
  | sub _ k, c => if Br.top b c = k.state ∧ (inner l k = true → c.isEmpty = false ∨ i = true) then some c else none

theorem suits_of (l : Bool) (k : Kind) : (of k).suits l k.state (inner l k || lined l k) [] = some [] := by
  cases l <;> cases k
  case true.bin l | false.bin l => cases l <;> decide +kernel
  case true.ptr | true.slice | true.items => exact (by decide +kernel : (lit []).suits true .stringExpr false [] = some [])
  case false.ptr | false.slice | false.items => exact (by decide +kernel : (lit []).suits false .stringExpr false [] = some [])
  all_goals decide +kernel

end Gram

/-- What is left over of the tokens: `β` is closed in it. -/
structure Inside (β : List Br) (u : List Token) : Prop where
  nest : nest β u = some []
  exact : ∀ t ∈ u, t.exact = true

theorem Inside.tail {β β' : List Br} {t : Token} {r : List Token} (h : Inside β (t :: r))
    (hs : t.sym.nest .stringExpr β = some β') : Inside β' r := by
  obtain ⟨h1, h2⟩ := h
  simp only [Verif.Etx.nest, hs, Option.bind_some] at h1
  exact ⟨h1, fun u hu => h2 u (by simp [hu])⟩

theorem Inside.nil {β : List Br} (h : Inside β []) : β = [] := by
  have := h.nest
  simpa [Verif.Etx.nest] using this

/-- There is no `if` or `switch` outside of brackets. -/
def topFree : List Br → List Token → Bool
  | _, [] => true
  | β, t :: r => (!β.isEmpty || !(t.sym = .if_ || t.sym = .switch_)) && match t.sym.nest .stringExpr β with
    | some β' => topFree β' r
    | none => true

theorem topFree_tail {β β' : List Br} {t : Token} {r : List Token} (h : topFree β (t :: r) = true)
    (hs : t.sym.nest .stringExpr β = some β') : topFree β' r = true := by
  simp only [topFree, hs, Bool.and_eq_true] at h
  exact h.2

/-- The same if a line end may follow. -/
structure Within (l : Bool) (β : List Br) (u : List Token) : Prop extends Inside β u where
  free : l = true → topFree β u = true

theorem Within.tail {l : Bool} {β β' : List Br} {t : Token} {r : List Token} (h : Within l β (t :: r))
    (hs : t.sym.nest .stringExpr β = some β') : Within l β' r :=
  ⟨h.toInside.tail hs, fun e => topFree_tail (h.free e) hs⟩

theorem many_inside {l : Bool} {P P' : List Token → Res Out} {z : List Token} {β : List Br}
    (hP : ∀ u, Within l β u → P' (u ++ z) = (P u).ext z ∧ ∀ o r, P u = .ok o r → Within l β r)
    (n n' : Nat) (u : List Token) (hn : u.length < n) (hn' : u.length < n') (hu : Within l β u) :
    many P' n' (u ++ z) = (many P n u).ext z ∧ ∀ o r, many P n u = .ok o r → Within l β r := by
  induction n generalizing n' u with
  | zero => omega
  | succ n ih =>
    cases n' with
    | zero => omega
    | succ n' =>
      obtain ⟨h1, h2⟩ := hP u hu
      simp only [many]
      rw [h1]
      cases e : P u with
      | miss => exact ⟨rfl, fun o r h => by cases h; exact hu⟩
      | err r =>
        simp only [Res.ext, stops_ext]
        split
        · exact ⟨rfl, fun o r h => by cases h⟩
        · exact ⟨rfl, fun o r h => by cases h; exact hu⟩
      | ok o r =>
        have hr := h2 o r e
        simp only [Res.ext, List.length_append, Nat.add_lt_add_iff_right]
        split
        · rename_i hlt
          obtain ⟨h3, h4⟩ := ih n' r (by omega) (by omega) hr
          rw [h3]
          cases e' : many P n r with
          | miss => exact ⟨rfl, fun o r h => by cases h⟩
          | err r' => exact ⟨rfl, fun o r h => by cases h⟩
          | ok o' r' => exact ⟨rfl, fun o r h => by cases h; exact h4 _ _ e'⟩
        · exact ⟨rfl, fun o r h => by cases h; exact hr⟩

/-- The tokens that can come after an expression in brackets. -/
def closers : List (Sym × Str) :=
  [(.exprEnd, c!"}"), (.blockEnd, c!"}"), (.opRParen, c!")"), (.opRBracket, c!"]"), (.opComma, c!",")]

/-- One of them comes first. -/
def Closes (z : List Token) : Prop := ∃ t r, z = t :: r ∧ (t.sym, t.txt) ∈ closers

/-- Or a line end or a comment. -/
def ClosesLine (l : Bool) (z : List Token) : Prop :=
  Closes z ∨ l = true ∧ ∃ t r, z = t :: r ∧ t.sym.endsLine = true ∧ t.exact = true

theorem Closes.line {z : List Token} (h : Closes z) (l : Bool) : ClosesLine l z := .inl h

theorem endsLine_core {y : Sym} (h : y.endsLine = true) : y.core = true := by
  cases y <;> first | rfl | cases h

theorem litSym_endsLine (w : Str) : ¬ (litSym w).endsLine = true := by
  unfold litSym
  repeat' split
  all_goals decide

/-- A production gives the same on a part of the tokens if a closing bracket follows. -/
theorem run_before_end {l : Bool} {p p' : (k : Kind) → List Token → Res (Node k)} {z : List Token} (hz : ClosesLine l z)
    (hp : ∀ k β u, Br.top .stringExpr β = k.state → (inner l k = true → β ≠ []) → Within l β u →
      p' k (u ++ z) = (p k u).ext z ∧ ∀ x r, p k u = .ok x r → Within l β r)
    (g : Gram) {b : LexState} {i : Bool} {c c' β : List Br} {u : List Token} (hb : Br.top .stringExpr β = b)
    (hi : i = true → β ≠ []) (hg : g.suits l b i c = some c') (hu : Within l (c ++ β) u) :
    run p' g (u ++ z) = (run p g u).ext z ∧ ∀ o r, run p g u = .ok o r → Within l (c' ++ β) r := by
  obtain ⟨t₀, z', e₀, hz₁⟩ : ∃ t r, z = t :: r ∧ ((t.sym, t.txt) ∈ closers ∨ l = true ∧ t.sym.endsLine = true ∧ t.exact = true) := by
    rcases hz with ⟨t, r, h1, h2⟩ | ⟨h1, t, r, h2, h3⟩
    · exact ⟨t, r, h1, .inl h2⟩
    · exact ⟨t, r, h2, .inr ⟨h1, h3⟩⟩
  subst e₀
  clear hz
  have hz := hz₁
  clear hz₁
  simp only [closers, List.mem_cons, Prod.mk.injEq, List.not_mem_nil, or_false] at hz
  induction g generalizing c c' u with
  | lit w =>
    simp only [Gram.suits] at hg
    split at hg
    · rename_i h
      obtain ⟨h1, h2, h3⟩ := h
      cases u with
      | nil =>
        obtain ⟨rfl, rfl⟩ := List.append_eq_nil_iff.mp hu.toInside.nil
        have hne : ¬ t₀.txt = w := by
          rintro rfl
          rw [← hb] at hg
          rcases hz with (⟨-, e⟩ | ⟨-, e⟩ | ⟨-, e⟩ | ⟨-, e⟩ | ⟨-, e⟩) | ⟨-, h5, e⟩
          case inr =>
            have h4 := lit_sym h2 e rfl (endsLine_core h5)
            rw [h4] at h5
            exact litSym_endsLine _ h5
          any_goals rw [e] at hg; cases hg
          rcases h3 e with h | h
          · cases h
          · exact hi h rfl
        simp only [List.nil_append, run, if_neg hne]
        exact ⟨rfl, fun o r h => by cases h⟩
      | cons t r =>
        simp only [List.cons_append, run]
        split
        · rename_i e
          refine ⟨rfl, fun o r' h => ?_⟩
          cases h
          have hn := hu.nest
          simp only [Verif.Etx.nest, Option.bind_eq_some_iff] at hn
          obtain ⟨β', hn, -⟩ := hn
          have hs := lit_nest hb h1 h2 (hu.exact t (by simp)) e hg hn
          exact hu.tail (by rw [hs]; exact Sym.nest_append hb hg)
        · exact ⟨rfl, fun o r h => by cases h⟩
    · cases hg
  | tok y =>
    simp only [Gram.suits] at hg
    split at hg
    · cases hg
    rename_i hy
    cases u with
    | nil =>
      obtain ⟨rfl, rfl⟩ := List.append_eq_nil_iff.mp hu.toInside.nil
      have hne : ¬ t₀.sym = y := by
        rintro rfl
        rw [← hb] at hg
        rcases hz with (⟨e, -⟩ | ⟨e, -⟩ | ⟨e, -⟩ | ⟨e, -⟩ | ⟨e, -⟩) | ⟨e1, e, -⟩
        case inr =>
          cases hi' : i with
          | true => exact hi hi' rfl
          | false => exact hy (.inr ⟨e1, e, rfl, hi'⟩)
        any_goals rw [e] at hg; cases hg
        exact hy (.inl e)
      simp only [List.nil_append, run, if_neg hne]
      exact ⟨rfl, fun o r h => by cases h⟩
    | cons t r =>
      simp only [List.cons_append, run]
      split
      · rename_i e
        refine ⟨rfl, fun o r' h => ?_⟩
        cases h
        exact hu.tail (by rw [e]; exact Sym.nest_append hb hg)
      · exact ⟨rfl, fun o r h => by cases h⟩
  | seq a d iha ihb =>
    simp only [Gram.suits, Option.bind_eq_some_iff] at hg
    obtain ⟨c1, hg1, hg2⟩ := hg
    obtain ⟨h1, h2⟩ := iha hg1 hu
    simp only [run, h1]
    cases e : run p a u with
    | miss => exact ⟨rfl, fun o r h => by cases h⟩
    | err r => exact ⟨rfl, fun o r h => by cases h⟩
    | ok o r =>
      obtain ⟨h3, h4⟩ := ihb hg2 (h2 o r e)
      simp only [Res.ext, h3]
      cases e' : run p d r with
      | miss => exact ⟨rfl, fun o r h => by cases h⟩
      | err r => exact ⟨rfl, fun o r h => by cases h⟩
      | ok o' r' => exact ⟨rfl, fun o r h => by cases h; exact h4 _ _ e'⟩
  | alt a d iha ihb =>
    simp only [Gram.suits] at hg
    split at hg
    · rename_i hxy
      obtain ⟨h1, h2⟩ := iha hg hu
      obtain ⟨h3, h4⟩ := ihb (hxy ▸ hg) hu
      simp only [run, h1, h3]
      cases e : run p a u with
      | ok o r => exact ⟨rfl, fun o r h => by cases h; exact h2 _ _ e⟩
      | miss =>
        simp only [Res.ext]
        cases e' : run p d u with
        | ok o r => exact ⟨rfl, fun o r h => by cases h; exact h4 _ _ e'⟩
        | miss => exact ⟨rfl, fun o r h => by cases h⟩
        | err r =>
          simp only [stops_ext]
          split <;> exact ⟨rfl, fun o r h => by cases h⟩
      | err r =>
        simp only [Res.ext, stops_ext]
        split
        · exact ⟨rfl, fun o r h => by cases h⟩
        · cases e' : run p d u with
          | ok o r => exact ⟨rfl, fun o r h => by cases h; exact h4 _ _ e'⟩
          | miss => exact ⟨rfl, fun o r h => by cases h⟩
          | err r =>
            simp only [stops_ext]
            split <;> exact ⟨rfl, fun o r h => by cases h⟩
    · cases hg
  | opt a iha =>
    simp only [Gram.suits] at hg
    split at hg
    · rename_i ha
      cases hg
      obtain ⟨h1, h2⟩ := iha ha hu
      simp only [run, h1]
      cases e : run p a u with
      | ok o r => exact ⟨rfl, fun o r h => by cases h; exact h2 _ _ e⟩
      | miss => exact ⟨rfl, fun o r h => by cases h; exact hu⟩
      | err r =>
        simp only [Res.ext, stops_ext]
        split
        · exact ⟨rfl, fun o r h => by cases h⟩
        · exact ⟨rfl, fun o r h => by cases h; exact hu⟩
    · cases hg
  | star a iha =>
    simp only [Gram.suits] at hg
    split at hg
    · rename_i ha
      cases hg
      simp only [run]
      exact many_inside (fun u hu => iha ha hu) _ _ _ (by omega) (by simp; omega) hu
    · cases hg
  | plus a iha =>
    simp only [Gram.suits] at hg
    split at hg
    · rename_i ha
      cases hg
      obtain ⟨h1, h2⟩ := iha ha hu
      simp only [run, h1]
      cases e : run p a u with
      | miss => exact ⟨rfl, fun o r h => by cases h⟩
      | err r =>
        simp only [Res.ext, stops_ext]
        split <;> exact ⟨rfl, fun o r h => by cases h⟩
      | ok o r =>
        obtain ⟨h3, h4⟩ := many_inside (z := t₀ :: z') (fun u hu => iha ha hu) (r.length + 1) ((r ++ t₀ :: z').length + 1) r (by omega)
          (by simp; omega) (h2 o r e)
        simp only [Res.ext, h3]
        cases e' : many (run p a) (r.length + 1) r with
        | miss => exact ⟨rfl, fun o r h => by cases h⟩
        | err r => exact ⟨rfl, fun o r h => by cases h⟩
        | ok o' r' => exact ⟨rfl, fun o r h => by cases h; exact h4 _ _ e'⟩
    · cases hg
  | cap f a iha =>
    simp only [Gram.suits] at hg
    obtain ⟨h1, h2⟩ := iha hg hu
    simp only [run, h1]
    cases e : run p a u with
    | miss => exact ⟨rfl, fun o r h => by cases h⟩
    | err r => exact ⟨rfl, fun o r h => by cases h⟩
    | ok o r => exact ⟨rfl, fun o r h => by cases h; exact h2 _ _ e⟩
  | sub f k =>
    simp only [Gram.suits] at hg
    split at hg
    · rename_i h
      obtain ⟨hk, hin⟩ := h
      cases hg
      obtain ⟨h1, h2⟩ := hp k (c ++ β) u (by rw [Br.top_append hb, hk]) (fun h e => by
        obtain ⟨rfl, rfl⟩ := List.append_eq_nil_iff.mp e
        rcases hin h with h | h
        · cases h
        · exact hi h rfl) hu
      simp only [run, h1]
      cases e : p k u with
      | miss => exact ⟨rfl, fun o r h => by cases h⟩
      | err r => exact ⟨rfl, fun o r h => by cases h⟩
      | ok x r => exact ⟨rfl, fun o r h => by cases h; exact h2 _ _ e⟩
    · cases hg

variable [FloatValue]

/-- An `if` or a `switch` that is none. -/
theorem parseFuel_lined {eof : Position} {n : Nat} {k : Kind} {u : List Token} (hk : lined true k = true)
    (hu : ∀ t ∈ u.head?, t.sym ≠ .if_ ∧ t.sym ≠ .switch_) : parseFuel eof (n + 1) k u = .miss := by
  have : k = .exprIf ∨ k = .exprSwitch := by
    cases k <;> first | exact .inl rfl | exact .inr rfl | cases hk
  cases u with
  | nil => rcases this with rfl | rfl <;> rfl
  | cons t u =>
    obtain ⟨h1, h2⟩ := hu t (by simp)
    rcases this with rfl | rfl
    · simp only [parseFuel, structStep, Gram.of, Gram.sq, run, if_neg h1]
    · simp only [parseFuel, structStep, Gram.of, Gram.sq, run, if_neg h2]

/-- A struct. -/
theorem parseFuel_inside {l : Bool} {eof eof' : Position} {z : List Token} (hz : ClosesLine l z) (n : Nat) (k : Kind) (β : List Br)
    (u : List Token) (hb : Br.top .stringExpr β = k.state) (hi : inner l k = true → β ≠ []) (hu : Within l β u) :
    parseFuel eof' n k (u ++ z) = (parseFuel eof n k u).ext z ∧ ∀ x r, parseFuel eof n k u = .ok x r → Within l β r := by
  induction n generalizing k β u with
  | zero => exact ⟨rfl, fun x r h => by cases h⟩
  | succ n ih =>
    by_cases hk : lined l k = true ∧ β = []
    · obtain ⟨hk, rfl⟩ := hk
      have hl : l = true := by
        cases l
        · cases hk
        · rfl
      subst hl
      have h1 : ∀ t ∈ u.head?, t.sym ≠ .if_ ∧ t.sym ≠ .switch_ := by
        intro t ht
        cases u with
        | nil => cases ht
        | cons t' u =>
          simp only [List.head?_cons, Option.mem_some_iff] at ht
          subst ht
          have := hu.free rfl
          simp only [topFree, List.isEmpty_nil, Bool.not_true, Bool.false_or, Bool.and_eq_true, Bool.not_eq_true',
            Bool.or_eq_false_iff, decide_eq_false_iff_not] at this
          exact this.1
      have h2 : ∀ t ∈ (u ++ z).head?, t.sym ≠ .if_ ∧ t.sym ≠ .switch_ := by
        intro t ht
        cases u with
        | cons t' u => exact h1 t ht
        | nil =>
          rcases hz with ⟨t', r, rfl, h⟩ | ⟨-, t', r, rfl, h, -⟩
          · simp only [List.nil_append, List.head?_cons, Option.mem_some_iff] at ht
            subst ht
            have : ∀ y ∈ closers, y.1 ≠ .if_ ∧ y.1 ≠ .switch_ := by decide
            exact this _ h
          · simp only [List.nil_append, List.head?_cons, Option.mem_some_iff] at ht
            subst ht
            cases e : t'.sym <;> rw [e] at h <;> first | decide | cases h
      rw [parseFuel_lined hk h1, parseFuel_lined hk h2]
      exact ⟨rfl, fun x r h => by cases h⟩
    obtain ⟨h1, h2⟩ := run_before_end (p := parseFuel eof n) (p' := parseFuel eof' n) hz (fun k β u hb hi hu => ih k β u hb hi hu)
      (Gram.of k) (c := []) hb (fun h => by
        rw [Bool.or_eq_true] at h
        rcases h with h | h
        · exact hi h
        · exact fun e => hk ⟨h, e⟩) (Gram.suits_of l k) hu
    simp only [parseFuel, structStep, h1]
    cases e : run (parseFuel eof n) (Gram.of k) u with
    | miss => exact ⟨rfl, fun o r h => by cases h⟩
    | err r => exact ⟨rfl, fun o r h => by cases h⟩
    | ok o r =>
      have hne : u ≠ [] := by
        rintro rfl
        have hβ : β = [] := hu.toInside.nil
        rcases run_progress (parseFuel_suffix eof n) (parseFuel_progress eof n) _ _ _ _ e with h | h
        · rw [null_of] at h
          exact hi (by simp [inner, h]) hβ
        · simp at h
      have hpos : posOf eof' (u ++ z) = posOf eof u := by
        cases u with
        | nil => exact absurd rfl hne
        | cons t u => rfl
      simp only [Res.ext, hpos]
      cases build { addr := 0, pos := posOf eof u } o k with
      | none => exact ⟨rfl, fun o r h => by cases h⟩
      | some x => exact ⟨rfl, fun o r h => by cases h; exact h2 _ _ e⟩

theorem parseKind_within {l : Bool} {eof eof' : Position} {z : List Token} (hz : ClosesLine l z) {k : Kind} {β : List Br} {u : List Token}
    (hb : Br.top .stringExpr β = k.state) (hi : inner l k = true → β ≠ []) (hu : Within l β u) :
    parseKind eof' k (u ++ z) = (parseKind eof k u).ext z := by
  have hr := Gram.rank_lt k
  have e : parseKind eof k u = parseFuel eof (enough (u ++ z).length) k u :=
    parseFuel_enough _ _ _ _ _ (by unfold enough; omega) (by unfold enough; simp only [List.length_append]; omega)
  rw [e]
  exact (parseFuel_inside hz _ k β u hb hi hu).1

/-- **An expression that is followed by a closing bracket** is read from its own tokens. -/
theorem parseKind_inside {eof eof' : Position} {z : List Token} (hz : Closes z) {k : Kind} {β : List Br} {u : List Token}
    (hb : Br.top .stringExpr β = k.state) (hi : inner false k = true → β ≠ []) (hu : Inside β u) :
    parseKind eof' k (u ++ z) = (parseKind eof k u).ext z :=
  parseKind_within (hz.line false) hb hi ⟨hu, fun h => by cases h⟩

/-- **An expression that is followed by a line end or a comment**, too. -/
theorem parseKind_line {eof eof' : Position} {t : Token} {z : List Token} (ht : t.sym.endsLine = true) (hw : t.exact = true) {k : Kind}
    {u : List Token} (hb : .stringExpr = k.state) (hi : inner true k = false) (hu : Inside [] u) (hf : topFree [] u = true) :
    parseKind eof' k (u ++ t :: z) = (parseKind eof k u).ext (t :: z) :=
  parseKind_within (β := []) (.inr ⟨rfl, t, z, rfl, ht, hw⟩) hb (fun h => by rw [hi] at h; cases h) ⟨hu, fun _ => hf⟩

end Verif.Etx
