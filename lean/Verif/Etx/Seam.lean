import Verif.Etx.Nest

/-!
# What follows a document, if it begins with a line comment

As in `Nest.lean`; the text that follows may also begin with a comment `#` or `//`, if the last line of the document does not end with
such a comment.
-/

namespace Verif.Etx.Seam
open Gram

variable [FloatValue]

/-- A literal that is no name or comment. -/
def apart (w : Str) : Bool := !(w.head?.any isAlpha || decide (w.head? = some '/') || decide (w.head? = some '#'))

/-- What may begin the text that follows. -/
def opens (y : Sym) : Bool := y = .ident || y = .multilineComment || y = .singleLineComment

/-- What is open after a production, and how near the end of the document may be: at least `2 - l` tokens follow.  With `l = 2` neither
a name nor a comment is read next.  With `i` there are brackets outside. -/
def go (b : LexState) (i : Bool) : Gram → List Br → Nat → Option (List Br × Nat)
  | lit w, c, l =>
    if Br.top b c = .stringExpr ∧ litOk w = true ∧ (2 ≤ l → apart w = true) then ((litSym w).nest b c).map (·, 1) else none
  | tok y, c, l =>
    if 2 ≤ l ∧ opens y = true then none
    else (y.nest b c).map (·, if y = .singleLineComment then 0 else if y = .lf ∧ c = [] ∧ i = false then min 2 (l + 1) else 1)
  | seq g h, c, l => (go b i g c l).bind fun x => go b i h x.1 x.2
  | alt g h, c, l =>
    match go b i g c l, go b i h c l with
    | some x, some y => if x.1 = y.1 then some (x.1, max x.2 y.2) else none
    | _, _ => none
  | opt g, c, l =>
    match go b i g c l with
    | some x => if x.1 = c then some (c, max l x.2) else none
    | none => none
  | .star g, c, l =>
    match go b i g c l with
    | some x => if go b i g c (max l x.2) = some (c, max l x.2) then some (c, max l x.2) else none
    | none => none
  | plus g, c, l =>
    match go b i g c l with
    | some x => if x.1 = c ∧ go b i g c x.2 = some (c, x.2) then some (c, x.2) else none
    | none => none
  | cap _ g, c, l => go b i g c l
  | sub _ k, c, l =>
    if l ≤ 1 ∧ Br.top b c = k.state ∧ (k.inner = true → c.isEmpty = false ∨ i = true) then
      some (c, if c.isEmpty && !i && k.loose then 2 else 1)
    else none

omit [FloatValue] in
theorem go_of (k : Kind) : go k.state k.inner (of k) [] 1 = some ([], if k.loose then 2 else 1) := by
  cases k
  case bin l => cases l <;> decide +kernel
  case ptr | slice | items => exact (by decide +kernel : go .stringExpr false (lit []) [] 1 = some ([], 1))
  all_goals decide +kernel


/-- The rest of a document: `β` is closed in it, the last token is a line end and the one before it no comment.  There are at least
`2 - l` tokens. -/
structure RestOf (β : List Br) (l : Nat) (u : List Token) : Prop where
  nest : nest β u = some []
  exact : ∀ t ∈ u, t.exact = true
  last : ∀ t ∈ u.getLast?, t.sym = .lf
  calm : ∀ t t', [t, t'] <:+ u → t.sym ≠ .singleLineComment
  edge : 2 ≤ l + u.length

omit [FloatValue] in
theorem RestOf.mono {β : List Br} {l l' : Nat} {u : List Token} (h : RestOf β l u) (hl : l ≤ l') : RestOf β l' u :=
  ⟨h.nest, h.exact, h.last, h.calm, by have := h.edge; omega⟩

omit [FloatValue] in
theorem RestOf.ne {β : List Br} {l : Nat} {u : List Token} (h : RestOf β l u) (hl : l ≤ 1) : u ≠ [] := by
  rintro rfl
  have := h.edge
  simp at this
  omega

omit [FloatValue] in
theorem RestOf.tail {β β' : List Br} {l l' : Nat} {t : Token} {r : List Token} (h : RestOf β l (t :: r))
    (hs : t.sym.nest .stringExpr β = some β') (h0 : 1 ≤ l' ∨ t.sym = .singleLineComment)
    (hl : t.sym = .lf → β' = [] → min 2 (l + 1) ≤ l') : RestOf β' l' r := by
  obtain ⟨h1, h2, h3, h4, h5⟩ := h
  simp only [Verif.Etx.nest, hs, Option.bind_some] at h1
  refine ⟨h1, fun u hu => h2 u (by simp [hu]), fun u hu => h3 u ?_, fun u u' h => h4 u u' (h.trans (List.suffix_cons t r)), ?_⟩
  · cases r with
    | nil => cases hu
    | cons v r => simpa using hu
  · match r with
    | [] =>
      simp only [Verif.Etx.nest, Option.some.injEq] at h1
      have := hl (h3 t (by simp)) h1
      simp at h5
      simp
      omega
    | [v] =>
      rcases h0 with h0 | h0
      · simp; omega
      · exact absurd h0 (h4 t v (List.suffix_refl _))
    | v :: w :: r => simp; omega

omit [FloatValue] in
/-- The loop, if the body does not depend on what follows. -/
theorem many_ext {P P' : List Token → Res Out} {z : List Token} {β : List Br} {l : Nat}
    (hP : ∀ u, RestOf β l u → P' (u ++ z) = (P u).ext z ∧ ∀ o r, P u = .ok o r → RestOf β l r)
    (n n' : Nat) (u : List Token) (hn : u.length < n) (hn' : u.length < n') (hu : RestOf β l u) :
    many P' n' (u ++ z) = (many P n u).ext z ∧ ∀ o r, many P n u = .ok o r → RestOf β l r := by
  induction n generalizing n' u with
  | zero => omega
  | succ n ih =>
    cases n' with
    | zero => omega
    | succ n' =>
      obtain ⟨h1, h2⟩ := hP u hu
      simp only [many]
      rw [h1]
      cases e : P u with
      | miss => exact ⟨rfl, fun o r h => by cases h; exact hu⟩
      | err r =>
        simp only [Res.ext, stops_ext]
        split
        · exact ⟨rfl, fun o r h => by cases h⟩
        · exact ⟨rfl, fun o r h => by cases h; exact hu⟩
      | ok o r =>
        have hr := h2 o r e
        simp only [Res.ext, List.length_append, Nat.add_lt_add_iff_right]
        split
        · rename_i hlt
          obtain ⟨h3, h4⟩ := ih n' r (by omega) (by omega) hr
          rw [h3]
          cases e' : many P n r with
          | miss => exact ⟨rfl, fun o r h => by cases h⟩
          | err r' => exact ⟨rfl, fun o r h => by cases h⟩
          | ok o' r' => exact ⟨rfl, fun o r h => by cases h; exact h4 _ _ e'⟩
        · exact ⟨rfl, fun o r h => by cases h; exact hr⟩

/-- What comes after the document: a name or a comment. -/
def Fresh (z : List Token) : Prop := ∃ t r, z = t :: r ∧ opens t.sym = true ∧ t.exact = true

omit [FloatValue] in
theorem apart_ne {t : Token} {w : Str} (ht : opens t.sym = true) (he : t.exact = true) (hw : apart w = true) :
    t.txt ≠ w := by
  rintro rfl
  simp only [apart, Bool.not_eq_true', Bool.or_eq_false_iff, decide_eq_false_iff_not] at hw
  simp only [opens, Bool.or_eq_true, decide_eq_true_eq] at ht
  simp only [Token.exact] at he
  rcases ht with (h | h) | h <;> rw [h] at he
  · simp only [Sym.exact, Sym.word] at he
    rw [hw.1.1] at he
    cases he
  · simp only [Sym.exact, Sym.word, Bool.and_eq_true, decide_eq_true_eq] at he
    exact hw.1.2 he.1
  · simp only [Sym.exact, Sym.word, Bool.or_eq_true, decide_eq_true_eq] at he
    rcases he with he | he
    · exact hw.1.2 he
    · exact hw.2 he

omit [FloatValue] in
/-- A production gives the same on a part of a document, whatever the document is followed by. -/
theorem run_ext {p p' : (k : Kind) → List Token → Res (Node k)} {z : List Token} (hz : Fresh z)
    (hp : ∀ k β u, Br.top .stringExpr β = k.state → (k.inner = true → β ≠ []) → RestOf β 1 u →
      p' k (u ++ z) = (p k u).ext z ∧ ∀ x r, p k u = .ok x r → RestOf β (if k.loose then 2 else 1) r)
    (g : Gram) {b : LexState} {i : Bool} {c c' β : List Br} {l l' : Nat} {u : List Token} (hb : Br.top .stringExpr β = b)
    (hi : i = true → β ≠ []) (hg : go b i g c l = some (c', l')) (hu : RestOf (c ++ β) l u) :
    run p' g (u ++ z) = (run p g u).ext z ∧ ∀ o r, run p g u = .ok o r → RestOf (c' ++ β) l' r := by
  obtain ⟨t₀, z', rfl, hz1, hz2⟩ := hz
  induction g generalizing c c' l l' u with
  | lit w =>
    simp only [go] at hg
    split at hg
    · rename_i h
      obtain ⟨h1, h2, h3⟩ := h
      simp only [Option.map_eq_some_iff, Prod.mk.injEq] at hg
      obtain ⟨c1, hg, rfl, rfl⟩ := hg
      cases u with
      | nil =>
        have hne := apart_ne hz1 hz2 (h3 (by simpa using hu.edge))
        simp only [List.nil_append, run, if_neg hne]
        exact ⟨rfl, fun o r h => by cases h⟩
      | cons t r =>
        simp only [List.cons_append, run]
        split
        · rename_i e
          refine ⟨rfl, fun o r' h => ?_⟩
          cases h
          have hn := hu.nest
          simp only [Verif.Etx.nest, Option.bind_eq_some_iff] at hn
          obtain ⟨β', hn, -⟩ := hn
          have hs := lit_nest hb h1 h2 (hu.exact t (by simp)) e hg hn
          have hx := Sym.nest_append hb hg
          refine hu.tail (by rw [hs]; exact hx) (.inl (Nat.le_refl _)) fun hlf => ?_
          rw [hs] at hlf
          exact absurd hlf (litSym_ne_lf w)
        · exact ⟨rfl, fun o r h => by cases h⟩
    · cases hg
  | tok y =>
    simp only [go] at hg
    split at hg
    · cases hg
    · rename_i h
      simp only [Option.map_eq_some_iff, Prod.mk.injEq] at hg
      obtain ⟨c1, hg, rfl, rfl⟩ := hg
      cases u with
      | nil =>
        have hne : ¬ t₀.sym = y := fun e => h ⟨by simpa using hu.edge, by rw [← e]; exact hz1⟩
        simp only [List.nil_append, run, if_neg hne]
        exact ⟨rfl, fun o r h => by cases h⟩
      | cons t r =>
        simp only [List.cons_append, run]
        split
        · rename_i e
          refine ⟨rfl, fun o r' h => ?_⟩
          cases h
          refine hu.tail (by rw [e]; exact Sym.nest_append hb hg) ?_ fun hlf hnil => ?_
          · rw [e]
            split
            · exact .inr (by assumption)
            · left
              split <;> omega
          · obtain ⟨rfl, rfl⟩ := List.append_eq_nil_iff.mp hnil
            have hi : i = false := by
              cases i with
              | false => rfl
              | true => exact absurd rfl (hi rfl)
            have hc : c = [] := by
              rw [← e, hlf] at hg
              unfold Sym.nest at hg
              revert hg
              cases Br.top b c <;> intro hg <;> first | (cases hg; done) | exact Option.some.inj (by exact hg)
            have hy : y = .lf := e.symm.trans hlf
            rw [hy, if_neg (by decide), if_pos ⟨rfl, hc, hi⟩]
        · exact ⟨rfl, fun o r h => by cases h⟩
  | seq a d iha ihb =>
    simp only [go, Option.bind_eq_some_iff] at hg
    obtain ⟨⟨c1, l1⟩, hg1, hg2⟩ := hg
    obtain ⟨h1, h2⟩ := iha hg1 hu
    simp only [run, h1]
    cases e : run p a u with
    | miss => exact ⟨rfl, fun o r h => by cases h⟩
    | err r => exact ⟨rfl, fun o r h => by cases h⟩
    | ok o r =>
      obtain ⟨h3, h4⟩ := ihb hg2 (h2 o r e)
      simp only [Res.ext, h3]
      cases e' : run p d r with
      | miss => exact ⟨rfl, fun o r h => by cases h⟩
      | err r => exact ⟨rfl, fun o r h => by cases h⟩
      | ok o' r' => exact ⟨rfl, fun o r h => by cases h; exact h4 _ _ e'⟩
  | alt a d iha ihb =>
    rw [go.eq_def] at hg
    simp only at hg
    split at hg
    · rename_i x y ha hd
      split at hg
      · rename_i hxy
        cases hg
        obtain ⟨x1, x2⟩ := x
        obtain ⟨y1, y2⟩ := y
        simp only at hxy
        subst hxy
        obtain ⟨h1, h2⟩ := iha ha hu
        obtain ⟨h3, h4⟩ := ihb hd hu
        have m1 : ∀ r, RestOf (x1 ++ β) x2 r → RestOf (x1 ++ β) (max x2 y2) r := fun r h => h.mono (by omega)
        have m2 : ∀ r, RestOf (x1 ++ β) y2 r → RestOf (x1 ++ β) (max x2 y2) r := fun r h => h.mono (by omega)
        simp only [run, h1, h3]
        cases e : run p a u with
        | ok o r => exact ⟨rfl, fun o r h => by cases h; exact m1 _ (h2 _ _ e)⟩
        | miss =>
          simp only [Res.ext]
          cases e' : run p d u with
          | ok o r => exact ⟨rfl, fun o r h => by cases h; exact m2 _ (h4 _ _ e')⟩
          | miss => exact ⟨rfl, fun o r h => by cases h⟩
          | err r =>
            simp only [stops_ext]
            split <;> exact ⟨rfl, fun o r h => by cases h⟩
        | err r =>
          simp only [Res.ext, stops_ext]
          split
          · exact ⟨rfl, fun o r h => by cases h⟩
          · cases e' : run p d u with
            | ok o r => exact ⟨rfl, fun o r h => by cases h; exact m2 _ (h4 _ _ e')⟩
            | miss => exact ⟨rfl, fun o r h => by cases h⟩
            | err r =>
              simp only [stops_ext]
              split <;> exact ⟨rfl, fun o r h => by cases h⟩
      · cases hg
    · cases hg
  | opt a iha =>
    simp only [go] at hg
    split at hg
    · rename_i x ha
      obtain ⟨x1, x2⟩ := x
      split at hg
      · rename_i hx
        simp only at hx
        subst hx
        cases hg
        obtain ⟨h1, h2⟩ := iha ha hu
        simp only [run, h1]
        cases e : run p a u with
        | ok o r => exact ⟨rfl, fun o r h => by cases h; exact (h2 _ _ e).mono (by omega)⟩
        | miss => exact ⟨rfl, fun o r h => by cases h; exact hu.mono (by omega)⟩
        | err r =>
          simp only [Res.ext, stops_ext]
          split
          · exact ⟨rfl, fun o r h => by cases h⟩
          · exact ⟨rfl, fun o r h => by cases h; exact hu.mono (by omega)⟩
      · cases hg
    · cases hg
  | star a iha =>
    simp only [go] at hg
    split at hg
    · rename_i x ha
      split at hg
      · rename_i hx
        cases hg
        have hu' : RestOf (c ++ β) (max l x.2) u := hu.mono (by omega)
        simp only [run]
        exact many_ext (fun u hu => iha hx hu) _ _ _ (by omega) (by simp; omega) hu'
      · cases hg
    · cases hg
  | plus a iha =>
    simp only [go] at hg
    split at hg
    · rename_i x ha
      obtain ⟨x1, x2⟩ := x
      split at hg
      · rename_i hx
        obtain ⟨hx1, hx⟩ := hx
        simp only at hx1 hx
        subst hx1
        cases hg
        obtain ⟨h1, h2⟩ := iha ha hu
        simp only [run, h1]
        cases e : run p a u with
        | miss => exact ⟨rfl, fun o r h => by cases h⟩
        | err r =>
          simp only [Res.ext, stops_ext]
          split <;> exact ⟨rfl, fun o r h => by cases h⟩
        | ok o r =>
          obtain ⟨h3, h4⟩ := many_ext (z := t₀ :: z') (fun u hu => iha hx hu) (r.length + 1) ((r ++ t₀ :: z').length + 1) r (by omega)
            (by simp; omega) (h2 o r e)
          simp only [Res.ext, h3]
          cases e' : many (run p a) (r.length + 1) r with
          | miss => exact ⟨rfl, fun o r h => by cases h⟩
          | err r => exact ⟨rfl, fun o r h => by cases h⟩
          | ok o' r' => exact ⟨rfl, fun o r h => by cases h; exact h4 _ _ e'⟩
      · cases hg
    · cases hg
  | cap f a iha =>
    simp only [go] at hg
    obtain ⟨h1, h2⟩ := iha hg hu
    simp only [run, h1]
    cases e : run p a u with
    | miss => exact ⟨rfl, fun o r h => by cases h⟩
    | err r => exact ⟨rfl, fun o r h => by cases h⟩
    | ok o r => exact ⟨rfl, fun o r h => by cases h; exact h2 _ _ e⟩
  | sub f k =>
    simp only [go] at hg
    split at hg
    · rename_i h
      obtain ⟨hl1, hk, hin⟩ := h
      cases hg
      obtain ⟨h1, h2⟩ := hp k (c ++ β) u (by rw [Br.top_append hb, hk]) (fun h e => by
        obtain ⟨rfl, rfl⟩ := List.append_eq_nil_iff.mp e
        rcases hin h with h | h
        · cases h
        · exact hi h rfl) (hu.mono hl1)
      simp only [run, h1]
      cases e : p k u with
      | miss => exact ⟨rfl, fun o r h => by cases h⟩
      | err r => exact ⟨rfl, fun o r h => by cases h⟩
      | ok x r =>
        refine ⟨rfl, fun o r h => ?_⟩
        cases h
        have hr := h2 _ _ e
        by_cases hc : (c.isEmpty && !i) = true
        · rw [hc, Bool.true_and]
          exact hr
        · rw [Bool.not_eq_true] at hc
          rw [hc, Bool.false_and]
          refine ⟨hr.nest, hr.exact, hr.last, hr.calm, ?_⟩
          cases r with
          | cons => simp; omega
          | nil =>
            exfalso
            have := hr.nest
            simp only [Verif.Etx.nest, Option.some.injEq] at this
            obtain ⟨rfl, rfl⟩ := List.append_eq_nil_iff.mp this
            cases i with
            | false => cases hc
            | true => exact hi rfl rfl
    · cases hg

/-- A struct. -/
theorem parseFuel_ext {eof eof' : Position} {z : List Token} (hz : Fresh z) (n : Nat) (k : Kind) (β : List Br) (u : List Token)
    (hb : Br.top .stringExpr β = k.state) (hi : k.inner = true → β ≠ []) (hu : RestOf β 1 u) :
    parseFuel eof' n k (u ++ z) = (parseFuel eof n k u).ext z ∧ ∀ x r, parseFuel eof n k u = .ok x r → RestOf β (if k.loose then 2 else 1) r := by
  induction n generalizing k β u with
  | zero => exact ⟨rfl, fun x r h => by cases h⟩
  | succ n ih =>
    obtain ⟨h1, h2⟩ := run_ext (p := parseFuel eof n) (p' := parseFuel eof' n) hz (fun k β u hb hi hu => ih k β u hb hi hu)
      (Gram.of k) (c := []) hb hi (go_of k) hu
    simp only [parseFuel, structStep, h1]
    cases e : run (parseFuel eof n) (Gram.of k) u with
    | miss => exact ⟨rfl, fun o r h => by cases h⟩
    | err r => exact ⟨rfl, fun o r h => by cases h⟩
    | ok o r =>
      have hpos : posOf eof' (u ++ z) = posOf eof u := by
        have := hu.ne (Nat.le_refl _)
        cases u with
        | nil => exact absurd rfl this
        | cons t u => rfl
      simp only [Res.ext, hpos]
      cases build { addr := 0, pos := posOf eof u } o k with
      | none => exact ⟨rfl, fun o r h => by cases h⟩
      | some x => exact ⟨rfl, fun o r h => by cases h; exact h2 _ _ e⟩

theorem parseKind_ext {eof eof' : Position} {z : List Token} (hz : Fresh z) {k : Kind} {β : List Br} {u : List Token}
    (hb : Br.top .stringExpr β = k.state) (hi : k.inner = true → β ≠ []) (hu : RestOf β 1 u) :
    parseKind eof' k (u ++ z) = (parseKind eof k u).ext z ∧ ∀ x r, parseKind eof k u = .ok x r → RestOf β (if k.loose then 2 else 1) r := by
  have hr := Gram.rank_lt k
  have e : parseKind eof k u = parseFuel eof (enough (u ++ z).length) k u :=
    parseFuel_enough _ _ _ _ _ (by unfold enough; omega) (by unfold enough; simp only [List.length_append]; omega)
  rw [e]
  exact parseFuel_ext hz _ k β u hb hi hu

/-- The items of a document, and of what follows. -/
theorem many_join {eof eof' : Position} {z : List Token} (hz : Fresh z) (n n' n'' : Nat) (u : List Token)
    (hn' : (u ++ z).length < n') (hn'' : z.length < n'') (hu : RestOf [] 2 u) {o : Out}
    (h : many (run (parseKind eof) (.sub .items .rootItem)) n u = .ok o []) :
    many (run (parseKind eof') (.sub .items .rootItem)) n' (u ++ z) =
      (many (run (parseKind eof') (.sub .items .rootItem)) n'' z).after o := by
  obtain ⟨M, hM⟩ : ∃ M, many (run (parseKind eof') (.sub .items .rootItem)) n'' z = M := ⟨_, rfl⟩
  rw [hM]
  have nil : ∀ (o : Out), o = {} → M = M.after o := by
    rintro o rfl
    cases M <;> rfl
  induction n generalizing n' u o with
  | zero =>
    cases h
    rw [List.nil_append, many_fuel n' n'' z hn' hn'', hM]
    exact nil _ rfl
  | succ n ih =>
    cases u with
    | nil =>
      rw [List.nil_append, many_fuel n' n'' z hn' hn'', hM]
      apply nil
      unfold many at h
      cases e : run (parseKind eof) (.sub .items .rootItem) [] with
      | miss => rw [e] at h; cases h; rfl
      | err r =>
        rw [e] at h
        simp only at h
        split at h
        · cases h
        · cases h; rfl
      | ok o' r =>
        exfalso
        have := run_progress (fun k s => parseKind_suffix eof k s) (parseKind_progress eof) _ _ _ _ e
        simp [Gram.null, Gram.nullKind] at this
    | cons t u =>
      cases n' with
      | zero => omega
      | succ n' =>
        have hu' : RestOf [] 1 (t :: u) := ⟨hu.nest, hu.exact, hu.last, hu.calm, by simp; omega⟩
        obtain ⟨h1, h2⟩ := run_ext (p := parseKind eof) (p' := parseKind eof') hz (fun k β u hb hi hu => parseKind_ext hz hb hi hu)
          (.sub .items .rootItem) (b := .stringExpr) (i := false) (c := []) (β := []) (l := 1) (l' := 2) (c' := []) rfl nofun
          (by decide +kernel) hu'
        unfold many at h ⊢
        rw [h1]
        cases e : run (parseKind eof) (.sub .items .rootItem) (t :: u) with
        | miss => rw [e] at h; cases h
        | err r =>
          rw [e] at h
          simp only at h
          split at h <;> cases h
        | ok o₁ r =>
          rw [e] at h
          simp only [Res.ext, List.length_append, Nat.add_lt_add_iff_right] at h ⊢
          split at h
          · rename_i hlt
            rw [if_pos hlt]
            cases e' : many (run (parseKind eof) (.sub .items .rootItem)) n r with
            | miss => rw [e'] at h; cases h
            | err r => rw [e'] at h; cases h
            | ok o₂ r₂ =>
              rw [e'] at h
              cases h
              rw [ih n' r (by simp at hn' hlt ⊢; omega) (h2 _ _ e) e' ]
              cases M with
              | miss => rfl
              | err r => rfl
              | ok o' r' => simp only [Res.after, Out.append_assoc]
          · rename_i hlt
            cases h
            simp at hlt

/-- **Parsing tokens that follow a document**: the items of both, whether or not the second part is a document. -/
theorem parseTokens_join {eof eof' : Position} {u z : List Token} {x : Node (.slice .rootItem)} (hz : Fresh z)
    (hu : ∀ t ∈ u, t.exact = true) (hn : nest [] u = some []) (hl : ∀ t ∈ u.getLast?, t.sym = .lf)
    (hc : ∀ t t', [t, t'] <:+ u → t.sym ≠ .singleLineComment) (h : parseTokens eof u = some x) :
    (parseTokens eof' (u ++ z)).map Node.list = (parseTokens eof' z).map fun y => x.list ++ y.list := by
  unfold parseTokens at h ⊢
  cases e : run (fun k s => parseKind eof k s) (.star (.sub .items .rootItem)) u with
  | miss => rw [e] at h; cases h
  | err r => rw [e] at h; cases h
  | ok o r =>
    cases r with
    | cons => rw [e] at h; cases h
    | nil =>
      rw [e] at h
      cases h
      simp only [run] at e ⊢
      have := many_join (eof' := eof') hz (u.length + 1) ((u ++ z).length + 1) (z.length + 1) u (by omega) (by omega)
        ⟨hn, hu, hl, hc, by omega⟩ e
      simp only [run] at this
      rw [this]
      cases many _ (z.length + 1) z with
      | miss => rfl
      | err r => rfl
      | ok o' r' =>
        cases r' with
        | cons => rfl
        | nil =>
          simp only [Res.after, Option.map_some, Out.list_slice, Out.nodes_append]

end Verif.Etx.Seam
