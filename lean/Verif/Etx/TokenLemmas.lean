import Verif.Etx.BlankLemmas

/-!
# Single tokens

What the rules of `Core` match: keywords, identifiers, operators.
-/

namespace Verif.Etx

open Re

theorem first_lit (w s : Str) : (lit w).first s = if w <+: s then some ⟨w, none, s.drop w.length⟩ else none := by
  by_cases h : w <+: s
  · obtain ⟨t, rfl⟩ := h
    rw [if_pos (List.prefix_append _ _), first, run_lit]
    simp
  · rw [if_neg h, Re.first_none, run_lit_fail _ _ _ h]

/-! ## Keywords and identifiers -/

/-- What `\b(w)\b` matches. -/
theorem first_keyword (w : Str) (hne : w ≠ []) (hw : ∀ c ∈ w, isWord c = true) (s : Str) :
    (reKeyword w).first s =
      if s.takeWhile isWord = w then some ⟨w, some w, s.dropWhile isWord⟩ else none := by
  obtain ⟨c, w, rfl⟩ := List.exists_cons_of_ne_nil hne
  by_cases hp : c :: w <+: s
  · obtain ⟨t, rfl⟩ := hp
    have hb : wordB.run none (c :: w ++ t) = [.nothing (c :: w ++ t)] := by
      simp [run, hw c (by simp)]
    have hl : (Match.mk (c :: w) (some (c :: w)) t).last none = some ((c :: w).getLast (by simp)) := by
      rw [Match.last_snoc _ _ (by simp)]
    have hlast : isWord ((c :: w).getLast (by simp)) = true := hw _ (List.getLast_mem _)
    by_cases ht : (t.head?.any isWord) = true
    · cases t with
      | nil => simp at ht
      | cons d t =>
        simp at ht
        rw [if_neg]
        · rw [Re.first_none, reKeyword, run, hb]
          simp only [List.flatMap_cons, List.flatMap_nil, Match.nothing_last, Match.nothing_rest, run, run_lit]
          simp [hl, hlast, ht]
        · intro h
          have := congrArg List.length h
          rw [List.takeWhile_append_of_pos hw] at this
          simp [ht] at this
    · have hstop := takeWhile_stop (p := isWord) (l := c :: w) (r := t) hw (by
        intro a ha
        cases t with
        | nil => simp at ha
        | cons d t => simp at ha ht; subst ha; exact ht)
      rw [if_pos hstop.1, hstop.2]
      have hrun : (reKeyword (c :: w)).run none (c :: w ++ t) = [⟨c :: w, some (c :: w), t⟩] := by
        rw [reKeyword, run, hb]
        simp only [List.flatMap_cons, List.flatMap_nil, Match.nothing_last, Match.nothing_rest, run, run_lit,
          List.map_cons, List.map_nil, hl, List.append_nil]
        simp [hlast, ht, Match.andThen, Match.nothing]
      rw [first, hrun]; rfl
  · rw [if_neg, Re.first_none]
    · rw [reKeyword]
      by_cases hb : wordB.run none s = []
      · exact run_seq_nil hb
      · have hb' : wordB.run none s = [.nothing s] := by
          simp only [run] at hb ⊢
          split <;> simp_all
        rw [run, hb']
        simp [run, run_lit_fail _ _ _ hp]
    · intro h
      exact hp (h ▸ List.takeWhile_prefix _)

theorem Re.head_star_seq {a b : Re} {prev : Option Char} {s : Str} {m n : Match}
    (ha : (a.run prev s).head? = some m) (hne : m.txt ≠ [])
    (hb : ((seq (star a) b).run (m.last prev) m.rest).head? = some n) :
    ((seq (star a) b).run prev s).head? = some (m.andThen n) := by
  rw [run_star_seq]
  cases h : a.run prev s with
  | nil => simp [h] at ha
  | cons x l =>
    simp [h] at ha
    subst ha
    simp [hne, List.head?_append, hb]

theorem Re.run_star_seq_nil {a b : Re} {prev : Option Char} {s : Str} (ha : a.run prev s = []) :
    (seq (star a) b).run prev s = b.run prev s := by
  rw [run_star_seq, ha]; simp

/-- Hyphens followed by words. -/
def dashed (parts : List Str) : Str := (parts.map ('-' :: ·)).flatten

/-- A nonempty sequence of word characters. -/
def WordPart (p : Str) : Prop := p ≠ [] ∧ ∀ c ∈ p, isWord c = true

/-- The text that follows does not continue a word, nor a hyphenated one. -/
def EndsWord (y : Str) : Prop := (∀ c ∈ y.head?, isWord c = false) ∧ ∀ c u, y = '-' :: c :: u → isWord c = false

theorem dash_not_word : isWord '-' = false := by decide

theorem head_dashed_append (parts : List Str) (y : Str) (hy : ∀ c ∈ y.head?, isWord c = false) :
    ∀ c ∈ (dashed parts ++ y).head?, isWord c = false := by
  cases parts with
  | nil => simpa [dashed] using hy
  | cons p ps => intro c hc; simp [dashed] at hc; subst hc; exact dash_not_word

theorem run_part (p : Str) (hp : WordPart p) (r : Str) (hr : ∀ c ∈ r.head?, isWord c = false) (prev : Option Char) :
    ((grp (seq (lit c!"-") (plus (cls isWord)))).run prev ('-' :: p ++ r)).head? =
      some ⟨'-' :: p, some ('-' :: p), r⟩ := by
  obtain ⟨c, p, rfl⟩ := List.exists_cons_of_ne_nil hp.1
  have hl : ((lit c!"-").run prev ('-' :: (c :: p ++ r))).head? = some ⟨c!"-", none, c :: p ++ r⟩ := by
    have := run_lit c!"-" prev (c :: p ++ r); simp at this; simp [this]
  have hstop := takeWhile_stop (p := isWord) (l := p) (r := r) (fun c hc => hp.2 c (by simp [hc])) hr
  have := head_grp (head_seq hl (head_plus_cls isWord c (p ++ r) (hp.2 c (by simp)) _))
  rw [hstop.1, hstop.2] at this
  simpa [Match.andThen] using this

theorem run_part_nil (y : Str) (hy : EndsWord y) (prev : Option Char) :
    (grp (seq (lit c!"-") (plus (cls isWord)))).run prev y = [] := by
  cases y with
  | nil => rfl
  | cons d y =>
    by_cases hd : d = '-'
    · subst hd
      have hl : (lit c!"-").run prev ('-' :: y) = [⟨c!"-", none, y⟩] := by
        have := run_lit c!"-" prev y; simpa using this
      have hf : ∀ q, (plus (cls isWord)).run q y = [] := fun q => run_plus_cls_fail (by
        intro c hc
        cases y with
        | nil => simp at hc
        | cons e y => simp at hc; subst hc; exact hy.2 _ _ rfl)
      simp [run, hl, hf]
    · exact run_fail (by rfl) (by simp [starts, lit, hd, nullable]) _ _

/-- `(-\w+)*\b` -/
theorem head_dashed (parts : List Str) (hp : ∀ p ∈ parts, WordPart p) (y : Str) (hy : EndsWord y) :
    ∀ prev : Option Char, prev.any isWord = true →
    ∃ cap, ((seq (star (grp (seq (lit c!"-") (plus (cls isWord))))) wordB).run prev (dashed parts ++ y)).head? =
      some ⟨dashed parts, cap, y⟩ := by
  induction parts with
  | nil =>
    intro prev hprev
    refine ⟨none, ?_⟩
    simp only [dashed, List.map_nil, List.flatten_nil, List.nil_append]
    rw [run_star_seq_nil (run_part_nil y hy prev)]
    have : y.head?.any isWord = false := by
      cases h : y.head? with
      | none => rfl
      | some c => simpa using hy.1 c h
    simp [run, hprev, this, Match.nothing]
  | cons p ps ih =>
    intro prev hprev
    have hp1 := hp p (by simp)
    have hrun := run_part p hp1 (dashed ps ++ y) (head_dashed_append ps y hy.1) prev
    have hlast : ((Match.mk ('-' :: p) (some ('-' :: p)) (dashed ps ++ y)).last prev).any isWord = true := by
      rw [Match.last_snoc _ _ (by simp)]
      simp only [Option.any_some]
      rw [List.getLast_cons hp1.1]
      exact hp1.2 _ (List.getLast_mem _)
    obtain ⟨cap, ih⟩ := ih (fun q hq => hp q (by simp [hq])) _ hlast
    have := head_star_seq hrun (by simp) ih
    refine ⟨cap.or (some ('-' :: p)), ?_⟩
    have e : dashed (p :: ps) ++ y = '-' :: p ++ (dashed ps ++ y) := by simp [dashed]
    rw [e, this]
    simp [Match.andThen, dashed]

/-- An identifier: a letter, word characters and hyphenated parts. -/
inductive IsIdent : Str → Prop where
  | mk (c : Char) (a : Str) (parts : List Str) : isAlpha c = true → (∀ c ∈ a, isWord c = true) →
      (∀ p ∈ parts, WordPart p) → IsIdent (c :: a ++ dashed parts)

theorem alpha_word {c : Char} (h : isAlpha c = true) : isWord c = true := by
  simp only [isAlpha, isWord, Bool.or_eq_true] at *
  tauto

theorem first_ident {w : Str} (hw : IsIdent w) (y : Str) (hy : EndsWord y) :
    ∃ cap, reIdent.first (w ++ y) = some ⟨w, cap, y⟩ := by
  obtain ⟨c, a, parts, hc, ha, hp⟩ := hw
  have hstop := takeWhile_stop (p := isWord) (l := a) (r := dashed parts ++ y) ha (head_dashed_append parts y hy.1)
  have h1 : (wordB.run none (c :: (a ++ (dashed parts ++ y)))).head? = some (.nothing (c :: (a ++ (dashed parts ++ y)))) := by
    simp [run, alpha_word hc]
  have h2 : ((cls isAlpha).run none (c :: (a ++ (dashed parts ++ y)))).head? = some ⟨[c], none, a ++ (dashed parts ++ y)⟩ := by
    simp [run_cls_cons, hc]
  have h3 := head_star_cls isWord (a ++ (dashed parts ++ y)) (some c)
  rw [hstop.1, hstop.2] at h3
  have hlast : ((Match.mk a none (dashed parts ++ y)).last (some c)).any isWord = true := by
    by_cases hae : a = []
    · subst hae; simp [Match.last, alpha_word hc]
    · rw [Match.last_snoc _ _ hae]
      exact ha _ (List.getLast_mem _)
  obtain ⟨cap, h4⟩ := head_dashed parts hp y hy _ hlast
  refine ⟨cap, ?_⟩
  have e : (Match.mk [c] none (a ++ (dashed parts ++ y))).last none = some c := rfl
  have := head_seq h1 (head_seq h2 (head_seq h3 h4))
  rw [first, reIdent]
  simp only [List.cons_append, List.append_assoc]
  rw [this]
  cases cap <;> simp [Match.andThen, Match.nothing]

/-! ## Rules at a letter -/

/-- Rules that cannot match may be left out. -/
theorem firstRule_keep (p : Rule → Bool) (g : Str) (c : Char) (s : Str) (rs : List Rule)
    (h : rs.all (fun r => p r || !r.can g c) = true) :
    firstRule g (c :: s) rs = firstRule g (c :: s) (rs.filter p) := by
  induction rs with
  | nil => rfl
  | cons r rs ih =>
    simp only [List.all_cons, Bool.and_eq_true] at h
    by_cases hp : p r = true
    · rw [List.filter_cons_of_pos hp]
      simp only [firstRule]
      split
      · rfl
      · exact ih h.2
    · rw [List.filter_cons_of_neg hp]
      simp [hp, Rule.can] at h
      rw [firstRule_cons_fail h.1.1 h.1.2]
      exact ih (by simpa [Rule.can] using h.2)

/-- Outside strings and heredocs there are no back references. -/
theorem plain_pat {state : LexState} (hst : state = .root ∨ state = .stringExpr) (g : Str) :
    ∀ r ∈ rulesOf state, r.pat g = r.pat [] := by
  rcases hst with rfl | rfl <;> simp [rulesOf, coreRules, rule]

theorem firstRule_plain {state : LexState} (hst : state = .root ∨ state = .stringExpr) (p : Rule → Bool) (g : Str)
    (c : Char) (s : Str) (h : (rulesOf state).all (fun r => p r || !r.can [] c) = true) :
    firstRule g (c :: s) (rulesOf state) = firstRule g (c :: s) ((rulesOf state).filter p) := by
  apply firstRule_keep
  rw [List.all_eq_true] at h ⊢
  intro r hr
  rw [Rule.can, plain_pat hst g r hr]
  exact h r hr

/-- Letters are ASCII characters. -/
theorem alpha_cases {q : Char → Prop} (h : ∀ n < 128, isAlpha (Char.ofNat n) = true → q (Char.ofNat n)) (c : Char)
    (hc : isAlpha c = true) : q c := by
  have : c.toNat < 128 := by
    simp only [isAlpha, Bool.or_eq_true, Bool.and_eq_true, decide_eq_true_eq, Char.le_def, UInt32.le_iff_toNat_le] at hc
    have e : ('Z').val.toNat = 90 := rfl
    have e' : ('z').val.toNat = 122 := rfl
    show c.val.toNat < 128
    omega
  have := h c.toNat this
  rw [Char.ofNat_toNat] at this
  exact this hc

/-- The rules that can match a letter. -/
theorem filter_alpha {state : LexState} (hst : state = .root ∨ state = .stringExpr) (g : Str) (c : Char) (s : Str)
    (hc : isAlpha c = true) :
    firstRule g (c :: s) (rulesOf state) = firstRule g (c :: s)
      [rule .if_ (reKeyword c!"if"), rule .else_ (reKeyword c!"else"), rule .switch_ (reKeyword c!"switch"),
       rule .case_ (reKeyword c!"case"), rule .ident reIdent] := by
  rw [firstRule_plain hst (fun r => r.sym ∈ [Sym.if_, .else_, .switch_, .case_, .ident])]
  · rcases hst with rfl | rfl <;> rfl
  · revert hc c
    rcases hst with rfl | rfl <;> exact alpha_cases (by decide +kernel)

theorem firstRule_lit {g s w : Str} {sym : Sym} {a : LexAction} {rs : List Rule} :
    firstRule g s (rule sym (lit w) a :: rs) =
      if w <+: s then some (rule sym (lit w) a, ⟨w, none, s.drop w.length⟩) else firstRule g s rs := by
  simp only [firstRule, rule, first_lit]
  by_cases h : w <+: s <;> simp [h]

theorem firstRule_keyword {g s w : Str} {sym : Sym} {rs : List Rule} (hne : w ≠ []) (hw : ∀ c ∈ w, isWord c = true) :
    firstRule g s (rule sym (reKeyword w) :: rs) =
      if s.takeWhile isWord = w then some (rule sym (reKeyword w), ⟨w, some w, s.dropWhile isWord⟩)
      else firstRule g s rs := by
  simp only [firstRule, rule, first_keyword w hne hw]
  by_cases h : s.takeWhile isWord = w <;> simp [h]

/-- What is read at a letter. -/
theorem firstRule_alpha {state : LexState} (hst : state = .root ∨ state = .stringExpr) (g : Str) (c : Char) (s : Str)
    (hc : isAlpha c = true) :
    firstRule g (c :: s) (rulesOf state) =
      let w := (c :: s).takeWhile isWord
      let m : Match := ⟨w, some w, (c :: s).dropWhile isWord⟩
      if w = c!"if" then some (rule .if_ (reKeyword c!"if"), m)
      else if w = c!"else" then some (rule .else_ (reKeyword c!"else"), m)
      else if w = c!"switch" then some (rule .switch_ (reKeyword c!"switch"), m)
      else if w = c!"case" then some (rule .case_ (reKeyword c!"case"), m)
      else (reIdent.first (c :: s)).map fun m => (rule .ident reIdent, m) := by
  rw [filter_alpha hst g c s hc]
  rw [firstRule_keyword (by simp) (by decide), firstRule_keyword (by simp) (by decide),
    firstRule_keyword (by simp) (by decide), firstRule_keyword (by simp) (by decide)]
  simp only
  split
  · rename_i h; rw [h]
  split
  · rename_i h; rw [h]
  split
  · rename_i h; rw [h]
  split
  · rename_i h; rw [h]
  · simp only [firstRule, rule]
    cases reIdent.first (c :: s) <;> rfl

end Verif.Etx
