import Verif.Etx.BlankLemmas
import Verif.Etx.TokenLemmas

/-!
# Names after other characters

How the match of a rule depends on a name in the text: the matches on `u ++ z₁` and `u ++ z₂`, where `z₁`, `z₂` begin with different
names and are equal otherwise.
-/

namespace Verif.Etx

open Re

/-! ## What an expression can match in a row -/

/-- May match a text that ends with `c`. -/
def Re.ends : Re → Char → Bool
  | eps, _ => false
  | cls p, c => p c
  | seq a b, c => b.ends c || (b.nullable && a.ends c)
  | alt a b, c => a.ends c || b.ends c
  | star a, c => a.ends c
  | lazyStar a, c => a.ends c
  | bot, _ => false
  | eot, _ => false
  | wordB, _ => false
  | grp a, c => a.ends c

/-- May match a text with `c` followed by `d`. -/
def Re.pair : Re → Char → Char → Bool
  | eps, _, _ => false
  | cls _, _, _ => false
  | seq a b, c, d => a.pair c d || b.pair c d || (a.ends c && b.starts d)
  | alt a b, c, d => a.pair c d || b.pair c d
  | star a, c, d => a.pair c d || (a.ends c && a.starts d)
  | lazyStar a, c, d => a.pair c d || (a.ends c && a.starts d)
  | bot, _, _ => false
  | eot, _, _ => false
  | wordB, _, _ => false
  | grp a, c, d => a.pair c d

/-- Where two characters in a row are in one text after another one. -/
theorem pair_append {x y p q : Str} {c d : Char} (h : x ++ y = p ++ c :: d :: q) :
    (∃ q', x = p ++ c :: d :: q') ∨ (∃ p', y = p' ++ c :: d :: q) ∨ (∃ p', x = p' ++ [c]) ∧ ∃ q', y = d :: q' := by
  rw [List.append_eq_append_iff] at h
  rcases h with ⟨v, rfl, hy⟩ | ⟨v, rfl, hy⟩
  · exact .inr (.inl ⟨v, hy⟩)
  · cases v with
    | nil => exact .inr (.inl ⟨[], by simpa using hy.symm⟩)
    | cons e v =>
      rw [List.cons_append, List.cons.injEq] at hy
      obtain ⟨rfl, hy⟩ := hy
      cases v with
      | nil => exact .inr (.inr ⟨⟨p, rfl⟩, q, hy.symm⟩)
      | cons e' v =>
        rw [List.cons_append, List.cons.injEq] at hy
        obtain ⟨rfl, -⟩ := hy
        exact .inl ⟨v, rfl⟩

theorem end_append {x y p : Str} {c : Char} (h : x ++ y = p ++ [c]) : (∃ p', y = p' ++ [c]) ∨ (y = [] ∧ x = p ++ [c]) := by
  cases hy : y with
  | nil => subst hy; exact .inr ⟨rfl, by simpa using h⟩
  | cons e v =>
    left
    have hne : y ≠ [] := by simp [hy]
    have := congrArg List.getLast? h
    rw [List.getLast?_append_of_ne_nil _ hne] at this
    simp only [List.getLast?_append, List.getLast?_singleton, Option.some_or] at this
    rw [List.getLast?_eq_some_iff] at this
    obtain ⟨p', hp⟩ := this
    exact ⟨p', hy ▸ hp⟩

/-- The characters of a match in a row, and the last one. -/
theorem Re.run_pair (r : Re) : ∀ prev s, ∀ m ∈ r.run prev s,
    (∀ p c, m.txt = p ++ [c] → r.ends c = true) ∧ ∀ p q c d, m.txt = p ++ c :: d :: q → r.pair c d = true := by
  have nothing : ∀ (r : Re) s, (∀ p c, (Match.nothing s).txt = p ++ [c] → r.ends c = true) ∧
      ∀ p q c d, (Match.nothing s).txt = p ++ c :: d :: q → r.pair c d = true := by
    intro r s
    constructor
    · intro p c h; simp at h
    · intro p q c d h; simp at h
  have hiter : ∀ (a : Re) (m1 m2 : Match) (prev : Option Char) (s : Str), m1 ∈ a.run prev s →
      ((∀ p c, m1.txt = p ++ [c] → a.ends c = true) ∧ ∀ p q c d, m1.txt = p ++ c :: d :: q → a.pair c d = true) →
      ((∀ p c, m2.txt = p ++ [c] → a.ends c = true) ∧ (∀ p q c d, m2.txt = p ++ c :: d :: q → (star a).pair c d = true)) →
      (∀ d q, m2.txt = d :: q → a.starts d = true) →
      (∀ p c, (m1.andThen m2).txt = p ++ [c] → a.ends c = true) ∧
        ∀ p q c d, (m1.andThen m2).txt = p ++ c :: d :: q → (star a).pair c d = true := by
    intro a m1 m2 prev s _ h1 h2 h3
    refine ⟨fun p c h => ?_, fun p q c d h => ?_⟩
    · rw [Match.andThen_txt] at h
      rcases end_append h with ⟨p', h⟩ | ⟨-, h⟩
      · exact h2.1 _ _ h
      · exact h1.1 _ _ h
    · rw [Match.andThen_txt] at h
      rcases pair_append h with ⟨q', h⟩ | ⟨p', h⟩ | ⟨⟨p', h⟩, q', h'⟩
      · simp [pair, h1.2 _ _ _ _ h]
      · exact h2.2 _ _ _ _ h
      · simp [pair, h1.1 _ _ h, h3 _ _ h']
  have hstar : ∀ a : Re, (∀ prev s, ∀ m ∈ a.run prev s,
      (∀ p c, m.txt = p ++ [c] → a.ends c = true) ∧ ∀ p q c d, m.txt = p ++ c :: d :: q → a.pair c d = true) →
      ∀ n prev s, ∀ m ∈ starRun a.run n prev s, (∀ d q, m.txt = d :: q → a.starts d = true) ∧
        (∀ p c, m.txt = p ++ [c] → a.ends c = true) ∧ ∀ p q c d, m.txt = p ++ c :: d :: q → (star a).pair c d = true := by
    intro a ih n
    induction n with
    | zero => intro prev s m hm; simp [starRun] at hm; subst hm; exact ⟨by simp, nothing (star a) s⟩
    | succ n ihn =>
      intro prev s m hm
      simp only [starRun, List.mem_append, List.mem_flatMap, List.mem_filter, List.mem_map, List.mem_singleton, decide_eq_true_eq] at hm
      rcases hm with ⟨m1, ⟨h1, hne⟩, m2, h2, rfl⟩ | rfl
      · have h3 := ihn _ _ _ h2
        refine ⟨fun d q h => ?_, hiter a m1 m2 _ _ h1 (ih _ _ _ h1) h3.2 h3.1⟩
        rw [Match.andThen_txt] at h
        cases ht : m1.txt with
        | nil => exact absurd ht hne
        | cons e v =>
          rw [ht, List.cons_append, List.cons.injEq] at h
          obtain ⟨rfl, -⟩ := h
          exact (a.run_start _ _ _ h1).2 _ _ ht
      · exact ⟨by simp, nothing (star a) s⟩
  have hlazy : ∀ a : Re, (∀ prev s, ∀ m ∈ a.run prev s,
      (∀ p c, m.txt = p ++ [c] → a.ends c = true) ∧ ∀ p q c d, m.txt = p ++ c :: d :: q → a.pair c d = true) →
      ∀ n prev s, ∀ m ∈ lazyRun a.run n prev s, (∀ d q, m.txt = d :: q → a.starts d = true) ∧
        (∀ p c, m.txt = p ++ [c] → a.ends c = true) ∧ ∀ p q c d, m.txt = p ++ c :: d :: q → (star a).pair c d = true := by
    intro a ih n
    induction n with
    | zero => intro prev s m hm; simp [lazyRun] at hm; subst hm; exact ⟨by simp, nothing (star a) s⟩
    | succ n ihn =>
      intro prev s m hm
      simp only [lazyRun, List.mem_cons, List.mem_flatMap, List.mem_filter, List.mem_map, decide_eq_true_eq] at hm
      rcases hm with rfl | ⟨m1, ⟨h1, hne⟩, m2, h2, rfl⟩
      · exact ⟨by simp, nothing (star a) s⟩
      · have h3 := ihn _ _ _ h2
        refine ⟨fun d q h => ?_, hiter a m1 m2 _ _ h1 (ih _ _ _ h1) h3.2 h3.1⟩
        rw [Match.andThen_txt] at h
        cases ht : m1.txt with
        | nil => exact absurd ht hne
        | cons e v =>
          rw [ht, List.cons_append, List.cons.injEq] at h
          obtain ⟨rfl, -⟩ := h
          exact (a.run_start _ _ _ h1).2 _ _ ht
  induction r with
  | eps => intro prev s m hm; simp [run] at hm; subst hm; exact nothing _ s
  | cls p =>
    intro prev s m hm
    cases s with
    | nil => simp [run] at hm
    | cons d s =>
      simp only [run] at hm
      split at hm
      · rename_i hp
        simp at hm
        subst hm
        refine ⟨fun q c h => ?_, fun q q' c e h => ?_⟩
        · have h := h.symm
          rw [List.append_eq_singleton_iff] at h
          rcases h with ⟨-, h⟩ | ⟨-, h⟩
          · cases h; exact hp
          · cases h
        · have := congrArg List.length h
          simp at this
          omega
      · simp at hm
  | seq a b iha ihb =>
    intro prev s m hm
    simp only [run, List.mem_flatMap, List.mem_map] at hm
    obtain ⟨m1, h1, m2, h2, rfl⟩ := hm
    have ha := iha _ _ _ h1
    have hb := ihb _ _ _ h2
    refine ⟨fun p c h => ?_, fun p q c d h => ?_⟩
    · rw [Match.andThen_txt] at h
      rcases end_append h with ⟨p', h⟩ | ⟨he, h⟩
      · simp [ends, hb.1 _ _ h]
      · simp [ends, ha.1 _ _ h, (b.run_start _ _ _ h2).1 he]
    · rw [Match.andThen_txt] at h
      rcases pair_append h with ⟨q', h⟩ | ⟨p', h⟩ | ⟨⟨p', h⟩, q', h'⟩
      · simp [pair, ha.2 _ _ _ _ h]
      · simp [pair, hb.2 _ _ _ _ h]
      · simp [pair, ha.1 _ _ h, (b.run_start _ _ _ h2).2 _ _ h']
  | alt a b iha ihb =>
    intro prev s m hm
    simp only [run, List.mem_append] at hm
    rcases hm with hm | hm
    · have := iha _ _ _ hm
      exact ⟨fun p c h => by simp [ends, this.1 p c h], fun p q c d h => by simp [pair, this.2 p q c d h]⟩
    · have := ihb _ _ _ hm
      exact ⟨fun p c h => by simp [ends, this.1 p c h], fun p q c d h => by simp [pair, this.2 p q c d h]⟩
  | star a ih => intro prev s m hm; exact (hstar a ih _ _ _ m hm).2
  | lazyStar a ih => intro prev s m hm; exact (hlazy a ih _ _ _ m hm).2
  | bot => intro prev s m hm; simp only [run] at hm; split at hm <;> simp at hm; subst hm; exact nothing _ s
  | eot => intro prev s m hm; simp only [run] at hm; split at hm <;> simp at hm; subst hm; exact nothing _ _
  | wordB => intro prev s m hm; simp only [run] at hm; split at hm <;> simp at hm; subst hm; exact nothing _ s
  | grp a ih =>
    intro prev s m hm
    simp only [run, List.mem_map] at hm
    obtain ⟨m1, h1, rfl⟩ := hm
    exact ih _ _ m1 h1

/-! ## Matches that do not reach the name -/

/-- The match ends before `z`. -/
def Match.ahead (z : Str) (m : Match) : Bool := z.length ≤ m.rest.length

/-- Texts that begin with a letter. -/
def AlphaHead (z : Str) : Prop := ∃ b x, z = b :: x ∧ isAlpha b = true

theorem filter_flatMap_ahead {l : List Match} {f : Match → List Match} {z : Str} (h : ∀ m ∈ l, ∀ n ∈ f m, n.rest.length ≤ m.rest.length) :
    (l.flatMap f).filter (Match.ahead z) = (l.filter (Match.ahead z)).flatMap fun m => (f m).filter (Match.ahead z) := by
  induction l with
  | nil => rfl
  | cons m l ih =>
    rw [List.flatMap_cons, List.filter_append, ih fun m hm => h m (by simp [hm]), List.filter_cons]
    split
    · rw [List.flatMap_cons]
    · rename_i hm
      have : (f m).filter (Match.ahead z) = [] := by
        rw [List.filter_eq_nil_iff]
        intro n hn
        have := h m (by simp) n hn
        simp only [Match.ahead, decide_eq_true_eq] at hm ⊢
        omega
      rw [this, List.nil_append]

/-- The matches that end before the name do not depend on it. -/
theorem Re.run_ahead (r : Re) {z₁ z₂ : Str} (h₁ : AlphaHead z₁) (h₂ : AlphaHead z₂) : ∀ (n : Nat) (u : Str), u.length ≤ n →
    ∀ prev : Option Char, List.Forall₂ (Alike z₁ z₂) ((r.run prev (u ++ z₁)).filter (Match.ahead z₁))
      ((r.run prev (u ++ z₂)).filter (Match.ahead z₂)) := by
  have nothing : ∀ u : Str, List.Forall₂ (Alike z₁ z₂) ([Match.nothing (u ++ z₁)].filter (Match.ahead z₁))
      ([Match.nothing (u ++ z₂)].filter (Match.ahead z₂)) := by
    intro u
    have e₁ : (Match.nothing (u ++ z₁)).ahead z₁ = true := by simp [Match.ahead, Match.nothing]
    have e₂ : (Match.nothing (u ++ z₂)).ahead z₂ = true := by simp [Match.ahead, Match.nothing]
    rw [List.filter_cons_of_pos e₁, List.filter_cons_of_pos e₂]
    exact .cons ⟨rfl, rfl, u, rfl, rfl⟩ .nil
  have last : ∀ m₁ m₂ prev, Alike z₁ z₂ m₁ m₂ → m₁.last prev = m₂.last prev := by
    intro m₁ m₂ prev h; simp [Match.last, h.1]
  have fmap : ∀ (z : Str) (m : Match) (l : List Match), (l.map m.andThen).filter (Match.ahead z) = (l.filter (Match.ahead z)).map m.andThen := by
    intro z m l
    rw [List.filter_map]
    rfl
  induction r with
  | eps => intro n u _ prev; exact nothing u
  | cls p =>
    intro n u _ prev
    cases u with
    | nil =>
      obtain ⟨b₁, x₁, rfl, -⟩ := h₁
      obtain ⟨b₂, x₂, rfl, -⟩ := h₂
      simp only [List.nil_append, run_cls_cons]
      have e : ∀ (b : Char) (x : Str), (if p b = true then [(⟨[b], none, x⟩ : Match)] else []).filter (Match.ahead (b :: x)) = [] := by
        intro b x
        split <;> simp [Match.ahead]
      rw [e, e]
      exact .nil
    | cons c u =>
      simp only [List.cons_append, run_cls_cons]
      split
      · have e : ∀ z : Str, (⟨[c], none, u ++ z⟩ : Match).ahead z = true := by intro z; simp [Match.ahead]
        rw [List.filter_cons_of_pos (e z₁), List.filter_cons_of_pos (e z₂)]
        exact .cons ⟨rfl, rfl, u, rfl, rfl⟩ .nil
      · exact .nil
  | seq a b iha ihb =>
    intro n u hu prev
    simp only [run]
    rw [filter_flatMap_ahead, filter_flatMap_ahead]
    · refine forall₂_flatMap (iha n u hu prev) ?_
      intro m₁ m₂ _ _ h
      rw [fmap, fmap]
      refine forall₂_map (R := Alike z₁ z₂) ?_ fun _ _ h' => h.andThen h'
      rw [last _ _ prev h]
      obtain ⟨-, -, v, hv₁, hv₂⟩ := h
      rw [hv₁, hv₂]
      exact ihb v.length v (Nat.le_refl _) _
    all_goals
      intro m _ n hn
      rw [List.mem_map] at hn
      obtain ⟨k, hk, rfl⟩ := hn
      rw [Match.andThen_rest]
      exact run_rest_le hk
  | alt a b iha ihb =>
    intro n u hu prev
    simp only [run, List.filter_append]
    exact List.rel_append (iha n u hu prev) (ihb n u hu prev)
  | star a ih =>
    intro n
    induction n with
    | zero =>
      intro u hu prev
      have : u = [] := List.length_eq_zero_iff.1 (by omega)
      subst this
      rw [run_star, run_star]
      have e : ∀ z, (((a.run prev ([] ++ z)).filter (fun m => m.txt ≠ [])).flatMap
          (fun m => ((star a).run (m.last prev) m.rest).map m.andThen)).filter (Match.ahead z) = [] := by
        intro z
        rw [List.filter_eq_nil_iff]
        intro k hk
        simp only [List.mem_flatMap, List.mem_filter, List.mem_map, decide_eq_true_eq] at hk
        obtain ⟨m, ⟨hm, hne⟩, l, hl, rfl⟩ := hk
        have := run_rest_lt hm hne
        have := run_rest_le hl
        intro hb
        rw [Match.ahead, decide_eq_true_eq, Match.andThen_rest] at hb
        rw [List.nil_append] at *
        omega
      rw [List.filter_append, List.filter_append, e, e]
      exact nothing []
    | succ n ihn =>
      intro u hu prev
      rw [run_star, run_star, List.filter_append, List.filter_append]
      refine List.rel_append ?_ (nothing u)
      rw [filter_flatMap_ahead, filter_flatMap_ahead]
      · rw [List.filter_filter, List.filter_filter]
        have hc : ∀ (z : Str), (fun m : Match => m.ahead z && decide (m.txt ≠ [])) = fun m => decide (m.txt ≠ []) && m.ahead z := by
          intro z; funext m; exact Bool.and_comm _ _
        rw [hc, hc, ← List.filter_filter, ← List.filter_filter]
        refine forall₂_flatMap (forall₂_filter (ih (n + 1) u hu prev) fun _ _ h => by simp [h.1]) ?_
        intro m₁ m₂ hm₁ _ h
        rw [fmap, fmap]
        refine forall₂_map (R := Alike z₁ z₂) ?_ fun _ _ h' => h.andThen h'
        rw [last _ _ prev h]
        obtain ⟨-, -, v, hv₁, hv₂⟩ := h
        simp only [List.mem_filter, decide_eq_true_eq] at hm₁
        have := run_rest_lt hm₁.1.1 hm₁.2
        rw [hv₁] at this
        simp at this
        rw [hv₁, hv₂]
        exact ihn v (by omega) _
      all_goals
        intro m _ n hn
        rw [List.mem_map] at hn
        obtain ⟨k, hk, rfl⟩ := hn
        rw [Match.andThen_rest]
        exact run_rest_le hk
  | lazyStar a ih =>
    intro n
    induction n with
    | zero =>
      intro u hu prev
      have : u = [] := List.length_eq_zero_iff.1 (by omega)
      subst this
      rw [run_lazyStar, run_lazyStar]
      have e : ∀ z, (((a.run prev ([] ++ z)).filter (fun m => m.txt ≠ [])).flatMap
          (fun m => ((lazyStar a).run (m.last prev) m.rest).map m.andThen)).filter (Match.ahead z) = [] := by
        intro z
        rw [List.filter_eq_nil_iff]
        intro k hk
        simp only [List.mem_flatMap, List.mem_filter, List.mem_map, decide_eq_true_eq] at hk
        obtain ⟨m, ⟨hm, hne⟩, l, hl, rfl⟩ := hk
        have := run_rest_lt hm hne
        have := run_rest_le hl
        intro hb
        rw [Match.ahead, decide_eq_true_eq, Match.andThen_rest] at hb
        rw [List.nil_append] at *
        omega
      rw [← List.singleton_append, ← List.singleton_append (x := Match.nothing ([] ++ z₂)), List.filter_append, List.filter_append, e, e,
        List.append_nil, List.append_nil]
      exact nothing []
    | succ n ihn =>
      intro u hu prev
      rw [run_lazyStar, run_lazyStar, ← List.singleton_append, ← List.singleton_append (x := Match.nothing (u ++ z₂)), List.filter_append,
        List.filter_append]
      refine List.rel_append (nothing u) ?_
      rw [filter_flatMap_ahead, filter_flatMap_ahead]
      · rw [List.filter_filter, List.filter_filter]
        have hc : ∀ (z : Str), (fun m : Match => m.ahead z && decide (m.txt ≠ [])) = fun m => decide (m.txt ≠ []) && m.ahead z := by
          intro z; funext m; exact Bool.and_comm _ _
        rw [hc, hc, ← List.filter_filter, ← List.filter_filter]
        refine forall₂_flatMap (forall₂_filter (ih (n + 1) u hu prev) fun _ _ h => by simp [h.1]) ?_
        intro m₁ m₂ hm₁ _ h
        rw [fmap, fmap]
        refine forall₂_map (R := Alike z₁ z₂) ?_ fun _ _ h' => h.andThen h'
        rw [last _ _ prev h]
        obtain ⟨-, -, v, hv₁, hv₂⟩ := h
        simp only [List.mem_filter, decide_eq_true_eq] at hm₁
        have := run_rest_lt hm₁.1.1 hm₁.2
        rw [hv₁] at this
        simp at this
        rw [hv₁, hv₂]
        exact ihn v (by omega) _
      all_goals
        intro m _ n hn
        rw [List.mem_map] at hn
        obtain ⟨k, hk, rfl⟩ := hn
        rw [Match.andThen_rest]
        exact run_rest_le hk
  | bot =>
    intro n u _ prev
    simp only [run]
    split
    · exact nothing u
    · exact .nil
  | eot =>
    intro n u _ prev
    obtain ⟨b₁, x₁, rfl, hb₁⟩ := h₁
    obtain ⟨b₂, x₂, rfl, hb₂⟩ := h₂
    simp [run]
  | wordB =>
    intro n u _ prev
    have : ((u ++ z₁).head?.any isWord) = ((u ++ z₂).head?.any isWord) := by
      cases u with
      | nil =>
        obtain ⟨b₁, x₁, rfl, hb₁⟩ := h₁
        obtain ⟨b₂, x₂, rfl, hb₂⟩ := h₂
        simp [alpha_word hb₁, alpha_word hb₂]
      | cons c u => simp
    simp only [run, this]
    split
    · exact nothing u
    · exact .nil
  | grp a ih =>
    intro n u hu prev
    simp only [run]
    have e : ∀ (z : Str) (l : List Match), (l.map fun m => { m with cap := some m.txt }).filter (Match.ahead z) =
        (l.filter (Match.ahead z)).map fun m => { m with cap := some m.txt } := by
      intro z l
      rw [List.filter_map]
      rfl
    rw [e, e]
    exact forall₂_map (ih n u hu prev) fun _ _ h => ⟨h.1, by simp [h.1], h.2.2⟩

/-- An expression none of whose matches reaches the name. -/
theorem same_of_ahead {r : Re} {z₁ z₂ : Str} (h₁ : AlphaHead z₁) (h₂ : AlphaHead z₂) (u : Str)
    (hb₁ : ∀ m ∈ r.run none (u ++ z₁), m.ahead z₁ = true) (hb₂ : ∀ m ∈ r.run none (u ++ z₂), m.ahead z₂ = true) :
    Same u z₁ z₂ (r.first (u ++ z₁)) (r.first (u ++ z₂)) := by
  have := r.run_ahead h₁ h₂ u.length u (Nat.le_refl _) none
  rw [List.filter_eq_self.2 hb₁, List.filter_eq_self.2 hb₂] at this
  simp only [first]
  cases hl₁ : r.run none (u ++ z₁) with
  | nil =>
    rw [hl₁] at this
    cases hl₂ : r.run none (u ++ z₂) with
    | nil => exact .fail
    | cons => rw [hl₂] at this; cases this
  | cons m₁ l₁ =>
    rw [hl₁] at this
    cases hl₂ : r.run none (u ++ z₂) with
    | nil => rw [hl₂] at this; cases this
    | cons m₂ l₂ =>
      rw [hl₂] at this
      cases this with
      | cons h _ => exact .alike _ _ h

/-- A match that reaches the name contains the character before it and its first letter. -/
theorem reach {r : Re} {u z : Str} {c : Char} (hz : AlphaHead z) (hu : u.getLast? = some c) {m : Match} (hm : m ∈ r.run none (u ++ z))
    (hb : m.ahead z = false) : ∃ b q, isAlpha b = true ∧ m.txt = u ++ b :: q ∧ r.pair c b = true := by
  have h := r.run_split _ _ _ hm
  simp only [Match.ahead, decide_eq_false_iff_not, Nat.not_le] at hb
  obtain ⟨b, x, rfl, ha⟩ := hz
  rw [List.append_eq_append_iff] at h
  rcases h with ⟨v, rfl, h⟩ | ⟨v, h, h'⟩
  · rw [h] at hb
    simp at hb
    omega
  · cases v with
    | nil =>
      rw [List.nil_append] at h'
      rw [← h'] at hb
      simp at hb
    | cons d v =>
      rw [List.cons_append, List.cons.injEq] at h'
      obtain ⟨rfl, -⟩ := h'
      refine ⟨b, v, ha, h, ?_⟩
      rw [List.getLast?_eq_some_iff] at hu
      obtain ⟨p, rfl⟩ := hu
      exact (r.run_pair _ _ _ hm).2 p v c b (by rw [h]; simp)

theorem same_of_pair {r : Re} {z₁ z₂ : Str} (h₁ : AlphaHead z₁) (h₂ : AlphaHead z₂) {u : Str} {c : Char} (hu : u.getLast? = some c)
    (hr : ∀ b, isAlpha b = true → r.pair c b = false) : Same u z₁ z₂ (r.first (u ++ z₁)) (r.first (u ++ z₂)) := by
  have key : ∀ z, AlphaHead z → ∀ m ∈ r.run none (u ++ z), m.ahead z = true := by
    intro z hz m hm
    cases hb : m.ahead z with
    | true => rfl
    | false =>
      obtain ⟨b, -, ha, -, hp⟩ := reach hz hu hm hb
      rw [hr b ha] at hp
      cases hp
  exact same_of_ahead h₁ h₂ u (key z₁ h₁) (key z₂ h₂)

end Verif.Etx
