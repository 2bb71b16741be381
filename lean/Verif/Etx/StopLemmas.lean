import Verif.Etx.BlankLemmas
import Verif.Etx.TokenLemmas

/-!
# What follows a token

An expression without assertions does not look past a character that it cannot contain.
-/

namespace Verif.Etx

open Re

/-- Only classes, sequences, alternatives, repetitions and groups. -/
def Re.simple : Re → Bool
  | eps => true
  | cls _ => true
  | seq a b => a.simple && b.simple
  | alt a b => a.simple && b.simple
  | star a => a.simple
  | lazyStar _ => false
  | bot => false
  | eot => false
  | wordB => false
  | grp a => a.simple

/-- More text after a match. -/
def Match.before (y : Str) (m : Match) : Match := { m with rest := m.rest ++ y }

theorem Match.before_andThen (y : Str) (m n : Match) : (m.andThen n).before y = (m.before y).andThen (n.before y) := rfl

theorem Re.run_before (r : Re) (hr : r.simple = true) {y : Str} (hy : ∀ c ∈ y.head?, r.chars c = false) :
    ∀ (u : Str) (prev : Option Char), r.run prev (u ++ y) = (r.run prev u).map (Match.before y) := by
  induction r with
  | eps => intro u prev; rfl
  | cls p =>
    intro u prev
    cases u with
    | nil =>
      cases y with
      | nil => rfl
      | cons c y =>
        have : p c = false := hy c rfl
        simp [run, this]
    | cons c u =>
      simp only [List.cons_append, run_cls_cons]
      split <;> rfl
  | seq a b iha ihb =>
    intro u prev
    simp only [simple, Bool.and_eq_true] at hr
    have ha := iha hr.1 (fun c hc => by have := hy c hc; simp only [chars, Bool.or_eq_false_iff] at this; exact this.1)
    have hb := ihb hr.2 (fun c hc => by have := hy c hc; simp only [chars, Bool.or_eq_false_iff] at this; exact this.2)
    simp only [run]
    rw [ha, List.flatMap_map, List.map_flatMap]
    refine flatMap_congr' fun m _ => ?_
    show (b.run (m.last prev) (m.rest ++ y)).map _ = _
    rw [hb, List.map_map, List.map_map]
    rfl
  | alt a b iha ihb =>
    intro u prev
    simp only [simple, Bool.and_eq_true] at hr
    have ha := iha hr.1 (fun c hc => by have := hy c hc; simp only [chars, Bool.or_eq_false_iff] at this; exact this.1)
    have hb := ihb hr.2 (fun c hc => by have := hy c hc; simp only [chars, Bool.or_eq_false_iff] at this; exact this.2)
    simp only [run, List.map_append]
    rw [ha, hb]
  | star a ih =>
    intro u
    have ih := ih hr hy
    generalize hn : u.length = n
    induction n using Nat.strongRecOn generalizing u with
    | ind n ihn =>
      intro prev
      rw [run_star, run_star, ih, List.filter_map, List.flatMap_map, List.map_append, List.map_flatMap]
      congr 1
      have : (fun m => decide (m.txt ≠ [])) ∘ Match.before y = fun m => decide (m.txt ≠ []) := rfl
      rw [this]
      refine flatMap_congr' fun m hm => ?_
      simp only [List.mem_filter, decide_eq_true_eq] at hm
      have hlt := run_rest_lt hm.1 hm.2
      show ((star a).run (m.last prev) (m.rest ++ y)).map _ = _
      rw [ihn m.rest.length (by omega) m.rest rfl, List.map_map, List.map_map]
      rfl
  | lazyStar => cases hr
  | bot => cases hr
  | eot => cases hr
  | wordB => cases hr
  | grp a ih =>
    intro u prev
    simp only [run]
    rw [ih hr hy, List.map_map, List.map_map]
    rfl

theorem Re.first_before {r : Re} (hr : r.simple = true) {y : Str} (hy : ∀ c ∈ y.head?, r.chars c = false) (u : Str) :
    r.first (u ++ y) = (r.first u).map (Match.before y) := by
  rw [first, first, run_before r hr hy, List.head?_map]

/-- What a number consists of. -/
theorem number_chars (c : Char) (h : isWord c = false) (h1 : c ≠ '-') (h2 : c ≠ '+') (h3 : c ≠ '.') :
    reNumber.chars c = false := by
  have hw : isDigit c = false ∧ ('a' ≤ c && c ≤ 'z') = false ∧ ('A' ≤ c && c ≤ 'Z') = false ∧ c ≠ '_' := by
    simp only [isWord, Bool.or_eq_false_iff, decide_eq_false_iff_not] at h
    exact ⟨h.1.1.1, h.1.2, h.1.1.2, h.2⟩
  obtain ⟨hd, ha, hA, hu⟩ := hw
  have hne : ∀ d : Char, isWord d = true → c ≠ d := by
    rintro d hd rfl
    rw [h] at hd; cases hd
  have hhex : isHex c = false := by
    simp only [isHex, hd, Bool.false_or, Bool.or_eq_false_iff, Bool.and_eq_false_iff, decide_eq_false_iff_not] at ha hA ⊢
    have z : 'f' ≤ 'z' := by decide
    have Z : 'F' ≤ 'Z' := by decide
    refine ⟨ha.imp_right fun h h' => h (Char.le_trans h' z), hA.imp_right fun h h' => h (Char.le_trans h' Z)⟩
  have hoct : ('0' ≤ c && c ≤ '7') = false := by
    simp only [isDigit, Bool.and_eq_false_iff, decide_eq_false_iff_not] at hd ⊢
    have z : '7' ≤ '9' := by decide
    exact hd.imp_right fun h h' => h (Char.le_trans h' z)
  have h0 := hne '0' rfl
  have h1' := hne '1' rfl
  have e := hne 'e' rfl
  have E := hne 'E' rfl
  have x := hne 'x' rfl
  have X := hne 'X' rfl
  have b := hne 'b' rfl
  have B := hne 'B' rfl
  have o := hne 'o' rfl
  have O := hne 'O' rfl
  simp [reNumber, reHex, reBin, reOct, reDec, chars, lit, plus, opt, isDigitSep, *]

end Verif.Etx
