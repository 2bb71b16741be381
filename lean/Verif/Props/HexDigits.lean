import Verif.Props.Classes
import Verif.Props.UnicodeEscape

/-!
# The digits after `\u`, exactly (C74)
-/

namespace Verif.Etx

open Re

/-- `w` is made of hexadecimal digits. -/
def HexText (w : Str) : Prop := ∀ c ∈ w, HexChar c

theorem HexText.isHex {w : Str} (h : HexText w) : ∀ c ∈ w, isHex c = true := fun c hc => (isHex_iff c).2 (h c hc)

/-- A text with `n` digits at the beginning. -/
theorem hex_prefix {n : Nat} {s : Str} : n ≤ (s.takeWhile isHex).length ↔ ∃ v z, s = v ++ z ∧ v.length = n ∧ HexText v := by
  constructor
  · intro h
    refine ⟨s.take n, s.drop n, (List.take_append_drop n s).symm, ?_, fun c hc => (isHex_iff c).1 ?_⟩
    · have := (List.takeWhile_prefix isHex (l := s)).length_le
      simp; omega
    · have h2 : s.take n = (s.takeWhile isHex).take n := by
        conv_lhs => rw [← List.takeWhile_append_dropWhile (p := Verif.Etx.isHex) (l := s)]
        rw [List.take_append_of_le_length h]
      rw [h2] at hc
      exact List.all_eq_true.1 List.all_takeWhile c (List.mem_of_mem_take hc)
  · rintro ⟨v, z, rfl, rfl, hv⟩
    rw [List.takeWhile_append_of_pos hv.isHex]
    simp

/-- C74, token by token: after `\u` the next token is `w`, with `y` after it, if and only if `w` is eight hexadecimal digits,
or four that are not followed by four more.  The lexer then goes on with the string. -/
theorem C74_token (st st' : Stack) (s w y : Str) :
    (∃ r m, lexStep ((.unicode, []) :: st) s = some (r, m, st') ∧ m.txt = w ∧ m.rest = y) ↔
      st' = st ∧ s = w ++ y ∧ HexText w ∧
        (w.length = 8 ∨ w.length = 4 ∧ ¬ ∃ v z, y = v ++ z ∧ v.length = 4 ∧ HexText v) := by
  constructor
  · rintro ⟨r, m, h, rfl, rfl⟩
    have key : ∀ w y, s = w ++ y → HexText w →
        (w.length = 8 ∨ w.length = 4 ∧ ¬ ∃ v z, y = v ++ z ∧ v.length = 4 ∧ HexText v) →
        st' = st ∧ s = m.txt ++ m.rest ∧ HexText m.txt ∧
          (m.txt.length = 8 ∨ m.txt.length = 4 ∧ ¬ ∃ v z, m.rest = v ++ z ∧ v.length = 4 ∧ HexText v) := by
      intro w y e hw hl
      obtain ⟨r', -, h'⟩ := lexStep_hex w y st hw.isHex (hl.imp id fun h => ⟨h.1, by
        have := h.2; rw [← hex_prefix] at this; omega⟩)
      rw [e, h'] at h
      simp only [Option.some.injEq, Prod.mk.injEq] at h
      obtain ⟨-, rfl, rfl⟩ := h
      exact ⟨rfl, e, hw, hl⟩
    by_cases h8 : 8 ≤ (s.takeWhile isHex).length
    · obtain ⟨v, z, e, hv, hx⟩ := hex_prefix.1 h8
      exact key v z e hx (.inl hv)
    · by_cases h4 : 4 ≤ (s.takeWhile isHex).length
      · obtain ⟨v, z, e, hv, hx⟩ := hex_prefix.1 h4
        refine key v z e hx (.inr ⟨hv, ?_⟩)
        rintro ⟨v', z', rfl, hv', hx'⟩
        refine h8 (hex_prefix.2 ⟨v ++ v', z', by rw [e, List.append_assoc], by simp [hv, hv'], ?_⟩)
        intro c hc
        rcases List.mem_append.1 hc with hc | hc
        · exact hx c hc
        · exact hx' c hc
      · exfalso
        have : firstRule [] s (rulesOf .unicode) = none := by
          have e : s = s.takeWhile isHex ++ s.dropWhile isHex := by simp
          have hd : ∀ c ∈ (s.dropWhile isHex).head?, isHex c = false := fun c hc => by
            have := List.head?_dropWhile_not isHex s
            rw [Option.mem_def.mp hc] at this
            simpa using this
          simp only [rulesOf, unicodeRules]
          rw [firstRule_miss, firstRule_miss]
          · rfl
          · simp only [rule]
            rw [Re.first_none, e]
            exact run_rep_short 4 _ _ none (by omega) hd
          · simp only [rule]
            rw [Re.first_none, e]
            exact run_rep_short 8 _ _ none (by omega) hd
        simp [lexStep, this] at h
  · rintro ⟨rfl, rfl, hw, hl⟩
    obtain ⟨r, -, h⟩ := lexStep_hex w y st' hw.isHex (hl.imp id fun h => ⟨h.1, by
      have := h.2; rw [← hex_prefix] at this; omega⟩)
    exact ⟨r, _, h, rfl, rfl⟩

/-- `ï!`: four digits. -/
example : ∃ r m, lexStep [(.unicode, []), (.string, c!"\"")] c!"00eF!" = some (r, m, [(.string, c!"\"")]) ∧ m.txt = c!"00eF" ∧ m.rest = c!"!" :=
  (C74_token _ _ _ _ _).2 ⟨rfl, rfl, by unfold HexText HexChar Digit; decide, .inr ⟨rfl, by
    rintro ⟨v, z, e, h, -⟩
    have := congrArg List.length e
    simp [h] at this
    omega⟩⟩

end Verif.Etx
