import Verif.Etx.Json

/-!
# The text of a JSON value determines the value
-/

namespace Verif.Etx.Json

theorem hexDigit_inj {a b : Nat} (ha : a < 16) (hb : b < 16) (h : hexDigit a = hexDigit b) : a = b := by
  have : ∀ a b : Fin 16, hexDigit a = hexDigit b → a = b := by decide +kernel
  simpa using this ⟨a, ha⟩ ⟨b, hb⟩ h

/-- How a character is written. -/
theorem esc_cases (c : Char) :
    (esc c = ['\\', c] ∧ (c = '"' ∨ c = '\\')) ∨ (esc c = ['\\', 'n'] ∧ c = '\n') ∨ (esc c = ['\\', 'r'] ∧ c = '\r') ∨
      (esc c = ['\\', 't'] ∧ c = '\t') ∨
      (esc c = '\\' :: 'u' :: [hexDigit (c.toNat / 4096 % 16), hexDigit (c.toNat / 256 % 16), hexDigit (c.toNat / 16 % 16),
        hexDigit (c.toNat % 16)] ∧ c.toNat < 65536) ∨
      (esc c = [c] ∧ c ≠ '"' ∧ c ≠ '\\') := by
  unfold esc
  split
  · exact .inl ⟨rfl, ‹_›⟩
  · split
    · exact .inr (.inl ⟨rfl, ‹_›⟩)
    · split
      · exact .inr (.inr (.inl ⟨rfl, ‹_›⟩))
      · split
        · exact .inr (.inr (.inr (.inl ⟨rfl, ‹_›⟩)))
        · split
          · rename_i h
            refine .inr (.inr (.inr (.inr (.inl ⟨rfl, ?_⟩))))
            rcases h with h | rfl | rfl | rfl | h | h
            · omega
            · decide
            · decide
            · decide
            · omega
            · omega
          · rename_i h _ _ _ _
            simp only [not_or] at h
            exact .inr (.inr (.inr (.inr (.inr ⟨rfl, h⟩))))

theorem esc_inj {a b : Char} {r t : Str} (h : esc a ++ r = esc b ++ t) : a = b ∧ r = t := by
  rcases esc_cases a with ⟨ea, ha⟩ | ⟨ea, ha⟩ | ⟨ea, ha⟩ | ⟨ea, ha⟩ | ⟨ea, ha⟩ | ⟨ea, ha⟩ <;>
  rcases esc_cases b with ⟨eb, hb⟩ | ⟨eb, hb⟩ | ⟨eb, hb⟩ | ⟨eb, hb⟩ | ⟨eb, hb⟩ | ⟨eb, hb⟩ <;>
  rw [ea, eb] at h <;>
  simp only [List.cons_append, List.nil_append, List.cons.injEq, true_and, Char.reduceEq, false_and] at h
  case inr.inr.inr.inr.inl.inr.inr.inr.inr.inl =>
    obtain ⟨h1, h2, h3, h4, h5⟩ := h
    have h1 := hexDigit_inj (by omega) (by omega) h1
    have h2 := hexDigit_inj (by omega) (by omega) h2
    have h3 := hexDigit_inj (by omega) (by omega) h3
    have h4 := hexDigit_inj (by omega) (by omega) h4
    exact ⟨Char.toNat_inj.mp (by omega), h5⟩
  all_goals
    first
    | exact h
    | (refine ⟨?_, h⟩; rw [ha, hb])
    | (exfalso; obtain ⟨h, -⟩ := h; subst h; simp at ha)
    | (exfalso; obtain ⟨h, -⟩ := h; subst h; simp at hb)

theorem esc_head (a : Char) : ∃ c l, esc a = c :: l ∧ c ≠ '"' := by
  rcases esc_cases a with ⟨ea, ha⟩ | ⟨ea, ha⟩ | ⟨ea, ha⟩ | ⟨ea, ha⟩ | ⟨ea, ha⟩ | ⟨ea, ha⟩
  all_goals first | exact ⟨_, _, ea, by decide⟩ | exact ⟨_, _, ea, ha.1⟩

theorem quote_inj {a b r t : Str} (h : quote a ++ r = quote b ++ t) : a = b ∧ r = t := by
  simp only [quote, List.cons_append, List.cons.injEq, true_and, List.append_assoc, List.nil_append] at h
  induction a generalizing b with
  | nil =>
    cases b with
    | nil => exact ⟨rfl, by simpa using h⟩
    | cons c b =>
      obtain ⟨c', l, e, hc⟩ := esc_head c
      simp only [List.flatMap_nil, List.nil_append, List.flatMap_cons, e, List.cons_append, List.cons.injEq] at h
      exact absurd h.1.symm hc
  | cons c a ih =>
    cases b with
    | nil =>
      obtain ⟨c', l, e, hc⟩ := esc_head c
      simp only [List.flatMap_nil, List.nil_append, List.flatMap_cons, e, List.cons_append, List.cons.injEq] at h
      exact absurd h.1 hc
    | cons d b =>
      simp only [List.flatMap_cons, List.append_assoc] at h
      replace h := esc_inj h
      obtain ⟨e, h⟩ := h
      subst e
      replace h := ih h
      obtain ⟨e, h⟩ := h
      subst e
      exact ⟨rfl, h⟩

/-- What a text begins with tells values and closing brackets apart. -/
def tag : {k : JKind} → Json k → Bool → Char
  | _, .null, _ => 'n'
  | _, .bool true, _ => 't'
  | _, .bool false, _ => 'f'
  | _, .str _, _ => '"'
  | _, .arr _, _ => '['
  | _, .obj _, _ => '{'
  | _, .stop, _ => ']'
  | _, .elem x _, first => if first then x.tag true else ','
  | _, .done, _ => '}'
  | _, .field _ _ _, first => if first then '"' else ','

theorem text_head {k : JKind} (x : Json k) (first : Bool) : ∃ l, x.text first = x.tag first :: l := by
  induction x generalizing first with
  | null => exact ⟨_, rfl⟩
  | bool b => cases b <;> exact ⟨_, rfl⟩
  | str => exact ⟨_, rfl⟩
  | arr => exact ⟨_, rfl⟩
  | obj => exact ⟨_, rfl⟩
  | stop => exact ⟨_, rfl⟩
  | done => exact ⟨_, rfl⟩
  | field => cases first <;> exact ⟨_, rfl⟩
  | elem x l ihx ihl =>
    cases first
    · exact ⟨_, rfl⟩
    · obtain ⟨t, e⟩ := ihx true
      exact ⟨_, by simp only [text, tag, if_true, List.nil_append, e]; rfl⟩

theorem tag_val (x : Json .val) (first : Bool) : x.tag first ≠ ']' := by
  cases x with
  | bool b =>
    cases b
    · exact (by decide : 'f' ≠ ']')
    · exact (by decide : 't' ≠ ']')
  | null => exact (by decide : 'n' ≠ ']')
  | str => exact (by decide : '"' ≠ ']')
  | arr => exact (by decide : '[' ≠ ']')
  | obj => exact (by decide : '{' ≠ ']')

/-- The text of a value, followed by anything, determines the value and what follows. -/
theorem text_inj {k : JKind} (x : Json k) : ∀ (y : Json k) (first : Bool) (r t : Str), x.text first ++ r = y.text first ++ t →
    x = y ∧ r = t := by
  induction x with
  | null =>
    intro y first r t h
    cases y with
    | bool b => cases b <;> simp [text] at h
    | null => simpa [text] using h
    | _ => simp [text, quote] at h
  | bool b =>
    intro y first r t h
    cases y with
    | bool b' => cases b <;> cases b' <;> simp_all [text]
    | _ => cases b <;> simp [text, quote] at h
  | str s =>
    intro y first r t h
    cases y with
    | bool b => cases b <;> simp [text, quote] at h
    | str s' =>
      replace h := quote_inj h
      obtain ⟨e, h⟩ := h
      subst e
      exact ⟨rfl, h⟩
    | _ => simp [text, quote] at h
  | arr l ih =>
    intro y first r t h
    cases y with
    | bool b => cases b <;> simp [text] at h
    | arr l' =>
      simp only [text, List.cons_append, List.cons.injEq, true_and] at h
      replace h := ih _ _ _ _ h
      obtain ⟨e, h⟩ := h
      subst e
      exact ⟨rfl, h⟩
    | _ => simp [text, quote] at h
  | obj l ih =>
    intro y first r t h
    cases y with
    | bool b => cases b <;> simp [text] at h
    | obj l' =>
      simp only [text, List.cons_append, List.cons.injEq, true_and] at h
      replace h := ih _ _ _ _ h
      obtain ⟨e, h⟩ := h
      subst e
      exact ⟨rfl, h⟩
    | _ => simp [text, quote] at h
  | stop =>
    intro y first r t h
    cases y with
    | stop => simpa [text] using h
    | elem x l =>
      obtain ⟨u, e⟩ := text_head (elem x l) first
      rw [e] at h
      simp only [text, List.cons_append, List.nil_append, List.cons.injEq] at h
      exfalso
      cases first
      · cases h.1
      · exact tag_val x true h.1.symm
  | elem x l ihx ihl =>
    intro y first r t h
    cases y with
    | stop =>
      obtain ⟨u, e⟩ := text_head (elem x l) first
      rw [e] at h
      simp only [text, List.cons_append, List.nil_append, List.cons.injEq] at h
      exfalso
      cases first
      · cases h.1
      · exact tag_val x true h.1
    | elem x' l' =>
      simp only [text, List.append_assoc, List.append_cancel_left_eq] at h
      replace h := ihx _ _ _ _ h
      obtain ⟨e, h⟩ := h
      subst e
      replace h := ihl _ _ _ _ h
      obtain ⟨e, h⟩ := h
      subst e
      exact ⟨rfl, h⟩
  | done =>
    intro y first r t h
    cases y with
    | done => simpa [text] using h
    | field n x l => cases first <;> simp [text, quote] at h
  | field n x l ihx ihl =>
    intro y first r t h
    cases y with
    | done => cases first <;> simp [text, quote] at h
    | field n' x' l' =>
      simp only [text, List.append_assoc, List.append_cancel_left_eq, List.cons_append] at h
      replace h := quote_inj h
      obtain ⟨e, h⟩ := h
      subst e
      simp only [List.cons.injEq, true_and] at h
      replace h := ihx _ _ _ _ h
      obtain ⟨e, h⟩ := h
      subst e
      replace h := ihl _ _ _ _ h
      obtain ⟨e, h⟩ := h
      subst e
      exact ⟨rfl, h⟩

end Verif.Etx.Json
