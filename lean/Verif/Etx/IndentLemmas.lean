import Verif.Etx.Str

/-!
# `indent`
-/

namespace Verif.Etx

variable {α : Type} [DecidableEq α]

/-- One line with the prefix, if it is not empty. -/
def indentLine (pre l : List α) : List α := if l = [] then [] else pre ++ l

theorem indentFrom_line (nl : α) (pre l rest : List α) (hl : nl ∉ l) :
    indentFrom nl pre false (l ++ nl :: rest) = l ++ nl :: indentFrom nl pre true rest := by
  induction l with
  | nil => simp [indentFrom]
  | cons c l ih =>
    simp only [List.mem_cons, not_or] at hl
    have : ¬ c = nl := fun h => hl.1 h.symm
    simp [indentFrom, this, ih hl.2]

theorem indentFrom_last (nl : α) (pre l : List α) (hl : nl ∉ l) : indentFrom nl pre false l = l := by
  induction l with
  | nil => simp [indentFrom]
  | cons c l ih =>
    simp only [List.mem_cons, not_or] at hl
    have : ¬ c = nl := fun h => hl.1 h.symm
    simp [indentFrom, this, ih hl.2]

theorem indentFrom_append (nl : α) (pre : List α) (b : Bool) (s rest : List α) :
    indentFrom nl pre b (s ++ nl :: rest) = indentFrom nl pre b s ++ nl :: indentFrom nl pre true rest := by
  induction s generalizing b with
  | nil => simp [indentFrom]
  | cons c s ih => simp [indentFrom, ih]

theorem indentFrom_one (nl : α) (pre l : List α) (hl : nl ∉ l) : indentFrom nl pre true l = indentLine pre l := by
  cases l with
  | nil => simp [indentFrom, indentLine]
  | cons c l =>
    simp only [List.mem_cons, not_or] at hl
    have : ¬ c = nl := fun h => hl.1 h.symm
    simp [indentFrom, this, indentFrom_last nl pre l hl.2, indentLine]

theorem indentFrom_intercalate (nl : α) (pre : List α) (ls : List (List α)) (h : ∀ l ∈ ls, nl ∉ l) :
    indentFrom nl pre true ([nl].intercalate ls) = [nl].intercalate (ls.map (indentLine pre)) := by
  induction ls with
  | nil => simp [indentFrom]
  | cons l ls ih =>
    have hl := indentFrom_one nl pre l (h l List.mem_cons_self)
    cases ls with
    | nil => simpa using hl
    | cons l' ls =>
      have ih := ih (fun x hx => h x (List.mem_cons_of_mem _ hx))
      simp only [List.map_cons, List.intercalate_cons_cons, List.singleton_append, List.append_assoc] at ih ⊢
      rw [indentFrom_append, hl, ih]

theorem splitOn_notMem (nl : α) (s : List α) : ∀ l ∈ s.splitOn nl, nl ∉ l := by
  induction s with
  | nil => simp
  | cons c s ih =>
    rw [List.splitOn_cons_eq_if_modifyHead]
    split
    · simpa using ih
    · rename_i hc
      have hc : ¬ nl = c := fun h => hc (by simp [h])
      cases hs : s.splitOn nl with
      | nil => exact absurd hs (List.splitOn_ne_nil _ _)
      | cons l ls =>
        rw [hs] at ih
        rw [List.modifyHead_cons, List.forall_mem_cons]
        rw [List.forall_mem_cons] at ih
        exact ⟨by simp [hc, ih.1], ih.2⟩

/-- The exact effect on the lines of the text. -/
theorem indentFrom_lines (nl : α) (pre s : List α) :
    indentFrom nl pre true s = [nl].intercalate ((s.splitOn nl).map (indentLine pre)) := by
  rw [← indentFrom_intercalate nl pre _ (splitOn_notMem nl s), List.intercalate_splitOn]

theorem indentFrom_splitOn (nl : α) (pre s : List α) (hp : nl ∉ pre) :
    (indentFrom nl pre true s).splitOn nl = (s.splitOn nl).map (indentLine pre) := by
  rw [indentFrom_lines, List.splitOn_intercalate]
  · intro l hl
    obtain ⟨l', hl', rfl⟩ := List.mem_map.mp hl
    have := splitOn_notMem nl s l' hl'
    unfold indentLine
    split <;> simp_all
  · simp

/-! ## Bytes and characters -/

/-- The UTF-8 encoding. -/
def utf8 (s : Str) : List UInt8 := s.flatMap String.utf8EncodeChar

theorem utf8_char_ne (c : Char) (h : c ≠ '\n') : (10 : UInt8) ∉ String.utf8EncodeChar c := by
  have hv : c.val.toNat ≠ 10 := by
    intro hv
    apply h
    apply Char.ext
    apply UInt32.toNat_inj.mp
    simpa using hv
  have key : ∀ n : Nat, n < 256 → n ≠ 10 → (10 : UInt8) ≠ UInt8.ofNat n := by
    intro n hn hne he
    have := congrArg UInt8.toNat he
    simp only [UInt8.toNat_ofNat'] at this
    rw [Nat.mod_eq_of_lt hn] at this
    exact hne this.symm
  unfold String.utf8EncodeChar
  simp only
  split
  · simp only [List.mem_singleton]
    exact key _ (by omega) hv
  · split
    · simp only [List.mem_cons, List.not_mem_nil, or_false, not_or]
      exact ⟨key _ (by omega) (by omega), key _ (by omega) (by omega)⟩
    · split
      · simp only [List.mem_cons, List.not_mem_nil, or_false, not_or]
        exact ⟨key _ (by omega) (by omega), key _ (by omega) (by omega), key _ (by omega) (by omega)⟩
      · simp only [List.mem_cons, List.not_mem_nil, or_false, not_or]
        exact ⟨key _ (by omega) (by omega), key _ (by omega) (by omega), key _ (by omega) (by omega),
          key _ (by omega) (by omega)⟩

theorem indentFrom_bytes (pre : Str) (b : Bool) (s : Str) :
    utf8 (indentFrom '\n' pre b s) = indentFrom 10 (utf8 pre) b (utf8 s) := by
  have hskip : ∀ (l : List UInt8) (rest : List UInt8), 10 ∉ l →
      indentFrom 10 (utf8 pre) false (l ++ rest) = l ++ indentFrom 10 (utf8 pre) false rest := by
    intro l rest hl
    induction l with
    | nil => rfl
    | cons c l ih =>
      simp only [List.mem_cons, not_or] at hl
      have : ¬ c = 10 := fun h => hl.1 h.symm
      simp [indentFrom, this, ih hl.2]
  induction s generalizing b with
  | nil => simp [indentFrom, utf8]
  | cons c s ih =>
    have hcons : utf8 (c :: s) = String.utf8EncodeChar c ++ utf8 s := by simp [utf8]
    by_cases hc : c = '\n'
    · subst hc
      have hb : String.utf8EncodeChar '\n' = [10] := by decide +kernel
      rw [hcons, hb]
      simp only [indentFrom, decide_true]
      simp only [ne_eq, not_true_eq_false, and_false, if_false, List.nil_append, List.singleton_append, indentFrom,
        decide_true]
      rw [← ih]
      simp [utf8, hb]
    · have h10 := utf8_char_ne c hc
      have hne : String.utf8EncodeChar c ≠ [] := String.utf8EncodeChar_ne_nil
      rw [hcons]
      obtain ⟨d, ds, hd⟩ := List.exists_cons_of_ne_nil hne
      rw [hd] at h10 ⊢
      simp only [List.mem_cons, not_or] at h10
      have hd10 : ¬ d = 10 := fun h => h10.1 h.symm
      simp only [List.cons_append, indentFrom, hc, hd10, decide_false, ne_eq, not_false_eq_true, and_true]
      rw [hskip ds _ h10.2, ← ih]
      cases b <;> simp [utf8, hd]

/-- The Go function works on bytes; on UTF-8 text it does what the model does on characters. -/
theorem indent_bytes (s pre : Str) : utf8 (indent s pre) = indentBytes (utf8 s) (utf8 pre) :=
  indentFrom_bytes pre true s

end Verif.Etx
