import Verif.Etx.IndentLemmas

/-! # Property C32: `indent` -/

namespace Verif.Etx

/-- **C32**, exactness, for byte strings: the lines of the result are the lines of `s` in order, the non-empty ones
with the prefix in front; nothing else changes.  Any prefix. -/
theorem C32_exact (s pre : List UInt8) :
    indentBytes s pre = [10].intercalate ((s.splitOn 10).map fun l => if l = [] then [] else pre ++ l) :=
  indentFrom_lines 10 pre s

/-- **C32**, line by line, for a prefix without a newline: line count and order are preserved, empty lines stay empty, each
other line gets the prefix. -/
theorem C32_lines (s pre : List UInt8) (hp : 10 ∉ pre) :
    (indentBytes s pre).splitOn 10 = (s.splitOn 10).map fun l => if l = [] then [] else pre ++ l :=
  indentFrom_splitOn 10 pre s hp

/-- **C32**, line count. -/
theorem C32_count (s pre : List UInt8) (hp : 10 ∉ pre) :
    ((indentBytes s pre).splitOn 10).length = (s.splitOn 10).length := by
  rw [C32_lines s pre hp, List.length_map]

/-- **C32**, reversibility: removing the prefix from the non-empty lines of the result gives back `s`. -/
theorem C32_reversible (s pre : List UInt8) (hp : 10 ∉ pre) :
    [10].intercalate (((indentBytes s pre).splitOn 10).map fun l => if l = [] then [] else l.drop pre.length) = s := by
  rw [C32_lines s pre hp, List.map_map]
  have : ∀ l : List UInt8, ((fun l => if l = [] then [] else l.drop pre.length) ∘
      (fun l => if l = [] then [] else pre ++ l)) l = l := by
    intro l
    simp only [Function.comp]
    by_cases hl : l = []
    · simp [hl]
    · simp [hl]
  rw [List.map_congr_left (fun l _ => this l), List.map_id'']
  · exact List.intercalate_splitOn 10
  · intro; rfl

/-- **C32**: two texts with the same indentation are equal. -/
theorem C32_injective (s s' pre : List UInt8) (hp : 10 ∉ pre) (h : indentBytes s pre = indentBytes s' pre) : s = s' := by
  rw [← C32_reversible s pre hp, h, C32_reversible s' pre hp]

/-- **C32**, concatenation at a line break. -/
theorem C32_append (s t pre : List UInt8) :
    indentBytes (s ++ 10 :: t) pre = indentBytes s pre ++ 10 :: indentBytes t pre :=
  indentFrom_append 10 pre true s t

/-- **C32** for the strings of the model: `indent` is `indentBytes` on the UTF-8 encoding. -/
theorem C32_text (s pre : Str) : utf8 (indent s pre) = indentBytes (utf8 s) (utf8 pre) := indent_bytes s pre

/-- A prefix with a newline does not preserve the number of lines; the formatter only uses a tab. -/
theorem C32_newline_prefix : ∃ s pre : List UInt8,
    ((indentBytes s pre).splitOn 10).length ≠ (s.splitOn 10).length := ⟨[97], [10], by decide +kernel⟩

example : (10 : UInt8) ∉ utf8 tab ∧ indentBytes (utf8 c!"a\n\nb\n") (utf8 tab) = utf8 c!"\ta\n\n\tb\n" := by decide +kernel

end Verif.Etx
