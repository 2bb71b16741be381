import Verif.Etx.FormatExact
import Verif.Props.ParseDoc

/-! # Property C28: exactly which parsed documents cannot be formatted -/

namespace Verif.Etx
open Node

variable [FloatValue] [FloatText]

/-- **C28**, exactly: `FormattedString` panics on a parsed document iff a comment or an empty line is an item of an enum, an object
or a map anywhere in it, except in the else branch of an if without then branch. -/
theorem C28_exact (s : Str) (t : AST) (h : parseString s = .ok t) : t.fmt = none ↔ t.items.shows tight = false := by
  rcases parseString_eq s with ⟨-, h'⟩ | ⟨x, t', f, -, h', -, -, -, h4, -⟩
  · rw [h] at h'; cases h'
  · rw [h] at h'
    cases h'
    have h1 := (fmt_exact t.items h4).2.1 rfl (slice_listy _)
    unfold AST.fmt
    split
    · rename_i h0
      rw [shows_len t.items h4 h0]
      simp
    · rw [← h1]
      simp

/-- Whether the parsed text has a comment or an empty line at such a place. -/
def stuck (s : Str) : Option Bool :=
  match parseString s with
  | .ok t => some (!t.items.shows tight)
  | _ => none

/-- A comment in a map in a list in a call … -/
example : stuck c!"x = f([{\n# c\n}])\n" = some true ∧ formatText c!"x = f([{\n# c\n}])\n" = some none := by
  constructor <;> kernel_rfl

/-- … after a `.` behind an index … -/
example : stuck c!"x = a[b].f({\nc = d\n\n\n})\n" = some true ∧ formatText c!"x = a[b].f({\nc = d\n\n\n})\n" = some none := by
  constructor <;> kernel_rfl

/-- … and at the one place where it does not matter. -/
example : stuck c!"x = if a {} else {{\n# c\n}}\n" = some false ∧
    formatText c!"x = if a {} else {{\n# c\n}}\n" = some (some c!"x: if a { }\n") := by
  constructor <;> kernel_rfl

end Verif.Etx
