import Verif.Etx.Format
import Verif.Etx.CloneLemmas

/-!
# Formatting does not depend on addresses and parents
-/

namespace Verif.Etx

namespace Node

theorem isRef_map (f : Meta → Meta) (fa : Nat → Nat) {k : Kind} (x : Node k) : (x.map f fa).isRef = x.isRef := by
  cases x <;> simp only [Node.map, isRef]
theorem len_map (f : Meta → Meta) (fa : Nat → Nat) {k : Kind} (x : Node k) : (x.map f fa).len = x.len := by
  induction x <;> simp only [Node.map, len, *]
theorem isNilSlice_map (f : Meta → Meta) (fa : Nat → Nat) {k : Kind} (x : Node k) :
    (x.map f fa).isNilSlice = x.isNilSlice := by
  cases x <;> simp only [Node.map, isNilSlice]
theorem _root_.Verif.Etx.Strs.list_map (fa : Nat → Nat) (s : Strs) : (s.map fa).list = s.list := by cases s <;> rfl

variable [FloatText]

theorem fmtNumber_map (fa : Nat → Nat) (v : Option (Nat × BigFloat)) (s : Str) :
    fmtNumber (mapFloat fa v) s = fmtNumber v s := by
  unfold fmtNumber
  rcases v with _ | ⟨a, f⟩ <;> rfl

theorem fmt_map (f : Meta → Meta) (fa : Nat → Nat) {k : Kind} (x : Node k) :
    (x.map f fa).fmt = x.fmt ∧ (x.map f fa).texts = x.texts ∧ (x.map f fa).rows = x.rows := by
  induction x
  all_goals
    simp only [Node.map, fmt, texts, rows, isRef_map, len_map, isNilSlice_map, fmtLabels, fmtComment, Strs.list_map,
      fmtNumber_map, and_self, *]

end Node

end Verif.Etx
