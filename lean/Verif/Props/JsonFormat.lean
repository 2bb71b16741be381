import Verif.Props.Json
import Verif.Props.Format
import Verif.Props.AstClone
import Verif.Props.Refs

/-! # Property C90: formatting, cloning, JSON and parents do not disturb each other -/

namespace Verif.Etx
open Node

namespace Node

section
variable {G G' : Str → Option (Nat × BigFloat) → Option (Nat × BigFloat)}

theorem isRef_strip {k : Kind} (x : Node k) : (x.strip G).isRef = x.isRef := by cases x <;> simp only [Node.strip, isRef]
theorem len_strip {k : Kind} (x : Node k) : (x.strip G).len = x.len := by induction x <;> simp only [Node.strip, len, *]
theorem isNilSlice_strip {k : Kind} (x : Node k) : (x.strip G).isNilSlice = x.isNilSlice := by cases x <;> simp only [Node.strip, isNilSlice]

/-- Numbers may change if they have a source. -/
theorem fmt_strip [FloatText] (hG : ∀ v s, fmtNumber (G s v) s = fmtNumber v s) {k : Kind} (x : Node k) :
    (x.strip G).fmt = x.fmt ∧ (x.strip G).texts = x.texts ∧ (x.strip G).rows = x.rows := by
  induction x
  all_goals
    simp only [Node.strip, fmt, texts, rows, isRef_strip, len_strip, isNilSlice_strip, fmtLabels, fmtComment, Strs.list_map, hG, and_self, *]

theorem strip_congr (P : Str → Option (Nat × BigFloat) → Bool) (h : ∀ s v, P s v = true → G s v = G' s v) {k : Kind} (x : Node k)
    (hx : x.everywhere (fun x => match x with | .valueNumber _ v s => P s v | _ => true) = true) : x.strip G = x.strip G' := by
  induction x <;> simp only [Node.everywhere, Bool.and_eq_true, true_and] at hx <;> simp_all only [Node.strip]

end

end Node

theorem capture_nothing : @captureNumber goFloat [] = none := by decide +kernel

/-- **C90** for JSON and formatting: a document that is written as JSON and read back (`C66_read_back_partial`) is formatted as before, even where
the numbers have become other numbers. -/
theorem C90_format [FloatText] (s : Str) (t : AST) (h : @parseString goFloat s = .ok t) (hd : t.json.depth ≤ 10000)
    (hn : t.items.everywhere Node.moderate = true) (a : Nat) :
    ∃ x, AST.unmarshal t.json = some x ∧ AST.fmt ⟨a, x⟩ = t.fmt := by
  refine ⟨_, C66_read_back_partial s t h hd hn, ?_⟩
  have e : t.items.strip viaText = t.items.strip fun s v => if s = [] then v else viaText s v := by
    refine strip_congr (fun s v => !decide (s = []) || v.isNone) (fun s v hv => ?_) _ ?_
    · by_cases hs : s = []
      · rw [if_pos hs]
        rcases v with _ | v
        · rfl
        · simp [hs] at hv
      · rw [if_neg hs]
    · refine everywhere_mono (fun k y hy => ?_) _ (@parseString_fits goFloat _ _ h)
      cases y with
      | valueNumber m v s =>
        simp only [fits, sourced, Bool.and_eq_true, decide_eq_true_eq] at hy
        by_cases hs : s = []
        · have h1 := hy.2
          rw [hs, capture_nothing] at h1
          rcases v with _ | v
          · simp
          · cases h1
        · simp [hs]
      | _ => rfl
  have key := fmt_strip (G := fun s v => if s = [] then v else viaText s v) (fun v s => by
    unfold fmtNumber
    by_cases hs : s = [] <;> simp [hs]) t.items
  unfold AST.fmt
  simp only [e, len_strip, key.2.1]

/-- **C90** for clones: a clone has the JSON text of the original. -/
theorem C90_clone (t : AST) (n : Nat) : (AST.clone (some t) n).1.map AST.marshal = some t.marshal := by
  have h := C23_clone_ast (some t) n
  cases hc : (AST.clone (some t) n).1 with
  | none => rw [hc] at h; cases h
  | some t' =>
    rw [hc] at h
    have h := Option.some.inj h
    refine congrArg some ?_
    have h1 : t'.items.json = t.items.json := by
      have := congrArg Node.json h
      unfold Node.erase at this
      rwa [json_map, json_map] at this
    have h2 : t'.items.omitted = t.items.omitted := by
      have := congrArg Node.omitted h
      unfold Node.erase at this
      rwa [omitted_map, omitted_map] at this
    unfold AST.marshal AST.json
    rw [h1, h2]

/-- **C90** for parents: `UpdateParentRefs` changes neither the JSON text nor the formatted text. -/
theorem C90_update [FloatText] (t t' : AST) (h : t.updateParentRefs = some t') : t'.marshal = t.marshal ∧ t'.fmt = t.fmt := by
  rw [AST.update_eq] at h
  obtain ⟨ws, -, rfl⟩ := Option.map_eq_some_iff.1 h
  unfold AST.after Node.reparent AST.marshal AST.json AST.fmt
  simp only [json_map, omitted_map, len_map, (fmt_map _ _ _).2.1, and_self]

/-- The hypotheses of `C90_format` hold for a document whose number becomes another one (`C66_read_back_full_false`). -/
example : (match @parseString goFloat c!"x = 0.1\nb \"l\" {\nc = a + 017\n}\n" with
    | .ok t => decide (t.json.depth ≤ 10000) && t.items.everywhere Node.moderate
    | _ => false) = true := by kernel_rfl

/-- Its clone and its parents exist. -/
example : (match @parseString goFloat c!"x = 0.1\nb \"l\" {\nc = a + 017\n}\n" with
    | .ok t => t.updateParentRefs.isSome && (AST.clone (some t) 100).1.isSome
    | _ => false) = true := by kernel_rfl

end Verif.Etx
