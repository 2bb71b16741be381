import Verif.Etx.JsonParsed
import Verif.Etx.JsonText
import Verif.Props.ParseBack
import Verif.Etx.Respaced
import Verif.Etx.FloatJsonLemmas
import Verif.KernelRfl

/-! # Property C66: documents as JSON -/

namespace Verif.Etx
open Node

section

variable [FloatValue]

omit [FloatValue] in
theorem Strs.json_map (f : Nat → Nat) (s : Strs) : (s.map f).json = s.json := by cases s <;> rfl

omit [FloatValue] in
theorem numJson_map (f : Nat → Nat) (v : Option (Nat × BigFloat)) : numJson (mapFloat f v) = numJson v := by
  rcases v with _ | ⟨a, v⟩ <;> rfl

omit [FloatValue] in
theorem Node.noElems_map (f : Meta → Meta) (fa : Nat → Nat) {k : Kind} (x : Node k) : (x.map f fa).noElems = x.noElems := by
  cases x <;> rfl

omit [FloatValue] in
theorem Node.omitted_map (f : Meta → Meta) (fa : Nat → Nat) {k : Kind} (x : Node k) : (x.map f fa).omitted = x.omitted := by
  cases x with
  | mkSlice a xs => simp only [Node.map, omitted, noElems_map]
  | _ => rfl

omit [FloatValue] in
/-- Positions, parents and addresses do not occur in JSON. -/
theorem Node.json_map (f : Meta → Meta) (fa : Nat → Nat) {k : Kind} (x : Node k) : (x.map f fa).json = x.json := by
  induction x <;> simp only [Node.map, Node.json, omitted_map, Strs.json_map, Strs.list_map', numJson_map, *]

omit [FloatValue] in
theorem AST.json_bare {t t' : AST} (h : t.items.bare = t'.items.bare) : t.json = t'.json := by
  have h1 : t.items.json = t'.items.json := by
    rw [← json_map (fun _ => noPos) (fun _ => 0) t.items, ← json_map (fun _ => noPos) (fun _ => 0) t'.items]
    exact congrArg Node.json h
  have h2 : t.items.omitted = t'.items.omitted := by
    rw [← omitted_map (fun _ => noPos) (fun _ => 0) t.items, ← omitted_map (fun _ => noPos) (fun _ => 0) t'.items]
    exact congrArg Node.omitted h
  unfold AST.json
  rw [h1, h2]

omit [FloatValue] in
theorem Node.strip_bare {k : Kind} (x : Node k) : x.strip (fun _ v => mapFloat (fun _ => 0) v) = x.bare := by
  unfold bare
  induction x <;> simp only [Node.map, Node.strip, *]

omit [FloatValue] in
theorem Node.filled_map (f : Meta → Meta) (fa : Nat → Nat) {k : Kind} (x : Node k) : (x.map f fa).filled = x.filled := by
  cases x with
  | mkSlice a xs => simp only [Node.map, filled, noElems_map]
  | comment m s t => cases s <;> rfl
  | block m n s b => cases s <;> rfl
  | ref x => cases x <;> rfl
  | _ => rfl

theorem Node.sourced_map (f : Meta → Meta) (fa : Nat → Nat) {k : Kind} (x : Node k) : (x.map f fa).sourced = x.sourced := by
  cases x with
  | valueNumber m v s => rcases v with _ | ⟨a, v⟩ <;> rfl
  | _ => rfl

theorem Node.fits_map (f : Meta → Meta) (fa : Nat → Nat) {k : Kind} (x : Node k) : (x.map f fa).fits = x.fits := by
  unfold fits
  rw [filled_map, sourced_map]

/-- A parsed document fits. -/
theorem parseString_fits {s : Str} {t : AST} (h : parseString s = .ok t) : t.items.everywhere Node.fits = true := by
  rcases parseString_eq s with ⟨h', h''⟩ | ⟨x, t', f, h1, h2, -, -, h3, -⟩
  · rw [h''] at h; cases h
  · rw [h] at h2
    cases h2
    have hx : x.everywhere Node.fits = true := by
      unfold parseTree at h1
      simp only [Option.bind_eq_bind, Option.bind_eq_some_iff] at h1
      obtain ⟨ts, -, h1⟩ := h1
      exact parseTokens_fits h1
    have e : ∀ {k : Kind} (y : Node k), y.erase.everywhere Node.fits = y.everywhere Node.fits := fun y =>
      everywhere_map _ _ (fun _ y => fits_map _ _ y) y
    rw [← e, h3, e]
    exact hx

/-- How the value of a number is determined by its source. -/
def bySource (s : Str) (_ : Json .val) : Option (Option (Nat × BigFloat)) := some ((captureNumber s).map fun v => (0, v.1))

theorem numbers_bySource {k : Kind} (x : Node k) (h : x.fits = true) :
    x.numbers bySource (fun _ v => mapFloat (fun _ => 0) v) = true := by
  cases x with
  | valueNumber m v s =>
    simp only [fits, filled, sourced, Bool.true_and, decide_eq_true_eq] at h
    simp only [numbers, bySource, h, decide_eq_true_eq]
    rcases v with _ | ⟨a, v⟩ <;> rfl
  | _ => rfl

theorem json_inj {x y : Node (.slice .rootItem)} (hx : x.everywhere Node.fits = true) (hy : y.everywhere Node.fits = true)
    (h : x.json = y.json) : x.bare = y.bare := by
  have hf : ∀ {x : Node (.slice .rootItem)}, x.everywhere Node.fits = true → x.everywhere Node.filled = true := fun h =>
    everywhere_mono (fun _ y h => by simp only [fits, Bool.and_eq_true] at h; exact h.1) _ h
  have h1 := back x (hf hx) (everywhere_mono (fun _ y h => numbers_bySource y h) _ hx) x.json.depth (Nat.le_refl _)
  have h2 := back y (hf hy) (everywhere_mono (fun _ y h => numbers_bySource y h) _ hy) y.json.depth (Nat.le_refl _)
  rw [h, h2] at h1
  rw [← strip_bare, ← strip_bare]
  exact (Option.some.inj h1).symm

omit [FloatValue] in
theorem omitted_filled {x : Node (.slice .rootItem)} (hx : x.everywhere Node.filled = true) (h : x.omitted = true) : x = .nilSlice := by
  cases x with
  | nilSlice => rfl
  | mkSlice a xs =>
    simp only [omitted] at h
    simp [everywhere, filled, h] at hx

/-- **C66.** The JSON text of a document says what is in it, and nothing else: two texts are parsed to documents with the same
JSON text if and only if these have the same nodes and texts in the same places, with equal numbers. -/
theorem C66_text (s s' : Str) (t t' : AST) (h : parseString s = .ok t) (h' : parseString s' = .ok t') :
    t.marshal = t'.marshal ↔ t.items.bare = t'.items.bare := by
  have ht := parseString_fits h
  have ht' := parseString_fits h'
  have hf : ∀ {x : Node (.slice .rootItem)}, x.everywhere Node.fits = true → x.everywhere Node.filled = true := fun h =>
    everywhere_mono (fun _ y h => by simp only [fits, Bool.and_eq_true] at h; exact h.1) _ h
  constructor
  · intro e
    have e := (Json.text_inj t.json t'.json true [] [] (by simpa [AST.marshal] using e)).1
    unfold AST.json at e
    cases o : t.items.omitted <;> cases o' : t'.items.omitted <;> simp only [o, o', Json.fldOpt] at e
    · simp only [Bool.false_eq_true, if_false, Json.obj.injEq, Json.field.injEq, true_and, and_true] at e
      exact json_inj ht ht' e
    · cases e
    · cases e
    · rw [omitted_filled (hf ht) o, omitted_filled (hf ht') o']
  · intro e
    unfold AST.marshal
    rw [AST.json_bare e]

/-- The JSON text of a document. -/
example : (match @parseString goFloat c!"a\nb \"<\" {}\n" with
    | .ok t => decide (t.marshal = c!"{\"items\":[{\"attribute\":{\"key\":\"a\"}},{\"block\":{\"name\":\"b\",\"labels\":[\"\\u003c\"],\"body\":null}}]}")
    | _ => false) = true := by kernel_rfl

/-! ## Reading it back -/

/-- What becomes of a number: its shortest decimal text, read with 64 bits of precision. -/
def viaText (_ : Str) (v : Option (Nat × BigFloat)) : Option (Nat × BigFloat) :=
  v.bind fun v => (BigFloat.unmarshal v.2.marshal).map (0, ·)

/-- The text of every number can be read. -/
def Node.readable {k : Kind} (x : Node k) : Bool := x.everywhere fun x => x.numbers Json.readNum viaText

/-- **C66** in full: reading the JSON text of a document returns it. -/
def C66_read_back_full : Prop := ∀ s t, parseString s = .ok t → AST.unmarshal t.json = some t.items.bare

/-- If the texts of the numbers can be read, the document is read back, with other numbers. -/
theorem read_back (s : Str) (t : AST) (h : parseString s = .ok t) (hd : t.json.depth ≤ 10000)
    (hn : t.items.readable = true) : AST.unmarshal t.json = some (t.items.strip viaText) := by
  have hf : t.items.everywhere Node.filled = true :=
    everywhere_mono (fun _ y h => by simp only [fits, Bool.and_eq_true] at h; exact h.1) _ (parseString_fits h)
  unfold AST.unmarshal
  rw [if_pos (show t.json.depth ≤ Json.maxDepth from hd)]
  show (Json.fldOpt c!"items" t.items.omitted t.items.json Json.done).node _ _ = _
  have hd' : t.json.depth = (Json.fldOpt c!"items" t.items.omitted t.items.json Json.done).depth + 1 := rfl
  exact node_opt (back _ hf hn) (fun o => by
    have := (Json.depth_fldOpt (n := (Json.fldOpt c!"items" t.items.omitted t.items.json Json.done).depth) (Nat.le_refl _)).1 o
    omega) hf (by simp [Json.get_fldOpt, Json.get_done])

/-- No numbers. -/
def Node.noNumber : {k : Kind} → Node k → Bool
  | _, .valueNumber _ _ _ => false
  | _, _ => true

omit [FloatValue] in
theorem Node.strip_noNumber (G G' : Str → Option (Nat × BigFloat) → Option (Nat × BigFloat)) {k : Kind} (x : Node k)
    (h : x.everywhere noNumber = true) : x.strip G = x.strip G' := by
  induction x <;>
    simp only [Node.everywhere, noNumber, Bool.and_eq_true, Bool.false_eq_true, true_and] at h <;>
    simp only [Node.strip, *]

/-- Without numbers, the document itself is read back. -/
theorem C66_read_back_exact (s : Str) (t : AST) (h : parseString s = .ok t) (hd : t.json.depth ≤ 10000)
    (hn : t.items.everywhere noNumber = true) : AST.unmarshal t.json = some t.items.bare := by
  rw [read_back s t h hd, strip_noNumber viaText _ _ hn, strip_bare]
  refine everywhere_mono (fun _ y h => ?_) _ hn
  cases y with
  | valueNumber => cases h
  | _ => rfl

/-- The hypotheses of `C66_read_back_exact` hold. -/
example : (match parseString c!"x = a.b + -c(e, f)[d].g * h\nb \"l\" {\nc = null\n}\n" with
    | .ok t => decide (t.json.depth ≤ 10000) && t.items.everywhere noNumber
    | _ => false) = true := by kernel_rfl

end

/-! ## Numbers -/

section

/-- Infinite, or an exponent (of 2) of at most 2^23. -/
def Node.moderate : {k : Kind} → Node k → Bool
  | _, .valueNumber _ (some v) _ => v.2.inf || decide (v.2.exp.natAbs ≤ 2 ^ 23)
  | _, _ => true

theorem Node.everywhere_and {P Q : {k : Kind} → Node k → Bool} {k : Kind} {x : Node k} (h : x.everywhere P = true)
    (h' : x.everywhere Q = true) : x.everywhere (fun x => P x && Q x) = true := by
  induction x <;> simp only [Node.everywhere, Bool.and_eq_true] at h h' ⊢ <;> simp_all

/-- **C66** as far as it is true: a document whose JSON is not nested more than 10000 deep, and whose numbers are not extremely
large or small, is read back, with all nodes and texts in place; the numbers are replaced by what their texts are read as.
Missing: these need not be the same (`C66_read_back_full_false`), and deeper documents cannot be read (`C66_too_deep`). -/
theorem C66_read_back_partial (s : Str) (t : AST) (h : @parseString goFloat s = .ok t) (hd : t.json.depth ≤ 10000)
    (hn : t.items.everywhere Node.moderate = true) : AST.unmarshal t.json = some (t.items.strip viaText) := by
  refine @read_back goFloat s t h hd ?_
  have hf : t.items.everywhere (fun x => @Node.sourced goFloat _ x && x.moderate) = true := by
    refine everywhere_and ?_ hn
    exact everywhere_mono (fun _ y h => by simp only [fits, Bool.and_eq_true] at h; exact h.2) _ (@parseString_fits goFloat _ _ h)
  refine everywhere_mono (fun k y h => ?_) _ hf
  cases y with
  | valueNumber m v s =>
    rcases v with _ | ⟨a, v⟩
    · rfl
    · simp only [sourced, moderate, Bool.and_eq_true, decide_eq_true_eq, Bool.or_eq_true, captureNumber, Option.map_some, Option.map_eq_some_iff,
        Prod.mk.injEq] at h
      obtain ⟨⟨v', h1, rfl, -⟩, h2⟩ := h
      have h3 := unmarshal_marshal v' (by
        rcases parseFloat_small h1 with h | h
        · exact .inl h
        · rcases h2 with h2 | h2
          · exact .inl h2
          · exact .inr ⟨h, h2⟩)
      obtain ⟨w, hw⟩ := Option.isSome_iff_exists.1 h3
      simp [numbers, numJson, Json.readNum, viaText, hw]
  | _ => rfl

/-- `C66_read_back_partial` applies, with numbers. -/
example : (match @parseString goFloat c!"x = 0.1\n" with
    | .ok t => t.items.everywhere Node.moderate && decide (t.json.depth ≤ 10000)
    | _ => false) = true := by kernel_rfl

/-- The value of a number is 0.1 rounded to 53 bits. -/
def tenth53 : {k : Kind} → Node k → Bool
  | _, .valueNumber _ v _ => match v with
    | some v => v.2.mant == 7205759403792794 && v.2.exp == -56
    | none => false
  | _, _ => true

/-- The full claim is false: `x = 0.1` comes back with another number. -/
theorem C66_read_back_full_false : ¬ @C66_read_back_full goFloat := by
  intro h
  have h1 : (match @parseString goFloat c!"x = 0.1\n" with
    | .ok t => t.items.bare.everywhere tenth53 && match AST.unmarshal t.json with
      | some x => !x.everywhere tenth53
      | none => false
    | _ => false) = true := by kernel_rfl
  cases e : @parseString goFloat c!"x = 0.1\n" with
  | ok t =>
    rw [e] at h1
    simp only [h _ _ e, Bool.and_eq_true, Bool.not_eq_true'] at h1
    rw [h1.1] at h1
    cases h1.2
  | _ => rw [e] at h1; cases h1

end

/-! ## Deep documents -/

section

variable [FloatValue]

/-- `n + 1` blocks, one in the other. -/
def deepText : Nat → Str
  | 0 => c!"b {}"
  | n + 1 => c!"b {\n" ++ deepText n ++ c!"\n}"

/-- The same as a tree. -/
def deepBlock : Nat → Node .block
  | 0 => .block noPos c!"b" .nil .nilSlice
  | n + 1 => .block noPos c!"b" .nil (.mkSlice 0 (.cons (.ref (.blockItem noPos [] (.ref (deepBlock n)) .nil .nil)) .empty))

def deepDoc (n : Nat) : Node (.slice .rootItem) :=
  .mkSlice 0 (.cons (.ref (.rootItem noPos [] .nil .nil .nil (.ref (deepBlock n)) .nil .nil)) .empty)

omit [FloatValue] in
theorem deepBlock_depth (n : Nat) : n ≤ (deepBlock n).json.depth := by
  induction n with
  | zero => exact Nat.zero_le _
  | succ n ih =>
    have h : (deepBlock (n + 1)).json.depth = max 0 (max (max (max (deepBlock n).json.depth 0 + 1) 0 + 1) 0) + 1 := rfl
    omega

theorem deepText_reads (n : Nat) : ∃ t, parseString (deepText n ++ c!"\n") = .ok t ∧ t.items.bare = (deepDoc n).bare := by
  have hcanon : ∀ n, (deepBlock n).canon = true := by
    intro n
    induction n with
    | zero => kernel_rfl
    | succ n ih =>
      unfold canon at ih ⊢
      simp only [deepBlock, Node.everywhere, ih, Bool.and_true]
      generalize deepBlock n = b
      cases b
      rfl
  have hW : ∀ n, W isAlpha anyC (deepText n) (deepBlock n).toks := by
    have one : W isAlpha anyC c!"b {" [tk .ident c!"b", tk .blockStart c!"{"] :=
      (W.ident (by kernel_rfl)).append W.lbrace.gap (is_le (by decide))
    intro n
    induction n with
    | zero => exact one.append W.close any_le
    | succ n ih =>
      exact ((one.append W.newline any_le).append (ih.append (W.newline.append W.close any_le) any_le) any_le).cast (by simp [deepText]) (by
        simp [deepBlock, Node.toks, braces, Node.isNilSlice, Node.tokss, Node.isRef, Strs.list])
  obtain ⟨us, hus, hsig⟩ := ((hW n).append W.newline any_le).lex
  refine C53_read_back (deepDoc n) ?_ (by rfl) _ us hus (hsig.trans ?_)
  · have := hcanon n
    unfold canon at this ⊢
    simp only [deepDoc, Node.everywhere, this, Bool.and_true]
    generalize deepBlock n = b
    cases b
    rfl
  · simp [deepDoc, Node.toks, Node.tokss, Node.isRef, sig]

/-- Documents nested deeply enough are read, but their JSON is not. -/
theorem C66_too_deep (n : Nat) (hn : 10000 < n) :
    ∃ t, parseString (deepText n ++ c!"\n") = .ok t ∧ AST.unmarshal t.json = none := by
  obtain ⟨t, h, hb⟩ := deepText_reads n
  refine ⟨t, h, ?_⟩
  have h1 : t.items.json = (deepDoc n).json := by
    rw [← json_map (fun _ => noPos) (fun _ => 0) t.items, ← json_map (fun _ => noPos) (fun _ => 0) (deepDoc _)]
    exact congrArg Node.json hb
  have h2 : t.items.omitted = (deepDoc n).omitted := by
    rw [← omitted_map (fun _ => noPos) (fun _ => 0) t.items, ← omitted_map (fun _ => noPos) (fun _ => 0) (deepDoc _)]
    exact congrArg Node.omitted hb
  have h3 := deepBlock_depth n
  have h4 : t.json.depth = max (max (max (max (deepBlock n).json.depth 0 + 1) 0 + 1) 0) 0 + 1 := by
    unfold AST.json
    rw [h1, h2]
    rfl
  unfold AST.unmarshal
  exact if_neg (show ¬ t.json.depth ≤ 10000 by omega)

example : deepText 2 = c!"b {\nb {\nb {}\n}\n}" := by decide

end

end Verif.Etx
