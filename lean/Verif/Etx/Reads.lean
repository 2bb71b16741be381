import Verif.Etx.Takes

/-!
# Reading back what was written: the statement, and the tools

`Reads k x`: the parser reads `x` from its tokens, whatever follows (`follow`).
-/

namespace Verif.Etx
open Gram

/-- The first tokens of a value. -/
def valueSyms : List Sym := [.ident, .number, .string, .heredoc, .opLBracket, .blockStart]
/-- The first tokens of a unary expression. -/
def unarySyms : List Sym := [.opBitwiseNot, .opLogicalNot, .opMinus, .opPlus, .opLParen] ++ valueSyms
/-- The first tokens of an expression. -/
def exprSyms : List Sym := [.if_, .switch_] ++ unarySyms
/-- The first tokens of a comment. -/
def commentSyms : List Sym := [.singleLineComment, .multilineComment]

/-- The types of the first token of a written struct. -/
def starts : Kind → List Sym
  | .rootItem | .blockItem | .typeEnumItem | .typeObjectItem => [.lf, .ident] ++ commentSyms
  | .parameterType => [.ident, .opLParen]
  | .funcSignature => [.opLParen]
  | .comment => commentSyms
  | .funcStatement | .listItem => [.lf] ++ exprSyms ++ commentSyms
  | .mapItem => [.lf, .ident, .string] ++ commentSyms
  | .mapKey => [.ident, .string]
  | .value => valueSyms
  | .heredoc => [.heredoc]
  | .heredocFragment => [.expr, .directive, .body, .eol, .nonExpr]
  | .valueString => [.string]
  | .stringFragment => [.expr, .directive, .escaped, .unicode, .char, .quote, .nonExpr]
  | .valueList => [.opLBracket]
  | .valueMap => [.blockStart]
  | .expr => exprSyms
  | .exprIf => [.if_]
  | .exprSwitch => [.switch_]
  | .exprCase => [.case_, .ident]
  | .conditional | .bin _ | .unary => unarySyms
  | .postfixE | .primary => .opLParen :: valueSyms
  | _ => [.ident]

/-- What is known of the text of the first token. -/
def textOk : Kind → Str → Bool
  | .value, w => !decide (w = c!"(")
  | .comment, w => commentText w
  | _, _ => true

/-- A token that can begin a written struct. -/
def startOk (k : Kind) (t : Token) : Bool := (starts k).contains t.sym && textOk k t.txt

/-- The tokens begin with such a token. -/
def HeadIn (k : Kind) (s : List Token) : Prop := ∃ t u, s = t :: u ∧ t.pos = {} ∧ startOk k t = true

variable [FloatValue]

/-- The parser reads the struct from its tokens. -/
def Good {k : Kind} (x : Node k) : Prop :=
  (nullKind k = false → HeadIn k x.toks) ∧ ∀ r, x.follow r = true → OkKind {} (x.toks ++ r) x.bare (x.rest r)

/-- The parser reads everything from its tokens. -/
def Reads : (k : Kind) → Node k → Prop
  | .ptr k, x => x = .nil ∨ ∃ y, x = .ref y ∧ y.set = true ∧ y.canon = true ∧ Reads k y
  | .items k, x => ∃ l, x = Out.items l ∧ ∀ y ∈ l, y.set = true ∧ y.canon = true ∧ Reads k y
  | .slice k, x => x = .nilSlice ∨
      ∃ a l, x = .mkSlice a (Out.items l) ∧ l ≠ [] ∧ ∀ y ∈ l, y.set = true ∧ y.canon = true ∧ Reads k y
  | .valueBool, _ | .valueNumber, _ => True
  | _, x => x.set = true → Good x

/-! ## Tools -/

omit [FloatValue]

theorem tokss_items {k : Kind} (l : List (Node k)) : (Out.items l).tokss = l.map Node.toks := by
  induction l with
  | nil => rfl
  | cons x l ih => simp only [Out.items, Node.tokss, Node.toks, ih, List.map_cons]

theorem bare_items {k : Kind} (l : List (Node k)) : (Out.items l).bare = Out.items (l.map Node.bare) := by
  induction l with
  | nil => rfl
  | cons x l ih =>
    simp only [List.map_cons, Out.items, ← ih]
    simp only [Node.bare, Node.map]

theorem bare_slice {k : Kind} {l : List (Node k)} (a : Nat) (h : l ≠ []) :
    (Node.mkSlice a (Out.items l)).bare = sliceOf (l.map Node.bare) := by
  have : (Node.mkSlice a (Out.items l)).bare = .mkSlice 0 (Out.items l).bare := by simp only [Node.bare, Node.map]
  rw [this, bare_items]
  cases l with
  | nil => exact absurd rfl h
  | cons x l => rfl

theorem bare_ref {k : Kind} (x : Node k) : (Node.ref x).bare = .ref x.bare := by simp only [Node.bare, Node.map]
theorem bare_nil {k : Kind} : (Node.nil : Node (.ptr k)).bare = .nil := by simp only [Node.bare, Node.map]
theorem bare_nilSlice {k : Kind} : (Node.nilSlice : Node (.slice k)).bare = .nilSlice := by simp only [Node.bare, Node.map]

theorem bare_strs {s : Strs} (h : s.ok = true) : s.map (fun _ => 0) = strsOf s.list := by
  cases s with
  | nil => rfl
  | mk a l =>
    cases l with
    | nil => simp [Strs.ok] at h
    | cons x l => rfl

theorem skipLF_cons {t : Token} {r : List Token} (h : t.sym ≠ .lf) : skipLF (t :: r) = t :: r := by simp [skipLF, h]
theorem skipLF_lf {t : Token} {r : List Token} (h : t.sym = .lf) : skipLF (t :: r) = skipLF r := by simp [skipLF, h]
theorem skipLF_headNot {r : List Token} (h : headNot (fun t => t.sym = .lf) r = true) : skipLF r = r := by
  cases r with
  | nil => rfl
  | cons t r => exact skipLF_cons (by simpa [headNot] using h)

theorem rest_cons {k : Kind} (x : Node k) {t : Token} {r : List Token} (h : t.sym ≠ .lf) : x.rest (t :: r) = t :: r := by
  rw [Node.rest, skipLF_cons h]
  split <;> rfl

/-- Kinds whose trees can end with an `if` without `else`. -/
def Kind.dangles : Kind → Bool
  | .attr | .decl | .funcDecl | .expr | .exprIf | .conditional | .ptr _ => true
  | _ => false

theorem rest_kind {k : Kind} (x : Node k) (r : List Token) (h : k.dangles = false := by rfl) : x.rest r = r := by
  cases x <;> first | rfl | cases h

theorem headNot_mono {p q : Token → Bool} {r : List Token} (h : headNot p r = true) (hq : ∀ t, q t = true → p t = true) :
    headNot q r = true := by
  cases r with
  | nil => rfl
  | cons t r =>
    simp only [headNot, Bool.not_eq_true'] at h ⊢
    cases hh : q t with
    | false => rfl
    | true => rw [hq t hh] at h; exact h

theorem stopIdent_of {r : List Token} (h : headNot (fun t => t.txt = c!".") r = true) : stopIdent r = true := by
  match r with
  | [] => rfl
  | [_] => rfl
  | t :: u :: r =>
    have : ¬ t.txt = c!"." := by simpa [headNot] using h
    simp [stopIdent, this]

theorem headNot_iff {p : Token → Bool} {r : List Token} : headNot p r = true ↔ ∀ t ∈ r.head?, p t = false := by
  cases r <;> simp [headNot]

variable [FloatValue]

theorem bare_of_head {g : Gram} {t : Token} {r : List Token} (h : (firstG first g).any (Test.ok t) = false)
    (hg : solid g = true := by rfl) (hn : null g = false := by rfl) : Bare {} g (t :: r) :=
  Bare.of (by intro u hu; simp only [List.head?_cons, Option.mem_some_iff] at hu; subst hu; exact h) hg hn

/-- A token of one of the types `ys` whose text is none of `ws` passes none of the tests. -/
def excluded (ys : List Sym) (ws : List Str) (l : List Test) : Bool :=
  l.all fun
    | .sym y => !ys.contains y
    | .lit w => ws.contains w

omit [FloatValue] in
theorem any_excluded {ys : List Sym} {ws : List Str} {l : List Test} (h : excluded ys ws l = true) {t : Token}
    (hy : t.sym ∈ ys) (hw : t.txt ∉ ws) : l.any (Test.ok t) = false := by
  rw [List.any_eq_false]
  intro x hx
  have := List.all_eq_true.mp h x hx
  cases x with
  | sym y =>
    simp only [Bool.not_eq_true', List.contains_iff_mem, Test.ok, decide_eq_true_eq, ← Bool.not_eq_true] at this ⊢
    rintro rfl
    exact this hy
  | lit w =>
    simp only [List.contains_iff_mem] at this
    simp only [Test.ok, decide_eq_true_eq]
    rintro rfl
    exact hw this

/-- `LF?` and a token that is not a line feed. -/
theorem Takes.noLf {r : List Token} (h : headNot (fun t => t.sym = .lf) r = true) : Takes lf? r [] r :=
  Takes.skip (Soft.tok (by simpa [headNot_iff] using h)).soft

theorem Takes.lf {r : List Token} : Takes lf? (lfTok :: r) [] r := Takes.once (Takes.tok rfl)

theorem Takes.noLfs {r : List Token} (h : headNot (fun t => t.sym = .lf) r = true) : Takes lfs r [] r :=
  Takes.skip (Soft.plus (Soft.tok (by simpa [headNot_iff] using h)).soft)

theorem Takes.starLf (r : List Token) : Takes (.star (.tok .lf)) r [] (skipLF r) := by
  induction r with
  | nil => exact Takes.nil (Soft.tok (by simp)).soft
  | cons t r ih =>
    by_cases h : t.sym = .lf
    · rw [skipLF_lf h]
      exact Takes.cons (Takes.tok h) (by simp) ih
    · rw [skipLF_cons h]
      exact Takes.nil (Soft.tok (by simpa using h)).soft

/-- `[ LF+ ]` reads all line feeds. -/
theorem Takes.lfs (r : List Token) : Takes lfs r [] (skipLF r) := by
  cases r with
  | nil => exact Takes.noLfs rfl
  | cons t r =>
    by_cases h : t.sym = .lf
    · rw [skipLF_lf h]
      exact Takes.once (Takes.plus (Takes.tok h) (Takes.starLf r))
    · rw [skipLF_cons h]
      exact Takes.noLfs (by simpa [headNot] using h)

theorem Takes.blanks {e : Str} {r : List Token} (he : e ≠ []) (h : headNot (fun t => t.sym = .lf) r = true) :
    Takes (.plus (.cap .emptyLine (.tok .lf))) (blankToks e ++ r) (capStrs .emptyLine (e.map fun c => [c])) r := by
  have star : ∀ e : Str, Takes (.star (.cap .emptyLine (.tok .lf))) (blankToks e ++ r)
      (capStrs .emptyLine (e.map fun c => [c])) r := by
    intro e
    induction e with
    | nil => exact Takes.nil (Soft.cap (Soft.tok (by simpa [headNot_iff, blankToks] using h)).soft)
    | cons c e ih => exact Takes.cons (Takes.capTok (y := .lf) (t := tk .lf [c]) rfl) (by simp) ih
  cases e with
  | nil => exact absurd rfl he
  | cons c e => exact Takes.plus (Takes.capTok (y := .lf) (t := tk .lf [c]) rfl) (star e)

/-- Elements separated by commas. -/
theorem Takes.commaSep {f : Field} {k : Kind} {l : List (Node k)} {r : List Token} (hl : l ≠ [])
    (h : ∀ y ∈ l, ∀ u, u = r ∨ (∃ v, u = comma :: v) → OkKind {} (y.toks ++ u) y.bare u)
    (hr : headNot (fun t => t.txt = c!",") r = true) :
    Takes (commaSep f k) (sepBy [comma] (l.map Node.toks) ++ r) (capNodes f (l.map Node.bare)) r := by
  have star : ∀ l : List (Node k), (∀ y ∈ l, ∀ u, u = r ∨ (∃ v, u = comma :: v) → OkKind {} (y.toks ++ u) y.bare u) →
      Takes (.star (.seq (.lit c!",") (.sub f k))) ((l.map fun y => comma :: y.toks).flatten ++ r)
        (capNodes f (l.map Node.bare)) r := by
    intro l h
    induction l with
    | nil => exact Takes.nil (Soft.seqL (Soft.lit (by simpa [headNot_iff] using hr)).soft)
    | cons y l ih =>
      have hy := h y (by simp) ((l.map fun y => comma :: y.toks).flatten ++ r) (by
        cases l with
        | nil => exact .inl rfl
        | cons z l => exact .inr ⟨_, rfl⟩)
      have := Takes.cons (Takes.seq (Takes.lit (w := c!",") (t := comma) rfl) (Takes.sub (f := f) hy))
        (by simp only [List.length_cons, List.length_append]; omega) (ih fun z hz => h z (List.mem_cons_of_mem _ hz))
      simpa [capNodes] using this
  have key : ∀ (y : Node k) (l : List (Node k)), sepBy [comma] ((y :: l).map Node.toks) =
      y.toks ++ (l.map fun y => comma :: y.toks).flatten := by
    intro y l
    induction l generalizing y with
    | nil => simp [sepBy]
    | cons z l ih =>
      have := ih z
      simp only [List.map_cons] at this ⊢
      rw [sepBy, this]
      · simp
      · simp
  cases l with
  | nil => exact absurd rfl hl
  | cons y l =>
    rw [key, List.append_assoc]
    refine Takes.seq (Takes.sub (h y (by simp) _ ?_)) (star l fun z hz => h z (List.mem_cons_of_mem _ hz))
    cases l with
    | nil => exact .inl rfl
    | cons z l => exact .inr ⟨_, rfl⟩

/-- The elements of a slice one after the other. -/
theorem Takes.items {f : Field} {k : Kind} {l : List (Node k)} {c : List Token}
    (h : ∀ y ∈ l, ∀ u, y.follow u = true → OkKind {} (y.toks ++ u) y.bare u) (hne : ∀ y ∈ l, y.toks ≠ [])
    (hc : (Out.items l).chain c = true) (hs : Soft {} (.sub f k) c) :
    Takes (.star (.sub f k)) ((l.map Node.toks).flatten ++ c) (capNodes f (l.map Node.bare)) c := by
  induction l with
  | nil => exact Takes.nil hs
  | cons y l ih =>
    simp only [Out.items, Node.chain, Bool.and_eq_true, tokss_items, Node.follow] at hc
    have hy := h y (by simp) _ hc.1
    have := Takes.cons (Takes.sub (f := f) hy) (by
      have := List.length_pos_iff.mpr (hne y (by simp))
      simp only [List.length_append]; omega) (ih (fun z hz => h z (List.mem_cons_of_mem _ hz))
        (fun z hz => hne z (List.mem_cons_of_mem _ hz)) hc.2)
    simpa [capNodes] using this

theorem Good.ok {k : Kind} {x : Node k} (h : Good x) {r : List Token} (hf : x.follow r = true)
    (hk : k.dangles = false := by rfl) : OkKind {} (x.toks ++ r) x.bare r := by
  have := h.2 r hf
  rwa [rest_kind x r hk] at this

/-- Optional elements separated by commas. -/
theorem Takes.optCommaSep {f : Field} {k : Kind} {x : Node (.slice k)} (hx : Reads (.slice k) x) {t : Token} {r : List Token}
    (hg : ∀ y : Node k, y.set = true → Reads k y → ∀ u, u = t :: r ∨ (∃ v, u = comma :: v) → OkKind {} (y.toks ++ u) y.bare u)
    (hn : Bare {} (.sub f k) (t :: r)) (ht : t.txt ≠ c!",") :
    ∃ l, x.bare = sliceOf l ∧ Takes (.opt (Gram.commaSep f k)) (sepBy [comma] x.tokss ++ t :: r) (capNodes f l) (t :: r) := by
  rcases hx with rfl | ⟨a, l, rfl, hl, hy⟩
  · exact ⟨[], bare_nilSlice, Takes.skip (Soft.seqL hn.soft)⟩
  · refine ⟨l.map Node.bare, bare_slice a hl, Takes.once ?_⟩
    rw [Node.tokss, tokss_items]
    exact Takes.commaSep hl (fun y hm => hg y (hy y hm).1 (hy y hm).2.2) (by simpa [headNot] using ht)

end Verif.Etx
