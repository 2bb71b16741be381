import Verif.Etx.Enclosed
import Verif.Etx.Embed
import Verif.Etx.Joined
import Verif.Etx.ReadsFunc
import Verif.Etx.Canon

/-!
# Parsing strings with expressions in them

The tokens of an expression (`expr_tokens`), and the way of a string from its fragments up to an attribute.
-/

set_option linter.unusedSimpArgs false

namespace Verif.Etx
open Gram

/-! ## The last token -/

/-- The structs that can end with a comment. -/
def Kind.endsComment : Kind → Bool
  | .comment | .rootItem | .blockItem | .funcStatement | .typeEnum | .typeEnumItem | .typeObject | .typeObjectItem | .listItem
  | .mapItem => true
  | _ => false

namespace Gram

/-- Whether the last token can be a comment `// …`. -/
def endsComment : Gram → Bool
  | lit _ => false
  | sub _ k => k.endsComment
  | tok y => decide (y = .singleLineComment)
  | seq a b => endsComment b || (null b && endsComment a)
  | alt a b => endsComment a || endsComment b
  | opt a | star a | plus a | cap _ a => endsComment a

theorem endsComment_of (k : Kind) : endsComment (of k) = true → k.endsComment = true := by
  cases k <;> first | decide | (rename_i l; cases l <;> decide) | (intro h; cases h)

end Gram

variable [FloatValue]

omit [FloatValue] in
theorem litSym_ne_comment (w : Str) : litSym w ≠ .singleLineComment := by
  unfold litSym
  repeat' first | apply ite_ne | decide

theorem Strict.endsComment {g : Gram} {s : List Token} {o : Out} (h : Strict g s o) :
    (s = [] → null g = true) ∧ ∀ t ∈ s.getLast?, t.sym = .singleLineComment → g.endsComment = true := by
  have app : ∀ {s s' : List Token} {P P' : Prop} {n n' : Bool},
      ((s = [] → n = true) ∧ ∀ t ∈ s.getLast?, t.sym = .singleLineComment → P) →
      ((s' = [] → n' = true) ∧ ∀ t ∈ s'.getLast?, t.sym = .singleLineComment → P') →
      (s ++ s' = [] → n = true ∧ n' = true) ∧
        (∀ t ∈ (s ++ s').getLast?, t.sym = .singleLineComment → P' ∨ (n' = true ∧ P)) := by
    intro s s' P P' n n' h h'
    refine ⟨fun e => ?_, fun t ht e => ?_⟩
    · obtain ⟨rfl, rfl⟩ := List.append_eq_nil_iff.mp e
      exact ⟨h.1 rfl, h'.1 rfl⟩
    · rw [List.getLast?_append, Option.mem_def, Option.or_eq_some_iff] at ht
      rcases ht with ht | ⟨ht, ht'⟩
      · exact .inl (h'.2 t ht e)
      · exact .inr ⟨h'.1 (List.getLast?_eq_none_iff.mp ht), h.2 t ht' e⟩
  induction h with
  | @lit w t _ hs =>
    refine ⟨by simp, fun t' ht e => ?_⟩
    simp only [List.getLast?_singleton, Option.mem_def, Option.some.injEq] at ht
    subst ht
    exact absurd (hs.symm.trans e) (litSym_ne_comment w)
  | @tok y t hs =>
    refine ⟨by simp, fun t' ht e => ?_⟩
    simp only [List.getLast?_singleton, Option.mem_def, Option.some.injEq] at ht
    subst ht
    simp [Gram.endsComment, ← hs, e]
  | @seq a b s s' o o' _ _ iha ihb =>
    have := app iha ihb
    simpa [null, Gram.endsComment] using this
  | altL _ ih => exact ⟨fun e => by simp [null, ih.1 e], fun t ht e => by simp [Gram.endsComment, ih.2 t ht e]⟩
  | altR _ ih => exact ⟨fun e => by simp [null, ih.1 e], fun t ht e => by simp [Gram.endsComment, ih.2 t ht e]⟩
  | skip => exact ⟨fun _ => rfl, nofun⟩
  | nil => exact ⟨fun _ => rfl, nofun⟩
  | once _ ih => exact ⟨fun _ => rfl, ih.2⟩
  | @cons a s s' o o' _ _ iha ihb =>
    refine ⟨fun _ => rfl, fun t ht e => ?_⟩
    rcases (app iha ihb).2 t ht e with h | h
    · exact h
    · exact h.2
  | @plus a s s' o o' _ _ iha ihb =>
    refine ⟨fun e => ((app iha ihb).1 e).1, fun t ht e => ?_⟩
    rcases (app iha ihb).2 t ht e with h | h
    · exact h
    · exact h.2
  | cap _ ih => exact ih
  | @sub f k s o pos x _ _ _ ih =>
    refine ⟨fun e => ?_, fun t ht e => endsComment_of k (ih.2 t ht e)⟩
    rw [null, ← null_of]
    exact ih.1 e

/-! ## The tokens of an expression -/

omit [FloatValue] in
theorem nest_last_open {c : List Br} {ts : List Token} (h : nest c ts = some []) :
    ∀ t ∈ ts.getLast?, t.sym ≠ .char ∧ t.sym ≠ .body := by
  intro t ht
  have := nest_last h t ht
  constructor
  · intro e
    have := this (by simp [e])
    rw [e] at this
    cases this
  · intro e
    obtain ⟨u, rfl⟩ : ∃ u, ts = u ++ [t] := by
      obtain ⟨hne, h⟩ := List.mem_getLast?_eq_getLast ht
      exact ⟨ts.dropLast, by rw [h, List.dropLast_concat_getLast]⟩
    rw [nest_app, Option.bind_eq_some_iff] at h
    obtain ⟨d, -, h⟩ := h
    simp only [Verif.Etx.nest, Option.bind_eq_some_iff, Option.some.injEq, exists_eq_right] at h
    rw [e] at h
    cases d with
    | nil => cases h
    | cons x d => cases x <;> cases h

/-- What the tokens of an expression are like. -/
theorem expr_strict {e : Str} {ts : List Token} {eof : Position} {y : Node .expr} (hl : lex e = some ts)
    (h : parseKind eof .expr ts = .ok y []) : Inside [] ts ∧ height ts = 0 ∧ ts.IsChain Apart ∧
      ∀ t ∈ ts.getLast?, t.sym.openEnd = false := by
  obtain ⟨t, e1, hd⟩ := parseKind_derives h
  rw [List.append_nil] at e1
  subst e1
  obtain ⟨o, hd⟩ : ∃ o, Derives (.sub .value .expr) ts o := by
    obtain ⟨o, pos, h1, h2, h3⟩ := hd
    exact ⟨_, .sub h1 h2 h3⟩
  obtain ⟨st, hr⟩ := lex_run hl
  have hw := weight_le hd (by decide) hr.exact
  have hh := hr.height_eq
  have h3 := hr.bottom (g := []) rfl
  have hst : st = [(.root, [])] ∧ height ts = 0 := by
    simp only [Gram.weight, List.length_singleton] at hw hh
    match st, hh, h3 with
    | [], _, h3 => cases h3
    | [y], hh, h3 =>
      simp only [List.getLast?_singleton, Option.some.injEq] at h3
      rw [h3]
      simp only [List.length_singleton] at hh
      exact ⟨rfl, by omega⟩
    | y :: z :: st, hh, _ =>
      simp only [List.length_cons] at hh
      omega
  have hs : Strict (.sub .value .expr) ts o := (strict_of hd (by decide) (b := .stringExpr) (below := [(.root, [])]) (c := [])
    (c' := []) (by rw [hst.2]; rfl) hr ⟨rfl, [], rfl, rfl⟩ (by decide)).1
  have hn : nest [] ts = some [] := hs.nested (b := .stringExpr) (c := []) (c' := []) (β := []) rfl (by decide +kernel)
  refine ⟨⟨hn, hr.exact⟩, hst.2, (hs.chain (by decide)).2.2.2, fun t ht => ?_⟩
  have h1 := nest_last_open hn t ht
  have h2 := hs.endsComment.2 t ht
  cases e : t.sym <;> first | rfl | exact absurd e h1.1 | exact absurd e h1.2 | exact absurd (h2 e) (by decide)

/-- An expression in `${` and `}`. -/
theorem expr_tokens {e : Str} {ts : List Token} {eof : Position} {y : Node .expr} (hl : lex e = some ts)
    (h : parseKind eof .expr ts = .ok y []) (hb : ∀ t ∈ ts, t.sym ≠ .blockEnd) :
    Inside [] ts ∧ ∀ below b, LexRun ((.stringExpr, []) :: below) (e ++ '}' :: b) (ts.map fun t => (t.sym, t.txt))
      ((.stringExpr, []) :: below) ('}' :: b) := by
  obtain ⟨hn, hh, hc, hlast⟩ := expr_strict hl h
  have hq : QuoteStack ([] ++ [(LexState.root, [])]) := by simp [QuoteStack]
  obtain ⟨st', hr', hrun⟩ := lexAll_inner _ e (Nat.le_refl _) [] [] _ ts hq hl hc hb hlast
  refine ⟨hn, fun below b => ?_⟩
  have := hrun below b
  have hst' : st' = [] := by
    have h1 := hr'.height_eq
    rw [hh] at h1
    simp only [List.length_append, List.length_singleton, List.length_nil] at h1
    exact List.length_eq_zero_iff.1 (by omega)
  subst hst'
  exact this

/-- An expression in front of a closing bracket, a comma or a line end. -/
theorem expr_tokens_outer {e : Str} {ts : List Token} {eof : Position} {y : Node .expr} (hl : lex e = some ts)
    (h : parseKind eof .expr ts = .ok y []) : Inside [] ts ∧ ∀ c, Ends c e → ∀ b, LexRun [(.root, [])] (e ++ c :: b)
      (ts.map fun t => (t.sym, t.txt)) [(.root, [])] (c :: b) := by
  obtain ⟨hn, hh, hc, hlast⟩ := expr_strict hl h
  obtain ⟨st', hr', hrun⟩ := lexAll_outer _ e (Nat.le_refl _) [(.root, [])] _ ts (by simp [QuoteStack]) hl hc hlast
  refine ⟨hn, fun c hcl b => ?_⟩
  have := hrun c hcl b
  have h1 := hr'.height_eq
  have h2 := hr'.bottom (g := []) rfl
  rw [hh] at h1
  have hst' : st' = [(.root, [])] := by
    match st', h1, h2 with
    | [], h1, _ => simp at h1
    | [y], _, h2 =>
      simp only [List.getLast?_singleton, Option.some.injEq] at h2
      rw [h2]
    | y :: z :: st, h1, _ =>
      simp only [List.length_cons, List.length_nil] at h1
      omega
  rw [hst'] at this
  exact this

/-! ## From a string to a document -/

/-- A string as an expression. -/
def stringExpr (v : Node .valueString) : Node .expr :=
  let p : Node .unary := .unary noPos [] (.postfixE noPos (.primary noPos .nil (.ref (.value noPos false .nil .nil (.ref v) .nil .nil .nil))
    .nil .nilSlice .nil) .nil .nil)
  let m := Node.bin .multiplicative noPos p [] .nil
  let a := Node.bin .additive noPos m [] .nil
  let s := Node.bin .shift noPos a [] .nil
  let r := Node.bin .relational noPos s [] .nil
  let e := Node.bin .equality noPos r [] .nil
  let ba := Node.bin .bitwiseAnd noPos e [] .nil
  let bx := Node.bin .bitwiseXor noPos ba [] .nil
  let bo := Node.bin .bitwiseOr noPos bx [] .nil
  let la := Node.bin .logicalAnd noPos bo [] .nil
  let lo := Node.bin .logicalOr noPos la [] .nil
  .expr noPos (.ref (.conditional noPos lo false .nil .nil)) .nil .nil

/-- An attribute at the top level. -/
def keyItem (k : Str) (x : Node .expr) : Node .rootItem := .rootItem noPos [] .nil .nil .nil .nil (.ref (.attr noPos k (.ref x))) .nil

theorem bin_up {l : Level} {s r : List Token} {x : Node l.operand} (h : OkKind {} s x r) (hp : posOf {} s = {})
    (hr : ∀ t ∈ r.head?, t.sym ∉ binOp l) : OkKind {} s (.bin l noPos x [] .nil) r := by
  refine OkKind.ofTakes (Takes.seq (Takes.sub h) (Takes.skip (Soft.seqL (Soft.cap (Bare.alToks (by cases l <;> simp [binOp]) hr)))))
      hp fun txt => ?_
  simp [build, ptrOf]

theorem string_up {q : Str} (hq : q = c!"\"" ∨ q = c!"'") {u r : List Token} {v : Node .valueString}
    (h : OkKind {} (tk .string q :: u) v r) (hr : headNot badExpr r = true) : OkKind {} (tk .string q :: u) (stringExpr v) r := by
  have hp : posOf {} (tk .string q :: u) = {} := rfl
  have hr' := headNot_iff.1 hr
  have hb : ∀ l, ∀ t ∈ r.head?, t.sym ∉ binOp l := by
    intro l t ht hm
    have := hr' t ht
    simp only [badExpr, badBin, Bool.or_eq_false_iff, ← Bool.not_eq_true (List.contains _ _), List.contains_iff_mem] at this
    refine this.1.2 ?_
    revert hm
    generalize t.sym = s
    revert s
    cases l <;> decide
  have hpost : ∀ t ∈ r.head?, t.txt ≠ c!"[" ∧ t.txt ≠ c!"." ∧ t.txt ≠ c!"?" := by
    intro t ht
    have := hr' t ht
    simp only [badExpr, badBin, badPost, Bool.or_eq_false_iff, decide_eq_false_iff_not] at this
    exact ⟨this.1.1.2, this.1.1.1.1, this.2⟩
  have h1 : OkKind {} (tk .string q :: u) (.value noPos false .nil .nil (.ref v) .nil .nil .nil) r := by
    refine OkKind.ofTakes (Takes.altR (bare_of_head ?_).soft (Takes.altR (bare_of_head ?_).soft (Takes.altR (bare_of_head ?_).soft
      (Takes.altL (Takes.sub h))))) rfl fun txt => by simp [build, ptrOf]
    all_goals rcases hq with rfl | rfl <;> rfl
  have h2 : OkKind {} (tk .string q :: u) (.primary noPos .nil (.ref (.value noPos false .nil .nil (.ref v) .nil .nil .nil))
      .nil .nilSlice .nil) r := by
    refine OkKind.ofTakes (Takes.altR (Soft.seqL (Soft.lit ?_).soft) (Takes.altL (Takes.sub h1))) rfl fun txt => by
      simp [build, ptrOf, sliceOf]
    rcases hq with rfl | rfl <;> simp [tk]
  have h3 := OkKind.ofTakes (k := .postfixE) (x := .postfixE noPos (.primary noPos .nil (.ref (.value noPos false .nil .nil (.ref v) .nil
      .nil .nil)) .nil .nilSlice .nil) .nil .nil) (Takes.seq (Takes.sub h2) (Takes.seq (Takes.skip (Soft.seqL (Soft.lit
      fun t ht => (hpost t ht).1).soft)) (Takes.skip (Soft.seqL (Soft.lit fun t ht => (hpost t ht).2.1).soft)))) hp fun txt => by
    simp [build, ptrOf]
  have h4 := OkKind.ofTakes (k := .unary) (x := .unary noPos [] (.postfixE noPos (.primary noPos .nil (.ref (.value noPos false .nil .nil
      (.ref v) .nil .nil .nil)) .nil .nilSlice .nil) .nil .nil)) (Takes.seq (Takes.skip (Soft.cap (Bare.alToks (by simp [unaryOp]) (by
      simp [tk, unaryOp])))) (Takes.sub h3)) hp fun txt => by simp [build]
  have h5 := bin_up (l := .multiplicative) h4 hp (hb _)
  have h6 := bin_up (l := .additive) h5 hp (hb _)
  have h7 := bin_up (l := .shift) h6 hp (hb _)
  have h8 := bin_up (l := .relational) h7 hp (hb _)
  have h9 := bin_up (l := .equality) h8 hp (hb _)
  have h10 := bin_up (l := .bitwiseAnd) h9 hp (hb _)
  have h11 := bin_up (l := .bitwiseXor) h10 hp (hb _)
  have h12 := bin_up (l := .bitwiseOr) h11 hp (hb _)
  have h13 := bin_up (l := .logicalAnd) h12 hp (hb _)
  have h14 := bin_up (l := .logicalOr) h13 hp (hb _)
  have h15 := OkKind.ofTakes (k := .conditional) (Takes.seq (Takes.sub h14) (Takes.skip (Soft.seqL (Soft.cap (Soft.lit
    fun t ht => (hpost t ht).2.2).soft)))) hp fun txt => by simp [build, ptrOf]; rfl
  exact OkKind.ofTakes (Takes.altL (Takes.sub h15)) hp fun txt => by simp [build, ptrOf, stringExpr]

/-- A document that is one attribute. -/
theorem attr_doc {k : Str} {ts r : List Token} {x : Node .expr} (h : OkKind {} ts x r) (hr : r = [] ∨ r = [lfTok]) :
    parseTokens {} (tk .ident k :: tk .opAssign c!"=" :: ts) = some (sliceOf [keyItem k x]) := by
  have h1 : OkKind {} (tk .ident k :: tk .opAssign c!"=" :: ts) (.attr noPos k (.ref x)) r :=
    OkKind.ofTakes (Takes.seq (Takes.capTok rfl) (Takes.once (Takes.seq (Takes.lit rfl) (Takes.sub h)))) rfl fun txt => by
      simp [build, ptrOf, tk]
  have h2 : Takes (.seq (.sub .attr .attr) lf?) (tk .ident k :: tk .opAssign c!"=" :: ts) [.node .attr .attr (.attr noPos k (.ref x))] [] := by
    rcases hr with rfl | rfl
    · exact Takes.eq (Takes.seq (Takes.sub h1) (Takes.noLf rfl)) rfl
    · exact Takes.eq (Takes.seq (Takes.sub h1) Takes.lf) rfl
  have h3 : OkKind {} (tk .ident k :: tk .opAssign c!"=" :: ts) (keyItem k x) [] := by
    refine OkKind.ofTakes (Takes.altR (bare_of_head rfl).soft (Takes.altR (Soft.seqL (soft_decl (by decide)))
      (Takes.altR (Soft.seqL (soft_func (by decide))) (Takes.altR (Soft.seqL (soft_type (by decide)))
      (Takes.altR (Soft.seqL (soft_block (.inr rfl))) (Takes.altL h2)))))) rfl fun txt => by simp [build, ptrOf, keyItem]
  have hs : Soft {} (.sub .items .rootItem) [] := (Bare.of (by simp [NoFirst]) rfl rfl).soft
  obtain ⟨txt, hk⟩ := Takes.cons (Takes.sub (f := .items) h3) (by simp) (Takes.nil hs)
  unfold Ok at hk
  rw [parseTokens, hk]
  simp

end Verif.Etx
