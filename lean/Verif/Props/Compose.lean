import Verif.Etx.Compose
import Verif.Props.Interpolation

/-! # Property C75: expressions made of expressions -/

set_option linter.unusedSimpArgs false

namespace Verif.Etx
open Gram Re

variable [FloatValue]

/-- Texts with commas between them. -/
def commas (l : List Str) : Str := joinBy ',' l

/-- The expression `e` can be followed by a line end: it does not end like `<<A`, and there is no `if` or `switch` in it outside of
brackets. -/
def OneLine (e : Str) : Prop :=
  (∀ u, u <:+ e → ¬ HeredocHead u) ∧ ∀ ts, lex e = some ts → topFree [] ts = true

/-- Tabs and blanks. -/
def Blanks (w : Str) : Prop := ∀ c ∈ w, isBlank c = true

/-- Tabs, blanks and line ends. -/
def Gap (g : Str) : Prop := ∀ c ∈ g, isBlank c = true ∨ c = '\n'

/-- The second text is the first one with tabs, blanks and line ends around it. -/
inductive Around (e : Str) : Str → Prop
  | before {g : Str} : Gap g → Around e (g ++ e)
  | around {g g' : Str} : Gap g → OneLine e → Gap g' → Around e (g ++ e ++ '\n' :: g')

theorem Around.none (e : Str) : Around e e := .before (g := []) (by simp [Gap])

/-- A case of a `switch`: its conditions (none for `default`), the expression in it, the text between the braces and the text after the
closing one. -/
structure CaseText where
  conds : List (Str × Node .expr)
  expr : Str
  value : Node .expr
  inner : Str
  after : Str

/-- `case (c₁),…: {e}`, `default: {e}` -/
def CaseText.text (t : CaseText) : Str :=
  (if t.conds = [] then c!"default" else c!"case " ++ commas (t.conds.map fun p => c!"(" ++ p.1 ++ c!")")) ++ c!": {" ++ t.inner ++ c!"}" ++ t.after

/-- What it is read as. -/
def CaseText.node (t : CaseText) : Node .exprCase := caseNode (t.conds.map (·.2)) t.conds.isEmpty t.value

/-- **C75**: how expressions are made of expressions, and what they are read as. -/
inductive Composed : Str → Node .expr → Prop
  /-- any expression -/
  | of {e : Str} {x : Node .expr} : ReadsExpr e x → Composed e x
  /-- ` e` -/
  | blank {e : Str} {x : Node .expr} : Composed e x → Composed (' ' :: e) x
  /-- `(e)` -/
  | paren {e : Str} {x : Node .expr} : Composed e x → Composed (c!"(" ++ e ++ c!")") (parenExpr x)
  /-- `[e,…]` -/
  | list (l : List (Str × Node .expr)) : (∀ p ∈ l, Composed p.1 p.2) →
      Composed (c!"[" ++ commas (l.map (·.1)) ++ c!"]") (listExpr (l.map (·.2)))
  /-- `{k = e,…}` -/
  | map (l : List (Str × Str × Node .expr)) : (∀ p ∈ l, NameText p.1) → (∀ p ∈ l, Composed p.2.1 p.2.2) →
      Composed (c!"{" ++ commas (l.map fun p => p.1 ++ c!" = " ++ p.2.1) ++ c!"}") (mapExpr (l.map fun p => (p.1, p.2.2)))
  /-- `f(e,…)` -/
  | call {f : Str} (l : List (Str × Node .expr)) : NameText f → (∀ p ∈ l, Composed p.1 p.2) →
      Composed (f ++ c!"(" ++ commas (l.map (·.1)) ++ c!")") (callExpr f (l.map (·.2)))
  /-- `(e)[i]` -/
  | index {e i : Str} {x y : Node .expr} : Composed e x → Composed i y →
      Composed (c!"(" ++ e ++ c!")[" ++ i ++ c!"]") (indexExpr x y)
  /-- `-(e)` and the like -/
  | prefix {w e : Str} {x : Node .expr} : w ∈ prefixOps → Composed e x →
      Composed (w ++ c!"(" ++ e ++ c!")") (prefixExpr w x)
  /-- `(e) op (f)` -/
  | op {e f w : Str} {l : Level} {x y : Node .expr} : w ∈ levelOps l → Composed e x → Composed f y →
      Composed (c!"(" ++ e ++ c!") " ++ w ++ c!" (" ++ f ++ c!")") (opExpr l x w y)
  /-- `(c) ? (e) : (f)` -/
  | cond {c e f : Str} {z x y : Node .expr} : Composed c z → Composed e x → Composed f y →
      Composed (c!"(" ++ c ++ c!") ? (" ++ e ++ c!") : (" ++ f ++ c!")") (condExpr z x y)
  /-- `if (c) {e} else {f}` -/
  | ite {c e f e' f' : Str} {z x y : Node .expr} : Composed c z → Composed e x → Composed f y → Around e e' → Around f f' →
      Composed (c!"if (" ++ c ++ c!") {" ++ e' ++ c!"} else {" ++ f' ++ c!"}") (ifExpr z x y)
  /-- `if (c) {e}` -/
  | iff {c e e' : Str} {z x : Node .expr} : Composed c z → Composed e x → Around e e' →
      Composed (c!"if (" ++ c ++ c!") {" ++ e' ++ c!"}") (ifOnlyExpr z x)
  /-- `switch (s) {case (c): {e} … default: {f}}` -/
  | switch {s g : Str} {z : Node .expr} (l : List CaseText) : Composed s z → (∀ t ∈ l, ∀ p ∈ t.conds, Composed p.1 p.2) →
      (∀ t ∈ l, Composed t.expr t.value) → Gap g → (∀ t ∈ l, Around t.expr t.inner ∧ Gap t.after) →
      Composed (c!"switch (" ++ s ++ c!") {" ++ g ++ l.flatMap CaseText.text ++ c!"}") (switchExpr z (l.map CaseText.node))
  /-- `e ` -/
  | after {e w : Str} {x : Node .expr} : Composed e x → NoBlankEnd e → Blanks w → Composed (e ++ ' ' :: w) x

/-! ## Tokens -/

/-- The root state. -/
abbrev rootStack : Stack := [(.root, [])]

omit [FloatValue] in
/-- The brackets and the comma are tokens whatever follows. -/
theorem run_bracket {c : Char} {y : Sym} (h : (c, y) ∈ [('(', Sym.opLParen), (')', .opRParen), ('[', .opLBracket), (']', .opRBracket),
    ('{', .blockStart), ('}', .blockEnd), (',', .opComma)]) (s : Str) : LexRun rootStack (c :: s) [(y, [c])] rootStack s := by
  simp only [List.mem_cons, Prod.mk.injEq, List.not_mem_nil, or_false] at h
  rcases h with ⟨rfl, rfl⟩ | ⟨rfl, rfl⟩ | ⟨rfl, rfl⟩ | ⟨rfl, rfl⟩ | ⟨rfl, rfl⟩ | ⟨rfl, rfl⟩ | ⟨rfl, rfl⟩
  case inr.inr.inr.inr.inr.inl =>
    refine TokenOf.run ⟨rule .blockEnd (lit c!"}"), ⟨c!"}", none, s⟩, ?_, rfl, rfl, rfl⟩ (by decide)
    rw [lexStep_of (r := rule .blockEnd (lit c!"}")) (m := ⟨c!"}", none, s⟩) ?_ (by simp)]
    · rfl
    · rw [firstRule_filter]
      have : (rulesOf .root).filter (Rule.can [] '}') = [rule .blockEnd (lit c!"}")] := rfl
      rw [this]
      apply firstRule_hit
      have := run_lit c!"}" none s
      simp only [List.cons_append, List.nil_append] at this
      simp [rule, Re.first, this]
  · exact (C43_longest_partial rootStack c!"(" s _ .root (by decide) (by simp [LongestOp, operators]) (by simp [NotOp])).run (by decide)
  · exact (C43_longest_partial rootStack c!")" s _ .root (by decide) (by simp [LongestOp, operators]) (by simp [NotOp])).run (by decide)
  · exact (C43_longest_partial rootStack c!"[" s _ .root (by decide) (by simp [LongestOp, operators]) (by simp [NotOp])).run (by decide)
  · exact (C43_longest_partial rootStack c!"]" s _ .root (by decide) (by simp [LongestOp, operators]) (by simp [NotOp])).run (by decide)
  · exact (C43_longest_partial rootStack c!"{" s _ .root (by decide) (by simp [LongestOp, operators]) (by simp [NotOp])).run (by decide)
  · exact (C43_longest_partial rootStack c!"," s _ .root (by decide) (by simp [LongestOp, operators]) (by simp [NotOp])).run (by decide)

omit [FloatValue] in
/-- A blank in front of something. -/
theorem run_blank {s y : Str} {ks : List (Sym × Str)} {st : Stack} (h : LexRun rootStack s ks st y) (hs : s ≠ y) :
    LexRun rootStack (' ' :: s) ks st y := by
  obtain ⟨u, rfl⟩ := h.suffix
  have := LexRun.blanks (w := c!" ") (s := u) (y := y) ⟨.root, [], [], .inl rfl⟩ (by decide) (by rintro rfl; exact hs rfl) h
  simpa using this

omit [FloatValue] in
theorem LexRun.ne {st st' : Stack} {s s' : Str} {ks : List (Sym × Str)} (h : LexRun st s ks st' s') (hk : ks ≠ []) : s ≠ s' := by
  cases h with
  | refl => exact absurd rfl hk
  | step h1 h2 =>
    have h3 := (lexStep_split h1).2.2
    have h4 := h2.suffix.length_le
    rintro rfl
    omega

omit [FloatValue] in
/-- An operator in front of a blank or a parenthesis. -/
theorem token_op {w : Str} {o : Sym} (h : (w, o) ∈ operators) {c : Char} (hc : c = ' ' ∨ c = '(') (s : Str) :
    TokenOf rootStack (w ++ c :: s) o w (c :: s) := by
  have hw : w ∈ operators.map (·.1) := List.mem_map.2 ⟨_, h, rfl⟩
  refine C43_longest_partial rootStack w (c :: s) o .root h (fun p hp hpre => ?_) ?_
  · have hp' : c ∉ p ∨ p = c!"(" := by
      clear hpre h hw
      revert p
      rcases hc with rfl | rfl <;> decide
    rcases hp' with hp' | rfl
    · exact ((prefix_end hp').1 hpre).length_le
    · have : ∀ w ∈ operators.map (·.1), 1 ≤ w.length := by decide
      exact this w hw
  · have hp : ∀ p ∈ [c!"//", c!"/*", c!"<<-"], ¬ p <+: w ++ c :: s := by
      intro p hp
      rw [prefix_end (by revert p; rcases hc with rfl | rfl <;> decide)]
      revert p
      have : ∀ w ∈ operators.map (·.1), ∀ p ∈ [c!"//", c!"/*", c!"<<-"], ¬ p <+: w := by decide
      exact this w hw
    have hword : isWord c = false ∧ isDigit c = false ∧ c ≠ '_' ∧ c ≠ '\n' ∧ c ∉ c!"<<" := by rcases hc with rfl | rfl <;> decide
    rintro (hn | ⟨hn, -⟩ | ⟨d, y, e, hd⟩ | ⟨d, y, e, -⟩ | ⟨d, y, e, hd⟩)
    · exact hp _ (by simp) hn
    · exact hp _ (by simp) hn
    · have h1 : c!"<<" <+: w := by
        rw [← prefix_end (b := s) hword.2.2.2.2, e]
        simp
      have h2 : ∀ w ∈ operators.map (·.1), c!"<<" <+: w → w = c!"<<" := by decide
      rw [h2 w hw h1] at e
      simp only [List.append_assoc, List.append_cancel_left_eq] at e
      obtain ⟨a, d, rfl⟩ := List.exists_cons_of_ne_nil hd.1
      simp only [List.cons_append, List.cons.injEq] at e
      have := hd.2 a (by simp)
      rw [← e.1, hword.1] at this
      cases this
    · exact hp c!"<<-" (by simp) (by rw [e]; simp)
    · have h2 : ∀ w ∈ operators.map (·.1), ∀ a u, w = '.' :: a :: u → False := by
        intro w hw a u
        revert hw
        rintro hw rfl
        simp [operators] at hw
      have h3 : ∀ w ∈ operators.map (·.1), w ≠ [] := by decide
      match w, e, hw with
      | [], _, hw => exact h3 [] hw rfl
      | [a], e, _ =>
        simp only [List.cons_append, List.nil_append, List.cons.injEq] at e
        obtain ⟨rfl, rfl, rfl⟩ := e
        rcases hd with hd | hd
        · rw [hword.2.1] at hd; cases hd
        · exact hword.2.2.1 hd
      | a :: b :: u, e, hw =>
        simp only [List.cons_append, List.cons.injEq] at e
        obtain ⟨rfl, rfl, rfl⟩ := e
        exact h2 _ hw _ _ rfl

omit [FloatValue] in
theorem op_ne {w : Str} {o : Sym} (h : (w, o) ∈ operators) : o ≠ .whitespace ∧ w ≠ [] := by
  have : ∀ p ∈ operators, p.2 ≠ .whitespace ∧ p.1 ≠ [] := by decide
  exact this _ h

omit [FloatValue] in
/-- A blank, an operator and a blank. -/
theorem run_op {w : Str} {o : Sym} (h : (w, o) ∈ operators) (s : Str) :
    LexRun rootStack (' ' :: (w ++ ' ' :: s)) [(o, w)] rootStack (' ' :: s) := by
  refine run_blank ((token_op h (.inl rfl) s).run (op_ne h).1) ?_
  intro e
  have := congrArg List.length e
  simp at this
  exact (op_ne h).2 this

/-! ## Readings -/

/-- What is read where: `e` gives the tokens `ks` in front of brackets and commas. -/
structure Reading (e : Str) (ks : List (Sym × Str)) (y : Node .expr) : Prop extends Part ks y where
  run : ∀ c, Closer c → ∀ b, LexRun rootStack (e ++ c :: b) ks rootStack (c :: b)

theorem readsExpr_kinds {e : Str} {x : Node .expr} :
    ReadsExpr e x ↔ ∃ ks y, kinds (lex e) = some ks ∧ OkKind {} (toks ks) y [] ∧ y.bare = x := by
  constructor
  · rintro ⟨ts, y, hl, hp, rfl⟩
    refine ⟨ts.map fun t => (t.sym, t.txt), y.at fun _ => {}, by simp [kinds, hl], ?_, y.bare_map _ _⟩
    have h1 := parseKind_at (f := fun _ => {}) rfl (Position.start.advance e) .expr ts
    rw [hp] at h1
    rw [toks, List.map_map]
    exact h1
  · rintro ⟨ks, y, hl, hp, rfl⟩
    unfold kinds at hl
    rw [Option.map_eq_some_iff] at hl
    obtain ⟨ts, hl, rfl⟩ := hl
    have h1 := parseKind_at (f := fun _ => {}) rfl (Position.start.advance e) .expr ts
    rw [toks, List.map_map] at hp
    have h2 := h1.symm.trans hp
    cases e' : parseKind (Position.start.advance e) .expr ts with
    | miss => rw [e'] at h2; cases h2
    | err r => rw [e'] at h2; cases h2
    | ok y' r =>
      rw [e'] at h2
      simp only [Res.at, Res.ok.injEq, List.map_eq_nil_iff] at h2
      obtain ⟨h2, rfl⟩ := h2
      exact ⟨ts, y', hl, e', by rw [← h2]; exact y'.bare_map _ _⟩

/-- What an expression is read as, alone and in front of other things. -/
theorem ReadsExpr.all {e : Str} {x : Node .expr} (h : ReadsExpr e x) : ∃ ks y, y.bare = x ∧ Reading e ks y ∧ kinds (lex e) = some ks ∧
    OkKind {} (toks ks) y [] ∧ Inside [] (toks ks) ∧ ∀ c, Ends c e → ∀ b, LexRun rootStack (e ++ c :: b) ks rootStack (c :: b) := by
  obtain ⟨ts, y, hl, hp, rfl⟩ := h
  obtain ⟨hin, hrun⟩ := expr_tokens_outer hl hp
  have h1 := parseKind_at (f := fun _ => {}) rfl (Position.start.advance e) .expr ts
  rw [hp] at h1
  have hok : ∀ z, Closes z → OkKind {} (toks (ts.map fun t => (t.sym, t.txt)) ++ z) (y.at fun _ => {}) z := by
    intro z hz
    have h2 := parseKind_inside (eof := {}) (eof' := {}) hz (k := .expr) (β := []) rfl (by decide) (hin.at fun _ => {})
    rw [h1] at h2
    rw [toks, List.map_map]
    exact h2
  have hmiss : ∀ {s : List Token} {x : Node .expr} {r : List Token}, Bare {} (.sub .value .expr) s → ¬ OkKind {} s x r := by
    intro s x r hb ho
    have hs : Soft {} (.sub .value .expr) s := hb.soft
    unfold Soft at hs
    rw [show run (parseKind {}) (.sub .value .expr) s = _ from Ok.sub ho] at hs
    exact hs
  have hin' : Inside [] (toks (ts.map fun t => (t.sym, t.txt))) := by
    rw [toks, List.map_map]
    exact hin.at fun _ => {}
  have hown : OkKind {} (toks (ts.map fun t => (t.sym, t.txt))) (y.at fun _ => {}) [] := by
    rw [toks, List.map_map]
    exact h1
  refine ⟨_, y.at fun _ => {}, y.bare_map _ _, ⟨⟨hok, ?_, ?_, ?_⟩, fun c hc b => hrun c (hc.ends e) b⟩, by simp [kinds, hl], hown, hin', hrun⟩
  · intro k hk e
    cases ts with
    | nil => cases hk
    | cons t ts =>
      simp only [List.map_cons, List.head?_cons, Option.mem_some_iff] at hk
      subst hk
      have := hok [tk .exprEnd c!"}"] (closes_cons (by decide) [])
      have hx := hin.exact t (by simp)
      have e : t.sym = .lf := e
      rw [Token.exact, e] at hx
      refine hmiss (bare_of_head (any_excluded (ys := [.lf]) (ws := [c!"(", c!"null", c!"true", c!"false", c!"[", c!"{"]) (by decide)
        (by simp [tk, e]) ?_)) this
      have hx : t.txt = c!"\n" ∨ t.txt = c!"\r" := by simpa [Sym.exact, Sym.word] using hx
      simp only [tk]
      rcases hx with hx | hx <;> rw [hx] <;> decide
  · intro k hk e
    cases ts with
    | nil => cases hk
    | cons t ts =>
      simp only [List.map_cons, List.head?_cons, Option.mem_some_iff] at hk
      subst hk
      have := hok [tk .exprEnd c!"}"] (closes_cons (by decide) [])
      have hx := hin.exact t (by simp)
      have e : t.sym = .else_ := e
      rw [Token.exact, e] at hx
      refine hmiss (bare_of_head (any_excluded (ys := [.else_]) (ws := [c!"(", c!"null", c!"true", c!"false", c!"[", c!"{"]) (by decide)
        (by simp [tk, e]) ?_)) this
      have hx : t.txt = c!"else" := of_decide_eq_true hx
      simp only [tk]
      rw [hx]
      decide
  · intro e
    rw [List.map_eq_nil_iff] at e
    subst e
    have := hok [tk .exprEnd c!"}"] (closes_cons (by decide) [])
    exact hmiss (bare_of_head (by decide)) this

theorem ReadsExpr.reading {e : Str} {x : Node .expr} (h : ReadsExpr e x) : ∃ ks y, y.bare = x ∧ Reading e ks y := by
  obtain ⟨ks, y, h1, h2, -⟩ := h.all
  exact ⟨ks, y, h1, h2⟩

theorem ReadsExpr.intro {e : Str} {ks : List (Sym × Str)} {x y : Node .expr} (hrun : LexRun rootStack e ks rootStack [])
    (hok : OkKind {} (toks ks) y []) (hx : y.bare = x) : ReadsExpr e x := by
  refine readsExpr_kinds.2 ⟨ks, y, ?_, hok, hx⟩
  have h := hrun.kinds .start .start
  rw [← lex_eq, show kinds (lexAll [(.root, [])] .start []) = some [] from rfl, Option.map_some, List.append_nil] at h
  exact h

/-- Several expressions. -/
theorem readings {l : List (Str × Node .expr)} (h : ∀ p ∈ l, ReadsExpr p.1 p.2) :
    ∃ l' : List (Str × List (Sym × Str) × Node .expr), l'.map (·.1) = l.map (·.1) ∧ l'.map (·.2.2.bare) = l.map (·.2) ∧
      ∀ p ∈ l', Reading p.1 p.2.1 p.2.2 := by
  induction l with
  | nil => exact ⟨[], rfl, rfl, by simp⟩
  | cons p l ih =>
    obtain ⟨l', h1, h2, h3⟩ := ih fun q hq => h q (by simp [hq])
    obtain ⟨ks, y, h4, h5⟩ := (h p (by simp)).reading
    exact ⟨(p.1, ks, y) :: l', by simp [h1], by simp [h2, h4], by simpa using ⟨h5, fun a b c => h3 (a, b, c)⟩⟩

omit [FloatValue] in
/-- Texts with commas between them. -/
theorem run_commas {α : Type} (f : α → Str) (g : α → List (Sym × Str)) {l : List α}
    (h : ∀ p ∈ l, ∀ c, Closer c → ∀ b, LexRun rootStack (f p ++ c :: b) (g p) rootStack (c :: b))
    {c : Char} (hc : Closer c) (b : Str) :
    LexRun rootStack (commas (l.map f) ++ c :: b) (joinBy commaKind (l.map g)) rootStack (c :: b) := by
  induction l with
  | nil => exact .refl _ _
  | cons p l ih =>
    have ih := ih fun q hq => h q (by simp [hq])
    cases l with
    | nil => exact h p (by simp) c hc b
    | cons q l =>
      have h1 := h p (by simp) ',' (by simp [Closer]) (commas ((q :: l).map f) ++ c :: b)
      have h2 := run_bracket (c := ',') (y := .opComma) (by decide) (commas ((q :: l).map f) ++ c :: b)
      have := (h1.trans h2).trans ih
      simpa [commas, joinBy, commaKind] using this

omit [FloatValue] in
theorem run_name {k : Str} (hk : NameText k) {y : Str} (hy : EndsWord y) : LexRun rootStack (k ++ y) [(.ident, k)] rootStack y :=
  (C42_ident_partial rootStack k y .root hk.ident hk.keyword hy).run (by decide)

/-! ## Trees without positions -/

omit [FloatValue] in
theorem bare_unaryExpr (u : Node .unary) : (unaryExpr u).bare = unaryExpr u.bare := by
  simp only [unaryExpr, ofLevel, onLevel, alone, Node.bare, Node.map]
  rfl

omit [FloatValue] in
theorem bare_onLevel (l : Level) (u : Node .unary) : (onLevel l u).bare = onLevel l u.bare := by
  cases l <;> simp only [onLevel, alone, Node.bare, Node.map] <;> rfl

omit [FloatValue] in
theorem bare_asOperand (l : Level) (u : Node .unary) : (asOperand l u).bare = asOperand l u.bare := by
  cases l <;> rfl

omit [FloatValue] in
theorem bare_ofLevel (l : Level) (u : Node (.bin l)) : (ofLevel l u).bare = ofLevel l u.bare := by
  cases l <;> rfl

omit [FloatValue] in
theorem bare_justPrimary (p : Node .primary) : (justPrimary p).bare = justPrimary p.bare := by
  simp only [justPrimary, Node.bare, Node.map]

omit [FloatValue] in
theorem bare_inParens (x : Node .expr) : (inParens x).bare = inParens x.bare := by
  simp only [inParens, Node.bare, Node.map]

omit [FloatValue] in
theorem bare_parenExpr (x : Node .expr) : (parenExpr x).bare = parenExpr x.bare := by
  rw [parenExpr, bare_unaryExpr, bare_justPrimary, bare_inParens, parenExpr]

omit [FloatValue] in
theorem bare_listExpr (l : List (Node .expr)) : (listExpr l).bare = listExpr (l.map Node.bare) := by
  rw [listExpr, bare_unaryExpr, bare_justPrimary, listExpr]
  congr 2
  have : (sliceOf (l.map fun x => Node.listItem noPos [] (.ref x) .nil)).bare = sliceOf ((l.map Node.bare).map fun x => .listItem noPos [] (.ref x) .nil) := by
    rw [bare_sliceOf, List.map_map, List.map_map]
    rfl
  rw [← this]
  simp only [Node.bare, Node.map]

omit [FloatValue] in
theorem bare_mapExpr (l : List (Str × Node .expr)) : (mapExpr l).bare = mapExpr (l.map fun p => (p.1, p.2.bare)) := by
  rw [mapExpr, bare_unaryExpr, bare_justPrimary, mapExpr]
  congr 2
  have : (sliceOf (l.map fun x => Node.mapItem noPos [] (.ref (.mapKey noPos (.ref (oneName x.1)) .nil)) (.ref x.2) .nil)).bare =
      sliceOf ((l.map fun p => (p.1, p.2.bare)).map fun x => .mapItem noPos [] (.ref (.mapKey noPos (.ref (oneName x.1)) .nil)) (.ref x.2) .nil) := by
    rw [bare_sliceOf, List.map_map, List.map_map]
    rfl
  rw [← this]
  simp only [Node.bare, Node.map]

omit [FloatValue] in
theorem bare_callExpr (f : Str) (l : List (Node .expr)) : (callExpr f l).bare = callExpr f (l.map Node.bare) := by
  rw [callExpr, bare_unaryExpr, bare_justPrimary, callExpr]
  congr 2
  rw [← bare_sliceOf]
  simp only [Node.bare, Node.map, oneName]
  rfl

/-! ## The theorem -/

theorem reads_paren {e : Str} {x : Node .expr} (h : ReadsExpr e x) : ReadsExpr (c!"(" ++ e ++ c!")") (parenExpr x) := by
  obtain ⟨ks, y, rfl, hr⟩ := h.reading
  refine .intro (ks := (.opLParen, c!"(") :: ks ++ [(.opRParen, c!")")]) ?_ (y := parenExpr y) ?_ (bare_parenExpr y)
  · have := ((run_bracket (c := '(') (y := .opLParen) (by decide) (e ++ c!")")).trans (hr.run ')' (by simp [Closer]) [])).trans
      (run_bracket (c := ')') (y := .opRParen) (by decide) [])
    simpa using this
  · have := parenExpr_ok (hr.ok [tk .opRParen c!")"] (closes_cons (by decide) [])) rfl
    simpa using this

theorem reads_list {l : List (Str × Node .expr)} (h : ∀ p ∈ l, ReadsExpr p.1 p.2) :
    ReadsExpr (c!"[" ++ commas (l.map (·.1)) ++ c!"]") (listExpr (l.map (·.2))) := by
  obtain ⟨l', h1, h2, h3⟩ := readings h
  refine .intro (ks := (.opLBracket, c!"[") :: joinBy commaKind (l'.map (·.2.1)) ++ [(.opRBracket, c!"]")]) ?_
    (y := listExpr (l'.map (·.2.2))) ?_ (by rw [bare_listExpr, ← h2, List.map_map]; rfl)
  · rw [← h1]
    have := ((run_bracket (c := '[') (y := .opLBracket) (by decide) (commas (l'.map (·.1)) ++ c!"]")).trans
      (run_commas (·.1) (·.2.1) (fun p hp => (h3 p hp).run) (c := ']') (by simp [Closer]) [])).trans
      (run_bracket (c := ']') (y := .opRBracket) (by decide) [])
    simpa using this
  · have := listExpr_ok (l := l'.map (·.2)) (by
      intro p hp
      obtain ⟨q, hq, rfl⟩ := List.mem_map.1 hp
      exact (h3 q hq).toPart) (r := []) rfl
    simpa [Function.comp_def] using this

theorem reads_map {l : List (Str × Str × Node .expr)} (hn : ∀ p ∈ l, NameText p.1) (h : ∀ p ∈ l, ReadsExpr p.2.1 p.2.2) :
    ReadsExpr (c!"{" ++ commas (l.map fun p => p.1 ++ c!" = " ++ p.2.1) ++ c!"}") (mapExpr (l.map fun p => (p.1, p.2.2))) := by
  obtain ⟨l', h1, h2, h3⟩ : ∃ l' : List ((Str × Str) × List (Sym × Str) × Node .expr),
      l'.map (·.1) = l.map (fun p => (p.1, p.2.1)) ∧ l'.map (fun p => (p.1.1, p.2.2.bare)) = l.map (fun p => (p.1, p.2.2)) ∧
      ∀ p ∈ l', NameText p.1.1 ∧ Reading p.1.2 p.2.1 p.2.2 := by
    induction l with
    | nil => exact ⟨[], rfl, rfl, by simp⟩
    | cons p l ih =>
      obtain ⟨l', h1, h2, h3⟩ := ih (fun q hq => hn q (by simp [hq])) fun q hq => h q (by simp [hq])
      obtain ⟨ks, y, h4, h5⟩ := (h p (by simp)).reading
      exact ⟨((p.1, p.2.1), ks, y) :: l', by simp [h1], by simp [h2, h4], by
        intro q hq
        rcases List.mem_cons.1 hq with rfl | hq
        · exact ⟨hn p (by simp), h5⟩
        · exact h3 q hq⟩
  refine .intro (ks := (.blockStart, c!"{") :: joinBy commaKind (l'.map fun p => (.ident, p.1.1) :: (.opAssign, c!"=") :: p.2.1) ++
    [(.blockEnd, c!"}")]) ?_ (y := mapExpr (l'.map fun p => (p.1.1, p.2.2))) ?_ (by rw [bare_mapExpr, ← h2, List.map_map]; rfl)
  · have e : (l.map fun p => p.1 ++ c!" = " ++ p.2.1) = l'.map fun p => p.1.1 ++ c!" = " ++ p.1.2 := by
      have := congrArg (List.map fun p : Str × Str => p.1 ++ c!" = " ++ p.2) h1
      simpa [Function.comp_def] using this.symm
    rw [e]
    have := ((run_bracket (c := '{') (y := .blockStart) (by decide) (commas (l'.map fun p => p.1.1 ++ c!" = " ++ p.1.2) ++ c!"}")).trans
      (run_commas (α := (Str × Str) × List (Sym × Str) × Node .expr) (fun p => p.1.1 ++ c!" = " ++ p.1.2) (fun p => (.ident, p.1.1) :: (.opAssign, c!"=") :: p.2.1) (fun p hp c hc b => by
        have := lexRun_key (h3 p hp).1 (p.1.2 ++ c :: b)
        have h4 := run_blank ((h3 p hp).2.run c hc b) (((h3 p hp).2.run c hc b).ne (h3 p hp).2.ne)
        have := this.trans h4
        simpa using this) (c := '}') (by simp [Closer]) [])).trans
      (run_bracket (c := '}') (y := .blockEnd) (by decide) [])
    simpa using this
  · have := mapExpr_ok (l := l'.map fun p => (p.1.1, p.2)) (by
      intro p hp
      obtain ⟨q, hq, rfl⟩ := List.mem_map.1 hp
      exact (h3 q hq).2.toPart) (r := []) rfl
    simpa [Function.comp_def] using this

omit [FloatValue] in
/-- `(e)` as tokens. -/
theorem run_paren {e : Str} {ks : List (Sym × Str)} (h : ∀ c, Closer c → ∀ b, LexRun rootStack (e ++ c :: b) ks rootStack (c :: b))
    (s : Str) : LexRun rootStack ('(' :: (e ++ ')' :: s)) ((.opLParen, c!"(") :: ks ++ [(.opRParen, c!")")]) rootStack s :=
  ((run_bracket (c := '(') (y := .opLParen) (by decide) (e ++ ')' :: s)).trans (h ')' (by simp [Closer]) s)).trans
    (run_bracket (c := ')') (y := .opRParen) (by decide) s)

omit [FloatValue] in
theorem run_paren_blank {e : Str} {ks : List (Sym × Str)} (h : ∀ c, Closer c → ∀ b, LexRun rootStack (e ++ c :: b) ks rootStack (c :: b))
    (s : Str) : LexRun rootStack (' ' :: '(' :: (e ++ ')' :: s)) ((.opLParen, c!"(") :: ks ++ [(.opRParen, c!")")]) rootStack s :=
  run_blank (run_paren h s) ((run_paren h s).ne (by simp))

theorem reads_call {f : Str} {l : List (Str × Node .expr)} (hf : NameText f) (h : ∀ p ∈ l, ReadsExpr p.1 p.2) :
    ReadsExpr (f ++ c!"(" ++ commas (l.map (·.1)) ++ c!")") (callExpr f (l.map (·.2))) := by
  obtain ⟨l', h1, h2, h3⟩ := readings h
  refine .intro (ks := (.ident, f) :: (.opLParen, c!"(") :: joinBy commaKind (l'.map (·.2.1)) ++ [(.opRParen, c!")")]) ?_
    (y := callExpr f (l'.map (·.2.2))) ?_ (by rw [bare_callExpr, ← h2, List.map_map]; rfl)
  · rw [← h1]
    have h4 := run_name hf (y := '(' :: (commas (l'.map (·.1)) ++ c!")")) ⟨by simp; decide, by simp⟩
    have := ((h4.trans (run_bracket (c := '(') (y := .opLParen) (by decide) (commas (l'.map (·.1)) ++ c!")"))).trans
      (run_commas (·.1) (·.2.1) (fun p hp => (h3 p hp).run) (c := ')') (by simp [Closer]) [])).trans
      (run_bracket (c := ')') (y := .opRParen) (by decide) [])
    simpa using this
  · have hw : f ∉ [c!"null", c!"true", c!"false", c!"(", c!"[", c!"{"] := by
      intro hm
      have h5 := hf.word
      have h6 := hf.ident
      simp only [List.mem_cons, List.not_mem_nil, or_false] at hm
      rcases hm with rfl | rfl | rfl | rfl | rfl | rfl
      any_goals exact h5 (by decide)
    have := callExpr_ok hw (l := l'.map (·.2)) (by
      intro p hp
      obtain ⟨q, hq, rfl⟩ := List.mem_map.1 hp
      exact (h3 q hq).toPart) (r := []) rfl
    simpa [Function.comp_def] using this

theorem reads_index {e i : Str} {x z : Node .expr} (h : ReadsExpr e x) (hi : ReadsExpr i z) :
    ReadsExpr (c!"(" ++ e ++ c!")[" ++ i ++ c!"]") (indexExpr x z) := by
  obtain ⟨ks, y, rfl, hr⟩ := h.reading
  obtain ⟨ks', y', rfl, hr'⟩ := hi.reading
  refine .intro (ks := (.opLParen, c!"(") :: ks ++ [(.opRParen, c!")")] ++ ([(.opLBracket, c!"[")] ++ ks' ++ [(.opRBracket, c!"]")]))
    ?_ (y := indexExpr y y') ?_ (by rw [indexExpr, bare_unaryExpr, indexExpr, ← bare_inParens]; simp only [Node.bare, Node.map])
  · have := (run_paren hr.run (c!"[" ++ i ++ c!"]")).trans (((run_bracket (c := '[') (y := .opLBracket) (by decide) (i ++ c!"]")).trans
      (hr'.run ']' (by simp [Closer]) [])).trans (run_bracket (c := ']') (y := .opRBracket) (by decide) []))
    simpa using this
  · have := indexExpr_ok (hr.ok (tk .opRParen c!")" :: tk .opLBracket c!"[" :: (toks ks' ++ [tk .opRBracket c!"]"]))
      (closes_cons (by decide) _)) (hr'.ok [tk .opRBracket c!"]"] (closes_cons (by decide) [])) rfl
    simpa using this

omit [FloatValue] in
/-- The documented operators are those of the lexer and the grammar. -/
theorem prefixOps_sym {w : Str} (h : w ∈ prefixOps) : ∃ o, (w, o) ∈ operators ∧ o ∈ unaryOp := by
  have : ∀ w ∈ prefixOps, ∃ p ∈ operators, p.1 = w ∧ p.2 ∈ unaryOp := by decide
  obtain ⟨p, h1, rfl, h2⟩ := this w h
  exact ⟨p.2, h1, h2⟩

omit [FloatValue] in
@[inherit_doc prefixOps_sym]
theorem levelOps_sym {w : Str} {l : Level} (h : w ∈ levelOps l) : ∃ o, (w, o) ∈ operators ∧ o ∈ binOp l := by
  have : ∀ w ∈ levelOps l, ∃ p ∈ operators, p.1 = w ∧ p.2 ∈ binOp l := by cases l <;> decide
  obtain ⟨p, h1, rfl, h2⟩ := this w h
  exact ⟨p.2, h1, h2⟩

theorem reads_prefix {w e : Str} {o : Sym} {x : Node .expr} (hw : (w, o) ∈ operators) (ho : o ∈ unaryOp) (h : ReadsExpr e x) :
    ReadsExpr (w ++ c!"(" ++ e ++ c!")") (prefixExpr w x) := by
  obtain ⟨ks, y, rfl, hr⟩ := h.reading
  refine .intro (ks := [(o, w)] ++ ((.opLParen, c!"(") :: ks ++ [(.opRParen, c!")")])) ?_ (y := prefixExpr w y) ?_ (by
    rw [prefixExpr, bare_unaryExpr, prefixExpr, ← bare_inParens]; simp only [Node.bare, Node.map])
  · have := ((token_op hw (.inr rfl) (e ++ c!")")).run (op_ne hw).1).trans (run_paren hr.run [])
    simpa using this
  · have := prefixExpr_ok (w := w) ho (hr.ok [tk .opRParen c!")"] (closes_cons (by decide) _)) rfl
    simpa using this

theorem reads_op {e f w : Str} {o : Sym} {l : Level} {x z : Node .expr} (hw : (w, o) ∈ operators) (ho : o ∈ binOp l)
    (h : ReadsExpr e x) (h' : ReadsExpr f z) : ReadsExpr (c!"(" ++ e ++ c!") " ++ w ++ c!" (" ++ f ++ c!")") (opExpr l x w z) := by
  obtain ⟨ks, y, rfl, hr⟩ := h.reading
  obtain ⟨ks', y', rfl, hr'⟩ := h'.reading
  refine .intro (ks := (.opLParen, c!"(") :: ks ++ [(.opRParen, c!")")] ++ ([(o, w)] ++ ((.opLParen, c!"(") :: ks' ++
    [(.opRParen, c!")")]))) ?_ (y := opExpr l y w y') ?_ ?_
  · have := (run_paren hr.run (' ' :: (w ++ ' ' :: '(' :: (f ++ ')' :: [])))).trans ((run_op hw ('(' :: (f ++ ')' :: []))).trans
      (run_paren_blank hr'.run []))
    simpa using this
  · have hw' : w ≠ c!"[" ∧ w ≠ c!"." := by
      have : ∀ p ∈ operators, (∃ l, p.2 ∈ binOp l) → p.1 ≠ c!"[" ∧ p.1 ≠ c!"." := by
        have h : ∀ p ∈ operators, p.1 = c!"[" ∨ p.1 = c!"." → p.2 = .opLBracket ∨ p.2 = .dot := by decide
        rintro p hp ⟨l, hl⟩
        by_contra hn
        rcases h p hp (by tauto) with h | h <;> rw [h] at hl <;> cases l <;> revert hl <;> decide
      exact this _ hw ⟨l, ho⟩
    have := opExpr_ok ho hw' (hr.ok (tk .opRParen c!")" :: tk o w :: tk .opLParen c!"(" :: (toks ks' ++ [tk .opRParen c!")"]))
      (closes_cons (by decide) _)) (hr'.ok [tk .opRParen c!")"] (closes_cons (by decide) [])) rfl
    simpa using this
  · rw [opExpr, bare_ofLevel, opExpr, ← bare_inParens, ← bare_inParens, ← bare_justPrimary, ← bare_justPrimary, ← bare_asOperand,
      ← bare_onLevel]
    simp only [Node.bare, Node.map]

theorem reads_cond {c e f : Str} {w x z : Node .expr} (hc : ReadsExpr c w) (h : ReadsExpr e x) (h' : ReadsExpr f z) :
    ReadsExpr (c!"(" ++ c ++ c!") ? (" ++ e ++ c!") : (" ++ f ++ c!")") (condExpr w x z) := by
  obtain ⟨k0, y0, rfl, hr0⟩ := hc.reading
  obtain ⟨ks, y, rfl, hr⟩ := h.reading
  obtain ⟨ks', y', rfl, hr'⟩ := h'.reading
  refine .intro (ks := (.opLParen, c!"(") :: k0 ++ [(.opRParen, c!")")] ++ ([(.opCondition, c!"?")] ++ ((.opLParen, c!"(") :: ks ++
    [(.opRParen, c!")")] ++ ([(.opColon, c!":")] ++ ((.opLParen, c!"(") :: ks' ++ [(.opRParen, c!")")]))))) ?_
    (y := condExpr y0 y y') ?_ ?_
  · have := (run_paren hr0.run (' ' :: (c!"?" ++ ' ' :: '(' :: (e ++ ')' :: ' ' :: (c!":" ++ ' ' :: '(' :: (f ++ ')' :: [])))))).trans
      ((run_op (w := c!"?") (o := .opCondition) (by decide) ('(' :: (e ++ ')' :: ' ' :: (c!":" ++ ' ' :: '(' :: (f ++ ')' :: []))))).trans
      ((run_paren_blank hr.run (' ' :: (c!":" ++ ' ' :: '(' :: (f ++ ')' :: [])))).trans ((run_op (w := c!":") (o := .opColon) (by decide) ('(' :: (f ++ ')' :: []))).trans
      (run_paren_blank hr'.run []))))
    simpa using this
  · have := condExpr_ok (hr0.ok (tk .opRParen c!")" :: tk .opCondition c!"?" :: tk .opLParen c!"(" :: (toks ks ++ tk .opRParen c!")" ::
      tk .opColon c!":" :: tk .opLParen c!"(" :: (toks ks' ++ [tk .opRParen c!")"]))) (closes_cons (by decide) _))
      (hr.ok _ (closes_cons (by decide) _)) (hr'.ok [tk .opRParen c!")"] (closes_cons (by decide) [])) rfl
    simpa using this
  · rw [condExpr, condExpr, ← bare_inParens, ← bare_justPrimary, ← bare_onLevel, ← bare_parenExpr, ← bare_parenExpr]
    simp only [Node.bare, Node.map]

/-! ### Line ends and braces -/

section
omit [FloatValue]

theorem topFree_at (f : Position → Position) (c : List Br) (ts : List Token) : topFree c (ts.map (Token.at f)) = topFree c ts := by
  induction ts generalizing c with
  | nil => rfl
  | cons t ts ih =>
    simp only [List.map_cons, topFree]
    congr 1
    show (match t.sym.nest .stringExpr c with | some β' => topFree β' (ts.map (Token.at f)) | none => true) = _
    cases t.sym.nest .stringExpr c <;> simp [ih]

theorem run_lf (s : Str) : LexRun rootStack ('\n' :: s) [(.lf, c!"\n")] rootStack s := by
  refine TokenOf.run ⟨rule .lf (cls fun c => c = '\r' || c = '\n'), ⟨c!"\n", none, s⟩, ?_, rfl, rfl, rfl⟩ (by decide)
  rw [lexStep_of (r := rule .lf (cls fun c => c = '\r' || c = '\n')) (m := ⟨c!"\n", none, s⟩) ?_ (by simp)]
  · rfl
  · rw [firstRule_filter]
    have : (rulesOf .root).filter (Rule.can [] '\n') = [rule .lf (cls fun c => c = '\r' || c = '\n')] := rfl
    rw [this]
    apply firstRule_hit
    simp [rule, Re.first, Re.run]

theorem run_blanks {w s y : Str} {ks : List (Sym × Str)} {st : Stack} (hw : Blanks w) (h : LexRun rootStack s ks st y) (hk : ks ≠ []) :
    LexRun rootStack (w ++ s) ks st y := by
  have hs := h.ne hk
  obtain ⟨u, rfl⟩ := h.suffix
  exact LexRun.blanks (w := w) (s := u) (y := y) ⟨.root, [], [], .inl rfl⟩ hw (by rintro rfl; exact hs rfl) h

/-- Tabs, blanks and line ends in front of something. -/
theorem run_gap {g s y : Str} {ks : List (Sym × Str)} {st : Stack} (hg : Gap g) (h : LexRun rootStack s ks st y) (hk : ks ≠ []) :
    LexRun rootStack (g ++ s) (List.replicate (g.count '\n') (.lf, c!"\n") ++ ks) st y := by
  induction g with
  | nil => exact h
  | cons c g ih =>
    have ih := ih fun d hd => hg d (by simp [hd])
    rcases hg c (by simp) with hc | rfl
    · have hne : c ≠ '\n' := by rintro rfl; exact absurd hc (by decide)
      have := run_blanks (w := [c]) (by simpa [Blanks] using hc) ih (by simp [hk])
      simpa [List.count_cons, hne] using this
    · have := (run_lf (g ++ s)).trans ih
      simpa [List.replicate_succ] using this

theorem run_keyword {w : Str} {o : Sym} (h : (w, o) ∈ keywords) (s : Str) : LexRun rootStack (w ++ ' ' :: s) [(o, w)] rootStack (' ' :: s) := by
  refine (C42_keywords rootStack w o (' ' :: s) .root h (by simp; decide)).run ?_
  have : ∀ p ∈ keywords, p.2 ≠ .whitespace := by decide
  exact this _ h

/-- Texts with commas between them, that end by themselves. -/
theorem run_commas_any {α : Type} (f : α → Str) (g : α → List (Sym × Str)) {l : List α}
    (h : ∀ p ∈ l, ∀ b, LexRun rootStack (f p ++ b) (g p) rootStack b) (b : Str) :
    LexRun rootStack (commas (l.map f) ++ b) (joinBy commaKind (l.map g)) rootStack b := by
  induction l with
  | nil => exact .refl _ _
  | cons p l ih =>
    have ih := ih fun q hq => h q (by simp [hq])
    cases l with
    | nil => exact h p (by simp) b
    | cons q l =>
      have h1 := h p (by simp) (',' :: (commas ((q :: l).map f) ++ b))
      have h2 := run_bracket (c := ',') (y := .opComma) (by decide) (commas ((q :: l).map f) ++ b)
      have := (h1.trans h2).trans ih
      simpa [commas, joinBy, commaKind] using this

end

/-- Expressions that can be followed by line ends. -/
theorem ReadsExpr.line {e : Str} {x : Node .expr} (h : ReadsExpr e x) (h' : OneLine e) : ∃ ks y, y.bare = x ∧ kinds (lex e) = some ks ∧
    LinePart ks y ∧ ∀ c, Ends c e → ∀ b, LexRun rootStack (e ++ c :: b) ks rootStack (c :: b) := by
  obtain ⟨ks, y, h1, h2, h3, h4, h5, h6⟩ := h.all
  refine ⟨ks, y, h1, h3, ⟨h2.toPart, fun t r ht ht' => ?_⟩, h6⟩
  have hf : topFree [] (toks ks) = true := by
    unfold kinds at h3
    rw [Option.map_eq_some_iff] at h3
    obtain ⟨ts, hl, rfl⟩ := h3
    rw [← h'.2 ts hl, ← topFree_at (fun _ => {}) [] ts, toks, List.map_map]
    rfl
  have := parseKind_line (eof := {}) (eof' := {}) (t := t) (z := r) ht ht' (k := .expr) rfl (by decide) h5 hf
  unfold OkKind at h4 ⊢
  rw [this, h4]
  rfl

/-- ` {e}` -/
theorem braced_run {e e' : Str} {x : Node .expr} (h : ReadsExpr e x) (ha : Around e e') : ∃ ks y, y.bare = x ∧ Braced ks y ∧
    ∀ s, LexRun rootStack (' ' :: '{' :: (e' ++ '}' :: s)) ((.blockStart, c!"{") :: ks ++ [(.blockEnd, c!"}")]) rootStack s := by
  have braces : ∀ {ks : List (Sym × Str)}, (∀ s, LexRun rootStack (e' ++ '}' :: s) (ks ++ [(.blockEnd, c!"}")]) rootStack s) → ∀ s,
      LexRun rootStack (' ' :: '{' :: (e' ++ '}' :: s)) ((.blockStart, c!"{") :: ks ++ [(.blockEnd, c!"}")]) rootStack s := by
    intro ks h s
    have := (run_bracket (c := '{') (y := .blockStart) (by decide) (e' ++ '}' :: s)).trans (h s)
    exact run_blank (by simpa using this) (this.ne (by simp))
  have close : ∀ s, LexRun rootStack ('}' :: s) [(.blockEnd, c!"}")] rootStack s := run_bracket (c := '}') (y := .blockEnd) (by decide)
  cases ha with
  | @before g hg =>
    obtain ⟨ks, y, h1, h2⟩ := h.reading
    refine ⟨_, y, h1, h2.toPart.braced (g.count '\n'), braces fun s => ?_⟩
    have := run_gap hg ((h2.run '}' (by simp [Closer]) s).trans (close s)) (by simp)
    simpa using this
  | @around g g' hg he hg' =>
    obtain ⟨ks, y, h1, -, h2, h3⟩ := h.line he
    refine ⟨_, y, h1, h2.braced (g.count '\n') (g'.count '\n'), braces fun s => ?_⟩
    have h4 := run_gap (g := '\n' :: g') (by simpa [Gap] using hg') (close s) (by simp)
    have := run_gap hg ((h3 '\n' (.inr (.inl ⟨rfl, he.1⟩)) (g' ++ '}' :: s)).trans (by simpa using h4)) (by simp)
    simpa [List.replicate_succ] using this

theorem ite_run {c e f e' f' : Str} {w x z : Node .expr} (hc : ReadsExpr c w) (h : ReadsExpr e x) (h' : ReadsExpr f z) (ha : Around e e')
    (ha' : Around f f') : ∃ ks y, y.bare = ifExpr w x z ∧
      (∀ b, LexRun rootStack (c!"if (" ++ c ++ c!") {" ++ e' ++ c!"} else {" ++ f' ++ c!"}" ++ b) ((.if_, c!"if") :: ks) rootStack b) ∧
      ∀ r, OkKind {} (toks ((.if_, c!"if") :: ks) ++ r) y r := by
  obtain ⟨k0, y0, rfl, hr0⟩ := hc.reading
  obtain ⟨ks, y, rfl, hb, hr⟩ := braced_run h ha
  obtain ⟨ks', y', rfl, hb', hr'⟩ := braced_run h' ha'
  refine ⟨((.opLParen, c!"(") :: k0 ++ [(.opRParen, c!")")] ++ ((.blockStart, c!"{") :: ks ++
    [(.blockEnd, c!"}")] ++ ([(.else_, c!"else")] ++ ((.blockStart, c!"{") :: ks' ++ [(.blockEnd, c!"}")])))), ifExpr y0 y y', ?_, fun b => ?_, fun r => ?_⟩
  · rw [ifExpr, ifExpr, ← bare_inParens, ← bare_justPrimary, ← bare_onLevel]
    simp only [Node.bare, Node.map]
  · have helse := run_keyword (w := c!"else") (o := .else_) (by decide) ('{' :: (f' ++ '}' :: b))
    have := (run_keyword (w := c!"if") (o := .if_) (by decide) ('(' :: (c ++ ')' :: ' ' :: '{' :: (e' ++ '}' :: ' ' :: (c!"else" ++ ' ' :: '{' ::
      (f' ++ '}' :: b)))))).trans ((run_paren_blank hr0.run (' ' :: '{' :: (e' ++ '}' :: ' ' :: (c!"else" ++ ' ' :: '{' ::
      (f' ++ '}' :: b))))).trans ((hr (' ' :: (c!"else" ++ ' ' :: '{' :: (f' ++ '}' :: b)))).trans
      ((run_blank helse (helse.ne (by simp))).trans (hr' b))))
    simpa using this
  · have := ifExpr_ok (hr0.ok (tk .opRParen c!")" :: tk .blockStart c!"{" :: (toks ks ++ tk .blockEnd c!"}" :: tk .else_ c!"else" ::
      tk .blockStart c!"{" :: (toks ks' ++ tk .blockEnd c!"}"  :: r))) (closes_cons (by decide) _)) hb hb'
    simpa using this

theorem reads_ite {c e f e' f' : Str} {w x z : Node .expr} (hc : ReadsExpr c w) (h : ReadsExpr e x) (h' : ReadsExpr f z) (ha : Around e e')
    (ha' : Around f f') : ReadsExpr (c!"if (" ++ c ++ c!") {" ++ e' ++ c!"} else {" ++ f' ++ c!"}") (ifExpr w x z) := by
  obtain ⟨ks, y, h1, h2, h3⟩ := ite_run hc h h' ha ha'
  exact .intro (by simpa using h2 []) (by simpa using h3 []) h1

theorem iff_run {c e e' : Str} {w x : Node .expr} (hc : ReadsExpr c w) (h : ReadsExpr e x) (ha : Around e e') :
    ∃ ks y, y.bare = ifOnlyExpr w x ∧
      (∀ b, LexRun rootStack (c!"if (" ++ c ++ c!") {" ++ e' ++ c!"}" ++ b) ((.if_, c!"if") :: ks) rootStack b) ∧
      ∀ z, headNot (fun t => t.sym = .else_) (skipLF z) = true → OkKind {} (toks ((.if_, c!"if") :: ks) ++ z) y (skipLF z) := by
  obtain ⟨k0, y0, rfl, hr0⟩ := hc.reading
  obtain ⟨ks, y, rfl, hb, hr⟩ := braced_run h ha
  refine ⟨((.opLParen, c!"(") :: k0 ++ [(.opRParen, c!")")] ++ ((.blockStart, c!"{") :: ks ++ [(.blockEnd, c!"}")])), ifOnlyExpr y0 y, ?_,
    fun b => ?_, fun z hz => ?_⟩
  · rw [ifOnlyExpr, ifOnlyExpr, ← bare_inParens, ← bare_justPrimary, ← bare_onLevel]
    simp only [Node.bare, Node.map]
  · have := (run_keyword (w := c!"if") (o := .if_) (by decide) ('(' :: (c ++ ')' :: ' ' :: '{' :: (e' ++ '}' :: b)))).trans
      ((run_paren_blank hr0.run (' ' :: '{' :: (e' ++ '}' :: b))).trans (hr b))
    simpa using this
  · have := ifOnlyExpr_ok (hr0.ok (tk .opRParen c!")" :: tk .blockStart c!"{" :: (toks ks ++ tk .blockEnd c!"}" :: z)) (closes_cons (by decide) _))
      hb hz
    simpa using this

theorem reads_iff {c e e' : Str} {w x : Node .expr} (hc : ReadsExpr c w) (h : ReadsExpr e x) (ha : Around e e') :
    ReadsExpr (c!"if (" ++ c ++ c!") {" ++ e' ++ c!"}") (ifOnlyExpr w x) := by
  obtain ⟨ks, y, h1, h2, h3⟩ := iff_run hc h ha
  exact .intro (by simpa using h2 []) (by simpa [skipLF] using h3 [] rfl) h1

omit [FloatValue] in
theorem bare_caseNode (cs : List (Node .expr)) (d : Bool) (x : Node .expr) : (caseNode cs d x).bare = caseNode (cs.map Node.bare) d x.bare := by
  have : (sliceOf (cs.map fun c => onLevel .logicalOr (justPrimary (inParens c)))).bare =
      sliceOf ((cs.map Node.bare).map fun c => onLevel .logicalOr (justPrimary (inParens c))) := by
    rw [bare_sliceOf, List.map_map, List.map_map]
    simp only [Function.comp_def, bare_onLevel, bare_justPrimary, bare_inParens]
  rw [caseNode, caseNode, ← this]
  simp only [Node.bare, Node.map]

/-- `case (c), …: {e}`, `default: {e}` -/
theorem case_run {t : CaseText} (hc : ∀ p ∈ t.conds, ReadsExpr p.1 p.2) (h : ReadsExpr t.expr t.value) (ha : Around t.expr t.inner)
    (hg : Gap t.after) : ∃ ks y, y.bare = t.node ∧ CasePart ks y ∧ ∀ s u ks', LexRun rootStack s ks' rootStack u → ks' ≠ [] →
      LexRun rootStack (t.text ++ s) (ks ++ List.replicate (t.after.count '\n') (.lf, c!"\n") ++ ks') rootStack u := by
  obtain ⟨kb, y, hy, hb, hr⟩ := braced_run h ha
  by_cases ht : t.conds = []
  · refine ⟨_, caseNode [] true y, ?_, case_part .dflt hb, fun s u ks' hs hk => ?_⟩
    · rw [bare_caseNode, hy, CaseText.node, ht]
      rfl
    · have h1 := (C42_ident_partial rootStack c!"default" (':' :: ' ' :: '{' :: (t.inner ++ '}' :: (t.after ++ s))) .root (by
        have := IsIdent.mk 'd' c!"efault" [] (by decide) (by decide) (by simp)
        simpa [dashed] using this) (by decide) ⟨by simp; decide, by simp⟩).run (by decide)
      have h2 := (token_op (w := c!":") (o := .opColon) (by decide) (.inl rfl) ('{' :: (t.inner ++ '}' :: (t.after ++ s)))).run (by decide)
      have := h1.trans (h2.trans ((hr (t.after ++ s)).trans (run_gap hg hs hk)))
      simpa [CaseText.text, ht] using this
  · obtain ⟨l', h1, h2, h3⟩ := readings hc
    have hl' : l' ≠ [] := by
      rintro rfl
      simp only [List.map_nil] at h1
      exact ht (List.map_eq_nil_iff.1 h1.symm)
    refine ⟨_, caseNode (l'.map (·.2.2)) false y, ?_, case_part (by
      have := CaseHead.of (l := l'.map (·.2)) (by simpa using hl') (by
        intro p hp
        obtain ⟨q, hq, rfl⟩ := List.mem_map.1 hp
        exact (h3 q hq).toPart)
      simp only [List.map_map, Function.comp_def] at this
      exact this) hb, fun s u ks' hs hk => ?_⟩
    · rw [bare_caseNode, hy, CaseText.node, ← h2, List.map_map, show t.conds.isEmpty = false by simpa using ht]
      rfl
    · have h4 := run_keyword (w := c!"case") (o := .case_) (by decide) (commas (l'.map fun p => c!"(" ++ p.1 ++ c!")") ++
        (':' :: ' ' :: '{' :: (t.inner ++ '}' :: (t.after ++ s))))
      have h5 := run_commas_any (l := l') (fun p => c!"(" ++ p.1 ++ c!")") (fun p => (.opLParen, c!"(") :: p.2.1 ++ [(.opRParen, c!")")])
        (fun p hp b => by simpa using run_paren (h3 p hp).run b) (':' :: ' ' :: '{' :: (t.inner ++ '}' :: (t.after ++ s)))
      have h6 := (token_op (w := c!":") (o := .opColon) (by decide) (.inl rfl) ('{' :: (t.inner ++ '}' :: (t.after ++ s)))).run (by decide)
      have h7 : joinBy commaKind (l'.map fun p => (Sym.opLParen, c!"(") :: p.2.1 ++ [(.opRParen, c!")")]) ≠ [] := by
        obtain ⟨p, l', rfl⟩ := List.exists_cons_of_ne_nil hl'
        rw [joinBy_cons]
        simp
      have := h4.trans ((run_blank h5 (h5.ne h7)).trans (h6.trans ((hr (t.after ++ s)).trans (run_gap hg hs hk))))
      have e : (t.conds.map fun p => c!"(" ++ p.1 ++ c!")") = l'.map fun p => c!"(" ++ p.1 ++ c!")" := by
        have := congrArg (List.map fun p : Str => c!"(" ++ p ++ c!")") h1
        simpa [Function.comp_def] using this.symm
      rw [CaseText.text, if_neg ht, e]
      simpa using this

theorem switch_run {s g : Str} {z : Node .expr} {l : List CaseText} (hs : ReadsExpr s z) (hc : ∀ t ∈ l, ∀ p ∈ t.conds, ReadsExpr p.1 p.2)
    (he : ∀ t ∈ l, ReadsExpr t.expr t.value) (hg : Gap g) (ha : ∀ t ∈ l, Around t.expr t.inner ∧ Gap t.after) :
    ∃ ks y, y.bare = switchExpr z (l.map CaseText.node) ∧
      (∀ b, LexRun rootStack (c!"switch (" ++ s ++ c!") {" ++ g ++ l.flatMap CaseText.text ++ c!"}" ++ b) ((.switch_, c!"switch") :: ks) rootStack b) ∧
      ∀ r, OkKind {} (toks ((.switch_, c!"switch") :: ks) ++ r) y r := by
  obtain ⟨k0, y0, rfl, hr0⟩ := hs.reading
  obtain ⟨l', h1, h2, h3⟩ : ∃ l' : List (List (Sym × Str) × Nat × Node .exprCase), (l'.map (·.2.2.bare)) = l.map CaseText.node ∧
      (∀ p ∈ l', CasePart p.1 p.2.2) ∧ ∀ b, LexRun rootStack (l.flatMap CaseText.text ++ '}' :: b)
        ((l'.flatMap fun p => p.1 ++ List.replicate p.2.1 (.lf, c!"\n")) ++ [(.blockEnd, c!"}")]) rootStack b := by
    induction l with
    | nil => exact ⟨[], rfl, by simp, run_bracket (c := '}') (y := .blockEnd) (by decide)⟩
    | cons t l ih =>
      obtain ⟨l', h1, h2, h3⟩ := ih (fun t ht => hc t (by simp [ht])) (fun t ht => he t (by simp [ht])) fun t ht => ha t (by simp [ht])
      obtain ⟨ks, y, h4, h5, h6⟩ := case_run (hc t (by simp)) (he t (by simp)) (ha t (by simp)).1 (ha t (by simp)).2
      refine ⟨(ks, t.after.count '\n', y) :: l', by simp [h1, h4], by simpa using ⟨h5, fun a b c => h2 (a, b, c)⟩, fun b => ?_⟩
      have := h6 _ _ _ (h3 b) (by simp)
      simpa using this
  refine ⟨((.opLParen, c!"(") :: k0 ++ [(.opRParen, c!")")] ++ ((.blockStart, c!"{") :: (List.replicate (g.count '\n') (.lf, c!"\n") ++
    ((l'.flatMap fun p => p.1 ++ List.replicate p.2.1 (.lf, c!"\n")) ++ [(.blockEnd, c!"}")])))), switchExpr y0 (l'.map (·.2.2)), ?_, fun b => ?_,
    fun r => ?_⟩
  · rw [switchExpr, switchExpr, ← bare_inParens, ← bare_justPrimary, ← bare_onLevel, ← h1]
    have : (l'.map fun p => p.2.2.bare) = (l'.map (·.2.2)).map Node.bare := by simp
    rw [this, ← bare_sliceOf]
    simp only [Node.bare, Node.map]
  · have h4 := (run_bracket (c := '{') (y := .blockStart) (by decide) (g ++ (l.flatMap CaseText.text ++ '}' :: b))).trans (run_gap hg (h3 b) (by simp))
    have := (run_keyword (w := c!"switch") (o := .switch_) (by decide) ('(' :: (s ++ ')' :: ' ' :: '{' :: (g ++ (l.flatMap CaseText.text ++ '}' :: b))))).trans
      ((run_paren_blank hr0.run (' ' :: '{' :: (g ++ (l.flatMap CaseText.text ++ '}' :: b)))).trans (run_blank h4 (h4.ne (by simp))))
    simpa using this
  · have := switchExpr_ok (n := g.count '\n') (z := r) (hr0.ok (tk .opRParen c!")" :: tk .blockStart c!"{" :: _) (closes_cons (by decide) _)) h2
    simpa [toks, lfTok] using this

theorem reads_cases {s g : Str} {z : Node .expr} {l : List CaseText} (hs : ReadsExpr s z) (hc : ∀ t ∈ l, ∀ p ∈ t.conds, ReadsExpr p.1 p.2)
    (he : ∀ t ∈ l, ReadsExpr t.expr t.value) (hg : Gap g) (ha : ∀ t ∈ l, Around t.expr t.inner ∧ Gap t.after) :
    ReadsExpr (c!"switch (" ++ s ++ c!") {" ++ g ++ l.flatMap CaseText.text ++ c!"}") (switchExpr z (l.map CaseText.node)) := by
  obtain ⟨ks, y, h1, h2, h3⟩ := switch_run hs hc he hg ha
  exact .intro (by simpa using h2 []) (by simpa using h3 []) h1

theorem reads_after {e w : Str} {x : Node .expr} (h : ReadsExpr e x) (he : NoBlankEnd e) (hw : Blanks w) : ReadsExpr (e ++ ' ' :: w) x := by
  obtain ⟨ks, y, h1, -, -, h4, -, h6⟩ := h.all
  refine readsExpr_kinds.2 ⟨ks, y, ?_, h4, h1⟩
  have h := (h6 ' ' (.inr (.inr ⟨rfl, he⟩)) w).kinds .start .start
  have h' := lexStep_blank (state := .root) (.inl rfl) [] [] (' ' :: w) [] (by simp) (by simpa [Blanks, show isBlank ' ' = true from rfl] using hw)
  rw [List.append_nil] at h'
  rw [← lex_eq, kinds_step h' .start .start] at h
  rw [h]
  simp [kinds, lexAll, lexFrom, rule]

/-- **C75**: an expression made of expressions is read as it is written. -/
theorem C75_composed {e : Str} {x : Node .expr} (h : Composed e x) : ReadsExpr e x := by
  induction h with
  | of h => exact h
  | @blank e x _ ih =>
    obtain ⟨ks, y, h1, h2⟩ := readsExpr_kinds.1 ih
    refine readsExpr_kinds.2 ⟨ks, y, ?_, h2⟩
    rw [lex_eq, kinds_blank .start .start e, ← lex_eq]
    exact h1
  | paren _ ih => exact reads_paren ih
  | list l _ ih => exact reads_list ih
  | map l hn _ ih => exact reads_map hn ih
  | call l hf _ ih => exact reads_call hf ih
  | index _ _ ih ih' => exact reads_index ih ih'
  | «prefix» hw _ ih =>
    obtain ⟨o, hw, ho⟩ := prefixOps_sym hw
    exact reads_prefix hw ho ih
  | op hw _ _ ih ih' =>
    obtain ⟨o, hw, ho⟩ := levelOps_sym hw
    exact reads_op hw ho ih ih'
  | cond _ _ _ ih ih' ih'' => exact reads_cond ih ih' ih''
  | ite _ _ _ ha ha' ih ih' ih'' => exact reads_ite ih ih' ih'' ha ha'
  | iff _ _ ha ih ih' => exact reads_iff ih ih' ha
  | switch l _ _ _ hg ha ih ih' ih'' => exact reads_cases ih ih' ih'' hg ha
  | after _ he hw ih => exact reads_after ih he hw

/-- **C75**: a document whose only item is an attribute with such a value. -/
theorem C75_value (k : Str) {e : Str} {x : Node .expr} (hk : NameText k) (h : Composed e x) :
    docOf (k ++ c!" = " ++ e) = some (keyDoc k x) :=
  C73_value k e x hk (C75_composed h)

/-- **C75**: strings are expressions, and may have strings in the expressions in them. -/
theorem C75_string (q : Char) (ps : List Piece) (hq : isQuote q = true) (hps : piecesOk q ps)
    (hb : ∀ p ∈ ps, ∀ e ∈ p.expr?, NoBrace e) :
    ReadsExpr (q :: srcs ps ++ [q]) (stringExpr (.valueString noPos (sliceOf (ps.map Piece.node)))) := by
  obtain ⟨ks, l, h1, h2, h3, -⟩ := pieces_read hq hps hb
  refine .intro (ks := [(.string, [q])] ++ (ks ++ [(.stringEnd, [q])])) ?_ (y := stringExpr (.valueString noPos (sliceOf l))) ?_ ?_
  · obtain ⟨r, cap, hr, h4⟩ := lexStep_string (.inl rfl) [] q hq (srcs ps ++ q :: []) []
    have h4 := lexRun_one hr (by decide) h4
    obtain ⟨r', hr', h5⟩ := lexStep_end q hq [] [(.root, [])]
    have h5 := lexRun_one hr' (by decide) h5
    have := h4.trans ((h2 _ _).trans h5)
    simpa using this
  · have hv : OkKind {} (tk .string [q] :: ((ks.map fun k => tk k.1 k.2) ++ tk .stringEnd [q] :: [])) (.valueString noPos (sliceOf l)) [] := by
      refine OkKind.ofTakes (Takes.seq (Takes.tok rfl) (Takes.seq (h3 _) (Takes.tok rfl))) rfl fun txt => ?_
      simp [build]
    have hq' : [q] = c!"\"" ∨ [q] = c!"'" := by
      simp only [isQuote, Bool.or_eq_true, decide_eq_true_eq] at hq
      rcases hq with rfl | rfl <;> simp
    have := string_up hq' hv rfl
    simpa [toks] using this
  · rw [bare_stringExpr, show (Node.valueString noPos (sliceOf l)).bare = .valueString noPos (sliceOf l).bare by
      simp only [Node.bare, Node.map], bare_sliceOf, h1]

/-- `if (a) {-(b)} else {f(1 + 2,["${x}"], {c = (a)[0]})}`, step by step. -/
example : ∃ xa xb x1 xx x0, ReadsExpr c!"a" xa ∧ ReadsExpr c!"b" xb ∧ ReadsExpr c!"1 + 2" x1 ∧ ReadsExpr c!"x" xx ∧ ReadsExpr c!"0" x0 ∧
    Composed c!"if (a) {-(b)} else {f(1 + 2,[\"${x}\"], {c = (a)[0]})}"
      (ifExpr xa (prefixExpr c!"-" xb) (callExpr c!"f" [x1,
        listExpr [stringExpr (.valueString noPos (sliceOf [.stringFragment noPos [] [] (.ref xx) .nil []]))],
        mapExpr [(c!"c", indexExpr xa x0)]])) := by
  obtain ⟨xa, ha⟩ := (isExpr_iff c!"a").1 (by kernel_rfl)
  obtain ⟨xb, hb⟩ := (isExpr_iff c!"b").1 (by kernel_rfl)
  obtain ⟨x1, h1⟩ := (isExpr_iff c!"1 + 2").1 (by kernel_rfl)
  obtain ⟨xx, hx⟩ := (isExpr_iff c!"x").1 (by kernel_rfl)
  obtain ⟨x0, h0⟩ := (isExpr_iff c!"0").1 (by kernel_rfl)
  have hs := C75_string '"' [.expr c!"x" xx] rfl ⟨hx, trivial⟩ (by
    simp only [List.mem_singleton, forall_eq]
    rintro e ⟨⟩
    exact .of_text (by decide))
  have hl := Composed.list [(c!"\"${x}\"", _)] (by simpa using .of hs)
  have hm := Composed.map [(c!"c", c!"(a)[0]", _)] (by simpa using ⟨.mk 'c' [] [] (by decide) (by simp) (by simp), by decide, by decide⟩)
    (by simpa using .index (.of ha) (.of h0))
  have hf := Composed.call (f := c!"f") [(c!"1 + 2", _), (c!"[\"${x}\"]", _), (c!" {c = (a)[0]}", _)]
    ⟨.mk 'f' [] [] (by decide) (by simp) (by simp), by decide, by decide⟩ (by simpa using ⟨.of h1, hl, .blank hm⟩)
  exact ⟨xa, xb, x1, xx, x0, ha, hb, h1, hx, h0, .ite (.of ha) (.prefix (w := c!"-") (by decide) (.of hb)) hf (.none _) (.none _)⟩

/-- A `switch` in several lines, with an `if` in it. -/
example : ∃ xa xb xc, ReadsExpr c!"a" xa ∧ ReadsExpr c!"b" xb ∧ ReadsExpr c!"c" xc ∧
    docOf c!"k = switch (a) {\n  case (b),(c): { if (b) {c} }\n\n  default: {\n    c\n  }\n}" = some (keyDoc c!"k"
      (switchExpr xa [caseNode [xb, xc] false (ifOnlyExpr xb xc), caseNode [] true xc])) := by
  obtain ⟨xa, ha⟩ := (isExpr_iff c!"a").1 (by kernel_rfl)
  obtain ⟨xb, hb⟩ := (isExpr_iff c!"b").1 (by kernel_rfl)
  obtain ⟨xc, hc⟩ := (isExpr_iff c!"c").1 (by kernel_rfl)
  have hk : NameText c!"k" := ⟨.mk 'k' [] [] (by decide) (by simp) (by simp), by decide, by decide⟩
  have h1 : Composed c!"if (b) {c} " _ := .after (.iff (.of hb) (.of hc) (.none _)) (by unfold NoBlankEnd; decide) (w := []) (by simp [Blanks])
  have h2 : OneLine c!"c" := by
    refine ⟨fun u hu => ?_, fun ts hl => ?_⟩
    · rintro ⟨o, w, -, -, rfl⟩
      have := hu.length_le
      simp at this
    · have : ((lex c!"c").map (topFree [])) = some true := by decide +kernel
      rw [hl] at this
      exact Option.some.inj this
  have h := C75_value c!"k" hk (.switch (g := c!"\n  ") [⟨[(c!"b", xb), (c!"c", xc)], c!"if (b) {c} ", _, c!" if (b) {c} ", c!"\n\n  "⟩,
    ⟨[], c!"c", xc, c!"\n    c\n  ", c!"\n"⟩] (.of ha) (by
      intro t ht
      simp only [List.mem_cons, List.not_mem_nil, or_false] at ht
      rcases ht with rfl | rfl
      · simpa using ⟨.of hb, .of hc⟩
      · simp) (by
      intro t ht
      simp only [List.mem_cons, List.not_mem_nil, or_false] at ht
      rcases ht with rfl | rfl
      · exact h1
      · exact .of hc) (by unfold Gap; decide) (by
      intro t ht
      simp only [List.mem_cons, List.not_mem_nil, or_false] at ht
      rcases ht with rfl | rfl
      · exact ⟨.before (g := c!" ") (by unfold Gap; decide), by show Gap c!"\n\n  "; unfold Gap; decide⟩
      · exact ⟨.around (g := c!"\n    ") (g' := c!"  ") (by unfold Gap; decide) h2 (by unfold Gap; decide), by show Gap c!"\n"; unfold Gap; decide⟩))
  refine ⟨xa, xb, xc, ha, hb, hc, Eq.trans (congrArg docOf ?_) (h.trans ?_)⟩
  · rfl
  · rfl

/-- `k = ((a) + (b)) * (c)` and `k = (a) ? (b) : (c)`. -/
example : ∃ xa xb xc, ReadsExpr c!"a" xa ∧ ReadsExpr c!"b" xb ∧ ReadsExpr c!"c" xc ∧
    docOf c!"k = ((a) + (b)) * (c)" = some (keyDoc c!"k" (opExpr .multiplicative (opExpr .additive xa c!"+" xb) c!"*" xc)) ∧
    docOf c!"k = (a) ? (b) : (c)" = some (keyDoc c!"k" (condExpr xa xb xc)) := by
  obtain ⟨xa, ha⟩ := (isExpr_iff c!"a").1 (by kernel_rfl)
  obtain ⟨xb, hb⟩ := (isExpr_iff c!"b").1 (by kernel_rfl)
  obtain ⟨xc, hc⟩ := (isExpr_iff c!"c").1 (by kernel_rfl)
  have hk : NameText c!"k" := ⟨.mk 'k' [] [] (by decide) (by simp) (by simp), by decide, by decide⟩
  have h1 := Composed.op (w := c!"+") (l := .additive) (by decide) (.of ha) (.of hb)
  have h2 := C75_value c!"k" hk (Composed.op (w := c!"*") (l := .multiplicative) (by decide) h1 (.of hc))
  have h3 := C75_value c!"k" hk (.cond (.of ha) (.of hb) (.of hc))
  refine ⟨xa, xb, xc, ha, hb, hc, ?_, ?_⟩
  · rw [← h2]; rfl
  · rw [← h3]; rfl

end Verif.Etx
