import Verif.Etx.LayoutTokens
import Verif.Etx.Yield

/-!
# Texts that are read as the tokens of a tree

`W f p s ts`: wherever expressions are read, the text `s` is read as the tokens `ts`.  Inside `${ }` the tokens must not
contain a closing brace, which would end the expression.
-/

namespace Verif.Etx

/-- Tokens without positions. -/
def sig (ts : List Token) : List (Sym × Str) := ts.map fun t => (t.sym, t.txt)

@[simp] theorem sig_nil : sig [] = [] := rfl
@[simp] theorem sig_cons (t : Token) (ts : List Token) : sig (t :: ts) = (t.sym, t.txt) :: sig ts := rfl
@[simp] theorem sig_append (ts us : List Token) : sig (ts ++ us) = sig ts ++ sig us := List.map_append

/-- No braces are read inside `${ }`. -/
def Zone (st : Stack) (ts : List Token) : Prop := (∃ g below, st = (.root, g) :: below) ∨ ∀ t ∈ ts, t.sym ≠ .blockEnd

theorem Zone.left {st : Stack} {ts us : List Token} (h : Zone st (ts ++ us)) : Zone st ts :=
  h.imp_right fun h t ht => h t (List.mem_append_left _ ht)

theorem Zone.right {st : Stack} {ts us : List Token} (h : Zone st (ts ++ us)) : Zone st us :=
  h.imp_right fun h t ht => h t (List.mem_append_right _ ht)

/-- See above. -/
def W (f p : Char → Bool) (s : Str) (ts : List Token) : Prop := ∀ st, Plain st → Zone st ts → Writes st st f p s (sig ts)

/-- The same, or nothing. -/
def W₀ (f p : Char → Bool) (s : Str) (ts : List Token) : Prop := (s = [] ∧ ts = []) ∨ W f p s ts

/-- This character. -/
def is (d c : Char) : Bool := c = d

/-- Not a blank. -/
def inked (c : Char) : Bool := !isBlank c

theorem is_le {d : Char} {p : Char → Bool} (h : p d = true) : ∀ c, is d c = true → p c = true := by
  intro c hc
  simp only [is, decide_eq_true_eq] at hc
  rw [hc]; exact h

theorem any_le {p : Char → Bool} : ∀ c, p c = true → anyC c = true := fun _ _ => rfl
theorem le_refl' {p : Char → Bool} : ∀ c, p c = true → p c = true := fun _ h => h

namespace W

variable {f g p q : Char → Bool} {s t : Str} {ts us : List Token}

theorem mono (h : W f p s ts) (hf : ∀ c, f c = true → g c = true) (hp : ∀ c, q c = true → p c = true) : W g q s ts :=
  fun st hst hz => (h st hst hz).mono hf hp

theorem ne (h : W f p s ts) : s ≠ [] := (h [(.root, [])] .root (.inl ⟨_, _, rfl⟩)).ne

theorem cast (h : W f p s ts) (hs : s = t) (ht : ts = us) : W f p t us := hs ▸ ht ▸ h

/-- One after the other. -/
theorem append (h : W f p s ts) (h' : W g q t us) (hg : ∀ c, g c = true → p c = true) (ht : p '\t' = true := by decide) :
    W f q (s ++ t) (ts ++ us) := fun st hst hz => by
  rw [sig_append]
  exact (h st hst hz.left).append (h' st hst hz.right) hst hg ht

/-- The same without a line end. -/
theorem append' (h : W f p s ts) (h' : W g q t us) (hg : ∀ c, g c = true → p c = true)
    (hs : endsLine false s = false := by decide) : W f q (s ++ t) (ts ++ us) := fun st hst hz => by
  rw [sig_append]
  exact (h st hst hz.left).append' (h' st hst hz.right) hs hg

/-- Spaces in front. -/
theorem gaps (h : W f p s ts) {w : Str} (hw : ∀ c ∈ w, c = ' ') (hn : w ≠ []) : W (is ' ') p (w ++ s) ts := fun st hst hz => by
  have := (h st hst hz).gap hst hw
  refine ⟨this.ne, fun c hc => ?_, this.run⟩
  cases w with
  | nil => exact absurd rfl hn
  | cons d w =>
    simp only [List.cons_append, List.head?_cons, Option.mem_some_iff] at hc
    simp [← hc, hw d (by simp), is]

/-- A space in front. -/
theorem gap (h : W f p s ts) : W (is ' ') p (' ' :: s) ts := h.gaps (w := c!" ") (by simp) (by simp)

/-- A space after the text. -/
theorem space (h : W f p s ts) (hp : p ' ' = true := by decide) (ht : p '\t' = true := by decide) :
    W f inked (s ++ c!" ") ts := fun st hst hz => by
  have h := h st hst hz
  refine ⟨by simp, ?_, fun pre y hpre hy => ?_⟩
  · intro c hc
    rw [List.head?_append_of_ne_nil _ h.ne] at hc
    exact h.first c hc
  · rw [indentFrom_split, List.append_assoc]
    have hb : ∀ c ∈ indentFrom '\n' pre (endsLine false s) c!" ", isBlank c = true := by
      intro c hc
      simp only [indentFrom] at hc
      split at hc
      · simp only [List.mem_append, List.mem_cons, List.not_mem_nil, or_false] at hc
        rcases hc with hc | rfl
        · exact tab_blank hpre c hc
        · rfl
      · simp at hc; subst hc; rfl
    have hn : indentFrom '\n' pre (endsLine false s) c!" " ≠ [] := indentFrom_ne (by simp)
    generalize indentFrom '\n' pre (endsLine false s) c!" " = w at hb hn
    have h1 := h.run pre (w ++ y) hpre (by
      intro c hc
      cases w with
      | nil => exact absurd rfl hn
      | cons d w =>
        simp only [List.cons_append, List.head?_cons, Option.mem_some_iff] at hc
        subst hc
        have := hb d (by simp)
        simp only [isBlank, Bool.or_eq_true, decide_eq_true_eq] at this
        rcases this with rfl | rfl <;> assumption)
    have h2 : LexRun st (w ++ y) [] st y := by
      obtain ⟨state, g, below, hst⟩ := hst
      have e := lexStep_blank hst g below w y hn hb
      have h0 : y.takeWhile isBlank = [] ∧ y.dropWhile isBlank = y := by
        cases y with
        | nil => exact ⟨rfl, rfl⟩
        | cons c y =>
          have := hy c rfl
          simp only [inked, Bool.not_eq_true'] at this
          simp [this]
      rw [h0.1, h0.2] at e
      simpa [rule] using LexRun.step e (.refl _ _)
    simpa using h1.trans h2

/-- Indented. -/
theorem indent (h : W f p s ts) : W (fun c => f c || c = '\t') p (Etx.indent s tab) ts := fun st hst hz => (h st hst hz).indent hst

/-- Indented, after a line feed. -/
theorem indent' (h : W f p s ts) : W anyC p (Etx.indent s tab) ts := h.indent.mono any_le le_refl'

theorem newline : W (is '\n') anyC c!"\n" [lfTok] := fun _ hst _ => (Writes.newline hst).mono le_refl' le_refl'

theorem ident {w : Str} (h : identOk w = true) : W isAlpha stopI w [tk .ident w] := fun _ hst _ => Writes.ident hst h

theorem keyword {w : Str} {sym : Sym} (h : (w, sym) ∈ keywords) : W isAlpha stopI w [tk sym w] := fun _ hst _ => Writes.keyword hst h

theorem op {w : Str} {sym : Sym} (h : (w, sym) ∈ operators) : W (fun c => w.head?.any (· = c)) (afterOp w) w [tk sym w] :=
  fun _ hst _ => Writes.op hst h

/-- An operator of one character. -/
theorem op1 {d : Char} {sym : Sym} (h : ([d], sym) ∈ operators) : W (is d) (afterOp [d]) [d] [tk sym [d]] :=
  (op h).mono (by simp [is, eq_comm]) le_refl'

theorem number {w : Str} (h : numberOk w = true) : W (fun c => isDigitSep c || c = '.') stopN w [tk .number w] :=
  fun _ hst _ => Writes.number hst h

theorem close : W (is '}') anyC c!"}" [tk .blockEnd c!"}"] := fun st hst hz => by
  rcases hz with ⟨g, below, rfl⟩ | h
  · exact Writes.closeBrace
  · exact absurd rfl (h (tk .blockEnd c!"}") (by simp))

theorem afterOp_any {w : Str} (hw : w ∈ [c!"(", c!")", c!"{", c!",", c!"[", c!"]", c!":", c!"?", c!"~", c!"^"]) (c : Char) : afterOp w c = true := by
  simp only [List.mem_cons, List.not_mem_nil, or_false] at hw
  rcases hw with rfl | rfl | rfl | rfl | rfl | rfl | rfl | rfl | rfl | rfl <;> simp [afterOp, operators, List.isPrefixOf]

theorem single {d : Char} {sym : Sym} (h : ([d], sym) ∈ operators) (hd : [d] ∈ [c!"(", c!")", c!"{", c!",", c!"[", c!"]", c!":", c!"?", c!"~", c!"^"]) :
    W (is d) anyC [d] [tk sym [d]] := (op1 h).mono le_refl' fun c _ => afterOp_any hd c

theorem lparen : W (is '(') anyC c!"(" [tk .opLParen c!"("] := single (by decide) (by decide)
theorem rparen : W (is ')') anyC c!")" [tk .opRParen c!")"] := single (by decide) (by decide)
theorem lbracket : W (is '[') anyC c!"[" [tk .opLBracket c!"["] := single (by decide) (by decide)
theorem rbracket : W (is ']') anyC c!"]" [tk .opRBracket c!"]"] := single (by decide) (by decide)
theorem lbrace : W (is '{') anyC c!"{" [tk .blockStart c!"{"] := single (by decide) (by decide)
theorem comma' : W (is ',') anyC c!"," [comma] := single (by decide) (by decide)
theorem colon : W (is ':') anyC c!":" [tk .opColon c!":"] := single (by decide) (by decide)
theorem question : W (is '?') anyC c!"?" [tk .opCondition c!"?"] := single (by decide) (by decide)
theorem assign : W (is '=') (afterOp c!"=") c!"=" [tk .opAssign c!"="] := op1 (by decide)
theorem dot : W (is '.') (afterOp c!".") c!"." [tk .dot c!"."] := op1 (by decide)
theorem arrow : W (is '-') (afterOp c!"->") c!"->" [tk .opLambdaDef c!"->"] := (op (by decide)).mono (by simp [is, eq_comm]) le_refl'

/-- `, ` -/
theorem commaSpace : W (is ',') inked c!", " [comma] := comma'.space
/-- `: ` -/
theorem colonSpace : W (is ':') inked c!": " [tk .opColon c!":"] := colon.space
/-- ` {` -/
theorem openBlock : W (is ' ') anyC c!" {\n" [tk .blockStart c!"{", lfTok] := (lbrace.append newline any_le).gap
/-- `}` on a line -/
theorem closeBlock : W (is '\n') anyC c!"\n}" [lfTok, tk .blockEnd c!"}"] := newline.append close any_le
/-- ` {}` -/
theorem emptyBlock : W (is ' ') anyC c!" {}" [tk .blockStart c!"{", tk .blockEnd c!"}"] := (lbrace.append close any_le).gap

/-- `, ` between -/
theorem sep {l : List (Str × List Token)} (h : ∀ x ∈ l, W f p x.1 x.2) (hf : ∀ c, f c = true → inked c = true)
    (hp : p ',' = true) (ht : p '\t' = true := by decide) (hl : l ≠ []) :
    W f p (join c!", " (l.map (·.1))) (sepBy [Etx.comma] (l.map (·.2))) := by
  induction l with
  | nil => exact absurd rfl hl
  | cons x l ih =>
    have hx := h x (by simp)
    cases l with
    | nil => simpa [join, sepBy] using hx
    | cons y l =>
      have := ih (fun z hz => h z (List.mem_cons_of_mem _ hz)) (by simp)
      have := (hx.append commaSpace (is_le hp) ht).append' this hf (by simp [endsLine])
      exact this.cast (by simp [join]) (by simp [sepBy])

theorem sep₀ {l : List (Str × List Token)} (h : ∀ x ∈ l, W f p x.1 x.2) (hf : ∀ c, f c = true → inked c = true)
    (hp : p ',' = true) (ht : p '\t' = true := by decide) :
    W₀ f p (join c!", " (l.map (·.1))) (sepBy [Etx.comma] (l.map (·.2))) := by
  cases l with
  | nil => exact .inl ⟨rfl, rfl⟩
  | cons x l => exact .inr (sep h hf hp ht (by simp))

/-- Anything, one after the other. -/
theorem all {l : List (Str × List Token)} (h : ∀ x ∈ l, W anyC anyC x.1 x.2) :
    W₀ anyC anyC (l.map (·.1)).flatten (l.map (·.2)).flatten := by
  induction l with
  | nil => exact .inl ⟨rfl, rfl⟩
  | cons x l ih =>
    have hx := h x (by simp)
    rcases ih (fun z hz => h z (List.mem_cons_of_mem _ hz)) with ⟨h1, h2⟩ | hl
    · exact .inr (hx.cast (by simp [h1]) (by simp [h2]))
    · exact .inr ((hx.append hl any_le rfl).cast (by simp) (by simp))

/-- `( … )` -/
theorem parens (h : W₀ f p s ts) (hp : p ')' = true) (ht : p '\t' = true := by decide) :
    W (is '(') anyC (c!"(" ++ s ++ c!")") (Etx.parens ts) := by
  rcases h with ⟨rfl, rfl⟩ | h
  · exact lparen.append rparen any_le rfl
  · exact ((lparen.append h any_le rfl).append rparen (is_le hp) ht).cast rfl (by simp [Etx.parens])

/-- A text that begins with the first character of its first token. -/
theorem head (h : W f p s ts) (hf : ∀ c, f c = true → inked c = true) : ∃ t us c, ts = t :: us ∧ s.head? = some c ∧ t.txt.head? = some c := by
  have h := h [(.root, [])] .root (.inl ⟨_, _, rfl⟩)
  obtain ⟨c, u, rfl⟩ := List.exists_cons_of_ne_nil h.ne
  have hc := hf c (h.first c rfl)
  have hr := h.run [] [] (by simp) (by simp)
  have e : ∀ b s, indentFrom '\n' [] b s = s := by
    intro b s
    induction s generalizing b with
    | nil => rfl
    | cons c s ih => simp [indentFrom, ih]
  rw [e, List.append_nil] at hr
  generalize hk : sig ts = ks at hr
  cases hr with
  | @step _ st₁ _ _ _ r m ks h1 h2 =>
    have hs := lexStep_split h1
    have hne : m.txt ≠ [] := hs.2.1
    have hm : m.txt.head? = some c := by
      have := congrArg List.head? hs.1
      rwa [List.head?_append_of_ne_nil _ hne] at this
    have hw : r.sym ≠ .whitespace := by
      intro hw
      obtain ⟨state, g, below, -, h1, -, -⟩ := lexStep_some h1
      obtain ⟨hmem, hfirst⟩ := firstRule_some h1
      have hrule := whitespace_rule hmem hw
      subst hrule
      have := Re.run_chars _ none _ _ (List.mem_of_head? hfirst) c (List.mem_of_head? hm)
      simp only [rule, Re.plus, Re.chars, Bool.or_self] at this
      simp only [inked, isBlank, Bool.or_comm, this] at hc
      cases hc
    rw [if_neg hw] at hk
    cases ts with
    | nil => simp at hk
    | cons t ts =>
      simp at hk
      exact ⟨t, ts, c, rfl, rfl, by rw [hk.1.2]; exact hm⟩

end W

end Verif.Etx
