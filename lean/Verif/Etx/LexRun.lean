import Verif.Etx.LexerLemmas
import Verif.Etx.Yield

/-!
# The stack of the lexer along the tokens

Which texts a token type can have (`Sym.exact`), and how the stack of lexer states changes with the tokens (`TokRun`).
-/

namespace Verif.Etx
open Re

/-! ## The language of a pattern -/

namespace Re

/-- The texts that a pattern can match, leaving assertions aside. -/
def Lang : Re → Str → Prop
  | eps, w => w = []
  | cls p, w => ∃ c, w = [c] ∧ p c = true
  | seq a b, w => ∃ u v, w = u ++ v ∧ a.Lang u ∧ b.Lang v
  | alt a b, w => a.Lang w ∨ b.Lang w
  | star a, w => ∃ l : List Str, w = l.flatten ∧ ∀ u ∈ l, a.Lang u
  | lazyStar a, w => ∃ l : List Str, w = l.flatten ∧ ∀ u ∈ l, a.Lang u
  | bot, w => w = []
  | eot, w => w = []
  | wordB, w => w = []
  | grp a, w => a.Lang w

theorem starRun_lang {a : Re} (ha : ∀ prev s, ∀ m ∈ a.run prev s, a.Lang m.txt) (n : Nat) (prev : Option Char) (s : Str) :
    ∀ m ∈ starRun a.run n prev s, ∃ l : List Str, m.txt = l.flatten ∧ ∀ u ∈ l, a.Lang u := by
  induction n generalizing prev s with
  | zero =>
    intro m hm
    simp only [starRun, List.mem_singleton] at hm
    subst hm
    exact ⟨[], rfl, by simp⟩
  | succ n ih =>
    intro m hm
    simp only [starRun, List.mem_append, List.mem_flatMap, List.mem_filter, List.mem_map, List.mem_singleton] at hm
    rcases hm with ⟨m1, ⟨h1, -⟩, m2, h2, rfl⟩ | rfl
    · obtain ⟨l, e, hl⟩ := ih _ _ m2 h2
      exact ⟨m1.txt :: l, by simp [e], by simpa using ⟨ha _ _ _ h1, hl⟩⟩
    · exact ⟨[], rfl, by simp⟩

theorem lazyRun_lang {a : Re} (ha : ∀ prev s, ∀ m ∈ a.run prev s, a.Lang m.txt) (n : Nat) (prev : Option Char) (s : Str) :
    ∀ m ∈ lazyRun a.run n prev s, ∃ l : List Str, m.txt = l.flatten ∧ ∀ u ∈ l, a.Lang u := by
  induction n generalizing prev s with
  | zero =>
    intro m hm
    simp only [lazyRun, List.mem_singleton] at hm
    subst hm
    exact ⟨[], rfl, by simp⟩
  | succ n ih =>
    intro m hm
    simp only [lazyRun, List.mem_cons, List.mem_flatMap, List.mem_filter, List.mem_map] at hm
    rcases hm with rfl | ⟨m1, ⟨h1, -⟩, m2, h2, rfl⟩
    · exact ⟨[], rfl, by simp⟩
    · obtain ⟨l, e, hl⟩ := ih _ _ m2 h2
      exact ⟨m1.txt :: l, by simp [e], by simpa using ⟨ha _ _ _ h1, hl⟩⟩

theorem run_lang (r : Re) : ∀ prev s, ∀ m ∈ r.run prev s, r.Lang m.txt := by
  induction r with
  | eps => intro prev s m hm; simp [run] at hm; simp [hm, Lang]
  | cls p =>
    intro prev s m hm
    cases s with
    | nil => simp [run] at hm
    | cons c s =>
      rw [run_cls_cons] at hm
      split at hm
      · simp at hm
        subst hm
        exact ⟨c, rfl, by assumption⟩
      · simp at hm
  | seq a b iha ihb =>
    intro prev s m hm
    simp only [run, List.mem_flatMap, List.mem_map] at hm
    obtain ⟨m1, h1, m2, h2, rfl⟩ := hm
    exact ⟨_, _, rfl, iha _ _ _ h1, ihb _ _ _ h2⟩
  | alt a b iha ihb =>
    intro prev s m hm
    simp only [run, List.mem_append] at hm
    rcases hm with h | h
    · exact .inl (iha _ _ _ h)
    · exact .inr (ihb _ _ _ h)
  | star a ih => intro prev s m hm; exact starRun_lang ih _ _ _ _ hm
  | lazyStar a ih => intro prev s m hm; exact lazyRun_lang ih _ _ _ _ hm
  | bot =>
    intro prev s m hm
    simp only [run] at hm
    split at hm <;> simp at hm
    simp [hm, Lang]
  | eot =>
    intro prev s m hm
    simp only [run] at hm
    split at hm <;> simp at hm
    simp [hm, Lang]
  | wordB =>
    intro prev s m hm
    simp only [run] at hm
    split at hm <;> simp at hm
    simp [hm, Lang]
  | grp a ih =>
    intro prev s m hm
    simp only [run, List.mem_map] at hm
    obtain ⟨m1, h1, rfl⟩ := hm
    exact ih _ _ m1 h1

theorem lang_lit (w u : Str) : (lit w).Lang u ↔ u = w := by
  induction w generalizing u with
  | nil => rfl
  | cons c w ih =>
    cases w with
    | nil => simp [lit, Lang]
    | cons d w =>
      simp only [lit, Lang, ih, decide_eq_true_eq]
      constructor
      · rintro ⟨_, _, rfl, ⟨c, rfl, rfl⟩, rfl⟩
        rfl
      · rintro rfl
        exact ⟨[c], _, rfl, ⟨c, rfl, rfl⟩, rfl⟩

theorem lang_star_cls (p : Char → Bool) (u : Str) : (star (cls p)).Lang u ↔ ∀ c ∈ u, p c = true := by
  constructor
  · rintro ⟨l, rfl, h⟩ c hc
    obtain ⟨w, hw, hc⟩ := List.mem_flatten.mp hc
    obtain ⟨d, rfl, hd⟩ := h w hw
    rw [List.mem_singleton.mp hc]
    exact hd
  · intro h
    refine ⟨u.map fun c => [c], ?_, ?_⟩
    · induction u with
      | nil => rfl
      | cons c u ih => simpa using ih fun d hd => h d (by simp [hd])
    · intro w hw
      obtain ⟨c, hc, rfl⟩ := List.mem_map.mp hw
      exact ⟨c, rfl, h c hc⟩

theorem lang_plus_cls (p : Char → Bool) (u : Str) : (plus (cls p)).Lang u ↔ u ≠ [] ∧ ∀ c ∈ u, p c = true := by
  simp only [plus]
  constructor
  · rintro ⟨_, v, rfl, ⟨c, rfl, hc⟩, hv⟩
    rw [lang_star_cls] at hv
    exact ⟨by simp, by simpa using ⟨hc, hv⟩⟩
  · rintro ⟨h0, h⟩
    obtain ⟨c, u, rfl⟩ := List.exists_cons_of_ne_nil h0
    exact ⟨[c], u, rfl, ⟨c, rfl, h c (by simp)⟩, (lang_star_cls p u).mpr fun d hd => h d (by simp [hd])⟩

theorem lang_rep_cls (p : Char → Bool) (n : Nat) (u : Str) (h : (rep (cls p) n).Lang u) : u.length = n := by
  induction n generalizing u with
  | zero => simp [rep, Lang] at h; simp [h]
  | succ n ih =>
    obtain ⟨_, v, rfl, ⟨c, rfl, -⟩, hv⟩ := h
    simp [ih v hv]

end Re

/-! ## The texts of the token types -/

/-- The text of the tokens of this type, if they all have the same. -/
def Sym.word : Sym → Option Str
  | .opLambda => some c!"=>"
  | .opLambdaDef => some c!"->"
  | .opLParen => some c!"("
  | .opRParen => some c!")"
  | .if_ => some c!"if"
  | .else_ => some c!"else"
  | .switch_ => some c!"switch"
  | .case_ => some c!"case"
  | .blockStart => some c!"{"
  | .blockEnd => some c!"}"
  | .opComma => some c!","
  | .opEqual => some c!"=="
  | .opNotEqual => some c!"!="
  | .opLogicalAnd => some c!"&&"
  | .opLogicalOr => some c!"||"
  | .opBitwiseShiftLeft => some c!"<<"
  | .opBitwiseShiftRight => some c!">>"
  | .opLogicalNot => some c!"!"
  | .opBitwiseNot => some c!"~"
  | .opBitwiseAnd => some c!"&"
  | .opBitwiseOr => some c!"|"
  | .opBitwiseXOr => some c!"^"
  | .opMultiplication => some c!"*"
  | .opDivision => some c!"/"
  | .opModulo => some c!"%"
  | .opPlus => some c!"+"
  | .opMinus => some c!"-"
  | .opLessOrEqual => some c!"<="
  | .opMoreOrEqual => some c!">="
  | .opLess => some c!"<"
  | .opMore => some c!">"
  | .opAssign => some c!"="
  | .opCondition => some c!"?"
  | .opColon => some c!":"
  | .opLBracket => some c!"["
  | .opRBracket => some c!"]"
  | .dot => some c!"."
  | .unicode => some c!"\\u"
  | .expr => some c!"${"
  | .directive => some c!"%{"
  | .eol => some c!"\n"
  | .exprEnd => some c!"}"
  | _ => none

/-- What is known of the text of the tokens of a type. -/
def Sym.exact (y : Sym) (w : Str) : Bool :=
  match y.word with
  | some v => decide (w = v)
  | none =>
    match y with
    | .singleLineComment => w.head? = some '/' || w.head? = some '#'
    | .multilineComment => w.head? = some '/' && w.getLast? = some '/'
    | .ident => w.head?.any isAlpha
    | .number => w.any isDigitSep
    | .heredoc => w.head? = some '<'
    | .whitespace => w.head? = some '\t' || w.head? = some ' '
    | .string => w = c!"\"" || w = c!"'"
    | .quote => w = c!"\"" || w = c!"'"
    | .lf => w = c!"\n" || w = c!"\r"
    | .escaped => w.head? = some '\\'
    | .nonExpr => w = c!"$${" || w = c!"%%{"
    | .char => w ≠ [] && w.all fun c => !(c = '$' || c = '%' || c = '"' || c = '\'' || c = '\\')
    | .unicodeLong => w.length = 8
    | .unicodeShort => w.length = 4
    | .body => w ≠ [] && w.all fun c => !(c = '\n' || c = '$' || c = '%')
    | _ => true

/-- The text of a token is one of its type. -/
def Token.exact (t : Token) : Bool := t.sym.exact t.txt

/-- What a token of this type does to the stack. -/
def Sym.action : Sym → LexAction
  | .heredoc => .push .heredoc
  | .string => .push .string
  | .unicode => .push .unicode
  | .expr => .push .stringExpr
  | .directive => .push .stringExpr
  | .stringEnd => .pop
  | .unicodeLong => .pop
  | .unicodeShort => .pop
  | .heredocEnd => .pop
  | .exprEnd => .pop
  | _ => .none

theorem rules_action (st : LexState) : ∀ r ∈ rulesOf st, r.action = r.sym.action := by
  cases st <;>
    simp [rulesOf, coreRules, stringRules, unicodeRules, heredocRules, rule, Sym.action]

/-- The types of the tokens of expressions and items. -/
def Sym.core (y : Sym) : Bool := (coreRules.map Rule.sym).contains y

theorem core_rules : ∀ r ∈ coreRules, r.sym.core = true := by
  intro r hr
  simp only [Sym.core, List.contains_iff_mem]
  exact List.mem_map_of_mem hr

theorem rules_core (st : LexState) (h : st = .root ∨ st = .stringExpr) :
    ∀ r ∈ rulesOf st, r.sym.core = true ∨ r.sym = .exprEnd := by
  rcases h with rfl | rfl
  · intro r hr; exact .inl (core_rules r hr)
  · intro r hr
    rcases List.mem_cons.mp hr with rfl | hr
    · exact .inr rfl
    · exact .inl (core_rules r hr)

/-- The texts of a rule are those of its type. -/
def Rule.exact (g : Str) (r : Rule) : Prop := ∀ w, (r.pat g).Lang w → w ≠ [] → r.sym.exact w = true

theorem Rule.exact_lit {g : Str} {y : Sym} {w : Str} {a : LexAction} (h : y.word = some w) :
    (rule y (lit w) a).exact g := by
  intro u hu _
  rw [show (rule y (lit w) a).pat g = lit w from rfl, lang_lit] at hu
  simp [rule, Sym.exact, h, hu]

theorem Rule.exact_keyword {g : Str} {y : Sym} {w : Str} (h : y.word = some w) : (rule y (reKeyword w)).exact g := by
  rintro u ⟨_, _, rfl, rfl, _, _, rfl, h2, rfl⟩ _
  have h2 : _ = w := (lang_lit w _).mp h2
  simp [rule, Sym.exact, h, h2]

theorem lang_head_lit {w : Str} {b : Re} {u : Str} (h : (seq (lit w) b).Lang u) : w <+: u := by
  obtain ⟨x, y, rfl, hx, -⟩ := h
  rw [lang_lit] at hx
  exact ⟨y, by rw [hx]⟩

theorem number_lang {w : Str} (h : reNumber.Lang w) : (w.any isDigitSep) = true := by
  have zero : ∀ v : Str, ((c!"0" ++ v).any isDigitSep) = true := by
    intro v
    rw [List.any_append, show (c!"0".any isDigitSep) = true by decide]
    rfl
  rcases h with ⟨u, v, rfl, h, -⟩ | ⟨u, v, rfl, h, -⟩ | ⟨u, v, rfl, h, -⟩ | ⟨u, _, rfl, -, v, _, rfl, -, x, y, rfl, h, -⟩
  · rw [(lang_lit _ _).mp h]; exact zero v
  · rw [(lang_lit _ _).mp h]; exact zero v
  · rw [(lang_lit _ _).mp h]; exact zero v
  · obtain ⟨h0, h⟩ := (lang_plus_cls _ _).mp h
    obtain ⟨c, x, rfl⟩ := List.exists_cons_of_ne_nil h0
    have := h c (by simp)
    simp [this]

theorem rules_exact (g : Str) (st : LexState) : ∀ r ∈ rulesOf st, r.exact g := by
  have core : ∀ r ∈ coreRules, r.exact g := by
    unfold coreRules
    simp only [List.forall_mem_cons, List.not_mem_nil, false_imp_iff, implies_true, and_true]
    refine ⟨?_, ?_, ?_⟩
    · rintro w ⟨u, v, rfl, h, -⟩ -
      rcases h with h | h <;> rw [(lang_lit _ _).mp h] <;> rfl
    · rintro w ⟨u, _, rfl, h, v, x, rfl, -, h2⟩ -
      rw [(lang_lit _ _).mp h, (lang_lit _ _).mp h2]
      have : (c!"/*" ++ (v ++ c!"*/")).getLast? = some '/' := by
        rw [← List.append_assoc, List.getLast?_append]
        rfl
      show ((c!"/*" ++ (v ++ c!"*/")).head? = some '/' && (c!"/*" ++ (v ++ c!"*/")).getLast? = some '/') = true
      rw [this]
      rfl
    · and_intros
      all_goals first
        | exact Rule.exact_lit rfl
        | exact Rule.exact_keyword rfl
        | skip
      · rintro w ⟨_, _, rfl, rfl, u, v, rfl, ⟨c, rfl, hc⟩, -⟩ -
        simp [rule, Sym.exact, Sym.word, hc]
      · intro w h _
        exact number_lang h
      · rintro w h -
        obtain ⟨v, rfl⟩ := lang_head_lit h
        rfl
      · rintro w ⟨c, rfl, hc⟩ -
        simpa [rule, Sym.exact, Sym.word] using hc
      · rintro w ⟨c, rfl, hc⟩ -
        simpa [rule, Sym.exact, Sym.word, or_comm] using hc
      · intro w h _
        obtain ⟨h0, h⟩ := (lang_plus_cls _ _).mp h
        obtain ⟨c, w, rfl⟩ := List.exists_cons_of_ne_nil h0
        have := h c (by simp)
        simpa [rule, Sym.exact, Sym.word] using this
  have nonExpr : (rule .nonExpr reNonExpr).exact g := by
    rintro w h -
    rcases h with h | h <;> rw [(lang_lit _ _).mp h] <;> rfl
  cases st
  case root => exact core
  case stringExpr => exact List.forall_mem_cons.mpr ⟨Rule.exact_lit rfl, core⟩
  case string =>
    simp only [rulesOf, stringRules, List.forall_mem_cons, List.not_mem_nil, false_imp_iff, implies_true, and_true]
    refine ⟨Rule.exact_lit rfl, ?_, ?_, ?_, nonExpr, Rule.exact_lit rfl, Rule.exact_lit rfl, ?_⟩
    · rintro w h -
      obtain ⟨v, rfl⟩ := lang_head_lit h
      rfl
    · intro w _ _
      rfl
    · rintro w ⟨c, rfl, hc⟩ -
      simpa [rule, Sym.exact, Sym.word] using hc
    · intro w h _
      obtain ⟨h0, h⟩ := (lang_plus_cls _ _).mp h
      simp only [rule, Sym.exact, Sym.word, Bool.and_eq_true, decide_eq_true_eq, List.all_eq_true]
      exact ⟨h0, h⟩
  case unicode =>
    simp only [rulesOf, unicodeRules, List.forall_mem_cons, List.not_mem_nil, false_imp_iff, implies_true, and_true]
    constructor <;> (intro w h _; simp [rule, Sym.exact, Sym.word, lang_rep_cls _ _ _ h])
  case heredoc =>
    simp only [rulesOf, heredocRules, List.forall_mem_cons, List.not_mem_nil, false_imp_iff, implies_true, and_true]
    refine ⟨?_, Rule.exact_lit rfl, nonExpr, Rule.exact_lit rfl, Rule.exact_lit rfl, ?_⟩
    · intro w _ _
      rfl
    · intro w h _
      obtain ⟨h0, h⟩ := (lang_plus_cls _ _).mp h
      simp only [rule, Sym.exact, Sym.word, Bool.and_eq_true, decide_eq_true_eq, List.all_eq_true]
      exact ⟨h0, h⟩

theorem lexStep_exact {st st' : Stack} {s : Str} {r : Rule} {m : Match} (h : lexStep st s = some (r, m, st')) :
    r.sym.exact m.txt = true := by
  obtain ⟨state, g, below, -, h1, hne, -⟩ := lexStep_some h
  obtain ⟨h2, h3⟩ := firstRule_some h1
  exact rules_exact g state r h2 _ (run_lang _ _ _ _ (List.mem_of_head? h3)) hne

/-! ## The stack along the tokens -/

/-- The states in which items and expressions are read. -/
def LexState.core : LexState → Bool
  | .root | .stringExpr => true
  | _ => false

/-- A token that is lexed with the first stack and leaves the second one. -/
def LexTok (st : Stack) (t : Token) (st' : Stack) : Prop :=
  t.exact = true ∧ ∃ state g below, st = (state, g) :: below ∧ (state.core = true → t.sym.core = true ∨ t.sym = .exprEnd) ∧
    (state = .root → t.sym.core = true) ∧
    match t.sym.action with
    | .none => st' = st
    | .push new => ∃ g', st' = (new, g') :: st
    | .pop => st' = below

/-- Tokens that are lexed one after the other. -/
inductive TokRun : Stack → List Token → Stack → Prop
  | nil (st : Stack) : TokRun st [] st
  | cons {st st₁ st₂ : Stack} {t : Token} {ts : List Token} : LexTok st t st₁ → TokRun st₁ ts st₂ → TokRun st (t :: ts) st₂

theorem TokRun.split {st st₂ : Stack} {a b : List Token} (h : TokRun st (a ++ b) st₂) :
    ∃ st₁, TokRun st a st₁ ∧ TokRun st₁ b st₂ := by
  induction a generalizing st with
  | nil => exact ⟨st, .nil _, h⟩
  | cons t a ih =>
    cases h with
    | cons h1 h2 =>
      obtain ⟨st₁, h3, h4⟩ := ih h2
      exact ⟨st₁, .cons h1 h3, h4⟩

theorem TokRun.one {st st' : Stack} {t : Token} (h : TokRun st [t] st') : LexTok st t st' := by
  cases h with
  | cons h1 h2 => cases h2; exact h1

theorem lexStep_tok {st st' : Stack} {s : Str} {r : Rule} {m : Match} (pos : Position) (h : lexStep st s = some (r, m, st')) :
    LexTok st ⟨r.sym, m.txt, pos⟩ st' := by
  refine ⟨lexStep_exact h, ?_⟩
  obtain ⟨state, g, below, rfl, h1, -, h4⟩ := lexStep_some h
  have h2 := (firstRule_some h1).1
  refine ⟨state, g, below, rfl, ?_, ?_, ?_⟩
  · intro hc
    refine rules_core state ?_ r h2
    cases state <;> simp_all [LexState.core]
  · rintro rfl
    exact core_rules r h2
  · rw [rules_action state r h2] at h4
    simp only
    revert h4
    cases r.sym.action with
    | none => exact id
    | push new => exact fun h => ⟨_, h⟩
    | pop => exact id

theorem lexFrom_run (n : Nat) (st : Stack) (pos : Position) (s : Str) (ts : List Token) (h : lexFrom n st pos s = some ts) :
    ∃ st', TokRun st ts st' := by
  induction n generalizing st pos s ts with
  | zero =>
    cases s with
    | nil => cases h; exact ⟨st, .nil _⟩
    | cons c s => cases h
  | succ n ih =>
    cases s with
    | nil => cases h; exact ⟨st, .nil _⟩
    | cons c s =>
      simp only [lexFrom, Option.bind_eq_bind, Option.bind_eq_some_iff, Option.pure_def, Option.some.injEq] at h
      obtain ⟨⟨r, m, st1⟩, h1, ts', h2, rfl⟩ := h
      obtain ⟨st2, h3⟩ := ih _ _ _ _ h2
      refine ⟨st2, ?_⟩
      split
      · rename_i hw
        have := lexStep_tok pos h1
        obtain ⟨-, state, g, below, rfl, -, -, h5⟩ := this
        have hw : r.sym = .whitespace := hw
        rw [show (⟨r.sym, m.txt, pos⟩ : Token).sym.action = .none from by rw [hw]; rfl] at h5
        subst h5
        exact h3
      · exact .cons (lexStep_tok pos h1) h3

theorem lex_run {s : Str} {ts : List Token} (h : lex s = some ts) : ∃ st, TokRun [(.root, [])] ts st :=
  lexFrom_run _ _ _ _ _ h

theorem TokRun.exact {st st' : Stack} {ts : List Token} (h : TokRun st ts st') : ∀ t ∈ ts, t.exact = true := by
  induction h with
  | nil => simp
  | cons h1 _ ih => exact List.forall_mem_cons.mpr ⟨h1.1, ih⟩

end Verif.Etx
