import Verif.Etx.LexJoin
import Verif.Etx.Crlf
import Verif.Etx.WrittenText
import Verif.Etx.Strict
import Verif.Props.LexStrings

/-!
# Lexing a text that is followed by a closing bracket

A text that is read outside of quotes is read in the same way between `${` and `}`, if it contains no `}` itself and does not end
with a comment `// …`: no other pattern looks past a `}` (`rule_end`), and the rules of the state `StringExpr` are those of `Root`
but for the rule of `}` (`lexStep_inner`).
-/

namespace Verif.Etx

namespace Re

/-- An expression that does not match `c` does not look past it. -/
theorem run_end (r : Re) (he : r.noEot = true) {c : Char} (hw : isWord c = false) (hc : r.chars c = false) (b : Str) : ∀ prev u,
    r.run prev (u ++ c :: b) = (r.run prev u).map (Match.ext (c :: b)) := by
  induction r with
  | eps => intro prev u; rfl
  | cls p =>
    intro prev u
    cases u with
    | nil =>
      have hc : p c = false := hc
      simp [run, hc]
    | cons d u =>
      simp only [List.cons_append, run]
      split <;> rfl
  | seq a d iha ihd =>
    intro prev u
    simp only [noEot, Bool.and_eq_true, chars, Bool.or_eq_false_iff] at he hc
    simp only [run, iha he.1 hc.1 prev u]
    refine flatMap_ext fun m hm => ?_
    show (d.run (m.last prev) (m.rest ++ c :: b)).map m.andThen = _
    rw [ihd he.2 hc.2]
    simp only [List.map_map]
    rfl
  | alt a d iha ihd =>
    intro prev u
    simp only [noEot, Bool.and_eq_true, chars, Bool.or_eq_false_iff] at he hc
    simp only [run, iha he.1 hc.1 prev u, ihd he.2 hc.2 prev u, List.map_append]
  | star a iha =>
    have : ∀ n prev u, u.length ≤ n → (star a).run prev (u ++ c :: b) = ((star a).run prev u).map (Match.ext (c :: b)) := by
      intro n
      induction n with
      | zero =>
        intro prev u hn
        cases u with
        | nil =>
          have e : ∀ m ∈ a.run prev [], m.txt = [] := by
            intro m hm
            have := run_split _ _ _ _ hm
            simp only [List.append_eq_nil_iff] at this
            exact this.1
          have e' : (a.run prev []).filter (fun m => decide (m.txt ≠ [])) = [] := by
            rw [List.filter_eq_nil_iff]
            intro m hm
            simp [e m hm]
          rw [run_star, run_star, iha he hc prev [], List.filter_map]
          show (List.map _ (List.filter (fun m => decide (m.txt ≠ [])) (a.run prev []))).flatMap _ ++ _ = _
          rw [e']
          rfl
        | cons => simp at hn
      | succ n ih =>
        intro prev u hn
        rw [run_star, run_star, iha he hc prev u, List.map_append, List.filter_map]
        congr 1
        show (List.map (Match.ext (c :: b)) (List.filter (fun m => decide (m.txt ≠ [])) (a.run prev u))).flatMap _ = _
        refine flatMap_ext fun m hm => ?_
        obtain ⟨hm, hne⟩ := List.mem_filter.mp hm
        have hlt := run_rest_lt hm (by simpa using hne)
        show ((star a).run (m.last prev) (m.rest ++ c :: b)).map m.andThen = _
        rw [ih _ _ (by omega)]
        simp only [List.map_map]
        rfl
    exact fun prev u => this u.length prev u (Nat.le_refl _)
  | lazyStar a iha =>
    have : ∀ n prev u, u.length ≤ n → (lazyStar a).run prev (u ++ c :: b) = ((lazyStar a).run prev u).map (Match.ext (c :: b)) := by
      intro n
      induction n with
      | zero =>
        intro prev u hn
        cases u with
        | nil =>
          have e : ∀ m ∈ a.run prev [], m.txt = [] := by
            intro m hm
            have := run_split _ _ _ _ hm
            simp only [List.append_eq_nil_iff] at this
            exact this.1
          have e' : (a.run prev []).filter (fun m => decide (m.txt ≠ [])) = [] := by
            rw [List.filter_eq_nil_iff]
            intro m hm
            simp [e m hm]
          rw [run_lazyStar, run_lazyStar, iha he hc prev [], List.filter_map]
          show _ :: (List.map _ (List.filter (fun m => decide (m.txt ≠ [])) (a.run prev []))).flatMap _ = _
          rw [e']
          rfl
        | cons => simp at hn
      | succ n ih =>
        intro prev u hn
        rw [run_lazyStar, run_lazyStar, iha he hc prev u, List.map_cons, List.filter_map]
        congr 1
        show (List.map (Match.ext (c :: b)) (List.filter (fun m => decide (m.txt ≠ [])) (a.run prev u))).flatMap _ = _
        refine flatMap_ext fun m hm => ?_
        obtain ⟨hm, hne⟩ := List.mem_filter.mp hm
        have hlt := run_rest_lt hm (by simpa using hne)
        show ((lazyStar a).run (m.last prev) (m.rest ++ c :: b)).map m.andThen = _
        rw [ih _ _ (by omega)]
        simp only [List.map_map]
        rfl
    exact fun prev u => this u.length prev u (Nat.le_refl _)
  | bot =>
    intro prev u
    simp only [run]
    split <;> rfl
  | eot => cases he
  | wordB =>
    intro prev u
    cases u with
    | nil =>
      show (if (prev.any isWord) ≠ (some c).any isWord then [Match.nothing (c :: b)] else []) =
        List.map _ (if (prev.any isWord) ≠ (none : Option Char).any isWord then [Match.nothing []] else [])
      simp only [Option.any_some, Option.any_none, hw]
      split <;> rfl
    | cons d u =>
      show (if (prev.any isWord) ≠ (some d).any isWord then [Match.nothing (d :: (u ++ c :: b))] else []) =
        List.map _ (if (prev.any isWord) ≠ (some d).any isWord then [Match.nothing (d :: u)] else [])
      split <;> rfl
  | grp a iha =>
    intro prev u
    simp only [run, iha he hc prev u, List.map_map]
    rfl

theorem first_end {r : Re} (he : r.noEot = true) {c : Char} (hw : isWord c = false) (hc : r.chars c = false) (b u : Str) :
    r.first (u ++ c :: b) = (r.first u).map (Match.ext (c :: b)) := by
  rw [first, first, run_end r he hw hc b none u, List.head?_map]

theorem first_cls_ne (p : Char → Bool) {u : Str} (hu : u ≠ []) (b : Str) : (cls p).first (u ++ b) = ((cls p).first u).map (Match.ext b) := by
  cases u with
  | nil => exact absurd rfl hu
  | cons c u =>
    simp only [first, List.cons_append, run]
    split <;> rfl

end Re

open Re

theorem prefix_end {p u b : Str} {c : Char} (hc : c ∉ p) : p <+: u ++ c :: b ↔ p <+: u := by
  constructor
  · intro h
    induction u generalizing p with
    | nil =>
      cases p with
      | nil => simp
      | cons d p =>
        simp only [List.nil_append, List.cons_prefix_cons] at h
        exact absurd (by simp [h.1]) hc
    | cons d u ih =>
      cases p with
      | nil => simp
      | cons e p =>
        simp only [List.cons_append, List.cons_prefix_cons] at h ⊢
        exact ⟨h.1, ih (fun h => hc (by simp [h])) h.2⟩
  · exact fun h => h.trans (List.prefix_append _ _)

/-- The characters that can close an expression. -/
def Closer (c : Char) : Prop := c = '}' ∨ c = ')' ∨ c = ']' ∨ c = ','

/-- A text that opens a heredoc if the line ends after it. -/
def HeredocHead (u : Str) : Prop := ∃ o w, (o = [] ∨ o = c!"-") ∧ WordPart w ∧ u = c!"<<" ++ o ++ w

/-- The last character is no blank. -/
def NoBlankEnd (s : Str) : Prop := ∀ d ∈ s.getLast?, isBlank d = false

/-- The characters that can come after the text `s`: a line end does if this opens no heredoc, a blank if it is the first one. -/
def Ends (c : Char) (s : Str) : Prop := Closer c ∨ c = '\n' ∧ (∀ u, u <:+ s → ¬ HeredocHead u) ∨ c = ' ' ∧ NoBlankEnd s

theorem Closer.ends {c : Char} (h : Closer c) (s : Str) : Ends c s := .inl h

theorem Ends.suffix {c : Char} {s u : Str} (h : Ends c s) (hu : u <:+ s) : Ends c u :=
  h.imp_right fun h => h.imp (fun h => ⟨h.1, fun v hv => h.2 v (hv.trans hu)⟩) fun h => ⟨h.1, fun d hd => h.2 d (by
    obtain ⟨v, rfl⟩ := hu
    rw [List.getLast?_append, hd]
    rfl)⟩

theorem Ends.cases {c : Char} {s : Str} (h : Ends c s) : c = '}' ∨ c = ')' ∨ c = ']' ∨ c = ',' ∨ c = '\n' ∨ c = ' ' := by
  rcases h with (h | h | h | h) | h | h
  · exact .inl h
  · exact .inr (.inl h)
  · exact .inr (.inr (.inl h))
  · exact .inr (.inr (.inr (.inl h)))
  · exact .inr (.inr (.inr (.inr (.inl h.1))))
  · exact .inr (.inr (.inr (.inr (.inr h.1))))

theorem first_heredoc {tabs : Bool} {d : Str} (hd : WordPart d) (y : Str) :
    reHeredoc.first (heredocToken tabs d ++ y) = some ⟨heredocToken tabs d, some d, y⟩ :=
  head_heredoc tabs d hd.1 hd.2 y none _ (head_newline y)

/-- The opening of a heredoc in front of a line end. -/
theorem first_heredoc_end {u : Str} (hu : ¬ HeredocHead u) (b : Str) :
    reHeredoc.first (u ++ '\n' :: b) = (reHeredoc.first u).map (Match.ext ('\n' :: b)) := by
  have form : ∀ {s : Str} {m : Match}, reHeredoc.first s = some m →
      ∃ tabs d, WordPart d ∧ m = ⟨heredocToken tabs d, some d, m.rest⟩ ∧ s = heredocToken tabs d ++ m.rest := by
    intro s m h
    have hm := List.mem_of_head? h
    obtain ⟨tabs, d, h1, h2, h3, h4⟩ := heredoc_match hm
    have h5 := run_split _ _ _ _ hm
    refine ⟨tabs, d, ⟨h1, h2⟩, ?_, by rw [← h5, h3]⟩
    rw [← h3, ← h4]
  cases e : reHeredoc.first u with
  | some m =>
    obtain ⟨tabs, d, hd, hm, hs⟩ := form e
    rw [hs, List.append_assoc, first_heredoc hd, hm]
    rfl
  | none =>
    cases e' : reHeredoc.first (u ++ '\n' :: b) with
    | none => rfl
    | some m =>
      exfalso
      obtain ⟨tabs, d, hd, -, hs⟩ := form e'
      rw [List.append_eq_append_iff] at hs
      rcases hs with ⟨v, hv, hb⟩ | ⟨v, hv, -⟩
      · have hhead : HeredocHead (c!"<<" ++ (if tabs then c!"-" else []) ++ d) := ⟨_, d, by cases tabs <;> simp, hd, rfl⟩
        cases v with
        | nil =>
          rw [List.append_nil] at hv
          subst hv
          have := first_heredoc (tabs := tabs) hd []
          rw [List.append_nil, e] at this
          cases this
        | cons x v =>
          simp only [List.cons_append, List.cons.injEq] at hb
          obtain ⟨rfl, -⟩ := hb
          rw [heredocToken] at hv
          have hn : '\n' ∉ c!"<<" ++ (if tabs then c!"-" else []) ++ d := by
            intro hm
            simp only [List.mem_append] at hm
            rcases hm with (hm | hm) | hm
            · revert hm; decide
            · cases tabs <;> revert hm <;> decide
            · have := hd.2 _ hm
              revert this; decide
          rcases List.append_eq_append_iff.mp hv with ⟨w, hw, hw'⟩ | ⟨w, hw, hw'⟩
          · cases w with
            | nil => rw [List.append_nil] at hw; exact hu (hw ▸ hhead)
            | cons y w =>
              have := congrArg List.length hw'
              simp at this
          · cases w with
            | nil => rw [List.append_nil] at hw; exact hu (hw ▸ hhead)
            | cons y w =>
              simp only [List.cons_append, List.cons.injEq] at hw'
              obtain ⟨rfl, -⟩ := hw'
              exact hn (by rw [hw]; simp)
      · rw [hv, first_heredoc hd] at e
        cases e

theorem first_singleLine_end {c : Char} {u : Str} (hc : Ends c u) (b : Str) :
    reSingleLine.first (u ++ c :: b) = (reSingleLine.first u).map (Match.ext (c :: b)) ∨
      ∃ m, reSingleLine.first u = some m ∧ m.rest = [] := by
  rw [first_singleLine, first_singleLine]
  have h1 : c ∉ c!"//" := by rcases hc.cases with rfl | rfl | rfl | rfl | rfl | rfl <;> decide
  have h2 : c ∉ c!"#" := by rcases hc.cases with rfl | rfl | rfl | rfl | rfl | rfl <;> decide
  simp only [prefix_end h1, prefix_end h2]
  by_cases h : c!"//" <+: u ∨ c!"#" <+: u
  · rw [if_pos h, if_pos h]
    by_cases e : u.dropWhile (· ≠ '\n') = []
    · exact .inr ⟨_, rfl, e⟩
    · left
      simp only [Option.map_some, Match.ext, Option.some.injEq, Match.mk.injEq, true_and]
      constructor
      · rw [List.takeWhile_append, if_neg]
        intro h'
        apply e
        have := congrArg List.length (List.takeWhile_append_dropWhile (p := (· ≠ '\n')) (l := u))
        rw [List.length_append] at this
        exact List.length_eq_zero_iff.mp (by omega)
      · rw [List.dropWhile_append, if_neg (by simpa using e)]
  · rw [if_neg h, if_neg h]
    exact .inl rfl

theorem first_multiline_end {c : Char} {u : Str} (hc : Ends c u) (b : Str) (h : ¬ Unclosed u) :
    reMultiline.first (u ++ c :: b) = (reMultiline.first u).map (Match.ext (c :: b)) := by
  by_cases hp : c!"/*" <+: u
  · obtain ⟨y, rfl⟩ := hp
    cases hcl : closeAt y with
    | none => exact absurd ⟨y, rfl, hcl⟩ h
    | some x =>
      obtain ⟨a, r⟩ := x
      rw [List.append_assoc, first_multiline, first_multiline, hcl, closeAt_ext hcl]
      rfl
  · rw [first_multiline_none u hp, first_multiline_none]
    · rfl
    · rwa [prefix_end (by rcases hc.cases with rfl | rfl | rfl | rfl | rfl | rfl <;> decide)]

theorem first_escaped_end {c : Char} {u : Str} (b : Str) (h0 : u ≠ []) (h : u ≠ c!"\\") :
    (seq (lit c!"\\") (cls (· ≠ '\n'))).first (u ++ c :: b) =
      ((seq (lit c!"\\") (cls (· ≠ '\n'))).first u).map (Match.ext (c :: b)) := by
  rw [first_escaped, first_escaped]
  match u with
  | [] => exact absurd rfl h0
  | [d] =>
    by_cases hd : d = '\\'
    · subst hd; exact absurd rfl h
    · simp [hd]
  | d :: e :: u =>
    by_cases hd : d = '\\'
    · subst hd
      simp only [List.cons_append]
      split <;> rfl
    · simp [hd]

/-- The rules that can read on. -/
def Sym.openEnd (y : Sym) : Bool := y = .char || y = .body || y = .singleLineComment

/-- How far the match of a rule depends on a bracket that follows. -/
theorem rule_end {c : Char} {u : Str} (hc : Ends c u) {state : LexState} {g : Str} (hg : c ∉ g) (b : Str) (h0 : u ≠ [])
    (hu : state.core = true → ¬ Unclosed u) (hb : state = .string → u ≠ c!"\\") (r : Rule) (hr : r ∈ rulesOf state) :
    (r.pat g).first (u ++ c :: b) = ((r.pat g).first u).map (Match.ext (c :: b)) ∨
      r.sym.openEnd = true ∧ ∃ m, (r.pat g).first u = some m ∧ m.rest = [] := by
  have single : ∀ d, (lit [d]).first (u ++ c :: b) = ((lit [d]).first u).map (Match.ext (c :: b)) := fun d => first_cls_ne _ h0 _
  have hw : isWord c = false := by rcases hc.cases with rfl | rfl | rfl | rfl | rfl | rfl <;> rfl
  have simple : ∀ {r : Re}, r.noEot = true → r.chars c = false →
      r.first (u ++ c :: b) = (r.first u).map (Match.ext (c :: b)) := fun h1 h2 => first_end h1 hw h2 b u
  have none6 : ∀ {r : Re}, r.noEot = true → r.chars '}' = false → r.chars ')' = false → r.chars ']' = false → r.chars ',' = false →
      r.chars '\n' = false → r.chars ' ' = false → r.first (u ++ c :: b) = (r.first u).map (Match.ext (c :: b)) := fun h1 h2 h3 h4 h5 h6 h7 => simple h1 (by
    rcases hc.cases with rfl | rfl | rfl | rfl | rfl | rfl <;> assumption)
  have heredoc : reHeredoc.first (u ++ c :: b) = (reHeredoc.first u).map (Match.ext (c :: b)) := by
    rcases hc with hc | ⟨rfl, hc⟩ | ⟨rfl, -⟩
    · exact simple rfl (by rcases hc with rfl | rfl | rfl | rfl <;> rfl)
    · exact first_heredoc_end (hc u (List.suffix_refl _)) b
    · exact simple rfl rfl
  have blank : (plus (cls fun c => c = '\t' || c = ' ')).first (u ++ c :: b) =
      ((plus (cls fun c => c = '\t' || c = ' ')).first u).map (Match.ext (c :: b)) := by
    rcases hc with hc | ⟨rfl, -⟩ | ⟨-, hc⟩
    · exact simple rfl (by rcases hc with rfl | rfl | rfl | rfl <;> rfl)
    · exact simple rfl rfl
    · rcases first_plus (fun c => c = '\t' || c = ' ') u (c :: b) h0 with h | ⟨m, h1, h2⟩
      · exact h
      · exfalso
        have h3 := run_split _ _ _ _ (List.mem_of_head? h1)
        rw [h2, List.append_nil] at h3
        obtain ⟨d, hd⟩ : ∃ d, u.getLast? = some d := ⟨_, List.getLast?_eq_some_getLast h0⟩
        have h4 : (decide (d = '\t') || decide (d = ' ')) = true := by
          have := run_chars _ _ _ _ (List.mem_of_head? h1) d (by rw [h3]; exact List.mem_of_getLast? hd)
          simpa [plus, chars] using this
        have h5 := hc d hd
        simp only [isBlank, Bool.or_eq_true, decide_eq_true_eq, Bool.or_eq_false_iff, decide_eq_false_iff_not] at h4 h5
        exact h4.elim h5.2 h5.1
  have core : state.core = true → ∀ r ∈ coreRules, (r.pat g).first (u ++ c :: b) = ((r.pat g).first u).map (Match.ext (c :: b)) ∨
      r.sym.openEnd = true ∧ ∃ m, (r.pat g).first u = some m ∧ m.rest = [] := by
    intro h r hr
    have : ((r.pat g).noEot = true ∧ (r.pat g).chars '}' = false ∧ (r.pat g).chars ')' = false ∧ (r.pat g).chars ']' = false ∧
        (r.pat g).chars ',' = false ∧ (r.pat g).chars '\n' = false ∧ (r.pat g).chars ' ' = false) ∨ r.pat g = reMultiline ∨ (∃ d, r.pat g = lit [d]) ∨
        (r.pat g = reSingleLine ∧ r.sym = .singleLineComment) ∨ r.pat g = reHeredoc ∨ (∃ p, r.pat g = cls p) ∨
        r.pat g = plus (cls fun c => c = '\t' || c = ' ') := by
      revert r
      unfold coreRules
      simp only [List.forall_mem_cons, rule]
      repeat' apply And.intro
      all_goals first
        | exact .inl ⟨rfl, rfl, rfl, rfl, rfl, rfl, rfl⟩ | exact .inr (.inl rfl) | exact .inr (.inr (.inl ⟨_, rfl⟩))
        | exact .inr (.inr (.inr (.inl ⟨rfl, rfl⟩))) | exact .inr (.inr (.inr (.inr (.inl rfl))))
        | exact .inr (.inr (.inr (.inr (.inr (.inl ⟨_, rfl⟩))))) | exact .inr (.inr (.inr (.inr (.inr (.inr rfl))))) | simp
    rcases this with ⟨h1, h2, h3, h4, h5, h6, h7⟩ | h1 | ⟨d, h1⟩ | ⟨h1, h2⟩ | h1 | ⟨p, h1⟩ | h1
    · exact .inl (none6 h1 h2 h3 h4 h5 h6 h7)
    · rw [h1]; exact .inl (first_multiline_end hc b (hu h))
    · rw [h1]; exact .inl (single d)
    · rw [h1]
      rcases first_singleLine_end hc b with h3 | h3
      · exact .inl h3
      · exact .inr ⟨by rw [h2]; rfl, h3⟩
    · rw [h1]; exact .inl heredoc
    · rw [h1]; exact .inl (first_cls_ne p h0 _)
    · rw [h1]; exact .inl blank
  cases state with
  | root => exact core rfl r hr
  | stringExpr =>
    rcases List.mem_cons.mp hr with rfl | hr
    · exact .inl (single '}')
    · exact core rfl r hr
  | unicode =>
    refine .inl ?_
    revert r
    simp only [rulesOf, unicodeRules, List.forall_mem_cons]
    exact ⟨none6 rfl rfl rfl rfl rfl rfl rfl, none6 rfl rfl rfl rfl rfl rfl rfl, by simp⟩
  | heredoc =>
    revert r
    simp only [rulesOf, heredocRules, List.forall_mem_cons]
    refine ⟨.inl (simple (by simp [noEot, noEot_lit]) (by simp [chars, chars_lit hg])), .inl (single '\n'),
      .inl (none6 rfl rfl rfl rfl rfl rfl rfl), .inl (none6 rfl rfl rfl rfl rfl rfl rfl), .inl (none6 rfl rfl rfl rfl rfl rfl rfl), ?_, by simp⟩
    rcases first_plus (fun c => !(c = '\n' || c = '$' || c = '%')) u (c :: b) h0 with h | h
    · exact .inl h
    · exact .inr ⟨rfl, h⟩
  | string =>
    revert r
    simp only [rulesOf, stringRules, List.forall_mem_cons]
    refine ⟨.inl (none6 rfl rfl rfl rfl rfl rfl rfl), .inl (first_escaped_end b h0 (hb rfl)), .inl (simple (noEot_lit _) (chars_lit hg)),
      .inl (none6 rfl rfl rfl rfl rfl rfl rfl), .inl (none6 rfl rfl rfl rfl rfl rfl rfl), .inl (none6 rfl rfl rfl rfl rfl rfl rfl), .inl (none6 rfl rfl rfl rfl rfl rfl rfl),
      ?_, by simp⟩
    rcases first_plus (fun c => !(c = '$' || c = '%' || c = '"' || c = '\'' || c = '\\')) u (c :: b) h0 with h | h
    · exact .inl h
    · exact .inr ⟨rfl, h⟩

theorem firstRule_brace {g u b : Str} {rs : List Rule} (h : ∀ r ∈ rs, (r.pat g).first (u ++ b) = ((r.pat g).first u).map (Match.ext b) ∨
      r.sym.openEnd = true ∧ ∃ m, (r.pat g).first u = some m ∧ m.rest = [])
    {r : Rule} {m : Match} (hr : firstRule g u rs = some (r, m)) (hm : r.sym.openEnd = true → m.rest ≠ []) :
    firstRule g (u ++ b) rs = some (r, m.ext b) := by
  induction rs with
  | nil => cases hr
  | cons x rs ih =>
    simp only [firstRule] at hr ⊢
    rcases h x (by simp) with hx | ⟨hx, m', hx1, hx2⟩
    · rw [hx]
      cases e : (x.pat g).first u with
      | none =>
        rw [e] at hr
        exact ih (fun r hr => h r (by simp [hr])) hr
      | some m' =>
        rw [e] at hr
        cases hr
        rfl
    · rw [hx1] at hr
      cases hr
      exact absurd hx2 (hm hx)

/-- The groups of the stack. -/
def QuoteStack (st : Stack) : Prop := ∀ x ∈ st, ∀ c ∈ c!"\\})],\n ", c ∉ x.2

theorem QuoteStack.step {st st' : Stack} {s : Str} {r : Rule} {m : Match} (h : QuoteStack st)
    (hs : lexStep st s = some (r, m, st')) : QuoteStack st' := by
  obtain ⟨state, g, below, rfl, hr, -, rfl⟩ := lexStep_some hs
  obtain ⟨hmem, hfirst⟩ := firstRule_some hr
  cases ha : r.action with
  | none => exact h
  | push new =>
    intro x hx
    rcases List.mem_cons.1 hx with rfl | hx
    · have hm := List.mem_of_head? hfirst
      have : (∀ c ∈ c!"\\})],\n ", (r.pat g).groupChars c = false) ∨ r.action = .none := by
        have core : ∀ r ∈ coreRules, (∀ c ∈ c!"\\})],\n ", (r.pat g).groupChars c = false) ∨ r.action = .none := by
          unfold coreRules
          simp only [List.forall_mem_cons, rule]
          repeat' apply And.intro
          all_goals first | exact .inr rfl | exact .inl ⟨rfl, rfl, rfl, rfl, rfl, rfl, rfl, by simp⟩ | simp
        cases state with
        | root => exact core r hmem
        | stringExpr =>
          rcases List.mem_cons.mp hmem with rfl | hmem
          · exact .inl (by simp only [List.forall_mem_cons]; exact ⟨rfl, rfl, rfl, rfl, rfl, rfl, rfl, by simp⟩)
          · exact core r hmem
        | unicode =>
          clear hr hs hfirst hm ha core
          revert r
          simp only [rulesOf, unicodeRules, List.forall_mem_cons]
          exact ⟨.inl ⟨rfl, rfl, rfl, rfl, rfl, rfl, rfl, by simp⟩, .inl ⟨rfl, rfl, rfl, rfl, rfl, rfl, rfl, by simp⟩, by simp⟩
        | heredoc =>
          clear hr hs hfirst hm ha core
          revert r
          simp only [rulesOf, heredocRules, List.forall_mem_cons]
          exact ⟨.inl (by simp [groupChars, groupChars_lit]), .inr rfl, .inr rfl, .inl ⟨rfl, rfl, rfl, rfl, rfl, rfl, rfl, by simp⟩,
            .inl ⟨rfl, rfl, rfl, rfl, rfl, rfl, rfl, by simp⟩, .inr rfl, by simp⟩
        | string =>
          clear hr hs hfirst hm ha core
          revert r
          simp only [rulesOf, stringRules, List.forall_mem_cons]
          exact ⟨.inl ⟨rfl, rfl, rfl, rfl, rfl, rfl, rfl, by simp⟩, .inr rfl, .inl (by simp [groupChars_lit]), .inr rfl, .inr rfl,
            .inl ⟨rfl, rfl, rfl, rfl, rfl, rfl, rfl, by simp⟩, .inl ⟨rfl, rfl, rfl, rfl, rfl, rfl, rfl, by simp⟩, .inr rfl, by simp⟩
      rcases this with h1 | h1
      · intro c hc hc'
        have := h1 c hc
        rw [run_group _ _ _ _ hm _ hc'] at this
        cases this
      · rw [h1] at ha; cases ha
    · exact h x hx
  | pop => exact fun x hx => h x (List.mem_cons_of_mem _ hx)

/-- A backslash alone is no token. -/
theorem string_only_backslash {g : Str} {r : Rule} {m : Match} (hg : '\\' ∉ g) (h : firstRule g c!"\\" stringRules = some (r, m)) :
    m.txt = [] := by
  have hf := (firstRule_some h).2
  by_contra hm
  have hs := run_split _ _ _ _ (List.mem_of_head? hf)
  have hmem := (firstRule_some h).1
  have hc : '\\' ∈ m.txt := by
    cases ht : m.txt with
    | nil => exact absurd ht hm
    | cons d w =>
      rw [ht] at hs
      simp only [List.cons_append, List.cons.injEq] at hs
      rw [hs.1]
      simp
  have hc := run_chars _ _ _ _ (List.mem_of_head? hf) _ hc
  have : ∀ r ∈ stringRules, r.pat g = lit c!"\\u" ∨ r.pat g = seq (lit c!"\\") (cls (· ≠ '\n')) ∨ (r.pat g).chars '\\' = false := by
    simp only [stringRules, List.forall_mem_cons]
    exact ⟨.inl rfl, .inr (.inl rfl), .inr (.inr (chars_lit hg)), .inr (.inr rfl), .inr (.inr rfl), .inr (.inr rfl), .inr (.inr rfl),
      .inr (.inr rfl), by simp⟩
  rcases this r hmem with h1 | h1 | h1
  · rw [h1] at hf
    cases hf
  · rw [h1] at hf
    cases hf
  · rw [hc] at h1
    cases h1

/-- **Lexing a text in front of a closing bracket, a comma, a line end or a blank**: the tokens are those of the text alone. -/
theorem lexAll_outer (n : Nat) (s : Str) (hn : s.length ≤ n) (st : Stack) (pos : Position) (ts : List Token)
    (hst : QuoteStack st) (h : lexAll st pos s = some ts) (hc : ts.IsChain Apart)
    (hl : ∀ t ∈ ts.getLast?, t.sym.openEnd = false) :
    ∃ st', TokRun st ts st' ∧ ∀ c, Ends c s → ∀ b, LexRun st (s ++ c :: b) (ts.map fun t => (t.sym, t.txt)) st' (c :: b) := by
  have base : ∀ st : Stack, ∃ st' : Stack, TokRun st [] st' ∧ ∀ c, Ends c [] → ∀ b, LexRun st ([] ++ c :: b) [] st' (c :: b) :=
    fun st => ⟨st, .nil _, fun c _ b => .refl _ _⟩
  induction n generalizing s st pos ts with
  | zero =>
    cases s with
    | nil => cases h; exact base st
    | cons => simp at hn
  | succ n ih =>
    by_cases hz : s = []
    · subst hz; cases h; exact base st
    rw [lexAll_step hz] at h
    simp only [Option.bind_eq_some_iff, Option.map_eq_some_iff] at h
    obtain ⟨⟨r, m, st'⟩, h1, ts', h2, h3⟩ := h
    simp only at h2 h3
    obtain ⟨hsp, hne, hlt⟩ := lexStep_split h1
    have hsub : ts' <:+ ts := by
      rw [← h3]
      split
      · exact List.suffix_refl _
      · exact List.suffix_cons _ _
    have hc' : ts'.IsChain Apart := by
      obtain ⟨u, hu⟩ := hsub
      rw [← hu] at hc
      exact hc.right_of_append
    have hl' : ∀ t ∈ ts'.getLast?, t.sym.openEnd = false := by
      intro t ht
      obtain ⟨u, hu⟩ := hsub
      refine hl t ?_
      rw [← hu, List.getLast?_append, ht]
      rfl
    obtain ⟨stF, r1, r2⟩ := ih m.rest (by omega) st' (pos.advance m.txt) ts' (hst.step h1) h2 hc' hl'
    have hopen : r.sym.openEnd = true → m.rest ≠ [] := by
      intro e1 e2
      rw [e2] at h2
      cases h2
      have hw : r.sym ≠ .whitespace := by intro e; rw [e] at e1; cases e1
      have := hl ⟨r.sym, m.txt, pos⟩ (by rw [← h3]; simp [hw])
      rw [e1] at this
      cases this
    have hu : st.head?.any (·.1.core) = true → ¬ Unclosed s := by
      intro e1 e2
      obtain ⟨e3, t, ts'', rfl, e4⟩ := lexAll_unclosed e2 e1 h1 h2
      rw [e3] at h3
      rw [← h3] at hc
      simp only [reduceCtorEq, if_false, List.isChain_cons_cons] at hc
      exact hc.1 ⟨rfl, e4⟩
    refine ⟨stF, ?_, fun c hcl b => ?_⟩
    · rw [← h3]
      split
      · rename_i hw
        obtain ⟨-, state, g', below', e, -, -, h4⟩ := lexStep_tok pos h1
        simp only [hw, Sym.action] at h4
        rw [← h4]
        exact r1
      · exact .cons (lexStep_tok pos h1) r1
    · have hstep : lexStep st (s ++ c :: b) = some (r, m.ext (c :: b), st') := by
        obtain ⟨state, g, rest, rfl, f2, f3, f4⟩ := lexStep_some h1
        have hg := hst (state, g) (by simp) c (by rcases hcl.cases with rfl | rfl | rfl | rfl | rfl | rfl <;> simp)
        have hg' := hst (state, g) (by simp) '\\' (by simp)
        have hb : state = .string → s ≠ c!"\\" := by
          rintro rfl rfl
          exact f3 (string_only_backslash hg' f2)
        rw [lexStep_of (firstRule_brace (b := c :: b) (fun r hr => rule_end hcl hg b hz (fun h => hu (by simpa using h)) hb r hr) f2
          hopen) hne, f4]
        rfl
      have := LexRun.step hstep (r2 c (hcl.suffix ⟨m.txt, hsp⟩) b)
      rw [← h3]
      split
      · rename_i hw
        rwa [if_pos hw] at this
      · rename_i hw
        rwa [if_neg hw] at this

/-- What is read outside is read inside. -/
theorem lexStep_inner {st st' : Stack} {g u : Str} {r : Rule} {m : Match} (h : lexStep (st ++ [(.root, g)]) u = some (r, m, st'))
    (hr : r.sym ≠ .blockEnd) : ∃ st₁, st' = st₁ ++ [(.root, g)] ∧
      ∀ below, lexStep (st ++ (.stringExpr, g) :: below) u = some (r, m, st₁ ++ (.stringExpr, g) :: below) := by
  obtain ⟨state, g', rest, hst, h1, hne, rfl⟩ := lexStep_some h
  cases st with
  | nil =>
    simp only [List.nil_append, List.cons.injEq, Prod.mk.injEq] at hst
    obtain ⟨⟨rfl, rfl⟩, rfl⟩ := hst
    have hmem := (firstRule_some h1).1
    have hend : (lit c!"}").first u = none := by
      cases u with
      | nil => rfl
      | cons c u =>
        by_cases hc : c = '}'
        · subst hc
          exfalso
          rw [firstRule_filter] at h1
          have : (rulesOf .root).filter (Rule.can g '}') = [rule .blockEnd (lit c!"}")] := rfl
          rw [this] at h1
          simp only [firstRule] at h1
          split at h1
          · cases h1; exact hr rfl
          · cases h1
        · rw [Re.first_none]; simp [lit, run_cls_cons, hc]
    have hact : r.action ≠ .pop := by
      rw [rules_action .root r hmem]
      exact core_action _ (core_rules r hmem)
    have h2 : firstRule g u (rulesOf .stringExpr) = some (r, m) := by
      show firstRule g u (rule .exprEnd (lit c!"}") .pop :: coreRules) = _
      rw [firstRule_miss hend]
      exact h1
    cases ha : r.action with
    | none =>
      refine ⟨[], rfl, fun below => ?_⟩
      rw [List.nil_append, lexStep_of h2 hne, ha]
    | push new =>
      refine ⟨[(new, m.cap.getD [])], rfl, fun below => ?_⟩
      rw [List.nil_append, lexStep_of h2 hne, ha]
      rfl
    | pop => exact absurd ha hact
  | cons x st =>
    simp only [List.cons_append, List.cons.injEq] at hst
    obtain ⟨rfl, rfl⟩ := hst
    cases ha : r.action with
    | none =>
      refine ⟨(state, g') :: st, rfl, fun below => ?_⟩
      rw [List.cons_append, lexStep_of h1 hne, ha]
    | push new =>
      refine ⟨(new, m.cap.getD []) :: (state, g') :: st, rfl, fun below => ?_⟩
      rw [List.cons_append, lexStep_of h1 hne, ha]
      rfl
    | pop =>
      refine ⟨st, rfl, fun below => ?_⟩
      rw [List.cons_append, lexStep_of h1 hne, ha]

/-- **Lexing a text in brackets**: the tokens are those of the text alone. -/
theorem lexAll_inner (n : Nat) (s : Str) (hn : s.length ≤ n) (st : Stack) (g : Str) (pos : Position) (ts : List Token)
    (hst : QuoteStack (st ++ [(.root, g)])) (h : lexAll (st ++ [(.root, g)]) pos s = some ts) (hc : ts.IsChain Apart)
    (hb : ∀ t ∈ ts, t.sym ≠ .blockEnd) (hl : ∀ t ∈ ts.getLast?, t.sym.openEnd = false) :
    ∃ st', TokRun (st ++ [(.root, g)]) ts (st' ++ [(.root, g)]) ∧
      ∀ below b, LexRun (st ++ (.stringExpr, g) :: below) (s ++ '}' :: b) (ts.map fun t => (t.sym, t.txt))
        (st' ++ (.stringExpr, g) :: below) ('}' :: b) := by
  have base : ∀ st : Stack, ∃ st' : Stack, TokRun (st ++ [(.root, g)]) [] (st' ++ [(.root, g)]) ∧
      ∀ below b, LexRun (st ++ (.stringExpr, g) :: below) ([] ++ '}' :: b) [] (st' ++ (.stringExpr, g) :: below) ('}' :: b) :=
    fun st => ⟨st, .nil _, fun below b => .refl _ _⟩
  induction n generalizing s st pos ts with
  | zero =>
    cases s with
    | nil => cases h; exact base st
    | cons => simp at hn
  | succ n ih =>
    by_cases hz : s = []
    · subst hz; cases h; exact base st
    rw [lexAll_step hz] at h
    simp only [Option.bind_eq_some_iff, Option.map_eq_some_iff] at h
    obtain ⟨⟨r, m, st'⟩, h1, ts', h2, h3⟩ := h
    simp only at h2 h3
    obtain ⟨hsp, hne, hlt⟩ := lexStep_split h1
    have hsub : ts' <:+ ts := by
      rw [← h3]
      split
      · exact List.suffix_refl _
      · exact List.suffix_cons _ _
    have hc' : ts'.IsChain Apart := by
      obtain ⟨u, hu⟩ := hsub
      rw [← hu] at hc
      exact hc.right_of_append
    have hl' : ∀ t ∈ ts'.getLast?, t.sym.openEnd = false := by
      intro t ht
      obtain ⟨u, hu⟩ := hsub
      refine hl t ?_
      rw [← hu, List.getLast?_append, ht]
      rfl
    have hrb : r.sym ≠ .blockEnd := by
      intro e
      rw [if_neg (by rw [e]; decide)] at h3
      exact hb ⟨r.sym, m.txt, pos⟩ (by rw [← h3]; simp) e
    obtain ⟨st₁, rfl, hin⟩ := lexStep_inner h1 hrb
    obtain ⟨stF, r1, r2⟩ := ih m.rest (by omega) st₁ (pos.advance m.txt) ts' (hst.step h1) h2 hc'
      (fun t ht => hb t (hsub.subset ht)) hl'
    have hopen : r.sym.openEnd = true → m.rest ≠ [] := by
      intro e1 e2
      rw [e2] at h2
      cases h2
      have hw : r.sym ≠ .whitespace := by intro e; rw [e] at e1; cases e1
      have := hl ⟨r.sym, m.txt, pos⟩ (by rw [← h3]; simp [hw])
      rw [e1] at this
      cases this
    have hu : (st ++ [(LexState.root, g)]).head?.any (·.1.core) = true → ¬ Unclosed s := by
      intro e1 e2
      obtain ⟨e3, t, ts'', rfl, e4⟩ := lexAll_unclosed e2 e1 h1 h2
      rw [e3] at h3
      rw [← h3] at hc
      simp only [reduceCtorEq, if_false, List.isChain_cons_cons] at hc
      exact hc.1 ⟨rfl, e4⟩
    refine ⟨stF, ?_, fun below b => ?_⟩
    · rw [← h3]
      split
      · rename_i hw
        obtain ⟨-, state, g', below', e, -, -, h4⟩ := lexStep_tok pos h1
        simp only [hw, Sym.action] at h4
        rw [← h4]
        exact r1
      · exact .cons (lexStep_tok pos h1) r1
    · have hst' : ∀ below, (st ++ (LexState.stringExpr, g) :: below).head?.any (·.1.core) = (st ++ [(LexState.root, g)]).head?.any (·.1.core) := by
        intro below
        cases st <;> rfl
      obtain ⟨state, g', rest, e1, e2, e3, e4⟩ := lexStep_some (hin [])
      have hq : QuoteStack [(state, g')] := by
        intro x hx
        simp only [List.mem_singleton] at hx
        subst hx
        cases st with
        | nil =>
          simp only [List.nil_append, List.cons.injEq, Prod.mk.injEq] at e1
          obtain ⟨⟨rfl, rfl⟩, -⟩ := e1
          exact hst (.root, g) (by simp)
        | cons y st =>
          simp only [List.cons_append, List.cons.injEq] at e1
          obtain ⟨rfl, -⟩ := e1
          exact hst (state, g') (by simp)
      have hstep : lexStep (st ++ (.stringExpr, g) :: below) (s ++ '}' :: b) =
          some (r, m.ext ('}' :: b), st₁ ++ (.stringExpr, g) :: below) := by
        have h5 := hin below
        obtain ⟨state₁, g₁, rest₁, f1, f2, f3, f4⟩ := lexStep_some h5
        have : state₁ = state ∧ g₁ = g' := by
          cases st with
          | nil =>
            simp only [List.nil_append, List.cons.injEq, Prod.mk.injEq] at e1 f1
            exact ⟨f1.1.1.symm.trans e1.1.1, f1.1.2.symm.trans e1.1.2⟩
          | cons y st =>
            simp only [List.cons_append, List.cons.injEq] at e1 f1
            have := f1.1.symm.trans e1.1
            simp only [Prod.mk.injEq] at this
            exact this
        obtain ⟨rfl, rfl⟩ := this
        have hg := hq (state₁, g₁) (by simp) '}' (by simp)
        have hg' := hq (state₁, g₁) (by simp) '\\' (by simp)
        have hb : state₁ = .string → s ≠ c!"\\" := by
          rintro rfl rfl
          exact f3 (string_only_backslash hg' f2)
        have hu' : state₁.core = true → ¬ Unclosed s := by
          intro hcore
          refine hu ?_
          rw [← hst' below, f1]
          simpa using hcore
        rw [f1, lexStep_of (firstRule_brace (b := '}' :: b) (fun r hr => rule_end (.inl (.inl rfl)) hg b hz hu' hb r hr) f2 hopen) hne, f4, f1]
        rfl
      have := LexRun.step hstep (r2 below b)
      rw [← h3]
      split
      · rename_i hw
        rwa [if_pos hw] at this
      · rename_i hw
        rwa [if_neg hw] at this

end Verif.Etx
