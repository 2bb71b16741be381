import Verif.Etx.Template
import Verif.Props.Names

/-! # Property C73: strings with expressions in them -/

set_option linter.unusedSimpArgs false

namespace Verif.Etx
open Gram Re

/-! ## The lexer in strings with either quote -/

theorem lexStep_dollar (q : Char) (hq : isQuote q = true) (d : Char) (hd : d = '$' ∨ d = '%') (y : Str) (st : Stack) :
    ∃ r, r.sym = (if d = '$' then .expr else .directive) ∧
      lexStep ((.string, [q]) :: st) (d :: '{' :: y) = some (r, ⟨[d, '{'], none, y⟩, (.stringExpr, []) :: (.string, [q]) :: st) := by
  refine ⟨rule (if d = '$' then .expr else .directive) (lit [d, '{']) (.push .stringExpr), rfl, ?_⟩
  rw [lexStep_of (r := rule (if d = '$' then .expr else .directive) (lit [d, '{']) (.push .stringExpr))
    (m := ⟨[d, '{'], none, y⟩) ?_ (by simp)]
  · rfl
  have hn : reNonExpr.first (d :: '{' :: y) = none := by
    rw [Re.first_none]
    rcases hd with rfl | rfl <;>
    · simp only [reNonExpr, Re.run]
      rw [run_lit_fail _ _ _ (by simp), run_lit_fail _ _ _ (by simp)]
      rfl
  rw [firstRule_filter]
  simp only [isQuote, Bool.or_eq_true, decide_eq_true_eq] at hq
  rcases hd with rfl | rfl
  · have : (rulesOf .string).filter (Rule.can [q] '$') = [rule .nonExpr reNonExpr, rule .expr (lit c!"${") (.push .stringExpr)] := by
      rcases hq with rfl | rfl <;> rfl
    rw [this, firstRule_miss (by exact hn), if_pos rfl]
    apply firstRule_hit
    have := run_lit c!"${" none y
    simp only [List.cons_append, List.nil_append] at this
    simp [rule, Re.first, this]
  · have : (rulesOf .string).filter (Rule.can [q] '%') = [rule .nonExpr reNonExpr, rule .directive (lit c!"%{") (.push .stringExpr)] := by
      rcases hq with rfl | rfl <;> rfl
    rw [this, firstRule_miss (by exact hn), if_neg (by decide)]
    apply firstRule_hit
    have := run_lit c!"%{" none y
    simp only [List.cons_append, List.nil_append] at this
    simp [rule, Re.first, this]

theorem lexStep_backslash_u (q : Char) (hq : isQuote q = true) (y : Str) (st : Stack) : ∃ r, r.sym = .unicode ∧
    lexStep ((.string, [q]) :: st) (c!"\\u" ++ y) = some (r, ⟨c!"\\u", none, y⟩, (.unicode, []) :: (.string, [q]) :: st) := by
  refine ⟨rule .unicode (lit c!"\\u") (.push .unicode), rfl, ?_⟩
  rw [lexStep_of (r := rule .unicode (lit c!"\\u") (.push .unicode)) (m := ⟨c!"\\u", none, y⟩) ?_ (by simp)]
  · rfl
  rw [List.cons_append, firstRule_filter]
  have : (rulesOf .string).filter (Rule.can [q] '\\') = [rule .unicode (lit c!"\\u") (.push .unicode),
      rule .escaped (seq (lit c!"\\") (cls (· ≠ '\n')))] := by
    simp only [isQuote, Bool.or_eq_true, decide_eq_true_eq] at hq
    rcases hq with rfl | rfl <;> rfl
  rw [this, firstRule_lit]
  simp

/-- The digits of a character are eight if eight digits follow, and four otherwise. -/
theorem lexStep_hex (w y : Str) (st : Stack) (h1 : ∀ c ∈ w, isHex c = true)
    (h2 : w.length = 8 ∨ w.length = 4 ∧ (y.takeWhile isHex).length < 4) :
    ∃ r, r.sym = (if w.length = 8 then .unicodeLong else .unicodeShort) ∧
      lexStep ((.unicode, []) :: st) (w ++ y) = some (r, ⟨w, none, y⟩, st) := by
  rcases h2 with h2 | ⟨h2, h3⟩
  · refine ⟨rule .unicodeLong (rep (cls isHex) 8) .pop, by simp [h2, rule], ?_⟩
    rw [lexStep_of (r := rule .unicodeLong (rep (cls isHex) 8) .pop) (m := ⟨w, none, y⟩) ?_ (by rintro rfl; cases h2)]
    · rfl
    · simp only [rulesOf, unicodeRules]
      rw [firstRule_hit]
      simp [rule, Re.first, run_rep 8 w y none h2 h1]
  · refine ⟨rule .unicodeShort (rep (cls isHex) 4) .pop, by simp [h2, rule], ?_⟩
    rw [lexStep_of (r := rule .unicodeShort (rep (cls isHex) 4) .pop) (m := ⟨w, none, y⟩) ?_ (by rintro rfl; cases h2)]
    · rfl
    · simp only [rulesOf, unicodeRules]
      rw [firstRule_miss, firstRule_hit]
      · simp [rule, Re.first, run_rep 4 w y none h2 h1]
      · simp only [rule]
        rw [Re.first_none]
        have e : w ++ y = (w ++ y.takeWhile isHex) ++ y.dropWhile isHex := by simp
        rw [e]
        refine run_rep_short 8 _ _ none (by simp; omega) fun c hc => ?_
        have := List.head?_dropWhile_not isHex y
        rw [Option.mem_def.mp hc] at this
        simpa using this

/-! ## Pieces -/

variable [FloatValue]

/-- `e` is an expression, read as `x` (without positions). -/
def ReadsExpr (e : Str) (x : Node .expr) : Prop :=
  ∃ ts y, lex e = some ts ∧ parseKind (Position.start.advance e) .expr ts = .ok y [] ∧ x = y.bare

/-- There is no closing brace among the tokens of `e` (there may be some in the strings and comments). -/
def NoBrace (e : Str) : Prop := ∀ ts, lex e = some ts → ∀ t ∈ ts, t.sym ≠ .blockEnd

/-- What a string is made of. -/
inductive Piece where
  /-- text -/
  | text (t : Str)
  /-- the other quote -/
  | quote (c : Char)
  /-- `\c` -/
  | escaped (c : Char)
  /-- `\u` and digits -/
  | unicode (w : Str)
  /-- `$${` or `%%{` -/
  | literal (d : Char)
  /-- `${e}`, where `e` is read as `x` -/
  | expr (e : Str) (x : Node .expr)
  /-- `%{e}`, where `e` is read as `x` -/
  | directive (e : Str) (x : Node .expr)

namespace Piece

/-- The text of a piece. -/
def src : Piece → Str
  | text t => t
  | quote c => [c]
  | escaped c => ['\\', c]
  | unicode w => c!"\\u" ++ w
  | literal d => [d, d, '{']
  | expr e _ => c!"${" ++ e ++ c!"}"
  | directive e _ => c!"%{" ++ e ++ c!"}"

/-- The fragment of the tree. -/
def node : Piece → Node .stringFragment
  | text t => .stringFragment noPos [] [] .nil .nil t
  | quote c => .stringFragment noPos [] [] .nil .nil [c]
  | escaped c => .stringFragment noPos ['\\', c] [] .nil .nil []
  | unicode w => .stringFragment noPos [] w .nil .nil []
  | literal d => .stringFragment noPos [] [] .nil .nil [d, d, '{']
  | expr _ x => .stringFragment noPos [] [] (.ref x) .nil []
  | directive _ x => .stringFragment noPos [] [] .nil (.ref x) []

/-- The text of the expression. -/
def expr? : Piece → Option Str
  | expr e _ | directive e _ => some e
  | _ => none

/-- What is allowed in a string with the quote `q` in front of `rest`: text is as long as possible, four digits are not followed by four
more. -/
def ok (q : Char) (rest : Str) : Piece → Prop
  | text t => t ≠ [] ∧ (∀ c ∈ t, isSpecial c = false) ∧ ∀ c ∈ rest.head?, isSpecial c = true
  | quote c => isQuote c = true ∧ c ≠ q
  | escaped c => c ≠ 'u' ∧ c ≠ '\n'
  | unicode w => (∀ c ∈ w, isHex c = true) ∧ (w.length = 8 ∨ w.length = 4 ∧ (rest.takeWhile isHex).length < 4)
  | literal d => d = '$' ∨ d = '%'
  | expr e x | directive e x => ReadsExpr e x

end Piece

/-- The text of some pieces. -/
def srcs (ps : List Piece) : Str := (ps.map Piece.src).flatten

/-- All pieces are allowed where they are. -/
def piecesOk (q : Char) : List Piece → Prop
  | [] => True
  | p :: ps => p.ok q (srcs ps ++ [q]) ∧ piecesOk q ps

/-- An attribute whose value is a string. -/
def stringAttr (k : Str) (q : Char) (ps : List Piece) : Str := k ++ c!" = " ++ q :: srcs ps ++ [q]

/-- The document that is only an attribute. -/
def keyDoc (k : Str) (x : Node .expr) : Node (.slice .rootItem) := sliceOf [keyItem k x]

/-- **C73**, in full: a string made of pieces is read as these pieces, and an expression in a string is read as it is read elsewhere. -/
def C73_full : Prop := ∀ (k : Str) (q : Char) (ps : List Piece), NameText k → isQuote q = true → piecesOk q ps →
  docOf (stringAttr k q ps ++ c!"\n") = some (keyDoc k (stringExpr (.valueString noPos (sliceOf (ps.map Piece.node)))))

/-! ## Tokens of pieces -/

omit [FloatValue] in
theorem list_head_special {t y : Str} (ht : ∀ c ∈ t, isSpecial c = false) (hy : ∀ c ∈ y.head?, isSpecial c = true) :
    (t ++ y).takeWhile (fun c => !isSpecial c) = t ∧ (t ++ y).dropWhile (fun c => !isSpecial c) = y := by
  induction t with
  | nil =>
    cases y with
    | nil => exact ⟨rfl, rfl⟩
    | cons c y =>
      have := hy c rfl
      simp [this]
  | cons c t ih =>
    have h := ih fun d hd => ht d (by simp [hd])
    simp [ht c (by simp), h.1, h.2]

omit [FloatValue] in
theorem takeWhile_stop_char {p : Char → Bool} {q : Char} (hq : p q = false) (r z : Str) :
    (r ++ q :: z).takeWhile p = (r ++ [q]).takeWhile p := by
  induction r with
  | nil => simp [hq]
  | cons c r ih => simp only [List.cons_append, List.takeWhile_cons, ih]

omit [FloatValue] in
theorem quote_special {q : Char} (hq : isQuote q = true) : isSpecial q = true ∧ isHex q = false := by
  simp only [isQuote, Bool.or_eq_true, decide_eq_true_eq] at hq
  rcases hq with rfl | rfl <;> decide

omit [FloatValue] in
theorem lexRun_one {st st' : Stack} {s : Str} {r : Rule} {m : Match} {y : Sym} (hr : r.sym = y) (hy : y ≠ .whitespace)
    (h : lexStep st s = some (r, m, st')) : LexRun st s [(y, m.txt)] st' m.rest := by
  have := LexRun.one h (by rw [hr]; exact hy)
  rwa [hr] at this

omit [FloatValue] in
theorem nest_at (f : Position → Position) (c : List Br) (ts : List Token) : nest c (ts.map (Token.at f)) = nest c ts := by
  induction ts generalizing c with
  | nil => rfl
  | cons t ts ih =>
    simp only [List.map_cons, nest]
    congr 1
    funext c'
    exact ih c'

omit [FloatValue] in
theorem Inside.at {β : List Br} {u : List Token} (h : Inside β u) (f : Position → Position) : Inside β (u.map (Token.at f)) := by
  refine ⟨by rw [nest_at]; exact h.nest, fun t ht => ?_⟩
  rw [List.mem_map] at ht
  obtain ⟨t, ht, rfl⟩ := ht
  exact h.exact t ht

omit [FloatValue] in
theorem nest_below {c c' β : List Br} {u : List Token} (h : nest c u = some c') (hβ : Br.top .stringExpr β = .stringExpr) :
    nest (c ++ β) u = some (c' ++ β) := by
  induction u generalizing c with
  | nil => cases h; rfl
  | cons t u ih =>
    simp only [nest, Option.bind_eq_some_iff] at h
    obtain ⟨d, h1, h2⟩ := h
    simp only [nest, Sym.nest_append hβ h1, Option.bind_some, ih h2]

omit [FloatValue] in
theorem topFree_below {c c' β : List Br} {u : List Token} (h : nest c u = some c') (hβ : Br.top .stringExpr β = .stringExpr) (hne : β ≠ [])
    (r : List Token) : topFree (c ++ β) (u ++ r) = topFree (c' ++ β) r := by
  induction u generalizing c with
  | nil => cases h; rfl
  | cons t u ih =>
    simp only [nest, Option.bind_eq_some_iff] at h
    obtain ⟨d, h1, h2⟩ := h
    simp [topFree, Sym.nest_append hβ h1, ih h2, hne]

/-- Tokens inside of a string, after which it is still open. -/
def Quiet (ks : List (Sym × Str)) : Prop :=
  nest [.str] (ks.map fun k => tk k.1 k.2) = some [.str] ∧ ∀ r, topFree [.str] ((ks.map fun k => tk k.1 k.2) ++ r) = topFree [.str] r

omit [FloatValue] in
theorem Quiet.append {a b : List (Sym × Str)} (ha : Quiet a) (hb : Quiet b) : Quiet (a ++ b) :=
  ⟨by rw [List.map_append, nest_app, ha.1]; exact hb.1, fun r => by rw [List.map_append, List.append_assoc, ha.2, hb.2]⟩

omit [FloatValue] in
/-- `${e}` and `%{e}` -/
theorem Quiet.code {y : Sym} {w : Str} {ks : List (Sym × Str)} (hy : y = .expr ∨ y = .directive) (h : nest [] (ks.map fun k => tk k.1 k.2) = some []) :
    Quiet ((y, w) :: ks ++ [(.exprEnd, c!"}")]) := by
  have hn := nest_below (β := [.code, .str]) h rfl
  have ht := topFree_below (β := [.code, .str]) h rfl (by simp)
  have h1 : y.nest .stringExpr [.str] = some [.code, .str] := by rcases hy with rfl | rfl <;> rfl
  constructor
  · simp only [List.cons_append, List.map_cons, List.map_append, List.map_nil, nest, tk, h1, Option.bind_some]
    unfold tk at hn
    rw [nest_app]
    erw [hn]
    rfl
  · intro r
    simp only [List.cons_append, List.map_cons, List.map_append, List.map_nil, topFree, tk, h1]
    unfold tk at ht
    rw [List.append_assoc]
    erw [ht]
    rfl

/-- An expression between `${` and `}`. -/
theorem ReadsExpr.tokens {e : Str} {x : Node .expr} (h : ReadsExpr e x) (hb : NoBrace e) :
    ∃ (ks : List (Sym × Str)) (y : Node .expr), y.bare = x ∧ (∀ below b, LexRun ((.stringExpr, []) :: below) (e ++ '}' :: b) ks
      ((.stringExpr, []) :: below) ('}' :: b)) ∧
      (∀ r, OkKind {} ((ks.map fun k => tk k.1 k.2) ++ tk .exprEnd c!"}" :: r) y (tk .exprEnd c!"}" :: r)) ∧
      nest [] (ks.map fun k => tk k.1 k.2) = some [] := by
  obtain ⟨ts, y, hl, hp, rfl⟩ := h
  obtain ⟨hin, hrun⟩ := expr_tokens hl hp (hb ts hl)
  refine ⟨_, y.at fun _ => {}, y.bare_map _ _, hrun, fun r => ?_, by
    have := (hin.at fun _ => {}).nest
    rw [List.map_map]
    exact this⟩
  have h1 := parseKind_at (f := fun _ => {}) rfl (Position.start.advance e) .expr ts
  rw [hp] at h1
  have h2 := parseKind_inside (eof := {}) (eof' := {}) (z := tk .exprEnd c!"}" :: r) ⟨_, _, rfl, by simp [closers, tk]⟩
    (k := .expr) (β := []) rfl (by decide) (hin.at fun _ => {})
  rw [h1] at h2
  rw [List.map_map]
  exact h2

/-- The tokens of one piece, and what the parser makes of them. -/
theorem Piece.reads {q : Char} (hq : isQuote q = true) {rest : Str} {p : Piece} (h : p.ok q (rest ++ [q]))
    (hb : ∀ e ∈ p.expr?, NoBrace e) : ∃ (ks : List (Sym × Str)) (x : Node .stringFragment), ks ≠ [] ∧ x.bare = p.node ∧
      (∀ st z, LexRun ((.string, [q]) :: st) (p.src ++ (rest ++ q :: z)) ks ((.string, [q]) :: st) (rest ++ q :: z)) ∧
      (∀ r, OkKind {} ((ks.map fun k => tk k.1 k.2) ++ r) x r) ∧ Quiet ks := by
  have hword : ∀ d, (d = '$' ∨ d = '%') → ∀ (e : Str) (ks : List (Sym × Str)), (∀ below b, LexRun ((.stringExpr, []) :: below)
      (e ++ '}' :: b) ks ((.stringExpr, []) :: below) ('}' :: b)) → ∀ st y, LexRun ((.string, [q]) :: st) ([d, '{'] ++ e ++ c!"}" ++ y)
      ((if d = '$' then .expr else .directive, [d, '{']) :: ks ++ [(.exprEnd, c!"}")]) ((.string, [q]) :: st) y := by
    intro d hd e ks hrun st y
    obtain ⟨r, hr, h1⟩ := lexStep_dollar q hq d hd (e ++ '}' :: y) st
    obtain ⟨r', hr', h2⟩ := lexStep_exprEnd y ((.string, [q]) :: st)
    have h1 := lexRun_one hr (by rcases hd with rfl | rfl <;> decide) h1
    have h2 := lexRun_one hr' (by decide) h2
    have := (h1.trans (hrun _ y)).trans h2
    simpa using this
  cases p with
  | text t =>
    obtain ⟨h1, h2, h3⟩ := h
    obtain ⟨c, t, rfl⟩ := List.exists_cons_of_ne_nil h1
    refine ⟨[(.char, c :: t)], .stringFragment noPos [] [] .nil .nil (c :: t), by simp, rfl, fun st z => ?_, fun r => ?_, ⟨rfl, fun r => rfl⟩⟩
    · have hsp := h2 c (by simp)
      have h4 := lexRun_one (y := .char) rfl (by decide) (lexStep_char q c (t ++ (rest ++ q :: z)) hsp (by
        rintro rfl
        rw [(quote_special hq).1] at hsp
        cases hsp) st)
      obtain ⟨h5, h6⟩ := list_head_special (t := t) (y := rest ++ q :: z) (fun c hc => h2 c (by simp [hc])) (by
        cases rest <;> simpa using h3)
      simp only [h5, h6] at h4
      exact h4
    · refine OkKind.ofTakes (Takes.altR (bare_of_head ?_).soft (Takes.altR (bare_of_head ?_).soft (Takes.altR (bare_of_head ?_).soft
        (Takes.altR (bare_of_head ?_).soft (Takes.cap (Ok.alToks (ys := [.char, .quote, .nonExpr]) (by simp [tk]))))))) rfl fun txt => by
          simp [build, ptrOf, tk]
      all_goals rfl
  | quote c =>
    obtain ⟨h1, h2⟩ := h
    refine ⟨[(.quote, [c])], .stringFragment noPos [] [] .nil .nil [c], by simp, rfl, fun st z => ?_, fun r => ?_, ⟨rfl, fun r => rfl⟩⟩
    · obtain ⟨r, hr, h3⟩ := lexStep_otherQuote q c h1 hq h2 (rest ++ q :: z) st
      exact lexRun_one hr (by decide) h3
    · refine OkKind.ofTakes (Takes.altR (bare_of_head ?_).soft (Takes.altR (bare_of_head ?_).soft (Takes.altR (bare_of_head ?_).soft
        (Takes.altR (bare_of_head ?_).soft (Takes.cap (Ok.alToks (ys := [.char, .quote, .nonExpr]) (by simp [tk]))))))) rfl fun txt => by
          simp [build, ptrOf, tk]
      all_goals rfl
  | escaped c =>
    obtain ⟨h1, h2⟩ := h
    refine ⟨[(.escaped, ['\\', c])], .stringFragment noPos ['\\', c] [] .nil .nil [], by simp, rfl, fun st z => ?_, fun r => ?_, ⟨rfl, fun r => rfl⟩⟩
    · obtain ⟨r, hr, h3⟩ := lexStep_escaped q c hq h1 h2 (rest ++ q :: z) st
      exact lexRun_one hr (by decide) h3
    · exact OkKind.ofTakes (Takes.altL (Takes.capTok rfl)) rfl fun txt => by simp [build, ptrOf, tk]
  | unicode w =>
    obtain ⟨h1, h2⟩ := h
    refine ⟨[(.unicode, c!"\\u"), (if w.length = 8 then .unicodeLong else .unicodeShort, w)], .stringFragment noPos [] w .nil .nil [],
      by simp, rfl, fun st z => ?_, fun r => ?_, by split <;> exact ⟨rfl, fun r => rfl⟩⟩
    · obtain ⟨r, hr, h3⟩ := lexStep_backslash_u q hq (w ++ (rest ++ q :: z)) st
      obtain ⟨r', hr', h4⟩ := lexStep_hex w (rest ++ q :: z) ((.string, [q]) :: st) h1 (by
        rwa [takeWhile_stop_char (quote_special hq).2])
      have h3 := lexRun_one hr (by decide) h3
      have h4 := lexRun_one hr' (by split <;> decide) h4
      have := h3.trans h4
      simpa [Piece.src] using this
    · have hs : Ok {} (.alt (.tok .unicodeLong) (.tok .unicodeShort)) (tk (if w.length = 8 then .unicodeLong else .unicodeShort) w :: r)
          ⟨[w], []⟩ r := Ok.alToks (ys := [.unicodeLong, .unicodeShort]) (t := tk (if w.length = 8 then .unicodeLong else .unicodeShort) w)
            (by simp only [tk]; split <;> simp)
      refine OkKind.ofTakes (Takes.altR (bare_of_head ?_).soft (Takes.altL (Takes.seq (Takes.tok rfl) (Takes.cap hs)))) rfl fun txt => by
        simp [build, ptrOf, tk]
      rfl
  | literal d =>
    refine ⟨[(.nonExpr, [d, d, '{'])], .stringFragment noPos [] [] .nil .nil [d, d, '{'], by simp, rfl, fun st z => ?_, fun r => ?_, ⟨rfl, fun r => rfl⟩⟩
    · obtain ⟨r, cap, hr, h3⟩ := lexStep_nonExpr q d hq h (rest ++ q :: z) st
      exact lexRun_one hr (by decide) h3
    · refine OkKind.ofTakes (Takes.altR (bare_of_head ?_).soft (Takes.altR (bare_of_head ?_).soft (Takes.altR (bare_of_head ?_).soft
        (Takes.altR (bare_of_head ?_).soft (Takes.cap (Ok.alToks (ys := [.char, .quote, .nonExpr]) (by simp [tk]))))))) rfl fun txt => by
          simp [build, ptrOf, tk]
      all_goals rfl
  | expr e x =>
    obtain ⟨ks, y, hy, hrun, hok, hn⟩ := ReadsExpr.tokens h (hb e rfl)
    refine ⟨(.expr, c!"${") :: ks ++ [(.exprEnd, c!"}")], .stringFragment noPos [] [] (.ref y) .nil [], by simp, ?_, fun st z =>
      hword '$' (.inl rfl) e ks hrun st _, fun r => ?_, .code (.inl rfl) hn⟩
    · subst hy; simp [Node.bare, Node.map, Piece.node, noPos]
    · have := Takes.altL (b := sq [.tok .directive, .sub .directive .expr, .tok .exprEnd]) (Takes.seq (Takes.tok (t := tk .expr c!"${") rfl) (Takes.seq (Takes.sub (f := .expr) (hok r)) (Takes.tok rfl)))
      have := OkKind.ofTakes (k := .stringFragment) (x := .stringFragment noPos [] [] (.ref y) .nil []) (Takes.altR (bare_of_head (t := tk .expr c!"${") rfl).soft (Takes.altR (bare_of_head rfl).soft
        (Takes.altL (Takes.seq (Takes.tok (t := tk .expr c!"${") rfl) (Takes.seq (Takes.sub (hok r)) (Takes.tok rfl)))))) rfl fun txt => by
          simp [build, ptrOf]
      simpa using this
  | directive e x =>
    obtain ⟨ks, y, hy, hrun, hok, hn⟩ := ReadsExpr.tokens h (hb e rfl)
    refine ⟨(.directive, c!"%{") :: ks ++ [(.exprEnd, c!"}")], .stringFragment noPos [] [] .nil (.ref y) [], by simp, ?_, fun st z =>
      hword '%' (.inr rfl) e ks hrun st _, fun r => ?_, .code (.inr rfl) hn⟩
    · subst hy; simp [Node.bare, Node.map, Piece.node, noPos]
    · have := OkKind.ofTakes (k := .stringFragment) (x := .stringFragment noPos [] [] .nil (.ref y) []) (Takes.altR (bare_of_head (t := tk .directive c!"%{") rfl).soft (Takes.altR (bare_of_head rfl).soft
        (Takes.altR (bare_of_head rfl).soft (Takes.altL (Takes.seq (Takes.tok (t := tk .directive c!"%{") rfl)
          (Takes.seq (Takes.sub (hok r)) (Takes.tok rfl))))))) rfl fun txt => by simp [build, ptrOf]
      simpa using this

/-- The tokens of the pieces. -/
theorem pieces_read {q : Char} (hq : isQuote q = true) {ps : List Piece} (h : piecesOk q ps)
    (hb : ∀ p ∈ ps, ∀ e ∈ p.expr?, NoBrace e) : ∃ (ks : List (Sym × Str)) (l : List (Node .stringFragment)),
      l.map Node.bare = ps.map Piece.node ∧
      (∀ st z, LexRun ((.string, [q]) :: st) (srcs ps ++ q :: z) ks ((.string, [q]) :: st) (q :: z)) ∧
      (∀ r, Takes (.star (.sub .fragment .stringFragment)) ((ks.map fun k => tk k.1 k.2) ++ tk .stringEnd [q] :: r)
        (capNodes .fragment l) (tk .stringEnd [q] :: r)) ∧ Quiet ks := by
  induction ps with
  | nil => exact ⟨[], [], rfl, fun st z => .refl _ _, fun r => Takes.nil (bare_of_head (by
      simp only [isQuote, Bool.or_eq_true, decide_eq_true_eq] at hq
      rcases hq with rfl | rfl <;> rfl)).soft, rfl, fun r => rfl⟩
  | cons p ps ih =>
    obtain ⟨ks, l, h1, h2, h3, hq1⟩ := ih h.2 fun p hp => hb p (by simp [hp])
    obtain ⟨ks', x, hne, h4, h5, h6, hq2⟩ := Piece.reads hq h.1 (hb p (by simp))
    refine ⟨ks' ++ ks, x :: l, by simp [h4, h1], fun st z => ?_, fun r => ?_, hq2.append hq1⟩
    · have := (h5 st z).trans (h2 st z)
      simpa [srcs] using this
    · have := Takes.cons (Takes.sub (f := .fragment) (h6 ((ks.map fun k => tk k.1 k.2) ++ tk .stringEnd [q] :: r))) (by
        have : 0 < ks'.length := List.length_pos_iff.2 hne
        simp only [List.length_append, List.length_map, List.length_cons]
        omega) (h3 r)
      simpa [capNodes] using this

omit [FloatValue] in
/-- The beginning of an attribute. -/
theorem lexRun_key {k : Str} (hk : NameText k) (y : Str) :
    LexRun [(.root, [])] (k ++ c!" = " ++ y) [(.ident, k), (.opAssign, c!"=")] [(.root, [])] (' ' :: y) := by
  obtain ⟨r, m, h1, h2, h3, h4⟩ := C42_ident_partial [(.root, [])] k (c!" = " ++ y) .root hk.ident hk.keyword ⟨by simp; decide, by simp⟩
  have h1 := lexRun_one h2 (by decide) h1
  rw [h3, h4] at h1
  obtain ⟨r', m', h5, h6, h7, h8⟩ := C43_longest_partial [(.root, [])] c!"=" (' ' :: y) .opAssign .root (by decide)
    (by simp [LongestOp, operators]) (by simp [NotOp])
  have h5 := lexRun_one h6 (by decide) h5
  rw [h7, h8] at h5
  have := h1.trans (LexRun.blanks (w := c!" ") (s := c!"=") (y := ' ' :: y) .root (by decide) (by simp) h5)
  simpa using this

omit [FloatValue] in
theorem bare_keyItem (k : Str) (x : Node .expr) : (keyItem k x).bare = keyItem k x.bare := by
  simp only [keyItem, Node.bare, Node.map]

omit [FloatValue] in
theorem bare_stringExpr (v : Node .valueString) : (stringExpr v).bare = stringExpr v.bare := by
  simp only [stringExpr, Node.bare, Node.map]

omit [FloatValue] in
theorem bare_sliceOf {k : Kind} (l : List (Node k)) : (sliceOf l).bare = sliceOf (l.map Node.bare) := by
  cases l with
  | nil => exact bare_nilSlice
  | cons x l => exact bare_slice 0 (by simp)

/-- **C73**: it holds for expressions without closing braces. -/
theorem C73_template_partial (k : Str) (q : Char) (ps : List Piece) (hk : NameText k) (hq : isQuote q = true) (hps : piecesOk q ps)
    (hb : ∀ p ∈ ps, ∀ e ∈ p.expr?, NoBrace e) :
    docOf (stringAttr k q ps ++ c!"\n") = some (keyDoc k (stringExpr (.valueString noPos (sliceOf (ps.map Piece.node))))) := by
  obtain ⟨ks, l, h1, h2, h3, -⟩ := pieces_read hq hps hb
  have hrun : LexRun [(.root, [])] (stringAttr k q ps ++ c!"\n") ([(.ident, k), (.opAssign, c!"=")] ++ ([(.string, [q])] ++ (ks ++
      ([(.stringEnd, [q])] ++ [(.lf, c!"\n")])))) [(.root, [])] [] := by
    obtain ⟨r, cap, hr, h4⟩ := lexStep_string (.inl rfl) [] q hq (srcs ps ++ q :: c!"\n") []
    have h4 := lexRun_one hr (by decide) h4
    obtain ⟨r', hr', h5⟩ := lexStep_end q hq c!"\n" [(.root, [])]
    have h5 := lexRun_one hr' (by decide) h5
    obtain ⟨r2, m2, h6, h7, h8, h9⟩ := lexStep_lf [(.root, [])] [] .root
    have h6 := lexRun_one h7 (by decide) h6
    rw [h8, h9] at h6
    have h10 := LexRun.blanks (w := c!" ") (s := [q]) (y := srcs ps ++ q :: c!"\n") .root (by decide) (by simp) h4
    have := ((lexRun_key hk (q :: (srcs ps ++ q :: c!"\n"))).trans h10).trans ((h2 _ _).trans (h5.trans h6))
    simpa [stringAttr] using this
  have e : (([(Sym.ident, k), (.opAssign, c!"=")] ++ ([(Sym.string, [q])] ++ (ks ++ ([(Sym.stringEnd, [q])] ++ [(Sym.lf, c!"\n")])))).map
      fun p : Sym × Str => (⟨p.1, p.2, {}⟩ : Token)) =
      tk .ident k :: tk .opAssign c!"=" :: tk .string [q] :: ((ks.map fun k => tk k.1 k.2) ++ tk .stringEnd [q] :: [lfTok]) := by
    simp [tk, lfTok]
  revert hrun e
  generalize [(Sym.ident, k), (.opAssign, c!"=")] ++ ([(Sym.string, [q])] ++ (ks ++ ([(Sym.stringEnd, [q])] ++ [(Sym.lf, c!"\n")]))) = kss
  intro hrun e
  have hkinds := hrun.kinds .start .start
  rw [← lex_eq, show kinds (lexAll [(.root, [])] .start []) = some [] from rfl, Option.map_some, List.append_nil] at hkinds
  rw [docOf_kinds hkinds, docKinds, e]
  have hv : OkKind {} (tk .string [q] :: ((ks.map fun k => tk k.1 k.2) ++ tk .stringEnd [q] :: [lfTok]))
      (.valueString noPos (sliceOf l)) [lfTok] := by
    refine OkKind.ofTakes (Takes.seq (Takes.tok rfl) (Takes.seq (h3 _) (Takes.tok rfl))) rfl fun txt => ?_
    simp [build]
  have hq' : [q] = c!"\"" ∨ [q] = c!"'" := by
    simp only [isQuote, Bool.or_eq_true, decide_eq_true_eq] at hq
    rcases hq with rfl | rfl <;> simp
  have hd := attr_doc (k := k) (string_up hq' hv (by decide)) (.inr rfl)
  simp only [hd, Option.map_some, keyDoc, ← h1, bare_sliceOf, List.map_cons, List.map_nil, Option.some.injEq]
  rw [bare_keyItem, bare_stringExpr, show (Node.valueString noPos (sliceOf l)).bare = .valueString noPos (sliceOf l).bare by
    simp only [Node.bare, Node.map], bare_sliceOf]

omit [FloatValue] in
theorem kinds_blank (p p' : Position) (e : Str) :
    kinds (lexAll [(.root, [])] p (' ' :: e)) = kinds (lexAll [(.root, [])] p' e) := by
  have h := lexStep_blank (state := .root) (.inl rfl) [] [] c!" " e (by simp) (by decide)
  rw [List.singleton_append] at h
  rw [kinds_step h p p']
  have hi : ∀ x : Option (List (Sym × Str)), x.map (([] : List (Sym × Str)) ++ ·) = x := by intro x; cases x <;> rfl
  refine (hi _).trans ?_
  by_cases he : e.takeWhile isBlank = []
  · have : e.dropWhile isBlank = e := by
      have := List.takeWhile_append_dropWhile (p := isBlank) (l := e)
      rwa [he, List.nil_append] at this
    rw [show (⟨_, _, e.dropWhile isBlank⟩ : Match).rest = e.dropWhile isBlank from rfl, this]
  · have h' := lexStep_blank (state := .root) (.inl rfl) [] [] (e.takeWhile isBlank) (e.dropWhile isBlank) he
      (fun c hc => List.all_eq_true.1 List.all_takeWhile c hc)
    rw [List.takeWhile_append_dropWhile] at h'
    rw [kinds_step h' p' p']
    refine (Eq.trans ?_ (hi _).symm)
    have : (e.dropWhile isBlank).dropWhile isBlank = e.dropWhile isBlank := by
      have := List.head?_dropWhile_not isBlank e
      cases h2 : e.dropWhile isBlank with
      | nil => rfl
      | cons c u =>
        rw [h2] at this
        have hc : isBlank c = false := by simpa using this
        simp [List.dropWhile_cons, hc]
    simp only [this]

/-- **C73**: as the value of an attribute, an expression is read in the same way. -/
theorem C73_value (k e : Str) (x : Node .expr) (hk : NameText k) (hx : ReadsExpr e x) :
    docOf (k ++ c!" = " ++ e) = some (keyDoc k x) := by
  obtain ⟨ts, y, hl, hp, rfl⟩ := hx
  have hkinds := (lexRun_key hk e).kinds .start .start
  rw [← lex_eq, kinds_blank .start .start e, ← lex_eq, hl] at hkinds
  rw [docOf_kinds (hkinds.trans rfl), docKinds]
  have h1 := parseKind_at (f := fun _ => {}) rfl (Position.start.advance e) .expr ts
  rw [hp] at h1
  have hd := attr_doc (k := k) h1 (.inl rfl)
  simp only [List.cons_append, List.nil_append, List.map_cons, List.map_map]
  refine Eq.trans (congrArg (Option.map Node.bare) hd) ?_
  simp only [Option.map_some, keyDoc, bare_sliceOf, List.map_cons, List.map_nil, Option.some.injEq]
  rw [bare_keyItem, Node.at, y.bare_map]

omit [FloatValue] in
/-- Expressions written without closing braces. -/
theorem NoBrace.of_text {e : Str} (h : '}' ∉ e) : NoBrace e := by
  intro ts hl t ht hs
  have hp := C39_lossless e ts hl
  have : ∀ {pre e ts}, Pieces pre e ts → ∀ t ∈ ts, ∀ c ∈ t.txt, c ∈ e := by
    intro pre e ts h
    induction h with
    | done => exact fun t ht => absurd ht (by simp)
    | blank pre w rest ts _ _ ih => exact fun t ht c hc => List.mem_append_right _ (ih t ht c hc)
    | token pre t rest ts _ _ _ ih =>
      intro t' ht c hc
      rcases List.mem_cons.1 ht with rfl | ht
      · exact List.mem_append_left _ hc
      · exact List.mem_append_right _ (ih t' ht c hc)
  obtain ⟨st, hr⟩ := lex_run hl
  have he := hr.exact t ht
  have he' : t.txt = c!"}" := by
    rw [Token.exact, hs] at he
    exact of_decide_eq_true he
  exact h (this hp t ht '}' (by simp [he']))

/-- Whether the text is an expression. -/
def isExpr (e : Str) : Bool :=
  match (lex e).map (parseKind (Position.start.advance e) .expr) with
  | some (.ok _ []) => true
  | _ => false

theorem isExpr_iff (e : Str) : isExpr e = true ↔ ∃ x, ReadsExpr e x := by
  unfold isExpr ReadsExpr
  constructor
  · intro h
    split at h
    · rename_i y hy
      rw [Option.map_eq_some_iff] at hy
      obtain ⟨ts, h1, h2⟩ := hy
      exact ⟨_, ts, y, h1, h2, rfl⟩
    · cases h
  · rintro ⟨-, ts, y, h1, h2, -⟩
    simp [h1, h2]

/-- **C73** is false in full: a map in a string. -/
theorem C73_braces : ¬ C73_full := by
  intro h
  have h1 : isExpr c!"{a = 1}" = true := by kernel_rfl
  obtain ⟨x, hx⟩ := (isExpr_iff _).1 h1
  have h2 := h c!"k" '"' [.expr c!"{a = 1}" x] ⟨.mk 'k' [] [] (by decide) (by simp) (by simp), by decide, by decide⟩ rfl ⟨hx, trivial⟩
  have h3 : docOf (stringAttr c!"k" '"' [.expr c!"{a = 1}" x] ++ c!"\n") = none := by
    rw [docOf_eq]
    kernel_rfl
  rw [h3] at h2
  cases h2

/-- The hypotheses hold for a string with all kinds of pieces; there is a string with a brace in one of the expressions. -/
example : ∃ x y, piecesOk '\'' [.text c!"a b", .unicode c!"00e9", .text c!"f", .quote '"', .escaped 'n', .literal '$', .text c!"}",
      .expr c!" f(1 + a.b[0], '}') ? \"c\" : d" x, .unicode c!"0001f600", .directive c!"x" y] ∧
    NoBrace c!" f(1 + a.b[0], '}') ? \"c\" : d" ∧ NoBrace c!"x" ∧
    stringAttr c!"k" '\'' [.text c!"a b", .unicode c!"00e9", .text c!"f", .quote '"', .escaped 'n', .literal '$', .text c!"}",
      .expr c!" f(1 + a.b[0], '}') ? \"c\" : d" x, .unicode c!"0001f600", .directive c!"x" y] =
      c!"k = 'a b\\u00e9f\"\\n$${}${ f(1 + a.b[0], '}') ? \"c\" : d}\\u0001f600%{x}'" := by
  have h1 : isExpr c!" f(1 + a.b[0], '}') ? \"c\" : d" = true := by kernel_rfl
  have h2 : isExpr c!"x" = true := by kernel_rfl
  obtain ⟨x, hx⟩ := (isExpr_iff _).1 h1
  obtain ⟨y, hy⟩ := (isExpr_iff _).1 h2
  refine ⟨x, y, ?_, ?_, ?_, rfl⟩
  · simp only [piecesOk, Piece.ok, hx, hy, and_true, srcs, Piece.src, List.map_cons, List.map_nil, List.flatten_cons, List.flatten_nil]
    decide
  · have : ((lex c!" f(1 + a.b[0], '}') ? \"c\" : d").map fun ts => ts.all fun t => t.sym ≠ .blockEnd) = some true := by decide +kernel
    intro ts hl t ht
    rw [hl] at this
    simp only [Option.map_some, Option.some.injEq, List.all_eq_true, decide_eq_true_eq] at this
    exact this t ht
  · exact .of_text (by decide)

/-- `k = a + 1` and `k = "${a + 1}"`. -/
example : ∃ x, ReadsExpr c!"a + 1" x ∧ docOf c!"k = a + 1" = some (keyDoc c!"k" x) ∧
    docOf c!"k = \"${a + 1}\"\n" = some (keyDoc c!"k" (stringExpr (.valueString noPos (sliceOf [.stringFragment noPos [] [] (.ref x) .nil []])))) := by
  have h1 : isExpr c!"a + 1" = true := by kernel_rfl
  obtain ⟨x, hx⟩ := (isExpr_iff _).1 h1
  have hk : NameText c!"k" := ⟨.mk 'k' [] [] (by decide) (by simp) (by simp), by decide, by decide⟩
  have h2 := C73_value c!"k" c!"a + 1" x hk hx
  have h3 := C73_template_partial c!"k" '"' [.expr c!"a + 1" x] hk rfl ⟨hx, trivial⟩ (by
    simp only [List.mem_singleton, forall_eq]
    rintro e ⟨⟩
    exact .of_text (by decide))
  refine ⟨x, hx, ?_, ?_⟩
  · rw [← h2]; rfl
  · exact h3

end Verif.Etx
