import Verif.Etx.Written

/-!
# Blank lines, comments and strings
-/

namespace Verif.Etx

open Re

/-! ## Blank lines -/

theorem W.return : W (is '\r') anyC c!"\r" [tk .lf c!"\r"] := fun st hst _ => by
  refine Writes.of_token (by simp) (by simp [is]) (by decide) (by decide) fun y _ => ?_
  obtain ⟨state, g, below, hst⟩ := hst
  refine TokenOf.of_firstRule (r := rule .lf (cls fun c => c = '\r' || c = '\n')) (m := ⟨c!"\r", none, y⟩) ?_ (by simp) rfl
  rw [List.cons_append, firstRule_filter]
  have : (rulesOf state).filter (Rule.can g '\r') = [rule .lf (cls fun c => c = '\r' || c = '\n')] := by
    rcases hst with rfl | rfl <;> rfl
  rw [this, firstRule_hit]
  rfl

theorem W.blank {e : Str} (h : Node.blank e = true) : W₀ anyC anyC e (blankToks e) := by
  have key : W₀ anyC anyC ((e.map fun c => ([c], [tk .lf [c]])).map (·.1)).flatten ((e.map fun c => ([c], [tk .lf [c]])).map (·.2)).flatten := by
    refine W.all fun x hx => ?_
    simp only [List.mem_map] at hx
    obtain ⟨c, hc, rfl⟩ := hx
    have := List.all_eq_true.mp h c hc
    simp only [Bool.or_eq_true, decide_eq_true_eq] at this
    rcases this with rfl | rfl
    · exact W.newline.mono any_le le_refl'
    · exact W.return.mono any_le le_refl'
  have h1 : ((e.map fun c => ([c], [tk .lf [c]])).map (·.1)).flatten = e := by
    clear key h
    induction e with
    | nil => rfl
    | cons c e ih => simpa using ih
  have h2 : ((e.map fun c => ([c], [tk .lf [c]])).map (·.2)).flatten = blankToks e := by
    clear key h h1
    induction e with
    | nil => rfl
    | cons c e ih => simpa [blankToks] using ih
  rwa [h1, h2] at key

/-! ## Comments -/

/-- The text of a single-line comment. -/
def singleOk (w : Str) : Bool := (c!"//".isPrefixOf w || c!"#".isPrefixOf w) && !w.contains '\n'

/-- The text of a multi-line comment on one line. -/
def closedOk (t : Str) : Bool :=
  decide (t = c!"/*" ++ (t.drop 2).take (t.length - 4) ++ c!"*/" ∧ ¬ c!"*/" <:+: (t.drop 2).take (t.length - 4)) && !t.contains '\n'

/-- The same, possibly with a line feed. -/
def multiOk (w : Str) : Bool := if w.getLast? = some '\n' then closedOk w.dropLast else closedOk w

theorem W.single_comment {w : Str} (h : singleOk w = true) : W anyC (is '\n') w [tk .singleLineComment w] := fun st hst _ => by
  simp only [singleOk, Bool.and_eq_true, Bool.or_eq_true, List.isPrefixOf_iff_prefix, Bool.not_eq_true', ← Bool.not_eq_true,
    List.contains_iff_mem] at h
  obtain ⟨h1, h2⟩ := h
  obtain ⟨p, u, rfl, hp⟩ : ∃ p u, w = p ++ u ∧ (p = c!"//" ∨ p = c!"#") := by
    rcases h1 with ⟨u, rfl⟩ | ⟨u, rfl⟩
    · exact ⟨_, u, rfl, .inl rfl⟩
    · exact ⟨_, u, rfl, .inr rfl⟩
  refine Writes.of_token (by rcases hp with rfl | rfl <;> simp) (fun _ _ => rfl) (by simp [tk]) h2 fun y hy =>
    C46_single st p u y hst hp (fun h => h2 (List.mem_append_right _ h)) ?_
  cases y with
  | nil => exact .inl rfl
  | cons c y =>
    have := hy c rfl
    simp only [is, decide_eq_true_eq] at this
    exact .inr ⟨y, by rw [this]⟩

theorem W.multi_comment {w : Str} (h : closedOk w = true) : W anyC anyC w [tk .multilineComment w] := fun st hst _ => by
  simp only [closedOk, Bool.and_eq_true, decide_eq_true_eq, Bool.not_eq_true', ← Bool.not_eq_true, List.contains_iff_mem] at h
  obtain ⟨⟨h1, h2⟩, h3⟩ := h
  generalize (w.drop 2).take (w.length - 4) = a at h1 h2
  subst h1
  exact Writes.of_token (by simp) (fun _ _ => rfl) (by simp [tk]) h3 fun y _ => C46_multi st a y hst h2

theorem W.comments {l : List Str} (h : ∀ w ∈ l, singleOk w = true) :
    W₀ anyC anyC (l.map (· ++ c!"\n")).flatten (l.flatMap fun w => [tk .singleLineComment w, lfTok]) := by
  have := W.all (l := l.map fun w => (w ++ c!"\n", [tk .singleLineComment w, lfTok])) (fun x hx => by
    simp only [List.mem_map] at hx
    obtain ⟨w, hw, rfl⟩ := hx
    exact (W.single_comment (h w hw)).append' W.newline le_refl' (by
      have := h w hw
      simp only [singleOk, Bool.and_eq_true, Bool.not_eq_true', ← Bool.not_eq_true, List.contains_iff_mem] at this
      unfold endsLine
      cases hl : w.getLast? with
      | none => rfl
      | some c =>
        simp only [Option.map_some, Option.getD_some, decide_eq_false_iff_not]
        rintro rfl
        exact this.2 (List.mem_of_getLast? hl)))
  simpa [List.map_map, Function.comp_def, List.flatMap_def] using this

theorem W.multi {w : Str} (h : multiOk w = true) : W anyC anyC w (multilineToks w) := by
  unfold multiOk at h
  unfold multilineToks
  split at h
  · rename_i hl
    rw [if_pos hl]
    have e : w.dropLast ++ c!"\n" = w := by
      have hn : w ≠ [] := by rintro rfl; simp at hl
      have := List.dropLast_concat_getLast hn
      rw [List.getLast?_eq_some_getLast hn, Option.some.injEq] at hl
      rwa [hl] at this
    exact ((W.multi_comment h).append W.newline any_le rfl).cast e rfl
  · rename_i hl
    rw [if_neg hl]
    exact W.multi_comment h

/-! ## Strings -/

/-- Inside a string with double quotes. -/
def strSt (st : Stack) : Stack := (.string, c!"\"") :: st

/-- The text of a fragment of a string. -/
def Frag (f p : Char → Bool) (s : Str) (ts : List Token) : Prop :=
  endsLine false s = false ∧ ∀ st, Plain st → Writes (strSt st) (strSt st) f p s (sig ts)

/-- What the first token begins with. -/
def firstIs (ts : List Token) (c : Char) : Bool := ts.head?.any fun t => t.txt.head? = some c

theorem endsLine_plain {s : Str} (h : '\n' ∉ s) : endsLine false s = false := by
  unfold endsLine
  cases hl : s.getLast? with
  | none => rfl
  | some c =>
    simp only [Option.map_some, Option.getD_some, decide_eq_false_iff_not]
    rintro rfl
    exact h (List.mem_of_getLast? hl)

/-- Literal text. -/
def charOk (w : Str) : Bool := decide (w ≠ []) && w.all fun c => !isSpecial c && c ≠ '\n'

theorem Frag.char {w : Str} (h : charOk w = true) : Frag (firstIs [tk .char w]) isSpecial w [tk .char w] := by
  simp only [charOk, Bool.and_eq_true, decide_eq_true_eq, List.all_eq_true, Bool.not_eq_true'] at h
  obtain ⟨h1, h2⟩ := h
  have hn : '\n' ∉ w := fun hm => (h2 _ hm).2 rfl
  refine ⟨endsLine_plain hn, fun st hst => ⟨h1, fun c hc => by simpa [firstIs, tk] using hc, fun pre y _ hy => ?_⟩⟩
  rw [indentFrom_plain hn]
  obtain ⟨c, w, rfl⟩ := List.exists_cons_of_ne_nil h1
  have hc := (h2 c (by simp)).1
  have := lexStep_char '"' c (w ++ y) hc (by rintro rfl; revert hc; decide) st
  have hs := takeWhile_stop (p := fun c => !isSpecial c) (l := w) (r := y) (fun d hd => by simp [h2 d (by simp [hd])])
    (fun d hd => by simp [hy d hd])
  rw [hs.1, hs.2] at this
  exact LexRun.one this (by simp [rule])

theorem Frag.quote : Frag (firstIs [tk .quote c!"'"]) anyC c!"'" [tk .quote c!"'"] := by
  refine ⟨rfl, fun st hst => ⟨by simp, by simp [firstIs, tk], fun pre y _ hy => ?_⟩⟩
  obtain ⟨r, hr, h⟩ := lexStep_otherQuote '"' '\'' rfl rfl (by decide) y st
  have := LexRun.one h (by rw [hr]; decide)
  rw [hr] at this
  exact this

theorem Frag.nonExpr {w : Str} (h : w = c!"$${" ∨ w = c!"%%{") : Frag (firstIs [tk .nonExpr w]) anyC w [tk .nonExpr w] := by
  obtain ⟨d, hd, rfl⟩ : ∃ d, (d = '$' ∨ d = '%') ∧ w = [d, d, '{'] := by
    rcases h with rfl | rfl
    · exact ⟨_, .inl rfl, rfl⟩
    · exact ⟨_, .inr rfl, rfl⟩
  have hn : '\n' ∉ [d, d, '{'] := by rcases hd with rfl | rfl <;> decide
  refine ⟨endsLine_plain hn, fun st hst => ⟨by simp, by simp [firstIs, tk], fun pre y _ hy => ?_⟩⟩
  rw [indentFrom_plain hn]
  obtain ⟨r, cap, hr, h⟩ := lexStep_nonExpr '"' d rfl hd y st
  have := LexRun.one h (by rw [hr]; decide)
  rw [hr] at this
  exact this

theorem lexStep_u (y : Str) (st : Stack) : ∃ r, r.sym = .unicode ∧
    lexStep (strSt st) (c!"\\u" ++ y) = some (r, ⟨c!"\\u", none, y⟩, (.unicode, []) :: strSt st) := by
  refine ⟨rule .unicode (lit c!"\\u") (.push .unicode), rfl, ?_⟩
  unfold strSt
  rw [lexStep_of (r := rule .unicode (lit c!"\\u") (.push .unicode)) (m := ⟨c!"\\u", none, y⟩) ?_ (by simp)]
  · rfl
  rw [List.cons_append, firstRule_filter]
  have : (rulesOf .string).filter (Rule.can c!"\"" '\\') = [rule .unicode (lit c!"\\u") (.push .unicode),
      rule .escaped (seq (lit c!"\\") (cls (· ≠ '\n')))] := rfl
  rw [this, firstRule_lit]
  simp

theorem lexStep_open (d : Char) (hd : d = '$' ∨ d = '%') (y : Str) (st : Stack) : ∃ r, r.sym = (if d = '$' then .expr else .directive) ∧
    lexStep (strSt st) (d :: '{' :: y) = some (r, ⟨[d, '{'], none, y⟩, (.stringExpr, []) :: strSt st) := by
  refine ⟨rule (if d = '$' then .expr else .directive) (lit [d, '{']) (.push .stringExpr), rfl, ?_⟩
  unfold strSt
  rw [lexStep_of (r := rule (if d = '$' then .expr else .directive) (lit [d, '{']) (.push .stringExpr))
    (m := ⟨[d, '{'], none, y⟩) ?_ (by simp)]
  · rfl
  have hn : reNonExpr.first (d :: '{' :: y) = none := by
    rw [Re.first_none]
    rcases hd with rfl | rfl <;>
    · simp only [reNonExpr, Re.run]
      rw [run_lit_fail _ _ _ (by simp), run_lit_fail _ _ _ (by simp)]
      rfl
  rw [firstRule_filter]
  rcases hd with rfl | rfl
  · have : (rulesOf .string).filter (Rule.can c!"\"" '$') = [rule .nonExpr reNonExpr, rule .expr (lit c!"${") (.push .stringExpr)] := rfl
    rw [this, firstRule_miss hn, firstRule_lit]
    simp
  · have : (rulesOf .string).filter (Rule.can c!"\"" '%') = [rule .nonExpr reNonExpr, rule .directive (lit c!"%{") (.push .stringExpr)] := rfl
    rw [this, firstRule_miss hn, firstRule_lit]
    simp

theorem lexStep_exprEnd (y : Str) (st : Stack) : ∃ r, r.sym = .exprEnd ∧
    lexStep ((.stringExpr, []) :: st) ('}' :: y) = some (r, ⟨c!"}", none, y⟩, st) := by
  refine ⟨rule .exprEnd (lit c!"}") .pop, rfl, ?_⟩
  rw [lexStep_of (r := rule .exprEnd (lit c!"}") .pop) (m := ⟨c!"}", none, y⟩) ?_ (by simp)]
  · rfl
  rw [firstRule_filter]
  have : (rulesOf .stringExpr).filter (Rule.can [] '}') = [rule .exprEnd (lit c!"}") .pop, rule .blockEnd (lit c!"}")] := rfl
  rw [this, firstRule_lit]
  simp

/-- `${ … }` and `%{ … }` -/
theorem Frag.expr {f p : Char → Bool} {s : Str} {ts : List Token} (h : W f p s ts) (hp : p '}' = true) (ht : p '\t' = true)
    (hb : ∀ t ∈ ts, t.sym ≠ .blockEnd) (d : Char) (hd : d = '$' ∨ d = '%') :
    Frag (firstIs (tk (if d = '$' then .expr else .directive) [d, '{'] :: (ts ++ [tk .exprEnd c!"}"]))) anyC ([d, '{'] ++ s ++ c!"}")
      (tk (if d = '$' then .expr else .directive) [d, '{'] :: (ts ++ [tk .exprEnd c!"}"])) := by
  refine ⟨by rw [endsLine, List.getLast?_concat]; rfl, fun st hst => ⟨by simp, by simp [firstIs, tk], fun pre y hpre hy => ?_⟩⟩
  have hw := h ((.stringExpr, []) :: strSt st) (.mk _ _ _ (.inr rfl)) (.inr hb)
  rw [List.append_assoc, indentFrom_skip _ (by rcases hd with rfl | rfl <;> simp), indentFrom_split]
  have hclose : ∃ pre', (∀ c ∈ pre', c = '\t') ∧ indentFrom '\n' pre (endsLine false s) c!"}" = pre' ++ c!"}" := by
    rcases Bool.eq_false_or_eq_true (endsLine false s) with e | e
    · exact ⟨pre, hpre, by rw [e]; rfl⟩
    · exact ⟨[], by simp, by rw [e]; rfl⟩
  obtain ⟨pre', hpre', e⟩ := hclose
  rw [e]
  obtain ⟨r, hr, h1⟩ := lexStep_open d hd (indentFrom '\n' pre false s ++ (pre' ++ '}' :: y)) st
  have h1 := LexRun.one h1 (by rw [hr]; rcases hd with rfl | rfl <;> decide)
  rw [hr] at h1
  have h2 := hw.run pre (pre' ++ '}' :: y) hpre (by
    intro c hc
    cases pre' with
    | nil => simp at hc; rw [← hc]; exact hp
    | cons d' l =>
      simp at hc
      rw [← hc, hpre' d' (by simp)]; exact ht)
  obtain ⟨r', hr', h3⟩ := lexStep_exprEnd y (strSt st)
  have h3 := LexRun.one h3 (by rw [hr']; decide)
  rw [hr'] at h3
  have h3 : LexRun ((.stringExpr, []) :: strSt st) (pre' ++ ('}' :: y)) [(.exprEnd, c!"}")] (strSt st) y :=
    LexRun.blanks (s := c!"}") (.mk _ _ _ (.inr rfl)) (tab_blank hpre') (by simp) h3
  have := (h1.trans h2).trans h3
  simpa [sig, tk] using this

/-- Hexadecimal digits. -/
def unicodeOk (w : Str) : Bool := w.all isHex && (w.length = 4 || w.length = 8)

theorem hex_plain {w : Str} (h : ∀ c ∈ w, isHex c = true) : '\n' ∉ w := fun hm => by
  have := h _ hm
  revert this; decide

theorem run_rep {r : Char → Bool} (n : Nat) (w y : Str) (prev : Option Char) (hw : w.length = n) (h : ∀ c ∈ w, r c = true) :
    (rep (cls r) n).run prev (w ++ y) = [⟨w, none, y⟩] := by
  induction n generalizing w prev with
  | zero => cases w <;> simp_all [rep, Re.run, Match.nothing]
  | succ n ih =>
    cases w with
    | nil => simp at hw
    | cons c w =>
      simp only [rep, Re.run, List.cons_append]
      rw [if_pos (h c (by simp))]
      simp only [List.flatMap_cons, List.flatMap_nil, List.append_nil]
      rw [ih w _ (by simpa using hw) fun d hd => h d (by simp [hd])]
      rfl

theorem run_rep_short {r : Char → Bool} (n : Nat) (w y : Str) (prev : Option Char) (hw : w.length < n)
    (hy : ∀ c ∈ y.head?, r c = false) : (rep (cls r) n).run prev (w ++ y) = [] := by
  induction n generalizing w prev with
  | zero => simp at hw
  | succ n ih =>
    cases w with
    | nil =>
      cases y with
      | nil => rfl
      | cons c y =>
        simp only [rep, Re.run, List.nil_append]
        rw [if_neg (by simp [hy c rfl])]
        rfl
    | cons c w =>
      simp only [rep, Re.run, List.cons_append]
      split
      · simp only [List.flatMap_cons, List.flatMap_nil, List.append_nil]
        rw [ih w _ (by simpa using hw)]
        rfl
      · rfl

theorem Frag.unicode {w : Str} (h : unicodeOk w = true) :
    Frag (firstIs [tk .unicode c!"\\u", tk (if w.length = 8 then .unicodeLong else .unicodeShort) w])
      (fun c => decide (w.length = 8) || !isHex c) (c!"\\u" ++ w)
      [tk .unicode c!"\\u", tk (if w.length = 8 then .unicodeLong else .unicodeShort) w] := by
  simp only [unicodeOk, Bool.and_eq_true, List.all_eq_true, Bool.or_eq_true, decide_eq_true_eq] at h
  obtain ⟨h1, h2⟩ := h
  have hn : '\n' ∉ c!"\\u" ++ w := by
    have := hex_plain h1
    simp [this]
  refine ⟨endsLine_plain hn, fun st hst => ⟨by simp, by simp [firstIs, tk], fun pre y _ hy => ?_⟩⟩
  rw [indentFrom_plain hn, List.append_assoc]
  obtain ⟨r, hr, h3⟩ := lexStep_u (w ++ y) st
  have h3 := LexRun.one h3 (by rw [hr]; decide)
  rw [hr] at h3
  have h4 : ∃ r, r.sym = (if w.length = 8 then .unicodeLong else .unicodeShort) ∧
      lexStep ((.unicode, []) :: strSt st) (w ++ y) = some (r, ⟨w, none, y⟩, strSt st) := by
    rcases h2 with h2 | h2
    · refine ⟨rule .unicodeShort (rep (cls isHex) 4) .pop, by simp [h2, rule], ?_⟩
      rw [lexStep_of (r := rule .unicodeShort (rep (cls isHex) 4) .pop) (m := ⟨w, none, y⟩) ?_ (by rintro rfl; cases h2)]
      · rfl
      · simp only [rulesOf, unicodeRules]
        rw [firstRule_miss, firstRule_hit]
        · simp [rule, first, run_rep 4 w y none h2 h1]
        · simp only [rule]
          rw [Re.first_none]
          exact run_rep_short 8 w y none (by omega) (fun c hc => by simpa [h2] using hy c hc)
    · refine ⟨rule .unicodeLong (rep (cls isHex) 8) .pop, by simp [h2, rule], ?_⟩
      rw [lexStep_of (r := rule .unicodeLong (rep (cls isHex) 8) .pop) (m := ⟨w, none, y⟩) ?_ (by rintro rfl; cases h2)]
      · rfl
      · simp only [rulesOf, unicodeRules]
        rw [firstRule_hit]
        simp [rule, first, run_rep 8 w y none h2 h1]
  obtain ⟨r', hr', h4⟩ := h4
  have h4 := LexRun.one h4 (by rw [hr']; split <;> decide)
  rw [hr'] at h4
  exact h3.trans h4

/-- Fragments one after the other, each allowing what follows. -/
def fragsOk : List ((Char → Bool) × List Token) → Bool
  | [] => true
  | [_] => true
  | x :: y :: l => y.2.head?.all (fun t => t.txt.head?.all x.1) && fragsOk (y :: l)

/-- A string. -/
theorem W.string {l : List ((Char → Bool) × Str × List Token)} (h : ∀ x ∈ l, Frag (firstIs x.2.2) x.1 x.2.1 x.2.2)
    (hq : ∀ x ∈ l, x.1 '"' = true) (hl : fragsOk (l.map fun x => (x.1, x.2.2)) = true) :
    W (is '"') anyC (c!"\"" ++ (l.map (·.2.1)).flatten ++ c!"\"")
      (tk .string c!"\"" :: ((l.map (·.2.2)).flatten ++ [tk .stringEnd c!"\""])) := fun st hst hz => by
  clear hz
  have hend : Writes (strSt st) st (is '"') anyC c!"\"" [(.stringEnd, c!"\"")] := by
    refine ⟨by simp, by simp [is], fun pre y _ _ => ?_⟩
    obtain ⟨r, hr, h⟩ := lexStep_end '"' rfl y st
    have := LexRun.one h (by rw [hr]; decide)
    rw [hr] at this
    exact this
  have hbody : Writes (strSt st) st (fun c => (match l with | [] => is '"' | x :: _ => firstIs x.2.2) c) anyC
      ((l.map (·.2.1)).flatten ++ c!"\"") (sig (l.map (·.2.2)).flatten ++ [(.stringEnd, c!"\"")]) := by
    induction l with
    | nil => exact hend
    | cons x l ih =>
      have hx := h x (by simp)
      have ih := ih (fun z hz => h z (List.mem_cons_of_mem _ hz)) (fun z hz => hq z (List.mem_cons_of_mem _ hz)) (by
        cases l with
        | nil => rfl
        | cons y l => simp only [List.map_cons, fragsOk, Bool.and_eq_true] at hl; exact hl.2)
      have := (hx.2 st hst).append' ih hx.1 (by
        intro c hc
        cases l with
        | nil => simp only [is, decide_eq_true_eq] at hc; rw [hc]; exact hq x (by simp)
        | cons y l =>
          simp only [List.map_cons, fragsOk, Bool.and_eq_true, Option.all_eq_true] at hl
          simp only [firstIs, Option.any_eq_true, decide_eq_true_eq] at hc
          obtain ⟨t, ht, hc⟩ := hc
          exact hl.1 t ht c hc)
      simpa using this
  have hopen : Writes st (strSt st) (is '"') anyC c!"\"" [(.string, c!"\"")] := by
    refine ⟨by simp, by simp [is], fun pre y _ _ => ?_⟩
    obtain ⟨state, g, below, hst⟩ := hst
    obtain ⟨r, cap, hr, h⟩ := lexStep_string hst g '"' rfl y below
    have := LexRun.one h (by rw [hr]; decide)
    rw [hr] at this
    exact this
  have := hopen.append' hbody rfl any_le
  simpa [tk] using this

end Verif.Etx
