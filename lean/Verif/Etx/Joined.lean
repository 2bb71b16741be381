import Verif.Etx.Nest
import Verif.Etx.LexJoin
import Verif.Etx.Relocate

/-!
# Parsing what follows a document
-/

namespace Verif.Etx

namespace Gram

/-- Whether the last token can be `/`. -/
def endsDiv : Gram → Bool
  | lit _ | sub _ _ => false
  | tok y => decide (y = .opDivision)
  | seq a b => endsDiv b || (null b && endsDiv a)
  | alt a b => endsDiv a || endsDiv b
  | opt a | star a | plus a | cap _ a => endsDiv a

/-- Whether the first token can be `*`. -/
def startsMul : Gram → Bool
  | lit _ | sub _ _ => false
  | tok y => decide (y = .opMultiplication)
  | seq a b => startsMul a || (null a && startsMul b)
  | alt a b => startsMul a || startsMul b
  | opt a | star a | plus a | cap _ a => startsMul a

/-- `/` and `*` do not follow each other. -/
def noDivMul : Gram → Bool
  | lit _ | sub _ _ | tok _ => true
  | seq a b => noDivMul a && noDivMul b && !(endsDiv a && startsMul b)
  | alt a b => noDivMul a && noDivMul b
  | opt a | cap _ a => noDivMul a
  | star a | plus a => noDivMul a && !null a && !(endsDiv a && startsMul a)

theorem noDivMul_of (k : Kind) : endsDiv (of k) = false ∧ startsMul (of k) = false ∧ noDivMul (of k) = true := by
  cases k <;> first | decide | (rename_i l; cases l <;> decide) | exact ⟨rfl, rfl, rfl⟩

end Gram

open Gram

variable [FloatValue]

omit [FloatValue] in
theorem litSym_ne (w : Str) : litSym w ≠ .opDivision ∧ litSym w ≠ .opMultiplication := by
  unfold litSym
  constructor <;> repeat' first | apply ite_ne | decide

/-- No `/` directly followed by `*` is derived. -/
theorem Strict.chain {g : Gram} {s : List Token} {o : Out} (h : Strict g s o) (hg : noDivMul g = true) :
    (s = [] → null g = true) ∧ (∀ t ∈ s.getLast?, t.sym = .opDivision → endsDiv g = true) ∧
      (∀ t ∈ s.head?, t.sym = .opMultiplication → startsMul g = true) ∧ s.IsChain Apart := by
  have app : ∀ {s s' : List Token} {P Q P' Q' : Prop} {n n' : Bool}, ((s = [] → n = true) ∧ (∀ t ∈ s.getLast?, t.sym = .opDivision → P) ∧
      (∀ t ∈ s.head?, t.sym = .opMultiplication → Q) ∧ s.IsChain Apart) → ((s' = [] → n' = true) ∧
      (∀ t ∈ s'.getLast?, t.sym = .opDivision → P') ∧ (∀ t ∈ s'.head?, t.sym = .opMultiplication → Q') ∧ s'.IsChain Apart) → ¬ (P ∧ Q') →
      (s ++ s' = [] → n = true ∧ n' = true) ∧ (∀ t ∈ (s ++ s').getLast?, t.sym = .opDivision → P' ∨ (n' = true ∧ P)) ∧
      (∀ t ∈ (s ++ s').head?, t.sym = .opMultiplication → Q ∨ (n = true ∧ Q')) ∧ (s ++ s').IsChain Apart := by
    intro s s' P Q P' Q' n n' h h' hPQ
    obtain ⟨h1, h2, h3, h4⟩ := h
    obtain ⟨h1', h2', h3', h4'⟩ := h'
    refine ⟨fun e => ?_, fun t ht e => ?_, fun t ht e => ?_, ?_⟩
    · obtain ⟨rfl, rfl⟩ := List.append_eq_nil_iff.mp e
      exact ⟨h1 rfl, h1' rfl⟩
    · rw [List.getLast?_append, Option.mem_def, Option.or_eq_some_iff] at ht
      rcases ht with ht | ⟨ht, ht'⟩
      · exact .inl (h2' t ht e)
      · exact .inr ⟨h1' (List.getLast?_eq_none_iff.mp ht), h2 t ht' e⟩
    · rw [List.head?_append, Option.mem_def, Option.or_eq_some_iff] at ht
      rcases ht with ht | ⟨ht, ht'⟩
      · exact .inl (h3 t ht e)
      · exact .inr ⟨h1 (List.head?_eq_none_iff.mp ht), h3' t ht' e⟩
    · exact List.isChain_append.mpr ⟨h4, h4', fun x hx y hy ⟨e1, e2⟩ => hPQ ⟨h2 x hx e1, h3' y hy e2⟩⟩
  induction h with
  | @lit w t _ hs =>
    refine ⟨by simp, ?_, ?_, .singleton _⟩
    · intro t' ht e
      simp only [List.getLast?_singleton, Option.mem_def, Option.some.injEq] at ht
      subst ht
      exact absurd (hs.symm.trans e) (litSym_ne w).1
    · intro t' ht e
      simp only [List.head?_cons, Option.mem_def, Option.some.injEq] at ht
      subst ht
      exact absurd (hs.symm.trans e) (litSym_ne w).2
  | @tok y t hs =>
    refine ⟨by simp, ?_, ?_, .singleton _⟩
    · intro t' ht e
      simp only [List.getLast?_singleton, Option.mem_def, Option.some.injEq] at ht
      subst ht
      simp [endsDiv, ← hs, e]
    · intro t' ht e
      simp only [List.head?_cons, Option.mem_def, Option.some.injEq] at ht
      subst ht
      simp [startsMul, ← hs, e]
  | @seq a b s s' o o' _ _ iha ihb =>
    simp only [noDivMul, Bool.and_eq_true, Bool.not_eq_true', Bool.and_eq_false_iff] at hg
    have := app (iha hg.1.1) (ihb hg.1.2) (by
      rintro ⟨e1, e2⟩
      rcases hg.2 with h | h
      · rw [e1] at h; cases h
      · rw [e2] at h; cases h)
    simpa [null, endsDiv, startsMul] using this
  | @altL a b s o _ ih =>
    simp only [noDivMul, Bool.and_eq_true] at hg
    obtain ⟨h1, h2, h3, h4⟩ := ih hg.1
    refine ⟨fun e => ?_, fun t ht e => ?_, fun t ht e => ?_, h4⟩
    · simp [null, h1 e]
    · simp [endsDiv, h2 t ht e]
    · simp [startsMul, h3 t ht e]
  | @altR a b s o _ ih =>
    simp only [noDivMul, Bool.and_eq_true] at hg
    obtain ⟨h1, h2, h3, h4⟩ := ih hg.2
    refine ⟨fun e => ?_, fun t ht e => ?_, fun t ht e => ?_, h4⟩
    · simp [null, h1 e]
    · simp [endsDiv, h2 t ht e]
    · simp [startsMul, h3 t ht e]
  | skip => exact ⟨fun _ => rfl, nofun, nofun, .nil⟩
  | nil => exact ⟨fun _ => rfl, nofun, nofun, .nil⟩
  | once _ ih => exact ⟨fun _ => rfl, (ih hg).2⟩
  | @cons a s s' o o' _ _ iha ihb =>
    have hg' := hg
    simp only [noDivMul, Bool.and_eq_true, Bool.not_eq_true', Bool.and_eq_false_iff] at hg
    have := app (iha hg.1.1) (ihb hg') (by
      rintro ⟨e1, e2⟩
      have e2 : startsMul a = true := e2
      rcases hg.2 with h | h
      · rw [e1] at h; cases h
      · rw [e2] at h; cases h)
    obtain ⟨h1, h2, h3, h4⟩ := this
    refine ⟨fun _ => rfl, fun t ht e => ?_, fun t ht e => ?_, h4⟩
    · rcases h2 t ht e with h | h
      · exact h
      · exact h.2
    · rcases h3 t ht e with h | h
      · exact h
      · exact h.2
  | @plus a s s' o o' _ _ iha ihb =>
    have hg' : noDivMul (.star a) = true := hg
    simp only [noDivMul, Bool.and_eq_true, Bool.not_eq_true', Bool.and_eq_false_iff] at hg
    have := app (iha hg.1.1) (ihb hg') (by
      rintro ⟨e1, e2⟩
      have e2 : startsMul a = true := e2
      rcases hg.2 with h | h
      · rw [e1] at h; cases h
      · rw [e2] at h; cases h)
    obtain ⟨h1, h2, h3, h4⟩ := this
    refine ⟨fun e => (h1 e).1, fun t ht e => ?_, fun t ht e => ?_, h4⟩
    · rcases h2 t ht e with h | h
      · exact h
      · exact h.2
    · rcases h3 t ht e with h | h
      · exact h
      · exact h.2
  | cap _ ih => exact ih hg
  | @sub f k s o pos x _ _ _ ih =>
    obtain ⟨e1, e2, e3⟩ := noDivMul_of k
    obtain ⟨h1, h2, h3, h4⟩ := ih e3
    refine ⟨fun e => ?_, fun t ht e => ?_, fun t ht e => ?_, h4⟩
    · rw [null, ← null_of]; exact h1 e
    · rw [h2 t ht e] at e1; cases e1
    · rw [h3 t ht e] at e2; cases e2

omit [FloatValue] in
theorem TokRun.bottom {st st' : Stack} {ts : List Token} (h : TokRun st ts st') {g : Str}
    (hr : st.getLast? = some (.root, g)) : st'.getLast? = some (.root, g) := by
  induction h with
  | nil => exact hr
  | @cons st st1 st2 t ts h1 _ ih =>
    refine ih ?_
    obtain ⟨-, state, g, below, rfl, -, h3, h2⟩ := h1
    cases e : t.sym.action with
    | none => rw [e] at h2; subst h2; exact hr
    | push new =>
      rw [e] at h2
      obtain ⟨g', rfl⟩ := h2
      simpa using hr
    | pop =>
      rw [e] at h2
      subst h2
      cases st1 with
      | nil =>
        simp only [List.getLast?_singleton, Option.some.injEq, Prod.mk.injEq] at hr
        exact absurd e (core_action _ (h3 hr.1))
      | cons x st1 => simpa using hr

omit [FloatValue] in
/-- Outside of brackets, a token that ends with a line end is one. -/
theorem nest_last {c : List Br} {ts : List Token} (h : nest c ts = some []) :
    ∀ t ∈ ts.getLast?, t.sym ∈ [Sym.heredoc, .lf, .char, .eol] → t.sym = .lf := by
  intro t ht hs
  obtain ⟨u, rfl⟩ : ∃ u, ts = u ++ [t] := by
    obtain ⟨hne, h⟩ := List.mem_getLast?_eq_getLast ht
    exact ⟨ts.dropLast, by rw [h, List.dropLast_concat_getLast]⟩
  rw [nest_app, Option.bind_eq_some_iff] at h
  obtain ⟨d, -, h⟩ := h
  simp only [Verif.Etx.nest, Option.bind_eq_some_iff, Option.some.injEq, exists_eq_right] at h
  cases d with
  | nil => 
    simp only [List.mem_cons, List.not_mem_nil, or_false] at hs
    rcases hs with e | e | e | e <;> rw [e] at h ⊢ <;> first | rfl | cases h
  | cons x d =>
    simp only [List.mem_cons, List.not_mem_nil, or_false] at hs
    rcases hs with e | e | e | e <;> rw [e] at h ⊢ <;> first | rfl | (cases x <;> cases h)

omit [FloatValue] in
/-- The last token of a text that ends with a line end. -/
theorem lexAll_last (n : Nat) (s : Str) (hn : s.length ≤ n) (st : Stack) (pos : Position) (ts : List Token) (hst : LineStack st)
    (hs : s.getLast? = some '\n') (h : lexAll st pos s = some ts) :
    ∃ t, ts.getLast? = some t ∧ t.sym ∈ [Sym.heredoc, .lf, .char, .eol] := by
  induction n generalizing s st pos ts with
  | zero =>
    cases s with
    | nil => cases hs
    | cons => simp at hn
  | succ n ih =>
    have hz : s ≠ [] := by rintro rfl; cases hs
    rw [lexAll_step hz] at h
    simp only [Option.bind_eq_some_iff, Option.map_eq_some_iff] at h
    obtain ⟨⟨r, m, st'⟩, h1, ts', h2, h3⟩ := h
    simp only at h2 h3
    obtain ⟨hsp, hne, hlt⟩ := lexStep_split h1
    by_cases e : m.rest = []
    · have hr := lexStep_last hst hs h1 e
      rw [e] at h2
      cases h2
      rw [← h3, if_neg (by intro h; rw [h] at hr; revert hr; decide)]
      exact ⟨_, rfl, hr⟩
    · have hrest : m.rest.getLast? = some '\n' := by
        rw [← hsp, List.getLast?_append_of_ne_nil _ e] at hs
        exact hs
      obtain ⟨t, ht, hs'⟩ := ih m.rest (by omega) st' _ ts' (hst.step h1) hrest h2
      refine ⟨t, ?_, hs'⟩
      rw [← h3]
      split
      · exact ht
      · rw [show ∀ x : Token, x :: ts' = [x] ++ ts' from fun _ => rfl, List.getLast?_append, ht]
        rfl

omit [FloatValue] in
theorem lineStack_start : LineStack [(.root, [])] := by
  intro x hx
  simp only [List.mem_singleton] at hx
  subst hx
  simp

/-- What the tokens of a document that ends with a line end are like. -/
theorem doc_tokens {a : Str} {ta : List Token} {eof : Position} {x : Node (.slice .rootItem)} (hl : lex a = some ta)
    (ha : a.getLast? = some '\n') (h : parseTokens eof ta = some x) :
    nest [] ta = some [] ∧ (∀ t ∈ ta.getLast?, t.sym = .lf) ∧ (∀ t ∈ ta, t.exact = true) ∧
      ∀ b, lex (a ++ b) = (lexAll [(.root, [])] (Position.start.advance a) b).map (ta ++ ·) := by
  obtain ⟨o, hd, -⟩ := parseTokens_strict hl h
  have hn : nest [] ta = some [] := hd.nested (b := .stringExpr) (c := []) (c' := []) (β := []) rfl (by decide +kernel)
  have hlf : ∀ t ∈ ta.getLast?, t.sym = .lf := by
    intro t ht
    obtain ⟨t', ht', hs⟩ := lexAll_last _ a (Nat.le_refl _) _ _ _ lineStack_start ha hl
    rw [Option.mem_def, ht'] at ht
    cases ht
    exact nest_last hn _ ht' hs
  obtain ⟨st, hr, -, hb⟩ := lexAll_join _ a (Nat.le_refl _) _ _ _ lineStack_start (.inr ha) hl (hd.chain (by decide)).2.2.2 hlf
  refine ⟨hn, hlf, hr.exact, fun b => ?_⟩
  have hst : st = [(.root, [])] := by
    obtain ⟨o', h1, -⟩ := parseTokens_derives h
    have h1 := weight_le h1 (by decide) hr.exact
    have h2 := hr.height_eq
    have h3 := hr.bottom (g := []) rfl
    simp only [Gram.weight, List.length_singleton] at h1 h2
    match st, h2, h3 with
    | [], _, h3 => cases h3
    | [y], _, h3 =>
      simp only [List.getLast?_singleton, Option.some.injEq] at h3
      rw [h3]
    | y :: z :: st, h2, _ =>
      simp only [List.length_cons] at h2
      omega
  rw [lex_eq, hb b, hst]

/-- A position in a text that follows `a`. -/
def Position.after (a : Str) (q : Position) : Position :=
  if q.line = 0 then q else { q with offset := q.offset + byteLen a, line := q.line + a.count '\n' }

omit [FloatValue] in
theorem Position.after_advance (a w : Str) (q : Position) (hq : q.line ≠ 0) : (q.after a).advance w = (q.advance w).after a := by
  unfold Position.after Position.advance
  simp only [hq, if_false, Nat.add_eq_zero_iff, false_and, Position.mk.injEq, true_and, and_true]
  omega

omit [FloatValue] in
theorem Position.start_advance {a : Str} (ha : a.getLast? = some '\n') : Position.start.advance a = Position.start.after a := by
  obtain ⟨u, rfl⟩ : ∃ u, a = u ++ ['\n'] := by
    obtain ⟨hne, h⟩ := List.mem_getLast?_eq_getLast ha
    exact ⟨a.dropLast, by rw [h, List.dropLast_concat_getLast]⟩
  simp [Position.start, Position.after, Position.advance]

omit [FloatValue] in
theorem lexAll_after (a : Str) (n : Nat) (s : Str) (hn : s.length ≤ n) (st : Stack) (pos : Position) (hp : pos.line ≠ 0) :
    lexAll st (pos.after a) s = (lexAll st pos s).map (List.map (Token.at (Position.after a))) := by
  induction n generalizing s st pos with
  | zero =>
    cases s with
    | nil => rfl
    | cons => simp at hn
  | succ n ih =>
    cases s with
    | nil => rfl
    | cons c s =>
      rw [lexAll_step (by simp), lexAll_step (by simp)]
      cases h : lexStep st (c :: s) with
      | none => rfl
      | some x =>
        obtain ⟨r, m, st'⟩ := x
        obtain ⟨hsp, hne, hlt⟩ := lexStep_split h
        simp only [List.length_cons] at hlt hn
        simp only [Option.bind_some, Position.after_advance _ _ _ hp]
        rw [ih m.rest (by omega) st' (pos.advance m.txt) (by simp [Position.advance]; omega), Option.map_map, Option.map_map]
        congr 1
        funext ts
        simp only [Function.comp]
        split <;> rfl

omit [FloatValue] in
theorem Node.structs_at (f : Position → Position) : {k : Kind} → (x : Node (.items k)) → (x.at f).structs = x.structs.map (Node.at f)
  | _, .empty => by simp [Node.at, Node.map, Node.structs]
  | _, .cons .nil xs => by
    have := structs_at f xs
    simp only [Node.at] at this
    simp [Node.at, Node.map, Node.structs, this]
  | _, .cons (.ref x) xs => by
    have := structs_at f xs
    simp only [Node.at] at this
    simp [Node.at, Node.map, Node.structs, this]

omit [FloatValue] in
theorem Node.list_at (f : Position → Position) {k : Kind} (x : Node (.slice k)) : (x.at f).list = x.list.map (Node.at f) := by
  cases x with
  | nilSlice => rfl
  | mkSlice a xs => exact structs_at f xs

/-- **Parsing a document that ends with a line end, followed by a text that begins with a name or a comment `/* … */`.** -/
theorem parseTree_join {a b : Str} {x : Node (.slice .rootItem)} (h : parseTree a = some x) (ha : a.getLast? = some '\n')
    (hb : ∀ ts, lex b = some ts → ∃ t r, ts = t :: r ∧ (t.sym = .ident ∨ t.sym = .multilineComment)) :
    (parseTree (a ++ b)).map Node.list = (parseTree b).map fun y => x.list ++ y.list.map (Node.at (Position.after a)) := by
  unfold parseTree at h ⊢
  simp only [Option.bind_eq_bind, Option.bind_eq_some_iff] at h ⊢
  obtain ⟨ta, hl, h⟩ := h
  obtain ⟨h1, h2, h3, h4⟩ := doc_tokens hl ha h
  rw [h4 b, Position.start_advance ha, lexAll_after a _ b (Nat.le_refl _) _ _ (by decide), ← lex_eq]
  cases e : lex b with
  | none => rfl
  | some tb =>
    obtain ⟨t, r, rfl, ht⟩ := hb tb e
    obtain ⟨st, hr⟩ := lex_run e
    simp only [Option.map_some, Option.bind_some]
    have hz : Fresh ((t :: r).map (Token.at (Position.after a))) :=
      ⟨t.at _, r.map (Token.at _), rfl, ht, hr.exact t (by simp)⟩
    rw [parseTokens_join hz h3 h1 h2 h]
    have he : Position.start.advance (a ++ b) = (Position.start.advance b).after a := by
      rw [advance_append, Position.start_advance ha, Position.after_advance _ _ _ (by decide)]
    rw [he, parseTokens_at (by simp [Position.after]), Option.map_map]
    congr 1
    funext y
    simp only [Function.comp, Node.list_at]

end Verif.Etx
