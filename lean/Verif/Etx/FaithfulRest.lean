import Verif.Etx.FaithfulToks

/-!
# What blocks, functions, literals and calls keep
-/

namespace Verif.Etx
open Node Gram

variable [FloatValue]

/-! ## Blocks -/

omit [FloatValue] in
theorem flat_labels {u : List Word} {o : Out}
    (h : Flat (star (alt (Gram.sq [tok .string, cap .labels (tok .char), tok .stringEnd]) (cap .labels (tok .ident)))) u o) :
    ∃ t l, o = ⟨t, capStrs .labels l⟩ ∧
      Labels u (words (l.flatMap fun w => [tk .string c!"\"", tk .char w, tk .stringEnd c!"\""])) := by
  refine flat_star (P := fun u o => ∃ t l, o = ⟨t, capStrs .labels l⟩ ∧
      Labels u (words (l.flatMap fun w => [tk .string c!"\"", tk .char w, tk .stringEnd c!"\""])))
    ⟨[], [], rfl, .nil⟩ ?_ h
  rintro u1 u2 o1 o2 h ⟨t, l, rfl, hl⟩
  rw [flat_alt] at h
  rcases h with h | h
  · simp only [Gram.sq] at h
    rw [flat_seq] at h
    obtain ⟨u1, u2, o1, o2, rfl, rfl, h1, h2⟩ := h
    rw [flat_seq] at h2
    obtain ⟨u2, u3, o2, o3, rfl, rfl, h2, h3⟩ := h2
    rw [flat_tok] at h1 h3
    rw [flat_cap] at h2
    obtain ⟨o', rfl, h2⟩ := h2
    rw [flat_tok] at h2
    obtain ⟨v, -, -, rfl, rfl⟩ := h1
    obtain ⟨w, -, -, rfl, rfl⟩ := h2
    obtain ⟨z, -, -, rfl, rfl⟩ := h3
    exact ⟨_, w :: l, rfl, .quoted hl⟩
  · rw [flat_cap] at h
    obtain ⟨o', rfl, h⟩ := h
    rw [flat_tok] at h
    obtain ⟨w, -, -, rfl, rfl⟩ := h
    exact ⟨_, w :: l, rfl, .bare hl⟩

theorem faithful_block : Faithful .block := by
  intro u o m x
  rw [show of .block = seq (cap .name (tok .ident)) (seq
      (star (alt (Gram.sq [tok .string, cap .labels (tok .char), tok .stringEnd]) (cap .labels (tok .ident))))
      (seq (lit c!"{") (seq lf? (seq (star (sub .body .blockItem)) (lit c!"}"))))) from rfl]
  intro h
  rw [flat_seq] at h
  obtain ⟨u1, u2, o1, o2, rfl, rfl, h1, h2⟩ := h
  rw [flat_seq] at h2
  obtain ⟨u2, u3, o2, o3, rfl, rfl, h2, h3⟩ := h2
  obtain ⟨t, l, rfl, hl⟩ := flat_labels h2
  revert h1 h3
  repeat' flat_step
  subst_vars
  simp [build, out_append]
  intro h
  subst h
  refine ⟨?_, trivial⟩
  simp only [toks, words_tk, words_append, strsOf_list, braces, words_items, tokss_sliceOf]
  refine SameWords.block hl ?_
  same

/-! ## Functions -/

omit [FloatValue] in
/-- Identifiers are the same only if they are equal. -/
theorem SameWords.eq_of_ident {a b : List Word} (h : SameWords a b) (hb : ∀ x ∈ b, x.1 = .ident ∨ x.1 = .dot) : a = b := by
  induction h with
  | nil => rfl
  | cons _ ih => rw [ih fun x hx => hb x (by simp [hx])]
  | block _ _ _ => simpa using hb (.blockStart, c!"{") (by simp)
  | unwrap _ _ _ => simpa using hb (.opRParen, c!")") (by simp)
  | wrap _ _ _ _ _ => simpa using hb (.opRParen, c!")") (by simp)

omit [FloatValue] in
/-- A type that is an identifier. -/
def isName : Node .parameterType → Bool
  | .parameterType _ ident' _ => ident'.isRef

omit [FloatValue] in
theorem bareRet_sliceOf (l : List (Node .parameterType)) :
    (sliceOf l).bareRet = true ↔ ∃ x, l = [x] ∧ isName x = true := by
  match l with
  | [] => exact ⟨fun h => (nomatch h), by simp⟩
  | [.parameterType m .nil f] => exact ⟨fun h => (nomatch h), by rintro ⟨x, h, hx⟩; cases h; cases hx⟩
  | [.parameterType m (.ref i) f] => exact ⟨fun _ => ⟨_, rfl, rfl⟩, fun _ => rfl⟩
  | .parameterType m .nil f :: y :: l => exact ⟨fun h => (nomatch h), by simp⟩
  | .parameterType m (.ref i) f :: y :: l => exact ⟨fun h => (nomatch h), by simp⟩

omit [FloatValue] in
theorem words_name (x : Node .parameterType) (h : isName x = true) : ∀ y ∈ words x.toks, y.1 = .ident ∨ y.1 = .dot := by
  match x, h with
  | .parameterType _ (.ref (.ident _ parts)) _, _ =>
    rw [show (Node.parameterType _ (.ref (.ident _ parts)) _).toks =
      sepBy [tk .dot c!"."] (parts.list.map fun w => [tk .ident w]) from by simp [toks, Node.isRef]]
    cases e : parts.list with
    | nil => simp [sepBy, words_nil]
    | cons w l =>
      rw [words_parts]
      simp
      rintro a b w hw (⟨rfl, rfl⟩ | ⟨rfl, rfl⟩) <;> simp

omit [FloatValue] in
theorem words_function (x : Node .parameterType) (h : isName x = false) (hx : typed x) :
    (words x.toks).head? = some (.opLParen, c!"(") := by
  match x, h, hx with
  | .parameterType _ .nil (.ref (.funcSignature _ p r)), _, _ =>
    simp [toks, Node.isRef, parens, words_tk, word]
  | .parameterType _ .nil .nil, _, h => simp [typed, Node.isRef] at h

omit [FloatValue] in
theorem SameWords.head {a b : List Word} (h : SameWords a b) : a.head? = b.head? := by cases h <;> rfl

/-- What may be between the parameters and the body of a function. -/
def retGram : Gram :=
  opt (alt (Gram.sq [lit c!"(", opt (commaSep .ret .parameterType), lit c!")"]) (sub .ret .parameterType))

omit [FloatValue] in
theorem flat_ret {u a b : List Word} {o : Out} (h : Flat retGram u o) (hab : SameWords a b) :
    ∃ (t : List Str) (l : List (Node .parameterType)), o = ⟨t, capNodes .ret l⟩ ∧ SameWords ((.opRParen, c!")") :: (u ++ (.blockStart, c!"{") :: a))
      ((.opRParen, c!")") :: (words (if (sliceOf l).isNilSlice = true then [] else if (sliceOf l).bareRet = true then
        (l.map toks).flatten else parens (sepBy [comma] (l.map toks))) ++ (.blockStart, c!"{") :: b)) := by
  unfold retGram at h
  rw [flat_opt, flat_alt] at h
  rcases h with ⟨rfl, rfl⟩ | h | h
  · exact ⟨[], [], rfl, .cons (.cons hab)⟩
  · simp only [Gram.sq] at h
    rw [flat_seq] at h
    obtain ⟨u1, u2, o1, o2, rfl, rfl, h1, h2⟩ := h
    rw [flat_seq] at h2
    obtain ⟨u2, u3, o2, o3, rfl, rfl, h2, h3⟩ := h2
    rw [flat_lit] at h1 h3
    obtain ⟨rfl, rfl⟩ := h1
    obtain ⟨rfl, rfl⟩ := h3
    obtain ⟨t, l, rfl, hl, hl'⟩ := flat_opt_commaSep h2
    refine ⟨_, l, by simp [out_append]; rfl, ?_⟩
    rw [show word (litSym c!"(") c!"(" = [(.opLParen, c!"(")] from rfl,
      show word (litSym c!")") c!")" = [(.opRParen, c!")")] from rfl]
    cases l with
    | nil =>
      cases hl
      exact SameWords.unwrap (l := []) (by simp) hab
    | cons x l =>
      rw [if_neg (by simp [sliceOf, isNilSlice])]
      split
      · rename_i hb
        obtain ⟨y, e, hy⟩ := (bareRet_sliceOf _).mp hb
        obtain ⟨rfl, rfl⟩ : x = y ∧ l = [] := by simpa using e
        simp only [List.map_cons, List.map_nil, List.flatten_cons, List.flatten_nil, List.append_nil] at hl ⊢
        have hw := words_name x hy
        obtain rfl := hl.eq_of_ident hw
        have := SameWords.unwrap hw hab
        simpa using this
      · simp only [parens, words_tk, words_append, words_sepBy_comma]
        have := SameWords.cons (x := (Sym.opRParen, c!")")) (SameWords.cons (x := (Sym.opLParen, c!"(")) (hl.append
          (SameWords.cons (x := (Sym.opRParen, c!")")) (SameWords.cons (x := (Sym.blockStart, c!"{")) hab))))
        simpa [words_nil, word, words_append] using this
  · rw [flat_sub] at h
    obtain ⟨x, rfl, hx, hx'⟩ := h
    refine ⟨[], [x], rfl, ?_⟩
    rw [if_neg (by simp [sliceOf, isNilSlice])]
    cases e : isName x with
    | true =>
      rw [if_pos ((bareRet_sliceOf _).mpr ⟨x, rfl, e⟩)]
      simp only [List.map_cons, List.map_nil, List.flatten_cons, List.flatten_nil, List.append_nil]
      exact .cons (hx.append (.cons hab))
    | false =>
      have hn : ¬ (sliceOf [x]).bareRet = true := by
        rw [bareRet_sliceOf]
        rintro ⟨y, h, hy⟩
        obtain rfl : x = y := by simpa using h
        rw [e] at hy
        cases hy
      rw [if_neg hn]
      have := SameWords.wrap ((SameWords.head hx).trans (words_function x e hx')) hx hab
      simpa [parens, words_tk, words_append, words_sepBy_comma, word, words_nil] using this

theorem faithful_func : Faithful .func := by
  intro u o m x
  rw [show of .func = seq (lit c!"def") (seq (cap .label (tok .ident)) (seq (lit c!"(") (seq
      (opt (commaSep .parameters .funcParameter)) (seq (lit c!")") (seq retGram (seq lfs (seq (lit c!"{") (seq lfs
      (seq (star (sub .body .funcStatement)) (lit c!"}")))))))))) from rfl]
  intro h
  rw [flat_seq] at h
  obtain ⟨u1, u2, o1, o2, rfl, rfl, h1, h2⟩ := h
  rw [flat_seq] at h2
  obtain ⟨u2, u3, o2, o3, rfl, rfl, h2, h3⟩ := h2
  rw [flat_seq] at h3
  obtain ⟨u3, u4, o3, o4, rfl, rfl, h3, h4⟩ := h3
  rw [flat_seq] at h4
  obtain ⟨u4, u5, o4, o5, rfl, rfl, h4, h5⟩ := h4
  rw [flat_seq] at h5
  obtain ⟨u5, u6, o5, o6, rfl, rfl, h5, h6⟩ := h5
  rw [flat_seq] at h6
  obtain ⟨u6, u7, o6, o7, rfl, rfl, h6, h7⟩ := h6
  revert h7
  repeat' flat_step
  subst_vars
  rename_i _ _ v _ l3 hl3 _
  have hab : SameWords (v ++ word (litSym c!"}") c!"}")
      (words (if (sliceOf l3).isNilSlice = true then [] else lfTok :: (l3.map toks).flatten) ++ [(.blockEnd, c!"}")]) := by
    rw [words_items]
    exact hl3.append (SameWords.refl _)
  obtain ⟨t, l, rfl, hl⟩ := flat_ret h6 hab
  revert h1 h2 h3 h4 h5
  repeat' flat_step
  subst_vars
  simp [build, out_append]
  intro h
  subst h
  refine ⟨?_, trivial⟩
  simp [toks, words_tk, words_append, words_sepBy_comma, parens, braces, tokss_sliceOf, words_nil, word, litSym] at hl ⊢
  refine .cons (.cons (.cons (SameWords.append (by assumption) ?_)))
  exact hl

/-! ## Literals -/

theorem captureNumber_source {w s : Str} {f : BigFloat} (h : captureNumber w = some (f, s)) : s = numberSource w := by
  simp only [captureNumber, Option.map_eq_some_iff, Prod.mk.injEq] at h
  obtain ⟨_, _, _, h⟩ := h
  exact h.symm

theorem faithful_value : Faithful .value := by
  flat_start
  case inr.inr.inl =>
    rename_i w hw hw'
    simp only [build, Out.toks_mk, strs_same, Out.flag_mk, Out.ptr_mk]
    simp [bind, Option.bind, strs_other]
    cases e : captureNumber w with
    | none => simp
    | some p =>
      obtain ⟨f, src⟩ := p
      obtain rfl := captureNumber_source e
      simp [ptrOf]
      intro h
      subst h
      simp [toks, Node.isRef, words_tk, words_nil, word, C33_stable, typed]
      same
  all_goals
    simp [build, ptrOf]
    intro h
    subst h
    simp [toks, words_tk, words_nil, word, litSym, typed, Node.isRef]
    same

theorem faithful_heredoc : Faithful .heredoc := by
  flat_start
  rename_i w hw hw' u1 t l hl hl' v hv hv'
  obtain ⟨tabs, d, h1, h2⟩ := hw' rfl
  simp [build, out_append, h1]
  intro h
  subst h
  refine ⟨?_, trivial⟩
  simp only [toks]
  rw [← h2]
  simp [words_tk, words_append, tokss_sliceOf, words_nil, word]
  same

omit [FloatValue] in
theorem words_body_char (c : Char) (r : Str) (h : (c = '\n' || c = '$' || c = '%') = false) :
    words (bodyToks (c :: r)) = (.body, [c]) :: words (bodyToks r) := by
  have hn : c ≠ '\n' := by rintro rfl; simp at h
  have hd : c ≠ '$' := by rintro rfl; simp at h
  have hp : c ≠ '%' := by rintro rfl; simp at h
  rw [bodyToks.eq_5 c r (by intro h; exact hn h) (by intro r' h; exact absurd h hd) (by intro r' h; exact absurd h hp)]
  cases e : bodyToks r with
  | nil => rfl
  | cons t ts =>
    dsimp only
    split
    · rename_i ht
      rw [words_tk, words_cons, ht]
      rfl
    · rw [words_tk]
      rfl

omit [FloatValue] in
theorem words_body (w r : Str) (h : w.all (fun c => !(c = '\n' || c = '$' || c = '%')) = true) :
    words (bodyToks (w ++ r)) = word .body w ++ words (bodyToks r) := by
  induction w with
  | nil => rfl
  | cons c w ih =>
    simp only [List.all_cons, Bool.and_eq_true, Bool.not_eq_true'] at h
    rw [List.cons_append, words_body_char c _ h.1, ih h.2]
    rfl

omit [FloatValue] in
theorem flat_text_one {u : List Word} {o : Out} (h : Flat (cap .text (Gram.al [tok .body, tok .eol, tok .nonExpr])) u o) :
    ∃ w, o = ⟨[w], [.toks .text [w]]⟩ ∧ ∀ r, words (bodyToks (w ++ r)) = u ++ words (bodyToks r) := by
  simp only [Gram.al] at h
  rw [flat_cap] at h
  obtain ⟨o', rfl, h⟩ := h
  rw [flat_alt, flat_alt] at h
  rcases h with h | h | h
  all_goals
    rw [flat_tok] at h
    obtain ⟨w, hw, -, rfl, rfl⟩ := h
    refine ⟨w, rfl, fun r => ?_⟩
  · have : w ≠ [] ∧ w.all (fun c => !(c = '\n' || c = '$' || c = '%')) = true := by
      simpa only [Sym.exact, Sym.word, Bool.and_eq_true, decide_eq_true_eq] using hw
    exact words_body w r this.2
  · obtain rfl := exact_word hw rfl
    rfl
  · have : w = c!"$${" ∨ w = c!"%%{" := by simpa [Sym.exact, Sym.word] using hw
    rcases this with rfl | rfl <;> rfl

omit [FloatValue] in
theorem flat_text {u : List Word} {o : Out} (h : Flat (plus (cap .text (Gram.al [tok .body, tok .eol, tok .nonExpr]))) u o) :
    ∃ t l, o = ⟨t, capStrs .text l⟩ ∧ u = words (bodyToks l.flatten) := by
  rw [flat_plus] at h
  obtain ⟨u1, u2, o1, o2, rfl, rfl, h1, h2⟩ := h
  obtain ⟨w, rfl, hw⟩ := flat_text_one h1
  have : ∃ t l, o2 = ⟨t, capStrs .text l⟩ ∧ u2 = words (bodyToks l.flatten) := by
    refine flat_star (P := fun u o => ∃ t l, o = ⟨t, capStrs .text l⟩ ∧ u = words (bodyToks l.flatten)) ⟨[], [], rfl, rfl⟩ ?_ h2
    rintro u1 u2 o1 o2 h ⟨t, l, rfl, rfl⟩
    obtain ⟨w, rfl, hw⟩ := flat_text_one h
    exact ⟨_, w :: l, rfl, by rw [List.flatten_cons, hw]⟩
  obtain ⟨t, l, rfl, rfl⟩ := this
  exact ⟨_, w :: l, rfl, by rw [List.flatten_cons, hw]⟩

theorem faithful_heredocFragment : Faithful .heredocFragment := by
  intro u o m x
  rw [show of .heredocFragment = alt (Gram.sq [tok .expr, sub .expr .expr, tok .exprEnd])
    (alt (Gram.sq [tok .directive, sub .directive .expr, tok .exprEnd])
      (plus (cap .text (Gram.al [tok .body, tok .eol, tok .nonExpr])))) from rfl]
  intro h
  rw [flat_alt, flat_alt] at h
  rcases h with h | h | h
  · revert h
    simp only [Gram.sq]
    repeat' flat_step
    subst_vars
    flat_done
  · revert h
    simp only [Gram.sq]
    repeat' flat_step
    subst_vars
    flat_done
  · obtain ⟨t, l, rfl, rfl⟩ := flat_text h
    simp [build, ptrOf]
    intro h
    subst h
    simp [toks, Node.isRef, typed]
    same

theorem faithful_stringFragment : Faithful .stringFragment := by
  flat_start
  case inl =>
    rename_i w hw _
    have h0 : w ≠ [] := by rintro rfl; simp [Sym.exact, Sym.word] at hw
    flat_done
  case inr.inl.inl =>
    rename_i w hw _ _ _
    have h1 : w.length = 8 := by simpa [Sym.exact, Sym.word] using hw
    have h0 : w ≠ [] := by rintro rfl; simp at h1
    flat_done
  case inr.inl.inr =>
    rename_i w hw _ _ _
    have h1 : w.length = 4 := by simpa [Sym.exact, Sym.word] using hw
    have h0 : w ≠ [] := by rintro rfl; simp at h1
    flat_done
  case inr.inr.inl => flat_done
  case inr.inr.inr.inl => flat_done
  case inr.inr.inr.inr.inl =>
    rename_i w hw _
    have h1 : textSym w = .char := by
      simp only [Sym.exact, Sym.word, Bool.and_eq_true] at hw
      unfold textSym
      rw [if_neg, if_neg]
      · rintro (rfl | rfl) <;> simp at hw
      · rintro (rfl | rfl) <;> simp at hw
    flat_done
  case inr.inr.inr.inr.inr.inl =>
    rename_i w hw _
    have : w = c!"\"" ∨ w = c!"'" := by simpa [Sym.exact, Sym.word] using hw
    rcases this with rfl | rfl <;> flat_done
  case inr.inr.inr.inr.inr.inr =>
    rename_i w hw _
    have : w = c!"$${" ∨ w = c!"%%{" := by simpa [Sym.exact, Sym.word] using hw
    rcases this with rfl | rfl <;> flat_done

/-! ## Calls -/

omit [FloatValue] in
theorem flat_call {u : List Word} {o : Out} (h : Flat (Gram.sq [lit c!"(", sub .monads .invocation, lit c!")"]) u o) :
    ∃ (t : List Str) (x : Node .invocation), o = ⟨t, [.node .monads .invocation x]⟩ ∧ SameWords u (words (parens x.toks)) := by
  revert h
  simp only [Gram.sq]
  repeat' flat_step
  subst_vars
  rename_i x hx _
  refine ⟨_, x, rfl, ?_⟩
  simp [parens, words_tk, words_append, words_nil, word, litSym]
  same

omit [FloatValue] in
theorem flat_calls {u : List Word} {o : Out}
    (h : Flat (opt (plus (Gram.sq [lit c!"(", sub .monads .invocation, lit c!")"]))) u o) :
    ∃ (t : List Str) (l : List (Node .invocation)), o = ⟨t, capNodes .monads l⟩ ∧
      SameWords u (words ((l.map toks).map parens).flatten) := by
  have key : ∀ {u o}, Flat (star (Gram.sq [lit c!"(", sub .monads .invocation, lit c!")"])) u o →
      ∃ (t : List Str) (l : List (Node .invocation)), o = ⟨t, capNodes .monads l⟩ ∧
        SameWords u (words ((l.map toks).map parens).flatten) := by
    intro u o h
    refine flat_star (P := fun u o => ∃ (t : List Str) (l : List (Node .invocation)), o = ⟨t, capNodes .monads l⟩ ∧
      SameWords u (words ((l.map toks).map parens).flatten)) ⟨[], [], rfl, .nil⟩ ?_ h
    rintro u1 u2 o1 o2 h ⟨t, l, rfl, hl⟩
    obtain ⟨t', x, rfl, hx⟩ := flat_call h
    refine ⟨_, x :: l, rfl, ?_⟩
    simp only [List.map_cons, List.flatten_cons, words_append]
    exact hx.append hl
  rw [flat_opt] at h
  rcases h with ⟨rfl, rfl⟩ | h
  · exact ⟨[], [], rfl, .nil⟩
  · rw [flat_plus] at h
    obtain ⟨u1, u2, o1, o2, rfl, rfl, h1, h2⟩ := h
    exact key (.more h1 h2)

theorem faithful_primary : Faithful .primary := by
  intro u o m x
  rw [show of .primary = alt (Gram.sq [lit c!"(", sub .subExpression .expr, lit c!")"]) (alt (sub .value .value)
    (seq (sub .ident .ident) (seq (opt (plus (Gram.sq [lit c!"(", sub .monads .invocation, lit c!")"])))
      (opt (seq (lit c!".") (sub .post .postfixE)))))) from rfl]
  intro h
  rw [flat_alt, flat_alt] at h
  rcases h with h | h | h
  · revert h
    simp only [Gram.sq]
    repeat' flat_step
    subst_vars
    flat_done
  · revert h
    repeat' flat_step
    subst_vars
    flat_done
  · rw [flat_seq] at h
    obtain ⟨u1, u2, o1, o2, rfl, rfl, h1, h2⟩ := h
    rw [flat_seq] at h2
    obtain ⟨u2, u3, o2, o3, rfl, rfl, h2, h3⟩ := h2
    obtain ⟨t, l, rfl, hl⟩ := flat_calls h2
    revert h1 h3
    repeat' flat_step
    all_goals
      subst_vars
      simp [build, out_append, ptrOf]
      intro h
      subst h
      simp [toks, Node.isRef, typed, words_append, tokss_sliceOf, words_tk, word, litSym] at hl ⊢
      same

end Verif.Etx
