import Verif.Etx.Formats

/-!
# The formatted text of a tree is read as its tokens: expressions
-/

namespace Verif.Etx

set_option linter.unusedSimpArgs false

variable [FloatText]

omit [FloatText] in
theorem level_op {l : Level} {op : Str} (h : op ∈ levelOps l) : (op, symOf op) ∈ operators ∧ afterOp op ' ' = true ∧
    afterOp op '\t' = true := by
  have key : ∀ l ∈ [Level.logicalOr, .logicalAnd, .bitwiseOr, .bitwiseXor, .bitwiseAnd, .equality, .relational, .shift,
    .additive, .multiplicative], ∀ op ∈ levelOps l, (op, symOf op) ∈ operators ∧ afterOp op ' ' = true ∧
    afterOp op '\t' = true := by decide
  exact key l (by cases l <;> decide) op h

omit [FloatText] in
/-- ` op ` -/
theorem W.binary {l : Level} {op : Str} (h : op ∈ levelOps l) : W (is ' ') inked (c!" " ++ op ++ c!" ") [tk (symOf op) op] :=
  ((W.op (level_op h).1).space (level_op h).2.1 (level_op h).2.2).gap

theorem fmts_bin [FloatValue] {l : Level} {m : Meta} {left : Node l.operand} {op : Str} {right : Node (.ptr (.bin l))}
    (hs : (Node.bin l m left op right).shaped = true) (hw : (Node.bin l m left op right).writable = true)
    (h1 : Fine opening stopN left) (h2 : Fmts (.ptr (.bin l)) right) : Fmts (.bin l) (.bin l m left op right) := by
  simp only [Node.shaped, beq_iff_eq] at hs
  simp only [Node.writable, Bool.or_eq_true, decide_eq_true_eq, List.contains_iff_mem] at hw
  obtain ⟨s, hf, w⟩ := h1
  by_cases ho : op = []
  · have hr : right.isRef = false := by simpa [ho] using hs.symm
    refine ⟨s, by simp only [Node.fmt, if_pos ho, hf], ?_⟩
    simpa only [Node.toks, hr, Bool.false_eq_true, if_false, List.append_nil] using w
  · have hr : right.isRef = true := by simpa [ho] using hs.symm
    obtain ⟨y, rfl, -, hy⟩ := h2.ptr hr
    obtain ⟨s', hf', w'⟩ := hy
    have hop := hw.resolve_left ho
    refine ⟨_, by simp only [Node.fmt, if_neg ho, hr, if_true, hf, hf']; rfl, ?_⟩
    refine (w.append ((W.binary hop).append' w' opening_inked (by rw [endsLine, List.getLast?_concat]; rfl))
      (is_le (by decide))).cast (by simp) ?_
    simp only [Node.toks, hr, if_true]; simp

theorem fmts_unary [FloatValue] {m : Meta} {op : Str} {right : Node .postfixE} (hw : (Node.unary m op right).writable = true)
    (h1 : Fmts .postfixE right) : Fmts .unary (.unary m op right) := by
  simp only [Node.writable, Bool.or_eq_true, decide_eq_true_eq, List.contains_iff_mem] at hw
  obtain ⟨s, hf, w⟩ := h1
  refine ⟨op ++ (s ++ []), by simp only [Node.fmt, hf]; rfl, ?_⟩
  by_cases ho : op = []
  · subst ho
    simpa only [Node.toks, if_true, List.append_nil, List.nil_append] using w.mono operand_opening le_refl'
  · have key : ∀ op ∈ prefixOps, (op, symOf op) ∈ operators ∧ '\n' ∉ op ∧ ∃ d, op = [d] ∧ ['+', '-', '!', '~'].contains d = true := by
      simp only [prefixOps, List.forall_mem_cons, List.not_mem_nil, false_imp_iff, implies_true, and_true]
      refine ⟨⟨by decide, by decide, _, rfl, by decide⟩, ⟨by decide, by decide, _, rfl, by decide⟩,
        ⟨by decide, by decide, _, rfl, by decide⟩, ⟨by decide, by decide, _, rfl, by decide⟩⟩
    obtain ⟨k1, k2, d, rfl, k3⟩ := key op (hw.resolve_left ho)
    simp only [List.contains_cons, List.contains_nil, Bool.or_false, Bool.or_eq_true, beq_iff_eq] at k3
    refine (((W.op1 k1).append' w (fun c hc => ?_) (endsLine_plain k2)).mono (is_le ?_) le_refl').cast (by simp) ?_
    · have h1 : c ≠ '=' := by rintro rfl; revert hc; decide
      have h2 : c ≠ '>' := by rintro rfl; revert hc; decide
      rcases k3 with rfl | rfl | rfl | rfl <;> simp [afterOp, operators, List.isPrefixOf, h1, h2]
    · rcases k3 with rfl | rfl | rfl | rfl <;> decide
    · simp only [Node.toks, if_neg ho]; rfl

/-- The texts of `x` and its tokens, whether it is there or not. -/
theorem fmts_conditional [FloatValue] {m : Meta} {c : Node (.bin .logicalOr)} {o : Bool} {x y : Node (.ptr .expr)}
    (hs : (Node.conditional m c o x y).shaped = true) (h1 : Fmts (.bin .logicalOr) c) (h2 : Fmts (.ptr .expr) x)
    (h3 : Fmts (.ptr .expr) y) : Fmts .conditional (.conditional m c o x y) := by
  simp only [Node.shaped, Bool.and_eq_true, beq_iff_eq] at hs
  obtain ⟨s, hf, w⟩ := h1
  cases o with
  | false => exact ⟨s, by simp [Node.fmt, hf], by simpa only [Node.toks, Bool.false_eq_true, if_false, List.append_nil] using w⟩
  | true =>
    obtain ⟨x, rfl, hx, hx'⟩ := h2.ptr hs.1.symm
    obtain ⟨y, rfl, hy, hy'⟩ := h3.ptr hs.2.symm
    obtain ⟨s1, hf1, w1⟩ := hx' hx
    obtain ⟨s2, hf2, w2⟩ := hy' hy
    refine ⟨_, by simp only [Node.fmt, if_true, isRef_nil, Node.isRef_ref, hf, hf1, hf2]; rfl, ?_⟩
    have c1 := W.colonSpace.append' w2 opening_inked
    have c2 := w1.append c1.gap (is_le (by decide))
    have c3 := W.question.space.append' c2 opening_inked
    refine (w.append c3.gap (is_le (by decide))).cast (by simp) ?_
    simp only [Node.toks, if_true]; simp

theorem fmts_expr [FloatValue] {m : Meta} {x : Node (.ptr .conditional)} {y : Node (.ptr .exprIf)} {z : Node (.ptr .exprSwitch)}
    (h1 : Fmts (.ptr .conditional) x) (h2 : Fmts (.ptr .exprIf) y) (h3 : Fmts (.ptr .exprSwitch) z) : Fmts .expr (.expr m x y z) := by
  intro hs
  simp only [Node.set, Bool.or_eq_true] at hs
  rcases h1 with rfl | ⟨x, rfl, -, s, hf, w⟩
  · rcases h2 with rfl | ⟨y, rfl, -, s, hf, w⟩
    · obtain ⟨z, rfl, -, s, hf, w⟩ := h3.ptr (by simpa [isRef_nil, Node.isRef_ref] using hs)
      exact ⟨s, by simp [Node.fmt, isRef_nil, Node.isRef_ref, hf], (w.mono alpha_opening le_refl').cast rfl (by simp [Node.toks, isRef_nil, Node.isRef_ref])⟩
    · exact ⟨s, by simp [Node.fmt, isRef_nil, Node.isRef_ref, hf], (w.mono alpha_opening le_refl').cast rfl (by simp [Node.toks, isRef_nil, Node.isRef_ref])⟩
  · exact ⟨s, by simp [Node.fmt, isRef_nil, Node.isRef_ref, hf], w.cast rfl (by simp [Node.toks, isRef_nil, Node.isRef_ref])⟩

theorem fmts_exprIf [FloatValue] {m : Meta} {c : Node (.bin .logicalOr)} {x y : Node (.ptr .expr)}
    (ht : (Node.exprIf m c x y).tidy = true) (h1 : Fmts (.bin .logicalOr) c) (h2 : Fmts (.ptr .expr) x)
    (h3 : Fmts (.ptr .expr) y) : Fmts .exprIf (.exprIf m c x y) := by
  obtain ⟨s, hf, w⟩ := h1
  have wi : W isAlpha inked c!"if " [tk .if_ c!"if"] := (W.keyword (by decide)).space
  have we : W isAlpha inked c!"else " [tk .else_ c!"else"] := (W.keyword (by decide)).space
  rcases h2 with rfl | ⟨x, rfl, hx, hx'⟩
  · rcases h3 with rfl | ⟨y, rfl, hy, hy'⟩
    · refine ⟨_, by simp only [Node.fmt, isRef_nil, Node.isRef_ref, Bool.false_eq_true, if_false, hf]; rfl, ?_⟩
      have c1 : W (is ' ') anyC c!" { }" [tk .blockStart c!"{", tk .blockEnd c!"}"] := (W.lbrace.append W.close.gap any_le).gap
      exact ((wi.append' (w.append c1 (is_le (by decide))) opening_inked).mono le_refl' any_stop).cast (by simp)
        (by simp [Node.toks, isRef_nil, Node.isRef_ref, braces])
    · simp [Node.tidy, isRef_nil, Node.isRef_ref] at ht
  · obtain ⟨s1, hf1, w1⟩ := hx' hx
    rcases h3 with rfl | ⟨y, rfl, hy, hy'⟩
    · refine ⟨_, by simp only [Node.fmt, isRef_nil, Node.isRef_ref, Bool.false_eq_true, if_false, if_true, hf, hf1]; rfl, ?_⟩
      have c1 := W.openBlock.append (w1.indent'.append W.closeBlock (is_le (by decide))) any_le
      exact ((wi.append' (w.append c1 (is_le (by decide))) opening_inked).mono le_refl' any_stop).cast (by simp)
        (by simp [Node.toks, isRef_nil, Node.isRef_ref, braces])
    · obtain ⟨s2, hf2, w2⟩ := hy' hy
      refine ⟨_, by simp only [Node.fmt, isRef_nil, Node.isRef_ref, if_true, hf, hf1, hf2]; rfl, ?_⟩
      have c1 := W.openBlock.append (w2.indent'.append W.closeBlock (is_le (by decide))) any_le
      have c2 := (W.keyword (w := c!"else") (sym := .else_) (by decide)).append c1 (is_le (by decide))
      have c3 := W.closeBlock.append c2.gap any_le
      have c4 := W.openBlock.append (w1.indent'.append c3 (is_le (by decide))) any_le
      exact ((wi.append' (w.append c4 (is_le (by decide))) opening_inked).mono le_refl' any_stop).cast (by simp)
        (by simp [Node.toks, isRef_nil, Node.isRef_ref, braces])

omit [FloatText] in
/-- Line by line. -/
theorem W.lines {l : List (Str × List Token)} (h : ∀ x ∈ l, W anyC anyC x.1 x.2) (hl : l ≠ []) :
    ∃ us, W anyC anyC (join c!"\n" (l.map (·.1))) us ∧ ((l.map (·.2)).map (· ++ [lfTok])).flatten = us ++ [lfTok] := by
  induction l with
  | nil => exact absurd rfl hl
  | cons x l ih =>
    have hx := h x (by simp)
    cases l with
    | nil => exact ⟨x.2, by simpa [join] using hx, by simp⟩
    | cons y l =>
      obtain ⟨us, h1, h2⟩ := ih (fun z hz => h z (List.mem_cons_of_mem _ hz)) (by simp)
      refine ⟨_, (hx.append (W.newline.append h1 any_le) any_le).cast (by simp [join]) rfl, ?_⟩
      rw [List.map_cons, List.map_cons, List.flatten_cons, h2]
      simp

theorem fmts_exprSwitch [FloatValue] {m : Meta} {c : Node (.bin .logicalOr)} {x : Node (.slice .exprCase)}
    (h1 : Fmts (.bin .logicalOr) c) (h2 : Fmts (.slice .exprCase) x) : Fmts .exprSwitch (.exprSwitch m c x) := by
  obtain ⟨s, hf, w⟩ := h1
  obtain ⟨l, e1, e2, e3, e4, e5⟩ := gatherSlice h2 (P := fun s ts => W anyC anyC s ts) (fun y _ h => by
    obtain ⟨s, h1, h2⟩ := h
    exact ⟨s, h1, h2.mono any_le le_refl'⟩)
  have wi : W isAlpha inked c!"switch " [tk .switch_ c!"switch"] := (W.keyword (by decide)).space
  by_cases hl : l = []
  · refine ⟨_, by simp only [Node.fmt, e4, hl, List.length_nil, if_true, hf]; rfl, ?_⟩
    have c1 : W (is ' ') anyC c!" { }" [tk .blockStart c!"{", tk .blockEnd c!"}"] := (W.lbrace.append W.close.gap any_le).gap
    exact ((wi.append' (w.append c1 (is_le (by decide))) opening_inked).mono le_refl' any_stop).cast (by simp)
        (by simp [Node.toks, e5.mpr hl, braces])
  · have hn : x.isNilSlice = false := by rw [← Bool.not_eq_true]; exact fun h => hl (e5.mp h)
    obtain ⟨us, w1, hu⟩ := W.lines e3 hl
    refine ⟨_, by simp only [Node.fmt, e4, List.length_eq_zero_iff, hl, if_false, hf, e1]; rfl, ?_⟩
    have c1 := W.openBlock.append (w1.indent'.append W.closeBlock any_le) any_le
    exact ((wi.append' (w.append c1 (is_le (by decide))) opening_inked).mono le_refl' any_stop).cast (by simp)
        (by rw [Node.toks, hn, e2, hu]; simp [braces])

theorem fmts_exprCase [FloatValue] {m : Meta} {x : Node (.slice (.bin .logicalOr))} {d : Bool} {y : Node (.ptr .expr)}
    (hs : (Node.exprCase m x d y).shaped = true) (h1 : Fmts (.slice (.bin .logicalOr)) x) (h2 : Fmts (.ptr .expr) y) :
    Fmts .exprCase (.exprCase m x d y) := by
  simp only [Node.shaped, Bool.and_eq_true] at hs
  obtain ⟨y, rfl, hy, hy'⟩ := h2.ptr hs.2
  obtain ⟨s, hf, w⟩ := hy' hy
  obtain ⟨l, e1, e2, e3, e4, e5⟩ := gatherSlice h1 (P := W opening stopN) (fun y _ h => h)
  have c1 := W.colon.append (W.openBlock.append (w.indent'.append W.closeBlock (is_le (by decide))) any_le) any_le
  by_cases hl : l = []
  · have hn := e5.mpr hl
    have hd : d = true := by simpa [Node.one, hn, List.count_cons] using hs.1
    refine ⟨_, by simp only [Node.fmt, isRef_nil, Node.isRef_ref, hn, Bool.not_true, Bool.false_eq_true, if_false, hd, if_true, hf]; rfl, ?_⟩
    refine ((W.ident (w := c!"default") (by decide)).append c1 (is_le (by decide))).cast (by simp) ?_
    simp [Node.toks, hd, braces]
  · have hn : x.isNilSlice = false := by rw [← Bool.not_eq_true]; exact fun h => hl (e5.mp h)
    have hd : d = false := by simpa [Node.one, hn, List.count_cons] using hs.1
    refine ⟨_, by simp only [Node.fmt, isRef_nil, Node.isRef_ref, hn, Bool.not_false, if_true, hf, e1]; rfl, ?_⟩
    have wc : W isAlpha inked c!"case " [tk .case_ c!"case"] := (W.keyword (by decide)).space
    have c2 := W.sep e3 opening_inked (by decide) (by decide) hl
    refine (wc.append' (c2.append c1 (is_le (by decide))) opening_inked).cast (by simp) ?_
    simp [Node.toks, hd, braces, e2]

theorem fmts_invocation {m : Meta} {x : Node (.slice .expr)} (h1 : Fmts (.slice .expr) x) : Fmts .invocation (.invocation m x) := by
  obtain ⟨l, e1, e2, e3, e4, e5⟩ := gatherSlice h1 (P := W opening stopN) (fun y hy h => h hy)
  refine ⟨join c!", " (l.map (·.1)), by simp [Node.fmt, e1], ?_⟩
  have := W.sep₀ e3 opening_inked (by decide)
  simpa only [Node.toks, e2] using this

omit [FloatText] in
/-- A dot in front of something that does not begin with a digit. -/
theorem W.dotted {s : Str} {ts : List Token} (h : W operand stopN s ts)
    (hd : headNot (fun t => t.txt.head?.any isDigitSep) ts = true) : W (is '.') stopN (c!"." ++ s) (tk .dot c!"." :: ts) := by
  obtain ⟨t, us, c, rfl, h1, h2⟩ := h.head operand_inked
  have hn : isDigitSep c = false := by simpa [headNot, h2] using hd
  have h' : W (is c) stopN s (t :: us) := fun st hst hz => by
    have := h st hst hz
    refine ⟨this.ne, fun d hd => ?_, this.run⟩
    rw [h1] at hd
    simpa [is, eq_comm] using hd
  exact W.dot.append' h' (is_le (by simp [afterOp, operators, List.isPrefixOf, hn]))

theorem fmts_postfixE {m : Meta} {v : Node .primary} {i : Node (.ptr .expr)} {q : Node (.ptr .postfixE)}
    (ht : (Node.postfixE m v i q).tidy = true) (h1 : Fmts .primary v) (h2 : Fmts (.ptr .expr) i) (h3 : Fmts (.ptr .postfixE) q) :
    Fmts .postfixE (.postfixE m v i q) := by
  simp only [Node.tidy, Bool.or_eq_true, Bool.not_eq_true', Bool.and_eq_true] at ht
  obtain ⟨s, hf, w⟩ := h1
  have wq : q = .nil ∨ ∃ s', q.isRef = true ∧ q.fmt = some s' ∧ W (is '.') stopN (c!"." ++ s') (tk .dot c!"." :: q.toks) := by
    rcases h3 with rfl | ⟨q, rfl, -, hq⟩
    · exact .inl rfl
    · obtain ⟨s', e1, e2⟩ := Fine.ref hq
      refine .inr ⟨s', rfl, e1, e2.dotted ?_⟩
      rcases ht with ht | ht
      · simp [isRef_nil, Node.isRef_ref] at ht
      · exact ht.2
  rcases h2 with rfl | ⟨i, rfl, hi, hi'⟩
  · rcases wq with rfl | ⟨s', hr, e1, w1⟩
    · refine ⟨_, by simp only [Node.fmt, isRef_nil, Node.isRef_ref, Bool.false_eq_true, if_false, hf, prefixed]; rfl, ?_⟩
      exact (w.mono le_refl' (endC_le _)).cast (by simp) (by simp [Node.toks, isRef_nil, Node.isRef_ref])
    · refine ⟨_, by simp only [Node.fmt, isRef_nil, Node.isRef_ref, Bool.false_eq_true, if_false, hf, hr, prefixed, if_true, e1]; rfl, ?_⟩
      have hv : v.numLike = false := by simpa [isRef_nil, hr] using (ht.resolve_left (by simp [hr])).1
      refine (w.append w1 (is_le (by rw [hv]; decide)) (endC_tab _)).cast (by simp) ?_
      simp [Node.toks, isRef_nil, Node.isRef_ref, hr]
  · obtain ⟨si, fi, wi⟩ := hi' hi
    have c1 := W.lbracket.append (wi.append W.rbracket (is_le (by decide))) any_le
    have c2 := w.append c1 (is_le (by cases v.numLike <;> decide)) (endC_tab _)
    rcases wq with rfl | ⟨s', hr, e1, w1⟩
    · refine ⟨_, by simp only [Node.fmt, isRef_nil, Node.isRef_ref, Bool.false_eq_true, if_false, if_true, hf, fi, prefixed]; rfl, ?_⟩
      exact (c2.mono le_refl' any_stop).cast (by simp) (by simp [Node.toks, isRef_nil, Node.isRef_ref])
    · refine ⟨_, by simp only [Node.fmt, isRef_nil, Node.isRef_ref, hf, fi, hr, prefixed, if_true, e1]; rfl, ?_⟩
      exact (c2.append w1 any_le).cast (by simp) (by simp [Node.toks, isRef_nil, Node.isRef_ref, hr])

theorem fmts_primary [FloatValue] {m : Meta} {e : Node (.ptr .expr)} {v : Node (.ptr .value)} {i : Node (.ptr .ident)}
    {c : Node (.slice .invocation)} {q : Node (.ptr .postfixE)} (hs : (Node.primary m e v i c q).shaped = true)
    (ht : (Node.primary m e v i c q).tidy = true)
    (h2 : Fmts (.ptr .value) v) (h3 : Fmts (.ptr .ident) i) (h4 : Fmts (.slice .invocation) c)
    (h5 : Fmts (.ptr .postfixE) q) : Fmts .primary (.primary m e v i c q) := by
  simp only [Node.tidy, Bool.and_eq_true, Bool.not_eq_true', Bool.or_eq_true] at ht
  simp only [Node.shaped, Bool.and_eq_true, Bool.or_eq_true, Bool.not_eq_true', ht.1] at hs
  rcases h2 with rfl | ⟨v, rfl, -, sv, fv, wv⟩
  · have hi : i.isRef = true := by simpa [Node.one, isRef_nil, Node.isRef_ref, List.count_cons] using hs.1
    obtain ⟨i, rfl, -, si, fi, wi⟩ := h3.ptr hi
    obtain ⟨l, e1, e2, e3, e4, e5⟩ := gatherSlice h4 (P := W₀ opening stopN) (fun y _ h => h)
    obtain ⟨tx, ft, wt⟩ : ∃ tx, (if c.len ≠ 0 then c.texts.map (fun ts => (ts.map (fun t => c!"(" ++ t ++ c!")")).flatten) else some []) = some tx ∧
        W isAlpha stopI (si ++ tx) (i.toks ++ (c.tokss.map parens).flatten) := by
      have key : ∀ l : List (Str × List Token), (∀ z ∈ l, W₀ opening stopN z.1 z.2) →
          (l.map (·.1)).map (fun t => c!"(" ++ t ++ c!")") = [] ∧ (l.map (·.2)).map parens = [] ∨
          W (is '(') anyC ((l.map (·.1)).map (fun t => c!"(" ++ t ++ c!")")).flatten ((l.map (·.2)).map parens).flatten := by
        intro l hl
        induction l with
        | nil => exact .inl ⟨rfl, rfl⟩
        | cons x l ih =>
          have hx := W.parens (hl x (by simp)) (by decide)
          rcases ih (fun z hz => hl z (List.mem_cons_of_mem _ hz)) with ⟨h1, h2⟩ | h
          · right
            simp only [List.map_cons, h1, h2, List.flatten_cons, List.flatten_nil, List.append_nil]
            exact hx
          · exact .inr (hx.append h any_le)
      refine ⟨((l.map (·.1)).map (fun t => c!"(" ++ t ++ c!")")).flatten, ?_, ?_⟩
      · split
        · rw [e1]; rfl
        · rename_i h
          rw [e4, ne_eq, not_not, List.length_eq_zero_iff] at h
          rw [h]; rfl
      · rw [e2]
        rcases key l e3 with ⟨h1, h2⟩ | h
        · rw [h1, h2]; simpa using wi
        · exact (wi.append h (is_le (by decide))).mono le_refl' any_stop
    rcases h5 with rfl | ⟨q, rfl, -, hq⟩
    · refine ⟨_, by simp only [Node.fmt, isRef_nil, Node.isRef_ref, ht.1, Bool.false_eq_true, if_false, if_true, fi, ft, prefixed]; rfl, ?_⟩
      refine (wt.mono alpha_operand le_refl').cast (by simp) ?_
      simp [Node.toks, isRef_nil, Node.isRef_ref, ht.1]
    · obtain ⟨s', f', w'⟩ := hq
      refine ⟨_, by simp only [Node.fmt, isRef_nil, Node.isRef_ref, ht.1, Bool.false_eq_true, if_false, if_true, fi, ft, prefixed, f']; rfl, ?_⟩
      have hd := w'.dotted (by simpa [Node.noDigit, Node.toks, Node.isRef_ref] using ht.2)
      refine ((wt.append hd (is_le (by decide))).mono alpha_operand le_refl').cast (by simp) ?_
      simp [Node.toks, isRef_nil, Node.isRef_ref, ht.1]
  · have hq : q.isRef = false := by
      rcases hs.2 with h | h
      · simp [Node.one, isRef_nil, Node.isRef_ref, List.count_cons, h] at hs
      · exact h.2
    refine ⟨sv, by simp [Node.fmt, isRef_nil, Node.isRef_ref, ht.1, fv], ?_⟩
    simp only [Node.numLike, hq, Bool.or_false]
    exact wv.cast rfl (by simp [Node.toks, isRef_nil, Node.isRef_ref, ht.1])

end Verif.Etx
