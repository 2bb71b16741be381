import Verif.Etx.ReadsItems

/-!
# Reading back functions, types and documents
-/

set_option linter.unusedSimpArgs false

namespace Verif.Etx
open Gram

variable [FloatValue]

/-! ## Functions -/

/-- The return types of a function. -/
theorem takes_ret {x : Node (.slice .parameterType)} (hx : Reads _ x)
    (hw : (!x.bareRet || headNot (fun t => t.txt = c!"(") x.tokss.flatten) = true) (r : List Token) :
    ∃ l, x.bare = sliceOf l ∧
      Takes (.opt (.alt (sq [lit c!"(", opt (commaSep .ret .parameterType), lit c!")"]) (.sub .ret .parameterType)))
        ((if x.isNilSlice then [] else if x.bareRet then x.tokss.flatten else parens (sepBy [comma] x.tokss)) ++
          tk .blockStart c!"{" :: r) (capNodes .ret l) (tk .blockStart c!"{" :: r) := by
  have hx' := hx
  rcases hx with rfl | ⟨a, l, rfl, hl, hy⟩
  · refine ⟨[], bare_nilSlice, ?_⟩
    have hsoft : Soft {} (.alt (sq [lit c!"(", opt (commaSep .ret .parameterType), lit c!")"]) (.sub .ret .parameterType))
        (tk .blockStart c!"{" :: r) := (bare_of_head rfl).soft
    exact Takes.skip hsoft
  · have hn : (Node.mkSlice a (Out.items l)).isNilSlice = false := rfl
    cases hbr : (Node.mkSlice a (Out.items l)).bareRet with
    | false =>
      obtain ⟨l', hl', hk⟩ := Takes.optCommaSep (f := .ret) hx' (t := tk .opRParen c!")") (r := tk .blockStart c!"{" :: r)
        (fun y hs hy u hu => (hy hs).param (by rcases hu with rfl | ⟨v, rfl⟩ <;> rfl)) (bare_of_head rfl) (by decide)
      refine ⟨l', hl', ?_⟩
      have := Takes.once (Takes.altL (b := .sub .ret .parameterType) (Takes.seq (Takes.lit (w := c!"(") (t := tk .opLParen c!"(") rfl)
        (Takes.seq hk (Takes.lit (w := c!")") rfl))))
      simpa [hn, parens, sq] using this
    | true =>
      rw [hbr, Node.tokss, tokss_items] at hw
      match l, hl, hbr with
      | [y], hl, hbr =>
        have hg := (hy y (by simp)).2.2 (hy y (by simp)).1
        refine ⟨[y.bare], bare_slice a (by simp), ?_⟩
        have hh : HeadIn .parameterType y.toks := hg.1 rfl
        have hw : headNot (fun t => t.txt = c!"(") (y.toks ++ tk .blockStart c!"{" :: r) = true := by
          obtain ⟨t, u, e, -, -⟩ := hh
          rw [e]
          simpa [headNot, e] using hw
        have := Takes.once (Takes.altR (a := sq [lit c!"(", opt (commaSep .ret .parameterType), lit c!")"])
          (Soft.seqL (Soft.lit (by simpa [headNot_iff] using hw)).soft) (Takes.sub (f := .ret) (hg.param (r := tk .blockStart c!"{" :: r) rfl)))
        simpa [hn, Node.tokss, tokss_items, hbr, capNodes] using this
      | y :: z :: l, hl, hbr =>
        exfalso
        cases y with
        | parameterType m x1 x2 => cases x1 <;> cases hbr

theorem reads_func {m : Meta} {w : Str} {x : Node (.slice .funcParameter)} {y : Node (.slice .parameterType)}
    {z : Node (.slice .funcStatement)} (hc : (Node.func m w x y z).canon = true) (hx : Reads _ x) (hy : Reads _ y) (hz : Reads _ z) :
    Reads .func (.func m w x y z) := by
  intro _
  simp only [Node.canon, Node.everywhere, Node.shaped, Node.writable, Bool.and_eq_true] at hc
  obtain ⟨⟨⟨⟨-, hch, hbl, hw⟩, -⟩, -⟩, -⟩ := hc
  have hb : (Node.func m w x y z).bare = .func noPos w x.bare y.bare z.bare := rfl
  have ht : ∀ r, (Node.func m w x y z).toks ++ r = tk .ident c!"def" :: tk .ident w :: tk .opLParen c!"(" :: (sepBy [comma] x.tokss ++
      tk .opRParen c!")" :: ((if y.isNilSlice then [] else if y.bareRet then y.tokss.flatten else parens (sepBy [comma] y.tokss)) ++
      tk .blockStart c!"{" :: ((if z.isNilSlice then [] else lfTok :: z.tokss.flatten) ++ tk .blockEnd c!"}" :: r))) := by
    intro r
    rw [Node.toks]
    simp [braces, parens]
  refine ⟨fun _ => by have := ht []; rw [List.append_nil] at this; rw [this]; exact ⟨_, _, rfl, rfl, rfl⟩, fun r hf => ?_⟩
  rw [ht, rest_kind]
  obtain ⟨l3, hl3, hk3⟩ := takes_lfsBody (f := .body) (g := lit c!"}") rfl hz hch hbl (by decide) r
    (bare_of_head (by decide +kernel)).soft (Takes.lit rfl)
  obtain ⟨l2, hl2, hk2⟩ := takes_ret hy hw ((if z.isNilSlice then [] else lfTok :: z.tokss.flatten) ++ tk .blockEnd c!"}" :: r)
  obtain ⟨l1, hl1, hk1⟩ := Takes.optCommaSep (f := .parameters) hx (t := tk .opRParen c!")")
    (r := (if y.isNilSlice then [] else if y.bareRet then y.tokss.flatten else parens (sepBy [comma] y.tokss)) ++
      tk .blockStart c!"{" :: ((if z.isNilSlice then [] else lfTok :: z.tokss.flatten) ++ tk .blockEnd c!"}" :: r))
    (fun y hs hy u hu => (hy hs).ok (by
      cases y
      simp only [Node.follow, Bool.and_eq_true]
      rcases hu with rfl | ⟨v, rfl⟩ <;> exact ⟨stopIdent_of rfl, rfl⟩)) (bare_of_head rfl) (by decide)
  refine OkKind.ofTakes (Takes.seq (Takes.lit rfl) (Takes.seq (Takes.capTok rfl) (Takes.seq (Takes.lit rfl) (Takes.seq hk1
    (Takes.seq (Takes.lit rfl) (Takes.seq hk2 (Takes.seq (Takes.noLfs rfl) (Takes.seq (Takes.lit rfl) hk3)))))))) rfl fun txt => ?_
  rw [hb, hl1, hl2, hl3]
  simp [build, tk]

omit [FloatValue] in
theorem funcDecl_line {x : Node .funcDecl} {r : List Token}
    (h : (!x.dangling || headNot (fun t => t.sym = .lf || t.sym = .else_) r) = true) :
    x.follow (lfTok :: r) = true ∧ (x.dangling = true → headNot (fun t => t.sym = .lf) r = true) := by
  cases x with | funcDecl m w l z y => ?_
  have hd : (Node.funcDecl m w l z y).dangling = y.dangling := rfl
  rw [hd] at h ⊢
  have h1 : y.dangling = true → headNot (fun t => t.sym = .lf) r = true := fun hy => by
    rw [hy] at h
    exact headNot_mono h (by simp +contextual)
  refine ⟨?_, h1⟩
  simp only [Node.follow, Bool.and_eq_true]
  refine ⟨rfl, ?_⟩
  cases hy : y.dangling with
  | false => rfl
  | true =>
    rw [skipLF_lf rfl, skipLF_headNot (h1 hy)]
    rw [hy] at h
    exact headNot_mono h (by simp +contextual)

omit [FloatValue] in
theorem decl_line {x : Node .decl} {r : List Token}
    (h : (!x.dangling || headNot (fun t => t.sym = .lf || t.sym = .else_) r) = true) :
    x.follow (lfTok :: r) = true ∧ (x.dangling = true → headNot (fun t => t.sym = .lf) r = true) := by
  cases x with | decl m w l z y => ?_
  have hd : (Node.decl m w l z y).dangling = y.dangling := rfl
  rw [hd] at h ⊢
  have h1 : y.dangling = true → headNot (fun t => t.sym = .lf) r = true := fun hy => by
    rw [hy] at h
    exact headNot_mono h (by simp +contextual)
  refine ⟨?_, h1⟩
  simp only [Node.follow, Bool.and_eq_true]
  refine ⟨rfl, ?_⟩
  cases hy : y.dangling with
  | false => rfl
  | true =>
    rw [skipLF_lf rfl, skipLF_headNot (h1 hy)]
    rw [hy] at h
    exact headNot_mono h (by simp +contextual)

omit [FloatValue] in
theorem expr_line {x : Node .expr} {r : List Token}
    (h : (!x.dangling || headNot (fun t => t.sym = .lf || t.sym = .else_) r) = true) :
    x.follow (lfTok :: r) = true ∧ (x.dangling = true → headNot (fun t => t.sym = .lf) r = true) := by
  have h1 : x.dangling = true → headNot (fun t => t.sym = .lf) r = true := fun hy => by
    rw [hy] at h
    exact headNot_mono h (by simp +contextual)
  refine ⟨?_, h1⟩
  rw [follow_expr, Bool.and_eq_true]
  refine ⟨rfl, ?_⟩
  cases hy : x.dangling with
  | false => rfl
  | true =>
    rw [skipLF_lf rfl, skipLF_headNot (h1 hy)]
    rw [hy] at h
    exact headNot_mono h (by simp +contextual)

theorem reads_funcStatement {m : Meta} {e : Str} {x1 : Node (.ptr .comment)} {x2 : Node (.ptr .funcDecl)} {x3 : Node (.ptr .expr)}
    (hc : (Node.funcStatement m e x1 x2 x3).canon = true) (h1 : Reads _ x1) (h2 : Reads _ x2) (h3 : Reads _ x3) :
    Reads .funcStatement (.funcStatement m e x1 x2 x3) := by
  intro _
  simp only [Node.canon, Node.everywhere, Node.shaped, Node.writable, Bool.and_eq_true] at hc
  obtain ⟨⟨⟨⟨ho, -, hkw⟩, -⟩, -⟩, -⟩ := hc
  have hb : (Node.funcStatement m e x1 x2 x3).bare = .funcStatement noPos e x1.bare x2.bare x3.bare := rfl
  by_cases he : e = []
  case neg =>
    rcases h1 with rfl | ⟨z, rfl, -⟩
    case inr => simp [Node.one, List.count_cons, he, Node.isRef] at ho
    rcases h2 with rfl | ⟨z, rfl, -⟩
    case inr => simp [Node.one, List.count_cons, he, Node.isRef] at ho
    rcases h3 with rfl | ⟨z, rfl, -⟩
    case inr => simp [Node.one, List.count_cons, he, Node.isRef] at ho
    have ht : (Node.funcStatement m e .nil .nil .nil).toks = blankToks e := by simp [Node.toks, he]
    obtain ⟨u, hu⟩ := headIn_blank he
    rw [Good, ht]
    refine ⟨fun _ => ⟨_, _, hu, rfl, rfl⟩, fun r hf => ?_⟩
    simp only [Node.follow, ne_eq, he, not_false_eq_true, if_true] at hf
    refine OkKind.ofTakes (Takes.altL (Takes.blanks he hf)) (by rw [hu]; rfl) fun txt => ?_
    rw [hb]
    simp [build, bare_nil, ptrOf]
  subst he
  rcases h1 with rfl | ⟨y, rfl, hs, -, hy⟩
  case inr =>
    rcases h2 with rfl | ⟨z, rfl, -⟩
    case inr => simp [Node.one, List.count_cons, Node.isRef] at ho
    rcases h3 with rfl | ⟨c, rfl, -⟩
    case inr => simp [Node.one, List.count_cons, Node.isRef] at ho
    have hy := hy hs
    have ht : (Node.funcStatement m [] (.ref y) .nil .nil).toks = y.toks := by simp [Node.toks, Node.isRef]
    have hh : HeadIn .comment y.toks := hy.1 rfl
    rw [Good, ht]
    refine ⟨fun _ => hh.mono (by decide), fun r hf => ?_⟩
    have hf : y.follow r = true := by simpa [Node.follow, Node.isRef] using hf
    refine OkKind.ofTakes (Takes.altR (hh.append r).soft (Takes.altL (Takes.sub (hy.ok hf)))) (hh.append _).posOf fun txt => ?_
    rw [hb]
    simp [build, bare_nil, bare_ref, ptrOf]
  rcases h2 with rfl | ⟨y, rfl, hs, -, hy⟩
  case inr =>
    rcases h3 with rfl | ⟨c, rfl, -⟩
    case inr => simp [Node.one, List.count_cons, Node.isRef] at ho
    have hy := hy hs
    have ht : (Node.funcStatement m [] .nil (.ref y) .nil).toks = y.toks ++ [lfTok] := by simp [Node.toks, Node.isRef]
    have hh : HeadIn .funcDecl y.toks := hy.1 rfl
    rw [Good, ht]
    refine ⟨fun _ => (hh.append _).mono (by decide), fun r hf => ?_⟩
    have hf : (!(y.dangling || false) || headNot (fun t => t.sym = .lf || t.sym = .else_) r) = true := hf
    rw [Bool.or_false] at hf
    have hf := funcDecl_line (x := y) (r := r) hf
    rw [List.append_assoc]
    refine OkKind.ofTakes (Takes.altR (hh.append _).soft (Takes.altR (hh.append _).soft (Takes.altL (takes_line hy hf.1 hf.2))))
      (hh.append _).posOf fun txt => ?_
    rw [hb]
    simp [build, bare_nil, bare_ref, ptrOf]
  rcases h3 with rfl | ⟨y, rfl, hs, -, hy⟩
  case inl => simp [Node.one, List.count_cons, Node.isRef] at ho
  have hy := hy hs
  have ht : (Node.funcStatement m [] .nil .nil (.ref y)).toks = y.toks ++ [lfTok] := by simp [Node.toks, Node.isRef]
  have hh : HeadIn .expr y.toks := hy.1 rfl
  rw [Good, ht]
  refine ⟨fun _ => (hh.append _).mono (by decide), fun r hf => ?_⟩
  have hf := expr_line (x := y) (r := r) hf
  rw [List.append_assoc]
  have hdecl : Soft {} (.seq (.sub .decl .funcDecl) lf?) (y.toks ++ lfTok :: r) := by
    obtain ⟨t, u, e, hp, hst⟩ := hh
    simp only [startOk, Bool.and_eq_true, List.contains_iff_mem] at hst
    have hkw : headNot (fun t => [c!"const", c!"val"].contains t.txt) y.toks = true := hkw
    rw [e] at hkw ⊢
    refine (bare_of_head (any_excluded (ys := starts .expr) (ws := [c!"const", c!"val"]) (by decide) hst.1 ?_)).soft
    simpa [headNot] using hkw
  refine OkKind.ofTakes (Takes.altR (hh.append _).soft (Takes.altR (hh.append _).soft (Takes.altR hdecl (takes_line hy hf.1 hf.2))))
    (hh.append _).posOf fun txt => ?_
  rw [hb]
  simp [build, bare_nil, bare_ref, ptrOf]

/-! ## Types -/

theorem reads_typeEnumItem {m : Meta} {e : Str} {x1 : Node (.ptr .comment)} {w : Str} {x2 : Node .expr}
    (hc : (Node.typeEnumItem m e x1 w x2).canon = true) (h1 : Reads _ x1) (h2 : Reads _ x2) :
    Reads .typeEnumItem (.typeEnumItem m e x1 w x2) := by
  intro _
  simp only [Node.canon, Node.everywhere, Node.shaped, Node.writable, Bool.and_eq_true, beq_iff_eq] at hc
  obtain ⟨⟨⟨⟨ho, hlab⟩, -⟩, -⟩, -⟩ := hc
  have hb : (Node.typeEnumItem m e x1 w x2).bare = .typeEnumItem noPos e x1.bare w x2.bare := rfl
  by_cases he : e = []
  case neg =>
    rcases h1 with rfl | ⟨z, rfl, -⟩
    case inr => simp [Node.one, List.count_cons, he, Node.isRef] at ho
    have hset : x2.set = false := by
      cases h : x2.set with
      | false => rfl
      | true => simp [Node.one, List.count_cons, he, Node.isRef, h] at ho
    have hw : w = [] := by simpa [hset] using hlab
    subst hw
    have ht : (Node.typeEnumItem m e .nil [] x2).toks = blankToks e := by simp [Node.toks, he]
    obtain ⟨u, hu⟩ := headIn_blank he
    rw [Good, ht]
    refine ⟨fun _ => ⟨_, _, hu, rfl, rfl⟩, fun r hf => ?_⟩
    simp only [Node.follow, ne_eq, he, not_false_eq_true, if_true] at hf
    refine OkKind.ofTakes (Takes.altL (Takes.blanks he hf)) (by rw [hu]; rfl) fun txt => ?_
    rw [hb, expr_unset hset]
    simp [build, bare_nil, ptrOf]
  subst he
  rcases h1 with rfl | ⟨y, rfl, hs, -, hy⟩
  case inr =>
    have hset : x2.set = false := by
      cases h : x2.set with
      | false => rfl
      | true => simp [Node.one, List.count_cons, Node.isRef, h] at ho
    have hw : w = [] := by simpa [hset] using hlab
    subst hw
    have hy := hy hs
    have ht : (Node.typeEnumItem m [] (.ref y) [] x2).toks = y.toks := by simp [Node.toks, Node.isRef]
    have hh : HeadIn .comment y.toks := hy.1 rfl
    rw [Good, ht]
    refine ⟨fun _ => hh.mono (by decide), fun r hf => ?_⟩
    have hf : y.follow r = true := by simpa [Node.follow, Node.isRef] using hf
    refine OkKind.ofTakes (Takes.altR (hh.append r).soft (Takes.altL (Takes.sub (hy.ok hf)))) (hh.append _).posOf fun txt => ?_
    rw [hb, expr_unset hset]
    simp [build, bare_nil, bare_ref, ptrOf]
  have hset : x2.set = true := by simpa [Node.one, List.count_cons, Node.isRef] using ho
  have hy := h2 hset
  have ht : (Node.typeEnumItem m [] .nil w x2).toks = tk .ident w :: tk .opColon c!":" :: (x2.toks ++ [lfTok]) := by
    simp [Node.toks, Node.isRef]
  rw [Good, ht]
  refine ⟨fun _ => ⟨_, _, rfl, rfl, rfl⟩, fun r hf => ?_⟩
  have hf := expr_line (x := x2) (r := r) hf
  rw [List.cons_append, List.cons_append, List.append_assoc]
  refine OkKind.ofTakes (Takes.altR (bare_of_head rfl).soft (Takes.altR (bare_of_head rfl).soft (Takes.seq (Takes.capTok rfl)
    (Takes.seq (Takes.lit rfl) (takes_line hy hf.1 hf.2))))) rfl fun txt => ?_
  rw [hb]
  simp [build, bare_nil, bare_ref, ptrOf, tk]

theorem reads_typeObjectItem {m : Meta} {e : Str} {x1 : Node (.ptr .comment)} {w : Str} {x2 : Node .parameterType}
    (hc : (Node.typeObjectItem m e x1 w x2).canon = true) (h1 : Reads _ x1) (h2 : Reads _ x2) :
    Reads .typeObjectItem (.typeObjectItem m e x1 w x2) := by
  intro _
  simp only [Node.canon, Node.everywhere, Node.shaped, Node.writable, Bool.and_eq_true, beq_iff_eq] at hc
  obtain ⟨⟨⟨⟨ho, hlab⟩, -⟩, -⟩, -⟩ := hc
  have hb : (Node.typeObjectItem m e x1 w x2).bare = .typeObjectItem noPos e x1.bare w x2.bare := rfl
  by_cases he : e = []
  case neg =>
    rcases h1 with rfl | ⟨z, rfl, -⟩
    case inr => simp [Node.one, List.count_cons, he, Node.isRef] at ho
    have hset : x2.set = false := by
      cases h : x2.set with
      | false => rfl
      | true => simp [Node.one, List.count_cons, he, Node.isRef, h] at ho
    have hw : w = [] := by simpa [hset] using hlab
    subst hw
    have ht : (Node.typeObjectItem m e .nil [] x2).toks = blankToks e := by simp [Node.toks, he]
    obtain ⟨u, hu⟩ := headIn_blank he
    rw [Good, ht]
    refine ⟨fun _ => ⟨_, _, hu, rfl, rfl⟩, fun r hf => ?_⟩
    simp only [Node.follow, ne_eq, he, not_false_eq_true, if_true] at hf
    refine OkKind.ofTakes (Takes.altL (Takes.blanks he hf)) (by rw [hu]; rfl) fun txt => ?_
    rw [hb, parameterType_unset hset]
    simp [build, bare_nil, ptrOf]
  subst he
  rcases h1 with rfl | ⟨y, rfl, hs, -, hy⟩
  case inr =>
    have hset : x2.set = false := by
      cases h : x2.set with
      | false => rfl
      | true => simp [Node.one, List.count_cons, Node.isRef, h] at ho
    have hw : w = [] := by simpa [hset] using hlab
    subst hw
    have hy := hy hs
    have ht : (Node.typeObjectItem m [] (.ref y) [] x2).toks = y.toks := by simp [Node.toks, Node.isRef]
    have hh : HeadIn .comment y.toks := hy.1 rfl
    rw [Good, ht]
    refine ⟨fun _ => hh.mono (by decide), fun r hf => ?_⟩
    have hf : y.follow r = true := by simpa [Node.follow, Node.isRef] using hf
    refine OkKind.ofTakes (Takes.altR (hh.append r).soft (Takes.altL (Takes.sub (hy.ok hf)))) (hh.append _).posOf fun txt => ?_
    rw [hb, parameterType_unset hset]
    simp [build, bare_nil, bare_ref, ptrOf]
  have hset : x2.set = true := by simpa [Node.one, List.count_cons, Node.isRef] using ho
  have hy := h2 hset
  have ht : (Node.typeObjectItem m [] .nil w x2).toks = tk .ident w :: tk .opColon c!":" :: (x2.toks ++ [lfTok]) := by
    simp [Node.toks, Node.isRef]
  rw [Good, ht]
  refine ⟨fun _ => ⟨_, _, rfl, rfl, rfl⟩, fun r hf => ?_⟩
  rw [List.cons_append, List.cons_append, List.append_assoc]
  refine OkKind.ofTakes (Takes.altR (bare_of_head rfl).soft (Takes.altR (bare_of_head rfl).soft (Takes.seq (Takes.capTok rfl)
    (Takes.seq (Takes.lit rfl) (takes_line hy (by cases x2; exact stopIdent_of rfl) (by cases x2; simp [Node.dangling])))))) rfl fun txt => ?_
  rw [hb]
  simp [build, bare_nil, bare_ref, ptrOf, tk]

theorem posOf_body {k : Kind} (hk : k.isItem = true) {x : Node (.slice k)} (hx : Reads (.slice k) x) {t : Token} (ht : t.pos = {})
    (r : List Token) : posOf {} (x.tokss.flatten ++ t :: r) = {} := by
  rcases hx with rfl | ⟨a, l, rfl, hl, hy⟩
  · exact ht
  · cases l with
    | nil => exact absurd rfl hl
    | cons y l =>
      rw [Node.tokss, tokss_items, List.map_cons, List.flatten_cons, List.append_assoc]
      exact (((isItem_reads hk (hy y (by simp)).1 (hy y (by simp)).2.2).1 (isItem_null hk)).append _).posOf

theorem reads_typeEnum {m : Meta} {x : Node (.slice .typeEnumItem)} (hc : (Node.typeEnum m x).canon = true) (hx : Reads _ x) :
    Reads .typeEnum (.typeEnum m x) := by
  intro _
  simp only [Node.canon, Node.everywhere, Node.shaped, Node.writable, Bool.and_eq_true] at hc
  obtain ⟨⟨-, hch, -⟩, -⟩ := hc
  have hb : (Node.typeEnum m x).bare = .typeEnum noPos x.bare := rfl
  have ht : (Node.typeEnum m x).toks = x.tokss.flatten := by rw [Node.toks]
  rw [Good, ht]
  refine ⟨fun h => absurd h (by decide), fun r hf => ?_⟩
  simp only [Node.follow, decide_eq_true_eq] at hf
  cases r with
  | nil => simp at hf
  | cons t r =>
    simp only [List.head?_cons, Option.some.injEq] at hf
    subst hf
    obtain ⟨l, hl, hk⟩ := takes_body (f := .items) rfl hx hch r (bare_of_head (by decide +kernel)).soft
    rw [rest_kind]
    refine OkKind.ofTakes hk (posOf_body rfl hx rfl r) fun txt => ?_
    rw [hb, hl]
    simp [build]

theorem reads_typeObject {m : Meta} {x : Node (.slice .typeObjectItem)} (hc : (Node.typeObject m x).canon = true) (hx : Reads _ x) :
    Reads .typeObject (.typeObject m x) := by
  intro _
  simp only [Node.canon, Node.everywhere, Node.shaped, Node.writable, Bool.and_eq_true] at hc
  obtain ⟨⟨-, hch, -⟩, -⟩ := hc
  have hb : (Node.typeObject m x).bare = .typeObject noPos x.bare := rfl
  have ht : (Node.typeObject m x).toks = x.tokss.flatten := by rw [Node.toks]
  rw [Good, ht]
  refine ⟨fun h => absurd h (by decide), fun r hf => ?_⟩
  simp only [Node.follow, decide_eq_true_eq] at hf
  cases r with
  | nil => simp at hf
  | cons t r =>
    simp only [List.head?_cons, Option.some.injEq] at hf
    subst hf
    obtain ⟨l, hl, hk⟩ := takes_body (f := .items) rfl hx hch r (bare_of_head (by decide +kernel)).soft
    rw [rest_kind]
    refine OkKind.ofTakes hk (posOf_body rfl hx rfl r) fun txt => ?_
    rw [hb, hl]
    simp [build]

theorem reads_type {m : Meta} {w : Str} {x1 : Node (.ptr .typeEnum)} {x2 : Node (.ptr .typeObject)}
    (hc : (Node.type m w x1 x2).canon = true) (h1 : Reads _ x1) (h2 : Reads _ x2) : Reads .type (.type m w x1 x2) := by
  intro _
  simp only [Node.canon, Node.everywhere, Node.shaped, Node.writable, Bool.and_eq_true] at hc
  obtain ⟨⟨⟨⟨-, ho⟩, -⟩, -⟩, -⟩ := hc
  have hb : (Node.type m w x1 x2).bare = .type noPos w x1.bare x2.bare := rfl
  rcases h1 with rfl | ⟨y, rfl, hs, hcy, hy⟩
  case inr =>
    rcases h2 with rfl | ⟨z, rfl, -⟩
    case inr => simp [Node.one, List.count_cons, Node.isRef] at ho
    have hy := hy hs
    have ht : ∀ r, (Node.type m w (.ref y) .nil).toks ++ r =
        tk .ident c!"type" :: tk .ident w :: tk .ident c!"enum" :: tk .blockStart c!"{" :: lfTok :: (y.toks ++ tk .blockEnd c!"}" :: r) := by
      intro r
      simp [Node.toks, Node.isRef, braces]
    refine ⟨fun _ => by have := ht []; rw [List.append_nil] at this; rw [this]; exact ⟨_, _, rfl, rfl, rfl⟩, fun r hf => ?_⟩
    rw [ht, rest_kind]
    have hyr := hy.ok (r := tk .blockEnd c!"}" :: r) (by cases y; rfl)
    have hsk : skipLF (y.toks ++ tk .blockEnd c!"}" :: r) = y.toks ++ tk .blockEnd c!"}" :: r := by
      cases y with | typeEnum m' z => ?_
      simp only [Node.canon, Node.everywhere, Node.shaped, Node.writable, Bool.and_eq_true] at hcy
      rw [Node.toks]
      exact skipLF_body hcy.1.2.2 (by decide) r
    have hlf := Takes.lfs (lfTok :: (y.toks ++ tk .blockEnd c!"}" :: r))
    rw [skipLF_lf rfl, hsk] at hlf
    have := Takes.seq (Takes.lit (w := c!"type") (t := tk .ident c!"type") rfl) (Takes.seq (Takes.capTok (f := .label) (y := .ident)
      (t := tk .ident w) rfl) (Takes.seq (Takes.altL (b := sq [lit c!"object", lit c!"{", lfs, sub .object .typeObject])
      (Takes.seq (Takes.lit (w := c!"enum") (t := tk .ident c!"enum") rfl) (Takes.seq (Takes.lit (w := c!"{") (t := tk .blockStart c!"{") rfl)
      (Takes.seq hlf (Takes.sub (f := .enum) hyr))))) (Takes.lit (w := c!"}") rfl)))
    refine OkKind.ofTakes this rfl fun txt => ?_
    rw [hb]
    simp [build, bare_nil, bare_ref, ptrOf, tk]
  rcases h2 with rfl | ⟨y, rfl, hs, hcy, hy⟩
  case inl => simp [Node.one, List.count_cons, Node.isRef] at ho
  have hy := hy hs
  have ht : ∀ r, (Node.type m w .nil (.ref y)).toks ++ r =
      tk .ident c!"type" :: tk .ident w :: tk .ident c!"object" :: tk .blockStart c!"{" :: lfTok :: (y.toks ++ tk .blockEnd c!"}" :: r) := by
    intro r
    simp [Node.toks, Node.isRef, braces]
  refine ⟨fun _ => by have := ht []; rw [List.append_nil] at this; rw [this]; exact ⟨_, _, rfl, rfl, rfl⟩, fun r hf => ?_⟩
  rw [ht, rest_kind]
  have hyr := hy.ok (r := tk .blockEnd c!"}" :: r) (by cases y; rfl)
  have hsk : skipLF (y.toks ++ tk .blockEnd c!"}" :: r) = y.toks ++ tk .blockEnd c!"}" :: r := by
    cases y with | typeObject m' z => ?_
    simp only [Node.canon, Node.everywhere, Node.shaped, Node.writable, Bool.and_eq_true] at hcy
    rw [Node.toks]
    exact skipLF_body hcy.1.2.2 (by decide) r
  have hlf := Takes.lfs (lfTok :: (y.toks ++ tk .blockEnd c!"}" :: r))
  rw [skipLF_lf rfl, hsk] at hlf
  have := Takes.seq (Takes.lit (w := c!"type") (t := tk .ident c!"type") rfl) (Takes.seq (Takes.capTok (f := .label) (y := .ident)
    (t := tk .ident w) rfl) (Takes.seq (Takes.altR (a := sq [lit c!"enum", lit c!"{", lfs, sub .enum .typeEnum]) (bare_of_head rfl).soft
    (Takes.seq (Takes.lit (w := c!"object") (t := tk .ident c!"object") rfl) (Takes.seq (Takes.lit (w := c!"{") (t := tk .blockStart c!"{") rfl)
    (Takes.seq hlf (Takes.sub (f := .object) hyr))))) (Takes.lit (w := c!"}") rfl)))
  refine OkKind.ofTakes this rfl fun txt => ?_
  rw [hb]
  simp [build, bare_nil, bare_ref, ptrOf, tk]

/-! ## The items of a document -/

theorem reads_rootItem {m : Meta} {e : Str} {x1 : Node (.ptr .decl)} {x2 : Node (.ptr .func)} {x3 : Node (.ptr .type)}
    {x4 : Node (.ptr .block)} {x5 : Node (.ptr .attr)} {x6 : Node (.ptr .comment)}
    (hc : (Node.rootItem m e x1 x2 x3 x4 x5 x6).canon = true) (h1 : Reads _ x1) (h2 : Reads _ x2) (h3 : Reads _ x3)
    (h4 : Reads _ x4) (h5 : Reads _ x5) (h6 : Reads _ x6) : Reads .rootItem (.rootItem m e x1 x2 x3 x4 x5 x6) := by
  intro _
  simp only [Node.canon, Node.everywhere, Node.shaped, Node.writable, Bool.and_eq_true] at hc
  obtain ⟨⟨⟨⟨⟨⟨⟨ho, -⟩, -⟩, -⟩, -⟩, -⟩, -⟩, -⟩ := hc
  have hb : (Node.rootItem m e x1 x2 x3 x4 x5 x6).bare = .rootItem noPos e x1.bare x2.bare x3.bare x4.bare x5.bare x6.bare := rfl
  by_cases he : e = []
  case neg =>
    rcases h1 with rfl | ⟨z, rfl, -⟩
    case inr => simp [Node.one, List.count_cons, he, Node.isRef] at ho
    rcases h2 with rfl | ⟨z, rfl, -⟩
    case inr => simp [Node.one, List.count_cons, he, Node.isRef] at ho
    rcases h3 with rfl | ⟨z, rfl, -⟩
    case inr => simp [Node.one, List.count_cons, he, Node.isRef] at ho
    rcases h4 with rfl | ⟨z, rfl, -⟩
    case inr => simp [Node.one, List.count_cons, he, Node.isRef] at ho
    rcases h5 with rfl | ⟨z, rfl, -⟩
    case inr => simp [Node.one, List.count_cons, he, Node.isRef] at ho
    rcases h6 with rfl | ⟨z, rfl, -⟩
    case inr => simp [Node.one, List.count_cons, he, Node.isRef] at ho
    have ht : (Node.rootItem m e .nil .nil .nil .nil .nil .nil).toks = blankToks e := by simp [Node.toks, he]
    obtain ⟨u, hu⟩ := headIn_blank he
    rw [Good, ht]
    refine ⟨fun _ => ⟨_, _, hu, rfl, rfl⟩, fun r hf => ?_⟩
    simp only [Node.follow, ne_eq, he, not_false_eq_true, if_true] at hf
    refine OkKind.ofTakes (Takes.altL (Takes.blanks he hf)) (by rw [hu]; rfl) fun txt => ?_
    rw [hb]
    simp [build, bare_nil, ptrOf]
  subst he
  rcases h1 with rfl | ⟨y, rfl, hs, -, hy⟩
  case inr =>
    rcases h2 with rfl | ⟨z, rfl, -⟩
    case inr => simp [Node.one, List.count_cons, Node.isRef] at ho
    rcases h3 with rfl | ⟨z, rfl, -⟩
    case inr => simp [Node.one, List.count_cons, Node.isRef] at ho
    rcases h4 with rfl | ⟨z, rfl, -⟩
    case inr => simp [Node.one, List.count_cons, Node.isRef] at ho
    rcases h5 with rfl | ⟨z, rfl, -⟩
    case inr => simp [Node.one, List.count_cons, Node.isRef] at ho
    rcases h6 with rfl | ⟨z, rfl, -⟩
    case inr => simp [Node.one, List.count_cons, Node.isRef] at ho
    have hy := hy hs
    have ht : (Node.rootItem m [] (.ref y) .nil .nil .nil .nil .nil).toks = y.toks ++ [lfTok] := by simp [Node.toks, Node.isRef]
    have hh : HeadIn .decl y.toks := hy.1 rfl
    rw [Good, ht]
    refine ⟨fun _ => (hh.append _).mono (by decide), fun r hf => ?_⟩
    have hf : (!(y.dangling || false) || headNot (fun t => t.sym = .lf || t.sym = .else_) r) = true := hf
    rw [Bool.or_false] at hf
    have hf := decl_line (x := y) (r := r) hf
    rw [List.append_assoc]
    refine OkKind.ofTakes (Takes.altR (hh.append _).soft (Takes.altL (takes_line hy hf.1 hf.2))) (hh.append _).posOf fun txt => ?_
    rw [hb]
    simp [build, bare_nil, bare_ref, ptrOf]
  rcases h2 with rfl | ⟨y, rfl, hs, -, hy⟩
  case inr =>
    rcases h3 with rfl | ⟨z, rfl, -⟩
    case inr => simp [Node.one, List.count_cons, Node.isRef] at ho
    rcases h4 with rfl | ⟨z, rfl, -⟩
    case inr => simp [Node.one, List.count_cons, Node.isRef] at ho
    rcases h5 with rfl | ⟨z, rfl, -⟩
    case inr => simp [Node.one, List.count_cons, Node.isRef] at ho
    rcases h6 with rfl | ⟨z, rfl, -⟩
    case inr => simp [Node.one, List.count_cons, Node.isRef] at ho
    have hy := hy hs
    have ht : (Node.rootItem m [] .nil (.ref y) .nil .nil .nil .nil).toks = y.toks ++ [lfTok] := by simp [Node.toks, Node.isRef]
    have hh : HeadIn .func y.toks := hy.1 rfl
    rw [Good, ht]
    refine ⟨fun _ => (hh.append _).mono (by decide), fun r hf => ?_⟩
    rw [List.append_assoc]
    have hdecl : Soft {} (.seq (.sub .decl .decl) lf?) (y.toks ++ lfTok :: r) := by
      cases y
      rw [Node.toks]
      exact (bare_of_head rfl).soft
    refine OkKind.ofTakes (Takes.altR (hh.append _).soft (Takes.altR hdecl (Takes.altL (takes_line hy (by cases y; rfl)
      (by cases y; simp [Node.dangling]))))) (hh.append _).posOf fun txt => ?_
    rw [hb]
    simp [build, bare_nil, bare_ref, ptrOf]
  rcases h3 with rfl | ⟨y, rfl, hs, -, hy⟩
  case inr =>
    rcases h4 with rfl | ⟨z, rfl, -⟩
    case inr => simp [Node.one, List.count_cons, Node.isRef] at ho
    rcases h5 with rfl | ⟨z, rfl, -⟩
    case inr => simp [Node.one, List.count_cons, Node.isRef] at ho
    rcases h6 with rfl | ⟨z, rfl, -⟩
    case inr => simp [Node.one, List.count_cons, Node.isRef] at ho
    have hy := hy hs
    have ht : (Node.rootItem m [] .nil .nil (.ref y) .nil .nil .nil).toks = y.toks ++ [lfTok] := by simp [Node.toks, Node.isRef]
    have hh : HeadIn .type y.toks := hy.1 rfl
    rw [Good, ht]
    refine ⟨fun _ => (hh.append _).mono (by decide), fun r hf => ?_⟩
    rw [List.append_assoc]
    have hdecl : Soft {} (.seq (.sub .decl .decl) lf?) (y.toks ++ lfTok :: r) := by
      cases y
      rw [Node.toks]
      exact (bare_of_head rfl).soft
    have hfunc : Soft {} (.seq (.sub .func .func) lf?) (y.toks ++ lfTok :: r) := by
      cases y
      rw [Node.toks]
      exact (bare_of_head rfl).soft
    refine OkKind.ofTakes (Takes.altR (hh.append _).soft (Takes.altR hdecl (Takes.altR hfunc (Takes.altL (takes_line hy (by cases y; rfl)
      (by cases y; simp [Node.dangling])))))) (hh.append _).posOf fun txt => ?_
    rw [hb]
    simp [build, bare_nil, bare_ref, ptrOf]
  rcases h4 with rfl | ⟨y, rfl, hs, -, hy⟩
  case inr =>
    rcases h5 with rfl | ⟨z, rfl, -⟩
    case inr => simp [Node.one, List.count_cons, Node.isRef] at ho
    rcases h6 with rfl | ⟨z, rfl, -⟩
    case inr => simp [Node.one, List.count_cons, Node.isRef] at ho
    have hy := hy hs
    have ht : (Node.rootItem m [] .nil .nil .nil (.ref y) .nil .nil).toks = y.toks ++ [lfTok] := by simp [Node.toks, Node.isRef]
    have hh : HeadIn .block y.toks := hy.1 rfl
    rw [Good, ht]
    refine ⟨fun _ => (hh.append _).mono (by decide), fun r hf => ?_⟩
    rw [List.append_assoc]
    obtain ⟨w, t, u, e, h⟩ := block_toks (x := y) (lfTok :: r)
    have hdecl : Soft {} (.seq (.sub .decl .decl) lf?) (y.toks ++ lfTok :: r) := by rw [e]; exact Soft.seqL (soft_decl h)
    have hfunc : Soft {} (.seq (.sub .func .func) lf?) (y.toks ++ lfTok :: r) := by rw [e]; exact Soft.seqL (soft_func h)
    have htype : Soft {} (.seq (.sub .type .type) lf?) (y.toks ++ lfTok :: r) := by rw [e]; exact Soft.seqL (soft_type h)
    refine OkKind.ofTakes (Takes.altR (hh.append _).soft (Takes.altR hdecl (Takes.altR hfunc (Takes.altR htype (Takes.altL
      (takes_line hy (by cases y; rfl) (by cases y; simp [Node.dangling]))))))) (hh.append _).posOf fun txt => ?_
    rw [hb]
    simp [build, bare_nil, bare_ref, ptrOf]
  rcases h5 with rfl | ⟨y, rfl, hs, -, hy⟩
  case inr =>
    rcases h6 with rfl | ⟨z, rfl, -⟩
    case inr => simp [Node.one, List.count_cons, Node.isRef] at ho
    have hy := hy hs
    have ht : (Node.rootItem m [] .nil .nil .nil .nil (.ref y) .nil).toks = y.toks ++ [lfTok] := by simp [Node.toks, Node.isRef]
    have hh : HeadIn .attr y.toks := hy.1 rfl
    rw [Good, ht]
    refine ⟨fun _ => (hh.append _).mono (by decide), fun r hf => ?_⟩
    have hf : (!(false || y.dangling) || headNot (fun t => t.sym = .lf || t.sym = .else_) r) = true := hf
    rw [Bool.false_or] at hf
    have hf := attr_line (x := y) (r := r) hf
    rw [List.append_assoc]
    obtain ⟨w, t, u, e, h⟩ := attr_toks (x := y) r
    have hid : t.sym ≠ .ident := by rcases h with rfl | rfl <;> decide
    have hdecl : Soft {} (.seq (.sub .decl .decl) lf?) (y.toks ++ lfTok :: r) := by rw [e]; exact Soft.seqL (soft_decl hid)
    have hfunc : Soft {} (.seq (.sub .func .func) lf?) (y.toks ++ lfTok :: r) := by rw [e]; exact Soft.seqL (soft_func hid)
    have htype : Soft {} (.seq (.sub .type .type) lf?) (y.toks ++ lfTok :: r) := by rw [e]; exact Soft.seqL (soft_type hid)
    have hblk : Soft {} (.seq (.sub .block .block) lf?) (y.toks ++ lfTok :: r) := by rw [e]; exact Soft.seqL (soft_block h)
    refine OkKind.ofTakes (Takes.altR (hh.append _).soft (Takes.altR hdecl (Takes.altR hfunc (Takes.altR htype (Takes.altR hblk
      (Takes.altL (takes_line hy hf.1 hf.2))))))) (hh.append _).posOf fun txt => ?_
    rw [hb]
    simp [build, bare_nil, bare_ref, ptrOf]
  rcases h6 with rfl | ⟨y, rfl, hs, -, hy⟩
  case inl => simp [Node.one, List.count_cons, Node.isRef] at ho
  have hy := hy hs
  have ht : (Node.rootItem m [] .nil .nil .nil .nil .nil (.ref y)).toks = y.toks := by simp [Node.toks, Node.isRef]
  have hh : HeadIn .comment y.toks := hy.1 rfl
  rw [Good, ht]
  refine ⟨fun _ => hh.mono (by decide), fun r hf => ?_⟩
  have hf : y.follow r = true := by simpa [Node.follow, Node.isRef] using hf
  refine OkKind.ofTakes (Takes.altR (hh.append r).soft (Takes.altR (hh.append r).softComment (Takes.altR (hh.append r).softComment
    (Takes.altR (hh.append r).softComment (Takes.altR (hh.append r).softComment (Takes.altR (hh.append r).softComment
    (Takes.sub (hy.ok hf)))))))) (hh.append _).posOf fun txt => ?_
  rw [hb]
  simp [build, bare_nil, bare_ref, ptrOf]

end Verif.Etx
