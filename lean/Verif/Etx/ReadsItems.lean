import Verif.Etx.ReadsLists

/-!
# Reading back attributes, blocks, declarations, functions and types
-/

set_option linter.unusedSimpArgs false

namespace Verif.Etx
open Gram

/-- What a pointer points to, as the list of what is captured. -/
def Node.refs {k : Kind} : Node (.ptr k) → List (Node k)
  | .nil => []
  | .ref x => [x.bare]

theorem Node.ptrOf_refs {k : Kind} (x : Node (.ptr k)) : ptrOf x.refs = x.bare := by
  cases x with
  | nil => exact bare_nil.symm
  | ref y => exact (bare_ref y).symm

theorem expr_unset {x : Node .expr} (h : x.set = false) : x.bare = zeroExpr := by
  cases x with | expr m a b c => ?_
  simp only [Node.set, Bool.or_eq_false_iff] at h
  obtain ⟨⟨h1, h2⟩, h3⟩ := h
  cases a with
  | ref a => cases h1
  | nil =>
    cases b with
    | ref a => cases h2
    | nil =>
      cases c with
      | ref a => cases h3
      | nil => rfl

theorem parameterType_unset {x : Node .parameterType} (h : x.set = false) : x.bare = zeroParameterType := by
  cases x with | parameterType m a b => ?_
  simp only [Node.set, Bool.or_eq_false_iff] at h
  cases a with
  | ref a => cases h.1
  | nil =>
    cases b with
    | ref a => cases h.2
    | nil => rfl

variable [FloatValue]

/-- Something and the line feed after it. -/
theorem takes_line {k : Kind} {f : Field} {x : Node k} (hx : Good x) {r : List Token} (hf : x.follow (lfTok :: r) = true)
    (hd : x.dangling = true → headNot (fun t => t.sym = .lf) r = true) :
    Takes (.seq (.sub f k) lf?) (x.toks ++ lfTok :: r) [.node f k x.bare] r := by
  have h := hx.2 _ hf
  rw [Node.rest] at h
  cases hx : x.dangling with
  | false =>
    rw [hx] at h
    exact Takes.eq (Takes.seq (Takes.sub h) Takes.lf) rfl
  | true =>
    rw [hx] at h
    have hd := hd hx
    rw [if_pos rfl, skipLF_lf rfl, skipLF_headNot hd] at h
    exact Takes.eq (Takes.seq (Takes.sub h) (Takes.noLf hd)) rfl

/-- One of several words. -/
theorem Ok.alLits {ws : List Str} {t : Token} {r : List Token} (h : t.txt ∈ ws) :
    Ok {} (al (ws.map Gram.lit)) (t :: r) ⟨[t.txt], []⟩ r := by
  induction ws with
  | nil => simp at h
  | cons w ws ih =>
    cases ws with
    | nil =>
      simp only [List.mem_singleton] at h
      rw [h]
      exact Ok.lit h
    | cons w' ws =>
      by_cases hw : t.txt = w
      · rw [hw]
        exact Ok.altL (Ok.lit hw)
      · exact Ok.altR (Soft.lit (by simpa using hw)).soft (ih ((List.mem_cons.mp h).resolve_left hw))

/-! ## Attributes and declarations -/

/-- `= value`, or nothing. -/
theorem takes_value {y : Node (.ptr .expr)} (hy : Reads _ y) {r : List Token} (hb : headNot badExpr r = true)
    (he : headNot (fun t => t.txt = c!"=") r = true) (hd : (!y.dangling || headNot (fun t => t.sym = .else_) (skipLF r)) = true) :
    Takes (.opt (.seq (.lit c!"=") (.sub .value .expr))) ((if y.isRef then tk .opAssign c!"=" :: y.toks else []) ++ r)
      (capNodes .value y.refs) (y.rest r) := by
  have hsoft : Soft {} (lit c!"=") r := (Soft.lit (by simpa [headNot_iff] using he)).soft
  rcases hy with rfl | ⟨z, rfl, hs, -, hz⟩
  · exact Takes.skip (Soft.seqL hsoft)
  · have hz := (hz hs).2 r (by rw [follow_expr, hb]; exact hd)
    exact Takes.eq (Takes.once (Takes.seq (Takes.lit (t := tk .opAssign c!"=") rfl) (Takes.sub hz))) rfl

theorem reads_attr {m : Meta} {w : Str} {y : Node (.ptr .expr)} (hy : Reads _ y) : Reads .attr (.attr m w y) := by
  intro _
  have hb : (Node.attr m w y).bare = .attr noPos w y.bare := rfl
  have ht : (Node.attr m w y).toks = tk .ident w :: if y.isRef then tk .opAssign c!"=" :: y.toks else [] := by rw [Node.toks]
  have hr : ∀ r, (Node.attr m w y).rest r = y.rest r := fun r => rfl
  rw [Good, ht]
  refine ⟨fun _ => ⟨_, _, rfl, rfl, rfl⟩, fun r hf => ?_⟩
  simp only [Node.follow, Bool.and_eq_true] at hf
  rw [hr]
  refine OkKind.ofTakes (Takes.seq (Takes.capTok rfl) (takes_value hy (headNot_mono hf.1 (by simp +contextual))
    (headNot_mono hf.1 (by simp +contextual)) hf.2)) rfl fun txt => ?_
  rw [hb]
  simp [build, tk, Node.ptrOf_refs]

/-- `: type = value`, both optional. -/
theorem takes_declTail {x : Node (.ptr .parameterType)} {y : Node (.ptr .expr)} (hx : Reads _ x) (hy : Reads _ y) {r : List Token}
    (hb : headNot (fun t => badExpr t || t.txt = c!"=" || t.txt = c!":") r = true)
    (hd : (!y.dangling || headNot (fun t => t.sym = .else_) (skipLF r)) = true) :
    Takes (.seq (.opt (.seq (.lit c!":") (.sub .type .parameterType))) (.opt (.seq (.lit c!"=") (.sub .value .expr))))
      ((if x.isRef then tk .opColon c!":" :: x.toks else []) ++ ((if y.isRef then tk .opAssign c!"=" :: y.toks else []) ++ r))
      (capNodes .type x.refs ++ capNodes .value y.refs) (y.rest r) := by
  have hv := takes_value hy (headNot_mono hb (by simp +contextual)) (headNot_mono hb (by simp +contextual)) hd
  have hn : headNot (fun t => t.txt = c!"." || t.txt = c!":") ((if y.isRef then tk .opAssign c!"=" :: y.toks else []) ++ r) = true := by
    split
    · rfl
    · exact headNot_mono hb (by
        intro t h
        simp only [Bool.or_eq_true, decide_eq_true_eq] at h ⊢
        rcases h with h | h
        · exact .inl (.inl (by simp [badExpr, badBin, badPost, h]))
        · exact .inr h)
  generalize (if y.isRef then tk .opAssign c!"=" :: y.toks else []) ++ r = s at hv hn
  refine Takes.seq ?_ hv
  have hsoft : Soft {} (lit c!":") s := (Soft.lit (by
    have := headNot_mono (q := fun t => t.txt = c!":") hn (by simp +contextual)
    simpa [headNot_iff] using this)).soft
  rcases hx with rfl | ⟨z, rfl, hs, -, hz⟩
  · exact Takes.skip (Soft.seqL hsoft)
  · have hz := (hz hs).param (r := s) (headNot_mono hn (by simp +contextual))
    exact Takes.eq (Takes.once (Takes.seq (Takes.lit (t := tk .opColon c!":") rfl) (Takes.sub hz))) rfl

theorem reads_decl {m : Meta} {w l : Str} {x : Node (.ptr .parameterType)} {y : Node (.ptr .expr)}
    (hc : (Node.decl m w l x y).canon = true) (hx : Reads _ x) (hy : Reads _ y) : Reads .decl (.decl m w l x y) := by
  intro _
  simp only [Node.canon, Node.everywhere, Node.shaped, Node.writable, Bool.and_eq_true, List.contains_iff_mem] at hc
  obtain ⟨⟨⟨-, hw⟩, -⟩, -⟩ := hc
  have hb : (Node.decl m w l x y).bare = .decl noPos w l x.bare y.bare := rfl
  have ht : (Node.decl m w l x y).toks = tk .ident w :: tk .ident l :: ((if x.isRef then tk .opColon c!":" :: x.toks else []) ++
      if y.isRef then tk .opAssign c!"=" :: y.toks else []) := by rw [Node.toks]
  have hr : ∀ r, (Node.decl m w l x y).rest r = y.rest r := fun r => rfl
  rw [Good, ht]
  refine ⟨fun _ => ⟨_, _, rfl, rfl, rfl⟩, fun r hf => ?_⟩
  simp only [Node.follow, Bool.and_eq_true] at hf
  rw [hr, List.cons_append, List.cons_append, List.append_assoc]
  have hcap : ∀ s, Takes (cap .declType (al [lit c!"input", lit c!"output", lit c!"const", lit c!"val"])) (tk .ident w :: s)
      [.toks .declType [w]] s := by
    intro s
    exact Takes.cap (Ok.alLits (ws := [c!"input", c!"output", c!"const", c!"val"]) (t := tk .ident w) hw)
  refine OkKind.ofTakes (Takes.seq (hcap _) (Takes.seq (Takes.capTok rfl) (takes_declTail hx hy hf.1 hf.2))) rfl fun txt => ?_
  rw [hb]
  simp [build, tk, Node.ptrOf_refs]

theorem reads_funcDecl {m : Meta} {w l : Str} {x : Node (.ptr .parameterType)} {y : Node (.ptr .expr)}
    (hc : (Node.funcDecl m w l x y).canon = true) (hx : Reads _ x) (hy : Reads _ y) : Reads .funcDecl (.funcDecl m w l x y) := by
  intro _
  simp only [Node.canon, Node.everywhere, Node.shaped, Node.writable, Bool.and_eq_true, List.contains_iff_mem] at hc
  obtain ⟨⟨⟨-, hw⟩, -⟩, -⟩ := hc
  have hb : (Node.funcDecl m w l x y).bare = .funcDecl noPos w l x.bare y.bare := rfl
  have ht : (Node.funcDecl m w l x y).toks = tk .ident w :: tk .ident l :: ((if x.isRef then tk .opColon c!":" :: x.toks else []) ++
      if y.isRef then tk .opAssign c!"=" :: y.toks else []) := by rw [Node.toks]
  have hr : ∀ r, (Node.funcDecl m w l x y).rest r = y.rest r := fun r => rfl
  rw [Good, ht]
  refine ⟨fun _ => ⟨_, _, rfl, rfl, rfl⟩, fun r hf => ?_⟩
  simp only [Node.follow, Bool.and_eq_true] at hf
  rw [hr, List.cons_append, List.cons_append, List.append_assoc]
  have hcap : ∀ s, Takes (cap .declType (al [lit c!"const", lit c!"val"])) (tk .ident w :: s)
      [.toks .declType [w]] s := by
    intro s
    exact Takes.cap (Ok.alLits (ws := [c!"const", c!"val"]) (t := tk .ident w) hw)
  refine OkKind.ofTakes (Takes.seq (hcap _) (Takes.seq (Takes.capTok rfl) (takes_declTail hx hy hf.1 hf.2))) rfl fun txt => ?_
  rw [hb]
  simp [build, tk, Node.ptrOf_refs]

/-! ## Blocks -/

theorem takes_labels (ls : List Str) (r : List Token) :
    Takes (.star (.alt (sq [tok .string, cap .labels (tok .char), tok .stringEnd]) (cap .labels (tok .ident))))
      ((ls.flatMap fun w => [tk .string c!"\"", tk .char w, tk .stringEnd c!"\""]) ++ tk .blockStart c!"{" :: r)
      (capStrs .labels ls) (tk .blockStart c!"{" :: r) := by
  induction ls with
  | nil => exact Takes.nil (bare_of_head rfl).soft
  | cons w ls ih =>
    have := Takes.cons (Takes.altL (b := cap .labels (tok .ident)) (Takes.seq (Takes.tok (y := .string) (t := tk .string c!"\"") rfl)
      (Takes.seq (Takes.capTok (f := .labels) (y := .char) (t := tk .char w) rfl)
      (Takes.tok (y := .stringEnd) (t := tk .stringEnd c!"\"") rfl)))) (by simp; omega) ih
    simpa [sq, capStrs, tk] using this

theorem reads_block {m : Meta} {w : Str} {ls : Strs} {x : Node (.slice .blockItem)} (hc : (Node.block m w ls x).canon = true)
    (hx : Reads _ x) : Reads .block (.block m w ls x) := by
  intro _
  simp only [Node.canon, Node.everywhere, Node.shaped, Node.writable, Bool.and_eq_true] at hc
  obtain ⟨⟨-, hls, hch⟩, -⟩ := hc
  have hb : (Node.block m w ls x).bare = .block noPos w (ls.map fun _ => 0) x.bare := rfl
  have ht : (Node.block m w ls x).toks =
      tk .ident w :: ((ls.list.flatMap fun w => [tk .string c!"\"", tk .char w, tk .stringEnd c!"\""]) ++
      tk .blockStart c!"{" :: ((if x.isNilSlice then [] else lfTok :: x.tokss.flatten) ++ [tk .blockEnd c!"}"])) := by
    rw [Node.toks, braces]
  rw [Good, ht]
  refine ⟨fun _ => ⟨_, _, rfl, rfl, rfl⟩, fun r hf => ?_⟩
  obtain ⟨l, hl, hk⟩ := takes_body (f := .body) rfl hx hch r (bare_of_head (by decide +kernel)).soft
  have hbody : Takes (.seq lf? (.star (.sub .body .blockItem)))
      ((if x.isNilSlice then [] else lfTok :: x.tokss.flatten) ++ tk .blockEnd c!"}" :: r) (capNodes .body l)
      (tk .blockEnd c!"}" :: r) := by
    rcases hx with rfl | ⟨a, l, rfl, -, -⟩
    · exact Takes.seq (s := tk .blockEnd c!"}" :: r) (Takes.noLf rfl) hk
    · exact Takes.seq Takes.lf hk
  rw [List.cons_append, List.append_assoc, List.cons_append, List.append_assoc, rest_kind]
  have := Takes.seq (Takes.capTok (f := .name) (y := .ident) (t := tk .ident w) rfl) (Takes.seq (takes_labels ls.list _)
    (Takes.seq (Takes.lit (w := c!"{") rfl) (Takes.assoc (Takes.seq hbody (Takes.lit (w := c!"}") rfl)))))
  refine OkKind.ofTakes this rfl fun txt => ?_
  rw [hb, hl, bare_strs hls]
  simp [build, tk]

/-! ## The other alternatives of an item -/

theorem soft_decl {f : Field} {w : Str} {t : Token} {r : List Token} (ht : t.sym ≠ .ident) :
    Soft {} (.sub f .decl) (tk .ident w :: t :: r) := by
  refine Soft.sub ?_
  have hlab : Bare {} (.cap .label (.tok .ident)) (t :: r) := bare_of_head (by simpa [firstG, Test.ok] using ht)
  have hseq : ∀ g, solid g = true → Bare {} (.seq (.cap .label (.tok .ident)) g) (t :: r) := fun g hg =>
    bare_of_head (by simpa [firstG, Test.ok, null] using ht) (by simpa [solid] using hg) rfl
  by_cases hw : w ∈ [c!"input", c!"output", c!"const", c!"val"]
  · have ho := Ok.cap (f := .declType) (Ok.alLits (ws := [c!"input", c!"output", c!"const", c!"val"]) (t := tk .ident w) (r := t :: r) hw)
    exact Soft.seqR ho (hseq _ rfl) (by simp [lookahead])
  · exact Soft.seqL (bare_of_head (any_excluded (ys := [.ident]) (ws := [c!"input", c!"output", c!"const", c!"val"]) (by decide)
      (by simp [tk]) hw)).soft

theorem soft_func {f : Field} {w : Str} {t : Token} {r : List Token} (ht : t.sym ≠ .ident) :
    Soft {} (.sub f .func) (tk .ident w :: t :: r) := by
  refine Soft.sub ?_
  have hseq : ∀ g, solid g = true → Bare {} (.seq (.cap .label (.tok .ident)) g) (t :: r) := fun g hg =>
    bare_of_head (by simpa [firstG, Test.ok, null] using ht) (by simpa [solid] using hg) rfl
  by_cases hw : w = c!"def"
  · exact Soft.seqR (Ok.lit hw) (hseq _ rfl) (by simp [lookahead])
  · exact Soft.seqL (Soft.lit (by simpa [tk] using hw)).soft

theorem soft_type {f : Field} {w : Str} {t : Token} {r : List Token} (ht : t.sym ≠ .ident) :
    Soft {} (.sub f .type) (tk .ident w :: t :: r) := by
  refine Soft.sub ?_
  have hseq : ∀ g, solid g = true → Bare {} (.seq (.cap .label (.tok .ident)) g) (t :: r) := fun g hg =>
    bare_of_head (by simpa [firstG, Test.ok, null] using ht) (by simpa [solid] using hg) rfl
  by_cases hw : w = c!"type"
  · exact Soft.seqR (Ok.lit hw) (hseq _ rfl) (by simp [lookahead])
  · exact Soft.seqL (Soft.lit (by simpa [tk] using hw)).soft

theorem soft_block {f : Field} {w : Str} {t : Token} {r : List Token} (h : t = lfTok ∨ t = tk .opAssign c!"=") :
    Soft {} (.sub f .block) (tk .ident w :: t :: r) := by
  refine Soft.sub (Soft.seqR (Ok.cap (Ok.tok rfl)) ?_ (by simp [lookahead]))
  rcases h with rfl | rfl <;> exact bare_of_head rfl

omit [FloatValue] in
theorem attr_toks {x : Node .attr} (r : List Token) :
    ∃ w t u, x.toks ++ lfTok :: r = tk .ident w :: t :: u ∧ (t = lfTok ∨ t = tk .opAssign c!"=") := by
  cases x with | attr m w y => ?_
  rw [Node.toks]
  split
  · exact ⟨_, _, _, rfl, .inr rfl⟩
  · exact ⟨_, _, _, rfl, .inl rfl⟩

omit [FloatValue] in
theorem block_toks {x : Node .block} (r : List Token) :
    ∃ w t u, x.toks ++ r = tk .ident w :: t :: u ∧ t.sym ≠ .ident := by
  cases x with | block m w ls y => ?_
  rw [Node.toks, braces]
  cases ls.list with
  | nil => exact ⟨_, _, _, rfl, by decide⟩
  | cons l ls => exact ⟨_, _, _, rfl, by decide⟩

omit [FloatValue] in
theorem attr_line {x : Node .attr} {r : List Token} (h : (!x.dangling || headNot (fun t => t.sym = .lf || t.sym = .else_) r) = true) :
    x.follow (lfTok :: r) = true ∧ (x.dangling = true → headNot (fun t => t.sym = .lf) r = true) := by
  cases x with | attr m w y => ?_
  have hd : (Node.attr m w y).dangling = y.dangling := rfl
  rw [hd] at h ⊢
  have h1 : y.dangling = true → headNot (fun t => t.sym = .lf) r = true := fun hy => by
    rw [hy] at h
    exact headNot_mono h (by simp +contextual)
  refine ⟨?_, h1⟩
  simp only [Node.follow, Bool.and_eq_true]
  refine ⟨rfl, ?_⟩
  cases hy : y.dangling with
  | false => rfl
  | true =>
    rw [skipLF_lf rfl, skipLF_headNot (h1 hy)]
    rw [hy] at h
    exact headNot_mono h (by simp +contextual)

theorem reads_blockItem {m : Meta} {e : Str} {x1 : Node (.ptr .block)} {x2 : Node (.ptr .attr)} {x3 : Node (.ptr .comment)}
    (hc : (Node.blockItem m e x1 x2 x3).canon = true) (h1 : Reads _ x1) (h2 : Reads _ x2) (h3 : Reads _ x3) :
    Reads .blockItem (.blockItem m e x1 x2 x3) := by
  intro _
  simp only [Node.canon, Node.everywhere, Node.shaped, Node.writable, Bool.and_eq_true] at hc
  obtain ⟨⟨⟨⟨ho, -⟩, -⟩, -⟩, -⟩ := hc
  have hb : (Node.blockItem m e x1 x2 x3).bare = .blockItem noPos e x1.bare x2.bare x3.bare := rfl
  by_cases he : e = []
  case neg =>
    rcases h1 with rfl | ⟨z, rfl, -⟩
    case inr => simp [Node.one, List.count_cons, he, Node.isRef] at ho
    rcases h2 with rfl | ⟨z, rfl, -⟩
    case inr => simp [Node.one, List.count_cons, he, Node.isRef] at ho
    rcases h3 with rfl | ⟨z, rfl, -⟩
    case inr => simp [Node.one, List.count_cons, he, Node.isRef] at ho
    have ht : (Node.blockItem m e .nil .nil .nil).toks = blankToks e := by simp [Node.toks, he]
    obtain ⟨u, hu⟩ := headIn_blank he
    rw [Good, ht]
    refine ⟨fun _ => ⟨_, _, hu, rfl, rfl⟩, fun r hf => ?_⟩
    simp only [Node.follow, ne_eq, he, not_false_eq_true, if_true] at hf
    refine OkKind.ofTakes (Takes.altL (Takes.blanks he hf)) (by rw [hu]; rfl) fun txt => ?_
    rw [hb]
    simp [build, bare_nil, ptrOf]
  subst he
  rcases h1 with rfl | ⟨y, rfl, hs, -, hy⟩
  case inr =>
    rcases h2 with rfl | ⟨z, rfl, -⟩
    case inr => simp [Node.one, List.count_cons, Node.isRef] at ho
    rcases h3 with rfl | ⟨c, rfl, -⟩
    case inr => simp [Node.one, List.count_cons, Node.isRef] at ho
    have hy := hy hs
    have ht : (Node.blockItem m [] (.ref y) .nil .nil).toks = y.toks ++ [lfTok] := by simp [Node.toks, Node.isRef]
    have hh : HeadIn .block y.toks := hy.1 rfl
    rw [Good, ht]
    refine ⟨fun _ => (hh.append _).mono (by decide), fun r hf => ?_⟩
    rw [List.append_assoc]
    refine OkKind.ofTakes (Takes.altR (hh.append _).soft (Takes.altL (takes_line hy (by cases y; rfl) (by cases y; simp [Node.dangling]))))
      (hh.append _).posOf fun txt => ?_
    rw [hb]
    simp [build, bare_nil, bare_ref, ptrOf]
  rcases h2 with rfl | ⟨y, rfl, hs, -, hy⟩
  case inr =>
    rcases h3 with rfl | ⟨c, rfl, -⟩
    case inr => simp [Node.one, List.count_cons, Node.isRef] at ho
    have hy := hy hs
    have ht : (Node.blockItem m [] .nil (.ref y) .nil).toks = y.toks ++ [lfTok] := by simp [Node.toks, Node.isRef]
    have hh : HeadIn .attr y.toks := hy.1 rfl
    rw [Good, ht]
    refine ⟨fun _ => (hh.append _).mono (by decide), fun r hf => ?_⟩
    have hf := attr_line (x := y) (r := r) hf
    rw [List.append_assoc]
    have hblk : Soft {} (.seq (.sub .block .block) lf?) (y.toks ++ lfTok :: r) := by
      obtain ⟨w, t, u, e, h⟩ := attr_toks (x := y) r
      rw [e]
      exact Soft.seqL (soft_block h)
    refine OkKind.ofTakes (Takes.altR (hh.append _).soft (Takes.altR hblk (Takes.altL (takes_line hy hf.1 hf.2))))
      (hh.append _).posOf fun txt => ?_
    rw [hb]
    simp [build, bare_nil, bare_ref, ptrOf]
  rcases h3 with rfl | ⟨y, rfl, hs, -, hy⟩
  case inl => simp [Node.one, List.count_cons, Node.isRef] at ho
  have hy := hy hs
  have ht : (Node.blockItem m [] .nil .nil (.ref y)).toks = y.toks := by simp [Node.toks, Node.isRef]
  have hh : HeadIn .comment y.toks := hy.1 rfl
  rw [Good, ht]
  refine ⟨fun _ => hh.mono (by decide), fun r hf => ?_⟩
  have hf : y.follow r = true := by simpa [Node.follow, Node.isRef] using hf
  refine OkKind.ofTakes (Takes.altR (hh.append r).soft (Takes.altR (hh.append r).softComment (Takes.altR (hh.append r).softComment
    (Takes.sub (hy.ok hf))))) (hh.append _).posOf fun txt => ?_
  rw [hb]
  simp [build, bare_nil, bare_ref, ptrOf]

end Verif.Etx
