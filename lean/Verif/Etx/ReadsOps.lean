import Verif.Etx.ReadsExpr

/-!
# Reading back operators, conditionals, `if` and `switch`
-/

namespace Verif.Etx
open Gram

variable [FloatValue]

theorem Node.isRef_ref {k : Kind} (x : Node k) : (Node.ref x).isRef = true := rfl

theorem reads_postfix {m : Meta} {x1 : Node .primary} {x2 : Node (.ptr .expr)} {x3 : Node (.ptr .postfixE)}
    (hc : (Node.postfixE m x1 x2 x3).canon = true) (h1 : Reads _ x1) (h2 : Reads _ x2) (h3 : Reads _ x3) :
    Reads .postfixE (.postfixE m x1 x2 x3) := by
  intro _
  simp only [Node.canon, Node.everywhere, Node.shaped, Node.writable, Bool.and_eq_true, Bool.true_and] at hc
  obtain ⟨⟨⟨⟨hid, hpost⟩, -⟩, -⟩, -⟩ := hc
  have h1 := h1 (by cases x1; rfl)
  have hb : (Node.postfixE m x1 x2 x3).bare = .postfixE noPos x1.bare x2.bare x3.bare := rfl
  have ht : (Node.postfixE m x1 x2 x3).toks = x1.toks ++ ((if x2.isRef then tk .opLBracket c!"[" :: (x2.toks ++ [tk .opRBracket c!"]"]) else []) ++
      if x3.isRef then tk .dot c!"." :: x3.toks else []) := by simp [Node.toks]
  have hh : HeadIn .primary x1.toks := h1.1 rfl
  rw [Good, ht]
  refine ⟨fun _ => (hh.append _).mono (by decide), fun r hf => ?_⟩
  rw [rest_kind]
  replace hf : headNot badPost r = true := hf
  obtain ⟨l3, hl3, ht3⟩ := takes_optPost h3 hf
  have key : ∃ l2, x2.bare = ptrOf l2 ∧ Takes (.opt (sq [lit c!"[", sub .index .expr, lit c!"]"]))
      ((if x2.isRef then tk .opLBracket c!"[" :: (x2.toks ++ [tk .opRBracket c!"]"]) else []) ++
        ((if x3.isRef then tk .dot c!"." :: x3.toks else []) ++ r)) (capNodes .index l2)
      ((if x3.isRef then tk .dot c!"." :: x3.toks else []) ++ r) := by
    rcases h2 with rfl | ⟨y, rfl, hs, -, hy⟩
    · refine ⟨[], bare_nil, ?_⟩
      refine Takes.skip (Soft.seqL (Soft.lit ?_).soft)
      show ∀ t ∈ ((if x3.isRef then tk .dot c!"." :: x3.toks else []) ++ r).head?, t.txt ≠ c!"["
      split
      · rintro _ ⟨⟩; decide
      · have := headNot_mono (q := fun t => t.txt = c!"[") hf (by simp +contextual [badPost])
        simpa [headNot_iff] using this
    · refine ⟨[y.bare], bare_ref y, Takes.once ?_⟩
      have := Takes.seq (Takes.lit (w := c!"[") (t := tk .opLBracket c!"[") rfl) (Takes.seq (Takes.sub (f := .index)
        ((hy hs).expr (t := tk .opRBracket c!"]") (u := (if x3.isRef then tk .dot c!"." :: x3.toks else []) ++ r)))
        (Takes.lit (w := c!"]") rfl))
      simpa [Node.isRef_ref, Node.toks, sq, capNodes] using this
  obtain ⟨l2, hl2, ht2⟩ := key
  have hv : OkKind {} (x1.toks ++ ((if x2.isRef then tk .opLBracket c!"[" :: (x2.toks ++ [tk .opRBracket c!"]"]) else []) ++
      ((if x3.isRef then tk .dot c!"." :: x3.toks else []) ++ r))) x1.bare _ := h1.ok (by
    cases x1 with | primary m' y1 y2 y3 y4 y5 => ?_
    clear h1 hh ht hb
    simp only [Node.hasIdent, Node.hasPost] at hid hpost
    simp only [Node.follow]
    split
    · rename_i h
      simp only [h, Bool.not_true, Bool.false_or, Bool.and_eq_true, Bool.not_eq_true'] at hpost
      simpa [hpost] using hf
    · cases h3' : y3.isRef with
      | false => rfl
      | true =>
        simp only [Bool.not_true, Bool.false_or]
        cases h2' : x2.isRef with
        | true => rfl
        | false =>
          simp only [h3', h2', Bool.true_and, Bool.or_false, Bool.not_eq_true'] at hid
          simp only [hid, Bool.false_eq_true, if_false, List.nil_append]
          exact headNot_mono hf (by simp +contextual [badPost]))
  have := OkKind.ofTakes (k := .postfixE) (Takes.seq (Takes.sub hv) (ht2.seq ht3)) (hh.append _).posOf (x := (Node.postfixE m x1 x2 x3).bare) (by
    intro txt
    rw [hb, hl2, hl3]
    simp [build])
  simpa using this

theorem Ok.alToks {ys : List Sym} {t : Token} {r : List Token} (h : t.sym ∈ ys) :
    Ok {} (al (ys.map Gram.tok)) (t :: r) ⟨[t.txt], []⟩ r := by
  induction ys with
  | nil => simp at h
  | cons y ys ih =>
    cases ys with
    | nil =>
      simp only [List.mem_singleton] at h
      exact Ok.tok h
    | cons z ys =>
      by_cases hy : t.sym = y
      · exact Ok.altL (Ok.tok hy)
      · exact Ok.altR (Soft.tok (by simpa using hy)).soft (ih (by simpa [hy] using h))

theorem Bare.alToks {ys : List Sym} (hne : ys ≠ []) {r : List Token} (h : ∀ t ∈ r.head?, t.sym ∉ ys) :
    Soft {} (al (ys.map Gram.tok)) r := by
  induction ys with
  | nil => exact absurd rfl hne
  | cons y ys ih =>
    have hy : Soft {} (.tok y) r := (Soft.tok fun t ht e => h t ht (by simp [e])).soft
    cases ys with
    | nil => exact hy
    | cons z ys => exact Soft.alt hy (ih (by simp) fun t ht hm => h t ht (List.mem_cons_of_mem _ hm))

theorem prefix_sym : ∀ w ∈ prefixOps, symOf w ∈ unaryOp := by decide

theorem reads_unary {m : Meta} {op : Str} {x : Node .postfixE} (hc : (Node.unary m op x).canon = true)
    (hx : Reads _ x) : Reads .unary (.unary m op x) := by
  intro _
  simp only [Node.canon, Node.everywhere, Node.shaped, Node.writable, Bool.and_eq_true, Bool.true_and, Bool.or_eq_true,
    decide_eq_true_eq, List.contains_iff_mem] at hc
  have hx := hx (by cases x; rfl)
  have hh : HeadIn .postfixE x.toks := hx.1 rfl
  have hb : (Node.unary m op x).bare = .unary noPos op x.bare := rfl
  by_cases ho : op = []
  · have ht : (Node.unary m op x).toks = x.toks := by simp [Node.toks, ho]
    rw [Good, ht]
    refine ⟨fun _ => hh.mono (by decide), fun r hf => ?_⟩
    rw [rest_kind]
    have := hx.ok (r := r) (by cases x; exact hf)
    refine OkKind.ofTakes (Takes.seq (Takes.skip (hh.append r).soft) (Takes.sub this)) (hh.append r).posOf fun txt => ?_
    rw [hb]
    simp [build, ho]
  · have ho' := prefix_sym op (hc.1.resolve_left ho)
    have ht : (Node.unary m op x).toks = tk (symOf op) op :: x.toks := by simp [Node.toks, ho]
    rw [Good, ht]
    refine ⟨fun _ => ⟨_, _, rfl, rfl, ?_⟩, fun r hf => ?_⟩
    · simp only [startOk, Bool.and_eq_true, List.contains_iff_mem]
      refine ⟨?_, rfl⟩
      revert ho'
      show symOf op ∈ unaryOp → symOf op ∈ starts .unary
      generalize symOf op = y
      revert y
      decide
    · rw [rest_kind]
      have := hx.ok (r := r) (by cases x; exact hf)
      refine OkKind.ofTakes (Takes.seq (Takes.once (Takes.cap (Ok.alToks (t := tk (symOf op) op) ho'))) (Takes.sub this)) rfl
        fun txt => ?_
      rw [hb]
      simp [build, tk]

theorem level_sym (l : Level) : ∀ w ∈ levelOps l, symOf w ∈ binOp l := by cases l <;> decide

/-- The operators of a level do not continue its left operand. -/
theorem level_left {l l' : Level} (h : l.operand = .bin l') : ∀ w ∈ levelOps l, badBin l' (tk (symOf w) w) = false := by
  cases l <;> cases h <;> decide

theorem level_unary : ∀ l, ∀ w ∈ levelOps l, badPost (tk (symOf w) w) = false := by intro l; cases l <;> decide

theorem badBin_operand {l l' : Level} (h : l.operand = .bin l') {t : Token} (ht : badBin l' t = true) : badBin l t = true := by
  simp only [badBin, Bool.or_eq_true, List.contains_iff_mem] at ht ⊢
  refine ht.imp_right fun hm => ?_
  have : ∀ y ∈ (tighter l').flatMap binOp, y ∈ (tighter l).flatMap binOp := by cases l <;> cases h <;> decide
  exact this _ hm

theorem reads_operand {l : Level} {x : Node l.operand} (hx : Reads _ x) : Good x := by
  cases l <;> exact hx (by simp only [Level.operand] at x; cases x; rfl)

theorem starts_operand (l : Level) : starts l.operand = unarySyms := by cases l <;> rfl
theorem null_operand (l : Level) : nullKind l.operand = false := by cases l <;> rfl
theorem dangles_operand (l : Level) : l.operand.dangles = false := by cases l <;> rfl
theorem value_operand (l : Level) : (l.operand == Kind.value) = false := by cases l <;> rfl

theorem follow_operand {l : Level} {x : Node l.operand} {r : List Token} (h : headNot (badBin l) r = true) :
    x.follow r = true := by
  cases l <;> simp only [Level.operand] at x <;> cases x <;>
    first
    | exact headNot_mono h (fun t ht => badBin_operand rfl ht)
    | exact headNot_mono h (fun t ht => by simp [badBin, ht])

theorem follow_operand_op {l : Level} {x : Node l.operand} {r : List Token} {w : Str} (h : w ∈ levelOps l) :
    x.follow (tk (symOf w) w :: r) = true := by
  have : ∀ l' : Level, l.operand = .bin l' → headNot (badBin l') (tk (symOf w) w :: r) = true :=
    fun l' hl' => by simp [headNot, level_left hl' w h]
  have hu : headNot badPost (tk (symOf w) w :: r) = true := by simp [headNot, level_unary l w h]
  cases l <;> simp only [Level.operand] at x <;> cases x <;> first | exact this _ rfl | exact hu

theorem reads_bin {l : Level} {m : Meta} {x : Node l.operand} {op : Str} {y : Node (.ptr (.bin l))}
    (hc : (Node.bin l m x op y).canon = true) (hx : Reads _ x) (hy : Reads _ y) : Reads (.bin l) (.bin l m x op y) := by
  intro _
  simp only [Node.canon, Node.everywhere, Node.shaped, Node.writable, Bool.and_eq_true, Bool.or_eq_true,
    decide_eq_true_eq, List.contains_iff_mem, beq_iff_eq] at hc
  obtain ⟨⟨⟨ho, hop⟩, -⟩, -⟩ := hc
  have hx := reads_operand hx
  have hh : HeadIn l.operand x.toks := hx.1 (null_operand l)
  have hb : (Node.bin l m x op y).bare = .bin l noPos x.bare op y.bare := rfl
  have hmono : ∀ s, HeadIn l.operand s → HeadIn (.bin l) s := fun s h => h.mono (by rw [starts_operand]; exact fun _ h => h)
  rcases hy with rfl | ⟨z, rfl, hs, -, hz⟩
  · have ho : op = [] := by simpa [Node.isRef] using ho
    have ht : (Node.bin l m x op .nil).toks = x.toks := by simp [Node.toks, Node.isRef]
    rw [Good, ht]
    refine ⟨fun _ => hmono _ hh, fun r hf => ?_⟩
    rw [rest_kind]
    have hf : headNot (badBin l) r = true := hf
    have hxr := hx.ok (r := r) (follow_operand hf) (dangles_operand l)
    refine OkKind.ofTakes (Takes.seq (Takes.sub hxr) (Takes.skip (Soft.seqL (Soft.cap (Bare.alToks (by cases l <;> simp [binOp]) ?_)))))
      (hh.append r).posOf fun txt => ?_
    · rw [headNot_iff] at hf
      intro t ht hm
      have := hf t ht
      rw [badBin, Bool.or_eq_false_iff, ← Bool.not_eq_true (List.contains _ _), List.contains_iff_mem] at this
      refine this.2 ?_
      revert hm
      generalize t.sym = s
      revert s
      cases l <;> decide
    · rw [hb]
      simp [build, ho, bare_nil, ptrOf]
  · have ho : op ≠ [] := by simpa [Node.isRef] using ho
    have hop := hop.resolve_left ho
    have ht : (Node.bin l m x op (.ref z)).toks = x.toks ++ tk (symOf op) op :: z.toks := by simp [Node.toks, Node.isRef]
    rw [Good, ht]
    refine ⟨fun _ => hmono _ (hh.append _), fun r hf => ?_⟩
    rw [rest_kind]
    have hf : headNot (badBin l) r = true := hf
    have hxr := hx.ok (r := tk (symOf op) op :: (z.toks ++ r)) (follow_operand_op hop) (dangles_operand l)
    have hzr := (hz hs).ok (r := r) (by cases z; exact hf)
    have := OkKind.ofTakes (k := .bin l) (x := (Node.bin l m x op (.ref z)).bare) (Takes.seq (Takes.sub hxr) (Takes.once (Takes.seq (Takes.cap (Ok.alToks (t := tk (symOf op) op)
      (level_sym l op hop))) (Takes.sub hzr)))) (hh.append _).posOf fun txt => by
        rw [hb]
        simp [build, bare_ref, ptrOf, tk]
    simpa using this

theorem reads_conditional {m : Meta} {x : Node (.bin .logicalOr)} {c : Bool} {y z : Node (.ptr .expr)}
    (hc : (Node.conditional m x c y z).canon = true) (hx : Reads _ x) (hy : Reads _ y) (hz : Reads _ z) :
    Reads .conditional (.conditional m x c y z) := by
  intro _
  simp only [Node.canon, Node.everywhere, Node.shaped, Node.writable, Bool.and_eq_true, beq_iff_eq] at hc
  obtain ⟨⟨⟨⟨⟨h1, h2⟩, -⟩, -⟩, -⟩, -⟩ := hc
  have hx := hx (by cases x; rfl)
  have hh : HeadIn (.bin .logicalOr) x.toks := hx.1 rfl
  have hb : (Node.conditional m x c y z).bare = .conditional noPos x.bare c y.bare z.bare := rfl
  cases c with
  | false =>
    rcases hy with rfl | ⟨y, rfl, -⟩
    · rcases hz with rfl | ⟨z, rfl, -⟩
      · have ht : (Node.conditional m x false .nil .nil).toks = x.toks := by simp [Node.toks]
        rw [Good, ht]
        refine ⟨fun _ => hh.mono (by decide), fun r hf => ?_⟩
        simp only [Node.follow, Bool.and_eq_true] at hf
        have hxr := hx.ok (r := r) (by cases x; exact headNot_mono hf.1 (by simp +contextual [badExpr]))
        have hq := headNot_mono (q := fun t => t.txt = c!"?") hf.1 (by simp +contextual [badExpr])
        refine OkKind.ofTakes (Takes.seq (Takes.sub hxr) (Takes.skip (Soft.seqL (Soft.cap (Soft.lit (by
          simpa [headNot_iff] using hq)).soft)))) (hh.append r).posOf fun txt => ?_
        rw [hb]
        simp [build, bare_nil, ptrOf]
      · cases h2
    · cases h1
  | true =>
    rcases hy with rfl | ⟨y, rfl, hys, -, hy⟩
    · cases h1
    · rcases hz with rfl | ⟨z, rfl, hzs, -, hz⟩
      · cases h2
      · have hy := hy hys
        have hz := hz hzs
        have ht : (Node.conditional m x true (.ref y) (.ref z)).toks =
            x.toks ++ tk .opCondition c!"?" :: (y.toks ++ tk .opColon c!":" :: z.toks) := by simp [Node.toks]
        rw [Good, ht]
        refine ⟨fun _ => (hh.append _).mono (by decide), fun r hf => ?_⟩
        have hzr := hz.2 r (by rw [follow_expr]; exact hf)
        have hyr := hy.expr (t := tk .opColon c!":") (u := z.toks ++ r)
        have hxr := hx.bin (t := tk .opCondition c!"?") (u := y.toks ++ tk .opColon c!":" :: (z.toks ++ r))
        have := OkKind.ofTakes (k := .conditional) (x := (Node.conditional m x true (.ref y) (.ref z)).bare)
          (Takes.seq (Takes.sub hxr) (Takes.once (Takes.seq (Takes.capLit rfl) (Takes.seq (Takes.sub hyr)
            (Takes.seq (Takes.lit rfl) (Takes.sub hzr)))))) (hh.append _).posOf fun txt => by
              rw [hb]
              simp [build, bare_ref, ptrOf]
        refine OkKind.cast this (by simp) rfl rfl

theorem HeadIn.skipLF {k : Kind} {s : List Token} (h : HeadIn k s) (r : List Token) (hk : (starts k).contains .lf = false := by rfl) :
    skipLF (s ++ r) = s ++ r := by
  obtain ⟨t, u, rfl, hp, ho⟩ := h
  refine skipLF_cons fun e => ?_
  simp only [startOk, Bool.and_eq_true, e, hk] at ho
  cases ho.1

theorem reads_expr {m : Meta} {x1 : Node (.ptr .conditional)} {x2 : Node (.ptr .exprIf)} {x3 : Node (.ptr .exprSwitch)}
    (hc : (Node.expr m x1 x2 x3).canon = true) (h1 : Reads _ x1) (h2 : Reads _ x2) (h3 : Reads _ x3) :
    Reads .expr (.expr m x1 x2 x3) := by
  intro hset
  simp only [Node.canon, Node.everywhere, Node.shaped, Node.writable, Bool.and_eq_true, decide_eq_true_eq] at hc
  obtain ⟨⟨⟨⟨ho, -⟩, -⟩, -⟩, -⟩ := hc
  have hb : (Node.expr m x1 x2 x3).bare = .expr noPos x1.bare x2.bare x3.bare := rfl
  rcases h1 with rfl | ⟨y, rfl, hs, -, hy⟩
  · rcases h2 with rfl | ⟨y, rfl, hs, -, hy⟩
    · rcases h3 with rfl | ⟨y, rfl, hs, -, hy⟩
      · simp [Node.set, Node.isRef] at hset
      · have hy := hy hs
        have ht : (Node.expr m .nil .nil (.ref y)).toks = y.toks := by simp [Node.toks, Node.isRef]
        have hh : HeadIn .exprSwitch y.toks := hy.1 rfl
        rw [Good, ht]
        refine ⟨fun _ => hh.mono (by decide), fun r hf => ?_⟩
        have := hy.ok (r := r) (by cases y; rfl)
        refine OkKind.ofTakes (Takes.altR ?_ (Takes.altR (hh.append r).soft (Takes.sub this))) (hh.append r).posOf fun txt => ?_
        · obtain ⟨t, u, e, hpos, hst⟩ := hh
          cases y with | exprSwitch m' z1 z2 => ?_
          simp only [Node.toks, List.cons_append]
          exact (bare_of_head (by decide +kernel)).soft
        · rw [hb]
          simp [build, bare_nil, bare_ref, ptrOf]
    · rcases h3 with rfl | ⟨z, rfl, -⟩
      · have hy := hy hs
        have ht : (Node.expr m .nil (.ref y) .nil).toks = y.toks := by simp [Node.toks, Node.isRef]
        have hh : HeadIn .exprIf y.toks := hy.1 rfl
        rw [Good, ht]
        refine ⟨fun _ => hh.mono (by decide), fun r hf => ?_⟩
        rw [follow_expr, Bool.and_eq_true] at hf
        have := hy.2 r (by
          cases y with | exprIf m' z1 z2 z3 => ?_
          simpa [Node.dangling, Node.follow] using hf.2)
        refine OkKind.ofTakes (Takes.altR ?_ (Takes.altL (Takes.sub this))) (hh.append r).posOf fun txt => ?_
        · cases y with | exprIf m' z1 z2 z3 => ?_
          simp only [Node.toks, List.cons_append]
          exact (bare_of_head (by decide +kernel)).soft
        · rw [hb]
          simp [build, bare_nil, bare_ref, ptrOf]
      · simp [Node.isRef] at ho
  · rcases h2 with rfl | ⟨z, rfl, -⟩
    · rcases h3 with rfl | ⟨z, rfl, -⟩
      · have hy := hy hs
        have ht : (Node.expr m (.ref y) .nil .nil).toks = y.toks := by simp [Node.toks, Node.isRef]
        have hh : HeadIn .conditional y.toks := hy.1 rfl
        rw [Good, ht]
        refine ⟨fun _ => hh.mono (by decide), fun r hf => ?_⟩
        rw [follow_expr] at hf
        have hd : (Node.expr m (.ref y) .nil .nil).dangling = y.dangling := by simp [Node.dangling]
        have := hy.2 r (by
          rw [hd] at hf
          cases y
          exact hf)
        refine OkKind.cast (OkKind.ofTakes (Takes.altL (Takes.sub this)) (hh.append r).posOf fun txt => ?_) rfl rfl ?_
        · rw [hb]
          simp [build, bare_nil, bare_ref, ptrOf]
        · rw [Node.rest, Node.rest, hd]
      · simp [Node.isRef] at ho
    · simp [Node.isRef] at ho

theorem reads_if {m : Meta} {x : Node (.bin .logicalOr)} {y z : Node (.ptr .expr)} (hx : Reads _ x) (hy : Reads _ y)
    (hz : Reads _ z) : Reads .exprIf (.exprIf m x y z) := by
  intro _
  have hx := hx (by cases x; rfl)
  have hb : (Node.exprIf m x y z).bare = .exprIf noPos x.bare y.bare z.bare := rfl
  refine ⟨fun _ => by rw [Node.toks]; exact ⟨_, _, rfl, rfl, rfl⟩, fun r hf => ?_⟩
  have hE : ∃ l, z.bare = ptrOf l ∧ Takes (.seq lfs (.opt (sq [tok .else_, lit c!"{", lfs, sub .right .expr, lfs, lit c!"}"])))
      ((if z.isRef then tk .else_ c!"else" :: tk .blockStart c!"{" :: lfTok :: (z.toks ++ [lfTok, tk .blockEnd c!"}"]) else []) ++ r)
      (capNodes .right l) ((Node.exprIf m x y z).rest r) := by
    rcases hz with rfl | ⟨z, rfl, hs, -, hz⟩
    · refine ⟨[], bare_nil, Takes.seq (c := []) (Takes.lfs _) ?_⟩
      have hf : headNot (fun t => t.sym = .else_) (skipLF r) = true := by simpa [Node.follow, Node.isRef] using hf
      have hsoft : Soft {} (tok .else_) (skipLF r) := (Soft.tok (by simpa [headNot_iff] using hf)).soft
      exact Takes.skip (Soft.seqL hsoft)
    · refine ⟨[z.bare], bare_ref z, Takes.seq (c := []) (Takes.noLfs rfl) (Takes.once (Takes.seq (c := []) (Takes.tok rfl) ?_))⟩
      have hz := hz hs
      obtain ⟨v, hv, he⟩ := hz.exprLf (t := tk .blockEnd c!"}") (u := r) (by decide) (by decide)
      have hl := Takes.lfs (lfTok :: (z.toks ++ lfTok :: tk .blockEnd c!"}" :: r))
      rw [skipLF_lf rfl, HeadIn.skipLF (hz.1 rfl)] at hl
      have hl' := Takes.lfs v
      rw [he] at hl'
      have := Takes.seq (Takes.lit (w := c!"{") (t := tk .blockStart c!"{") rfl) (Takes.seq hl (Takes.seq (Takes.sub (f := .right) hv)
        (Takes.seq hl' (Takes.lit (w := c!"}") rfl))))
      have hrest : (Node.exprIf m x y (.ref z)).rest r = r := rfl
      rw [hrest]
      simpa [Node.isRef_ref, Node.toks, sq, capNodes] using this
  obtain ⟨le, hle, hE⟩ := hE
  have hB : ∃ l, y.bare = ptrOf l ∧ Takes (sq [lit c!"{", lfs, opt (sub .left .expr), lfs, lit c!"}", lfs,
      opt (sq [tok .else_, lit c!"{", lfs, sub .right .expr, lfs, lit c!"}"])])
      (tk .blockStart c!"{" :: ((if y.isRef then lfTok :: (y.toks ++ [lfTok]) else []) ++ tk .blockEnd c!"}" ::
      ((if z.isRef then tk .else_ c!"else" :: tk .blockStart c!"{" :: lfTok :: (z.toks ++ [lfTok, tk .blockEnd c!"}"]) else []) ++ r)))
      (capNodes .left l ++ capNodes .right le) ((Node.exprIf m x y z).rest r) := by
    rcases hy with rfl | ⟨y, rfl, hs, -, hy⟩
    · exact ⟨[], bare_nil, Takes.seq (c := []) (Takes.lit rfl) (Takes.seq (c := []) (Takes.noLfs rfl) (Takes.seq (c := [])
        (Takes.skip (bare_of_head (by decide +kernel)).soft)
        (Takes.seq (c := []) (Takes.noLfs rfl) (Takes.seq (c := []) (Takes.lit rfl) hE))))⟩
    · refine ⟨[y.bare], bare_ref y, ?_⟩
      have hy := hy hs
      obtain ⟨v, hv, he⟩ := hy.exprLf (t := tk .blockEnd c!"}") (u := (if z.isRef then tk .else_ c!"else" :: tk .blockStart c!"{" :: lfTok :: (z.toks ++ [lfTok, tk .blockEnd c!"}"]) else []) ++ r) (by decide) (by decide)
      have hl := Takes.lfs (lfTok :: (y.toks ++ lfTok :: tk .blockEnd c!"}" :: ((if z.isRef then tk .else_ c!"else" :: tk .blockStart c!"{" :: lfTok :: (z.toks ++ [lfTok, tk .blockEnd c!"}"]) else []) ++ r)))
      rw [skipLF_lf rfl, HeadIn.skipLF (hy.1 rfl)] at hl
      have hl' := Takes.lfs v
      rw [he] at hl'
      have := Takes.seq (Takes.lit (w := c!"{") (t := tk .blockStart c!"{") rfl) (Takes.seq hl (Takes.seq (Takes.once (Takes.sub (f := .left) hv))
        (Takes.seq hl' (Takes.seq (Takes.lit (w := c!"}") rfl) hE))))
      simpa [Node.isRef_ref, Node.toks, sq, capNodes] using this
  obtain ⟨lb, hlb, hB⟩ := hB
  have hxr := hx.bin (t := tk .blockStart c!"{") (u := ((if y.isRef then lfTok :: (y.toks ++ [lfTok]) else []) ++ tk .blockEnd c!"}" ::
      ((if z.isRef then tk .else_ c!"else" :: tk .blockStart c!"{" :: lfTok :: (z.toks ++ [lfTok, tk .blockEnd c!"}"]) else []) ++ r)))
  refine OkKind.cast (OkKind.ofTakes (k := .exprIf) (x := (Node.exprIf m x y z).bare) (Takes.seq (Takes.tok (t := tk .if_ c!"if") rfl) (Takes.seq (Takes.sub hxr)
    (Takes.seq (Takes.noLfs rfl) hB))) rfl fun txt => ?_) ?_ rfl rfl
  · rw [hb, hle, hlb]
    simp [build]
  · cases hzr : z.isRef <;> simp [Node.toks, braces, hzr]

theorem reads_case {m : Meta} {x : Node (.slice (.bin .logicalOr))} {d : Bool} {y : Node (.ptr .expr)}
    (hc : (Node.exprCase m x d y).canon = true) (hx : Reads _ x) (hy : Reads _ y) : Reads .exprCase (.exprCase m x d y) := by
  intro _
  simp only [Node.canon, Node.everywhere, Node.shaped, Node.writable, Bool.and_eq_true, Bool.and_true] at hc
  obtain ⟨⟨⟨ho, hr⟩, -⟩, -⟩ := hc
  have hb : (Node.exprCase m x d y).bare = .exprCase noPos x.bare d y.bare := rfl
  rcases hy with rfl | ⟨y, rfl, hs, -, hy⟩
  · cases hr
  have hy := hy hs
  have tail : ∀ r, Takes (sq [lfs, lit c!"{", lfs, sub .expr .expr, lfs, lit c!"}"])
      (tk .blockStart c!"{" :: lfTok :: (y.toks ++ lfTok :: tk .blockEnd c!"}" :: r)) [.node .expr .expr y.bare] r := by
    intro r
    obtain ⟨v, hv, he⟩ := hy.exprLf (t := tk .blockEnd c!"}") (u := r) (by decide) (by decide)
    have hl := Takes.lfs (lfTok :: (y.toks ++ lfTok :: tk .blockEnd c!"}" :: r))
    rw [skipLF_lf rfl, HeadIn.skipLF (hy.1 rfl)] at hl
    have hl' := Takes.lfs v
    rw [he] at hl'
    exact Takes.seq (c := []) (Takes.noLfs rfl) (Takes.seq (c := []) (Takes.lit rfl) (Takes.seq hl (Takes.seq (Takes.sub hv)
      (Takes.seq hl' (Takes.lit rfl)))))
  rcases hx with rfl | ⟨a, l, rfl, hl, hg⟩
  · have hd : d = true := by
      cases d
      · cases ho
      · rfl
    subst hd
    have ht : (Node.exprCase m .nilSlice true (.ref y)).toks = tk .ident c!"default" :: tk .opColon c!":" ::
      tk .blockStart c!"{" :: lfTok :: (y.toks ++ [lfTok, tk .blockEnd c!"}"]) := by simp [Node.toks, braces]
    rw [Good, ht]
    refine ⟨fun _ => ⟨_, _, rfl, rfl, rfl⟩, fun r hf => ?_⟩
    refine OkKind.cast (OkKind.ofTakes (k := .exprCase) (x := (Node.exprCase m .nilSlice true (.ref y)).bare)
      (Takes.seq (Takes.altR (bare_of_head (t := tk .ident c!"default") rfl).soft
      (Takes.seq (Takes.capLit rfl) (Takes.lit (t := tk .opColon c!":") rfl))) (tail r)) rfl fun txt => ?_) (by simp) rfl rfl
    rw [hb]
    simp [build, bare_nilSlice, bare_ref, sliceOf, ptrOf]
  · have hd : d = false := by
      cases d
      · rfl
      · cases ho
    subst hd
    have ht : (Node.exprCase m (.mkSlice a (Out.items l)) false (.ref y)).toks = tk .case_ c!"case" :: (sepBy [comma] (l.map Node.toks) ++ tk .opColon c!":" ::
      tk .blockStart c!"{" :: lfTok :: (y.toks ++ [lfTok, tk .blockEnd c!"}"])) := by simp [Node.toks, braces, Node.tokss, tokss_items]
    rw [Good, ht]
    refine ⟨fun _ => ⟨_, _, rfl, rfl, rfl⟩, fun r hf => ?_⟩
    have hcs := Takes.commaSep (f := .conditions) (r := tk .opColon c!":" ::
      tk .blockStart c!"{" :: lfTok :: (y.toks ++ lfTok :: tk .blockEnd c!"}" :: r)) hl (fun z hz u hu => by
        have hz := (hg z hz).2.2 (hg z hz).1
        rcases hu with rfl | ⟨v, rfl⟩ <;> exact hz.bin) (by rfl)
    have hcase : Takes (sq [tok .case_, sub .conditions (.bin .logicalOr),
        star (seq (lit c!",") (sub .conditions (.bin .logicalOr))), lit c!":"])
        (tk .case_ c!"case" :: (sepBy [comma] (l.map Node.toks) ++ tk .opColon c!":" ::
          tk .blockStart c!"{" :: lfTok :: (y.toks ++ lfTok :: tk .blockEnd c!"}" :: r)))
        (capNodes .conditions (l.map Node.bare))
        (tk .blockStart c!"{" :: lfTok :: (y.toks ++ lfTok :: tk .blockEnd c!"}" :: r)) := by
      have := Takes.seq (c := []) (Takes.tok (y := .case_) (t := tk .case_ c!"case") rfl)
        (Takes.assoc (hcs.seq (Takes.lit (w := c!":") rfl)))
      simpa [sq] using this
    refine OkKind.cast (OkKind.ofTakes (k := .exprCase) (x := (Node.exprCase m (.mkSlice a (Out.items l)) false (.ref y)).bare)
      (Takes.seq (Takes.altL hcase) (tail r)) rfl fun txt => ?_) (by simp) rfl rfl
    rw [hb, bare_slice a hl]
    simp [build, bare_ref, ptrOf]

end Verif.Etx
