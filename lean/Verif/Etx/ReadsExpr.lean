import Verif.Etx.ReadsTypes

/-!
# Reading back expressions
-/

namespace Verif.Etx
open Gram

theorem follow_expr (x : Node .expr) (r : List Token) : x.follow r =
    (headNot badExpr r && (!x.dangling || headNot (fun t => t.sym = .else_) (skipLF r))) := by
  cases x
  rfl

variable [FloatValue]

theorem Good.expr {x : Node .expr} (h : Good x) {t : Token} {u : List Token} (hb : badExpr t = false := by rfl)
    (hl : t.sym ≠ .lf := by decide) (he : t.sym ≠ .else_ := by decide) : OkKind {} (x.toks ++ t :: u) x.bare (t :: u) := by
  have := h.2 (t :: u) (by simp [follow_expr, headNot, hb, skipLF_cons hl, he])
  rwa [rest_cons x hl] at this

theorem Good.exprLf {x : Node .expr} (h : Good x) {t : Token} {u : List Token} (hl : t.sym ≠ .lf) (he : t.sym ≠ .else_) :
    ∃ v, OkKind {} (x.toks ++ lfTok :: t :: u) x.bare v ∧ skipLF v = t :: u := by
  refine ⟨_, h.2 (lfTok :: t :: u) ?_, ?_⟩
  · rw [follow_expr, skipLF_lf rfl, skipLF_cons hl]
    simp [headNot, he]
    decide
  · rw [Node.rest]
    split
    · rw [skipLF_lf rfl, skipLF_cons hl, skipLF_cons hl]
    · rw [skipLF_lf rfl, skipLF_cons hl]

theorem Good.bin {l : Level} {x : Node (.bin l)} (h : Good x) {t : Token} {u : List Token} (hb : badBin l t = false := by rfl) :
    OkKind {} (x.toks ++ t :: u) x.bare (t :: u) := h.ok (by cases x; simp [Node.follow, headNot, hb])

theorem reads_invocation {m : Meta} {x : Node (.slice .expr)} (hx : Reads _ x) :
    Reads .invocation (.invocation m x) := by
  intro _
  refine ⟨fun h => absurd h (by decide), fun r hf => ?_⟩
  have ht : (Node.invocation m x).toks = sepBy [comma] x.tokss := by simp [Node.toks]
  rw [ht, rest_kind]
  simp only [Node.follow, decide_eq_true_eq] at hf
  cases r with
  | nil => simp at hf
  | cons t u =>
    simp only [List.head?_cons, Option.some.injEq] at hf
    subst hf
    obtain ⟨l, hl, htk⟩ := Takes.optCommaSep (f := .values) hx (t := tk .opRParen c!")") (r := u) (fun y hs hy v hv => by
        rcases hv with rfl | ⟨w, rfl⟩ <;> exact (hy hs).expr) (bare_of_head (by decide +kernel)) (by decide)
    refine OkKind.ofTakes htk ?_ fun txt => ?_
    · rcases hx with rfl | ⟨a, l, rfl, hl, hy⟩
      · rfl
      · cases l with
        | nil => exact absurd rfl hl
        | cons y l =>
          have := hy y (by simp)
          rw [Node.tokss, tokss_items, List.map_cons, sepBy_cons, List.append_assoc]
          exact (((this.2.2 this.1).1 rfl).append _).posOf
    · have : (Node.invocation m x).bare = .invocation noPos x.bare := rfl
      rw [this, hl]
      simp [build]

/-- `( … )` after an identifier. -/
theorem takes_monads {l : List (Node .invocation)} (h : ∀ y ∈ l, Good y) {r : List Token}
    (hr : headNot (fun t => t.txt = c!"(") r = true) :
    Takes (.star (sq [lit c!"(", sub .monads .invocation, lit c!")"])) (((l.map Node.toks).map parens).flatten ++ r)
      (capNodes .monads (l.map Node.bare)) r := by
  induction l with
  | nil => exact Takes.nil (Soft.seqL (Soft.lit (by simpa [headNot_iff] using hr)).soft)
  | cons y l ih =>
    have hy := (h y (by simp)).ok (r := tk .opRParen c!")" :: (((l.map Node.toks).map parens).flatten ++ r)) (by cases y; rfl)
    have := Takes.cons (Takes.seq (Takes.lit (w := c!"(") (t := tk .opLParen c!"(") rfl) (Takes.seq (Takes.sub (f := .monads) hy)
      (Takes.lit (w := c!")") rfl))) (by simp; omega) (ih fun z hz => h z (List.mem_cons_of_mem _ hz))
    simpa [capNodes, parens, sq] using this

theorem takes_optMonads {x : Node (.slice .invocation)} (hx : Reads _ x) {r : List Token}
    (hr : headNot (fun t => t.txt = c!"(") r = true) :
    ∃ l, x.bare = sliceOf l ∧ Takes (.opt (.plus (sq [lit c!"(", sub .monads .invocation, lit c!")"])))
      ((x.tokss.map parens).flatten ++ r) (capNodes .monads l) r := by
  have hsoft : Soft {} (lit c!"(") r := (Soft.lit (by simpa [headNot_iff] using hr)).soft
  rcases hx with rfl | ⟨a, l, rfl, hl, hy⟩
  · exact ⟨[], bare_nilSlice, Takes.skip (Soft.plus (Soft.seqL hsoft))⟩
  · refine ⟨l.map Node.bare, bare_slice a hl, Takes.once ?_⟩
    rw [Node.tokss, tokss_items]
    cases l with
    | nil => exact absurd rfl hl
    | cons y l =>
      have hgood : ∀ z ∈ y :: l, Good z := fun z hz => (hy z hz).2.2 (hy z hz).1
      have := (hgood y (by simp)).ok (r := tk .opRParen c!")" :: (((l.map Node.toks).map parens).flatten ++ r)) (by cases y; rfl)
      have := Takes.plus (Takes.seq (Takes.lit (w := c!"(") (t := tk .opLParen c!"(") rfl) (Takes.seq (Takes.sub (f := .monads) this)
        (Takes.lit (w := c!")") rfl))) (takes_monads (fun z hz => hgood z (List.mem_cons_of_mem _ hz)) hr)
      simpa [capNodes, parens, sq] using this

/-- `. …` -/
theorem takes_optPost {x : Node (.ptr .postfixE)} (hx : Reads _ x) {r : List Token} (hr : headNot badPost r = true) :
    ∃ l, x.bare = ptrOf l ∧ Takes (.opt (.seq (.lit c!".") (.sub .post .postfixE)))
      ((if x.isRef then tk .dot c!"." :: x.toks else []) ++ r) (capNodes .post l) r := by
  have hsoft : Soft {} (lit c!".") r := (Soft.lit (by
    have := headNot_mono (q := fun t => t.txt = c!".") hr (by simp +contextual [badPost])
    simpa [headNot_iff] using this)).soft
  rcases hx with rfl | ⟨y, rfl, hs, -, hy⟩
  · exact ⟨[], bare_nil, Takes.skip (Soft.seqL hsoft)⟩
  · refine ⟨[y.bare], bare_ref y, Takes.once ?_⟩
    have := (hy hs).ok (r := r) (by cases y; exact hr)
    exact Takes.seq (Takes.lit (t := tk .dot c!".") rfl) (Takes.sub (f := .post) this)

theorem OkKind.cast {k : Kind} {s r s' r' : List Token} {x x' : Node k} (h : OkKind {} s x r) (hs : s = s') (hx : x = x')
    (hr : r = r') : OkKind {} s' x' r' := by
  subst hs hx hr
  exact h

theorem reads_primary {m : Meta} {x1 : Node (.ptr .expr)} {x2 : Node (.ptr .value)} {x3 : Node (.ptr .ident)}
    {x4 : Node (.slice .invocation)} {x5 : Node (.ptr .postfixE)} (hc : (Node.primary m x1 x2 x3 x4 x5).canon = true)
    (h1 : Reads _ x1) (h2 : Reads _ x2) (h3 : Reads _ x3) (h4 : Reads _ x4) (h5 : Reads _ x5) :
    Reads .primary (.primary m x1 x2 x3 x4 x5) := by
  intro _
  simp only [Node.canon, Node.everywhere, Node.shaped, Node.writable, Bool.and_eq_true] at hc
  obtain ⟨⟨⟨⟨⟨⟨⟨ho, hn⟩, hw, hp⟩, -⟩, -⟩, -⟩, -⟩, -⟩ := hc
  have hb : (Node.primary m x1 x2 x3 x4 x5).bare = .primary noPos x1.bare x2.bare x3.bare x4.bare x5.bare := rfl
  rcases h1 with rfl | ⟨y, rfl, hs, -, hy⟩
  · rcases h2 with rfl | ⟨y, rfl, hs, -, hy⟩
    · rcases h3 with rfl | ⟨y, rfl, hs, -, hy⟩
      · simp [Node.one, Node.isRef] at ho
      · have hy := hy hs
        have ht : (Node.primary m .nil .nil (.ref y) x4 x5).toks = y.toks ++ ((x4.tokss.map parens).flatten ++
            if x5.isRef then tk .dot c!"." :: x5.toks else []) := by simp [Node.toks, Node.isRef]
        have hh : HeadIn .ident y.toks := hy.1 rfl
        refine ⟨fun _ => ?_, fun r hf => ?_⟩
        · rw [ht]; exact (hh.append _).mono (by decide)
        rw [rest_kind]
        have hf' : headNot (fun t => t.txt = c!"." || t.txt = c!"(") r = true := by
          simp only [Node.follow] at hf
          split at hf
          · exact headNot_mono hf (by simp +contextual [badPost, or_imp])
          · simpa [Node.isRef] using hf
        have hdot : headNot (fun t => t.txt = c!".") r = true := headNot_mono hf' (by simp +contextual)
        have hpar : headNot (fun t => t.txt = c!"(") r = true := headNot_mono hf' (by simp +contextual)
        obtain ⟨l5, hl5, ht5⟩ : ∃ l, x5.bare = ptrOf l ∧ Takes (.opt (.seq (.lit c!".") (.sub .post .postfixE)))
            ((if x5.isRef then tk .dot c!"." :: x5.toks else []) ++ r) (capNodes .post l) r := by
          cases h : x5.isRef with
          | true =>
            have := takes_optPost h5 (r := r) (by simpa [Node.follow, h] using hf)
            simpa [h] using this
          | false =>
            have hsoft : Soft {} (lit c!".") r := (Soft.lit (by simpa [headNot_iff] using hdot)).soft
            rcases h5 with rfl | ⟨y, rfl, -⟩
            · exact ⟨[], bare_nil, Takes.skip (Soft.seqL hsoft)⟩
            · cases h
        obtain ⟨l4, hl4, ht4⟩ := takes_optMonads h4 (r := (if x5.isRef then tk .dot c!"." :: x5.toks else []) ++ r) (by
          split
          · rfl
          · exact hpar)
        have hid : OkKind {} (y.toks ++ ((x4.tokss.map parens).flatten ++
            ((if x5.isRef then tk .dot c!"." :: x5.toks else []) ++ r))) y.bare _ := hy.ok (by
          cases y
          show stopIdent _ = true
          rcases h4 with rfl | ⟨a, l, rfl, hl, -⟩
          · have hp : headNot (fun t => t.sym = .ident) x5.toks = true := by simpa [Node.isNilSlice] using hp
            show stopIdent ((if x5.isRef then tk .dot c!"." :: x5.toks else []) ++ r) = true
            split
            · rename_i h
              rcases h5 with rfl | ⟨z, rfl, hs, -, hz⟩
              · cases h
              · obtain ⟨t, u, e, -⟩ := (hz hs).1 rfl
                have e : (Node.ref z).toks = t :: u := by rw [Node.toks, e]
                rw [e] at hp ⊢
                have : ¬ t.sym = .ident := by simpa [headNot] using hp
                simp [stopIdent, this]
            · exact stopIdent_of hdot
          · refine stopIdent_of ?_
            rw [Node.tokss, tokss_items]
            cases l with
            | nil => exact absurd rfl hl
            | cons y l => rfl)
        have := Takes.seq (Takes.sub (f := .ident) hid) (ht4.seq ht5)
        obtain ⟨t, u, e, hpos, hst⟩ := hh
        have hsym : t.sym = .ident := by simpa [startOk, textOk, starts] using hst
        have hw : t.txt ∉ [c!"null", c!"true", c!"false", c!"(", c!"[", c!"{"] := by
          simpa only [Node.headTxtNot, Node.toks, e, headNot, Bool.not_eq_true', ← Bool.not_eq_true, List.contains_iff_mem] using hw
        rw [e] at this
        refine OkKind.cast (s := t :: u ++ ((x4.tokss.map parens).flatten ++
            ((if x5.isRef then tk .dot c!"." :: x5.toks else []) ++ r))) (OkKind.ofTakes (k := .primary)
            (Takes.altR (Soft.seqL (Soft.lit ?_).soft) (Takes.altR (bare_of_head (any_excluded
            (ys := [.ident]) (by decide) (by simp [hsym]) hw)).soft this)) hpos (x := (Node.primary m .nil .nil (.ref y) x4 x5).bare)
            fun txt => ?_) ?_ rfl rfl
        · simp only [List.head?_cons, Option.mem_some_iff, List.cons_append]
          rintro _ rfl h
          rw [h] at hw
          revert hw; decide
        · rw [hb, hl4, hl5]
          simp [build, bare_nil, bare_ref, ptrOf]
        · rw [ht, e]; simp
    · rcases h3 with rfl | ⟨z, rfl, -⟩
      · rcases h4 with rfl | ⟨a, l, rfl, -⟩
        · rcases h5 with rfl | ⟨z, rfl, -⟩
          · have hy := hy hs
            have ht : (Node.primary m .nil (.ref y) .nil .nilSlice .nil).toks = y.toks := by simp [Node.toks, Node.isRef]
            have hh : HeadIn .value y.toks := hy.1 rfl
            rw [Good, ht]
            refine ⟨fun _ => hh.mono (by decide), fun r hf => ?_⟩
            rw [rest_kind]
            obtain ⟨t, u, e, hpos, hst⟩ := hh
            have hv := hy.ok (r := r) (by cases y; rfl)
            rw [e] at hv ⊢
            refine OkKind.ofTakes (Takes.altR (Soft.seqL (Soft.lit ?_).soft) (Takes.altL (Takes.sub hv))) hpos fun txt => ?_
            · simp only [List.head?_cons, Option.mem_some_iff, List.cons_append]
              rintro _ rfl h
              simp [startOk, textOk, h] at hst
            · rw [hb]
              simp [build, bare_nil, bare_ref, bare_nilSlice, ptrOf, sliceOf]
          · simp [Node.isRef] at hn
        · simp [Node.isRef, Node.isNilSlice] at hn
      · simp [Node.one, Node.isRef] at ho
  · rcases h2 with rfl | ⟨z, rfl, -⟩
    · rcases h3 with rfl | ⟨z, rfl, -⟩
      · rcases h4 with rfl | ⟨a, l, rfl, -⟩
        · rcases h5 with rfl | ⟨z, rfl, -⟩
          · have hy := hy hs
            have ht : (Node.primary m (.ref y) .nil .nil .nilSlice .nil).toks =
                tk .opLParen c!"(" :: (y.toks ++ [tk .opRParen c!")"]) := by simp [Node.toks, Node.isRef, parens]
            rw [Good, ht]
            refine ⟨fun _ => ⟨_, _, rfl, rfl, rfl⟩, fun r hf => ?_⟩
            rw [rest_kind]
            have := hy.expr (t := tk .opRParen c!")") (u := r)
            refine OkKind.cast (OkKind.ofTakes (k := .primary) (Takes.altL (Takes.seq (Takes.lit (t := tk .opLParen c!"(") rfl)
              (Takes.seq (Takes.sub this) (Takes.lit rfl)))) rfl fun txt => ?_) (by simp) rfl rfl
            rw [hb]
            simp [build, bare_nil, bare_ref, bare_nilSlice, ptrOf, sliceOf]
          · simp [Node.isRef] at hn
        · simp [Node.isRef, Node.isNilSlice] at hn
      · simp [Node.one, Node.isRef] at ho
    · simp [Node.one, Node.isRef] at ho

end Verif.Etx
