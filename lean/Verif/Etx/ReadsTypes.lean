import Verif.Etx.Reads

/-!
# Reading back identifiers, comments, types and parameters
-/

namespace Verif.Etx
open Gram

theorem sepBy_cons (sep x : List Token) (xs : List (List Token)) :
    sepBy sep (x :: xs) = x ++ (xs.map (sep ++ ·)).flatten := by
  induction xs generalizing x with
  | nil => simp [sepBy]
  | cons y xs ih =>
    rw [sepBy, ih y]
    · simp
    · simp

variable [FloatValue]

theorem reads_ident {m : Meta} {parts : Strs} (hc : (Node.ident m parts).canon = true) :
    Reads .ident (.ident m parts) := by
  intro _
  simp only [Node.canon, Node.everywhere, Node.shaped, Node.writable, Bool.and_true, decide_eq_true_eq] at hc
  obtain ⟨a, w, ws, rfl⟩ : ∃ a w ws, parts = .mk a (w :: ws) := by
    cases parts with
    | nil => simp [Strs.list] at hc
    | mk a l =>
      cases l with
      | nil => simp [Strs.list] at hc
      | cons w ws => exact ⟨a, w, ws, rfl⟩
  have ht : (Node.ident m (.mk a (w :: ws))).toks =
      tk .ident w :: (ws.map fun w => [tk .dot c!".", tk .ident w]).flatten := by
    simp only [Node.toks, Strs.list, List.map_cons, sepBy_cons, List.map_map]
    rfl
  refine ⟨fun _ => ⟨_, _, ht, rfl, rfl⟩, fun r hr => ?_⟩
  simp only [Node.follow] at hr
  rw [ht]
  have star : ∀ ws : List Str, Takes (.star (.seq (.lit c!".") (.cap .parts (.tok .ident))))
      ((ws.map fun w => [tk .dot c!".", tk .ident w]).flatten ++ r) (capStrs .parts ws) r := by
    intro ws
    induction ws with
    | nil =>
      refine Takes.nil ?_
      match r with
      | [] => exact Soft.seqL (Soft.lit (by simp)).soft
      | t :: u =>
        by_cases h : t.txt = c!"."
        · refine Soft.seqR (Ok.lit h) (Bare.of ?_) (by simp [lookahead])
          intro v hv
          cases u with
          | nil => simp at hv
          | cons v' u =>
            simp only [List.head?_cons, Option.mem_some_iff] at hv
            subst hv
            simpa [stopIdent, h, firstG, Test.ok] using hr
        · exact Soft.seqL (Soft.lit (by simpa using h)).soft
    | cons w ws ih =>
      exact Takes.cons (Takes.seq (Takes.lit (t := tk .dot c!".") rfl) (Takes.capTok (t := tk .ident w) rfl)) (by simp; omega) ih
  refine OkKind.ofTakes (Takes.seq (Takes.capTok (t := tk .ident w) rfl) (Takes.once (star ws))) rfl fun txt => ?_
  simp [build, strsOf, tk]
  rfl

theorem reads_comment {m : Meta} {s : Strs} {w : Str} (hc : (Node.comment m s w).canon = true) :
    Reads .comment (.comment m s w) := by
  intro _
  simp only [Node.canon, Node.everywhere, Node.shaped, Node.writable, Bool.and_eq_true, Node.one, beq_iff_eq, List.all_eq_true,
    Bool.or_eq_true, decide_eq_true_eq] at hc
  obtain ⟨hc, hsk, hct, hmt⟩ := hc
  replace hc := And.intro hc hsk
  by_cases hw : w = []
  · have hs : s.list ≠ [] := by
      intro h
      simp [hw, h] at hc
    have ht : (Node.comment m s w).toks = s.list.flatMap fun w => [tk .singleLineComment w, lfTok] := by
      simp [Node.toks, hw]
    refine ⟨fun _ => ?_, fun r hr => ?_⟩
    · rw [ht]
      cases h : s.list with
      | nil => exact absurd h hs
      | cons w ws => exact ⟨_, _, rfl, rfl, Bool.and_eq_true_iff.mpr ⟨rfl, hct w (by rw [h]; simp)⟩⟩
    · simp only [Node.follow, hw, ne_eq, not_true, if_false] at hr
      rw [ht]
      have one : ∀ w r, Takes (.seq (.cap .singleLine (.tok .singleLineComment)) lf?) (tk .singleLineComment w :: lfTok :: r)
          [.toks .singleLine [w]] r := fun w r => (Takes.capTok (t := tk .singleLineComment w) rfl).seq Takes.lf
      have star : ∀ ws : List Str, Takes (.star (.seq (.cap .singleLine (.tok .singleLineComment)) lf?))
          ((ws.flatMap fun w => [tk .singleLineComment w, lfTok]) ++ r) (capStrs .singleLine ws) r := by
        intro ws
        induction ws with
        | nil => exact Takes.nil (Soft.seqL (Soft.cap (Soft.tok (by simpa [headNot_iff] using hr)).soft))
        | cons w ws ih => exact Takes.cons (one w _) (by simp; omega) ih
      cases h : s.list with
      | nil => exact absurd h hs
      | cons v ws =>
        refine OkKind.ofTakes (Takes.altL (Takes.plus (one v _) (star ws))) rfl fun txt => ?_
        have := bare_strs hc.2
        rw [h] at this
        simp [build, strsOf, Node.bare, Node.map, this, hw]
  · have hs : s = .nil := by
      cases s with
      | nil => rfl
      | mk a l => cases l <;> simp [Strs.ok, Strs.list, hw] at hc
    subst hs
    have ht : (Node.comment m .nil w).toks = multilineToks w := by simp [Node.toks, hw]
    refine ⟨fun _ => ?_, fun r hr => ?_⟩
    · have hmt := hmt.resolve_left hw
      rw [ht, multilineToks]
      split
      · refine ⟨_, _, rfl, rfl, Bool.and_eq_true_iff.mpr ⟨rfl, ?_⟩⟩
        match w, hmt with
        | [c], hmt =>
          rename_i h
          simp only [List.getLast?_singleton, Option.some.injEq] at h
          subst h
          exact hmt
        | c :: d :: w, hmt => simpa [textOk, tk, commentText] using hmt
      · exact ⟨_, _, rfl, rfl, Bool.and_eq_true_iff.mpr ⟨rfl, hmt⟩⟩
    · simp only [Node.follow, hw, ne_eq, not_false_eq_true, if_true, Bool.or_eq_true, decide_eq_true_eq] at hr
      rw [ht, multilineToks]
      split
      · rename_i h
        refine OkKind.ofTakes (Takes.altR (Soft.plus (bare_of_head rfl).soft)
          (Takes.cap (Ok.seq (Ok.tok rfl) (Ok.once (Ok.tok rfl))))) rfl fun txt => ?_
        have : w.dropLast ++ c!"\n" = w := by
          rw [List.getLast?_eq_some_iff] at h
          obtain ⟨l, rfl⟩ := h
          rw [List.dropLast_concat]
        have e : w.dropLast ++ lfTok.txt = w := this
        simp only [build, Out.strs_mk, Out.str_mk, strs_other, strs_same, strs_nil, ne_eq, reduceCtorEq, not_false_eq_true, tk,
          List.append_nil, strsOf, Node.bare, Node.map, Option.some.injEq, Node.comment.injEq, true_and]
        exact ⟨rfl, by simpa using e⟩
      · rename_i h
        have hr : headNot (fun t => t.sym = .lf) r = true := hr.resolve_left h
        refine OkKind.ofTakes (Takes.altR (Soft.plus (bare_of_head rfl).soft)
          (Takes.cap (Ok.seq (Ok.tok rfl) (Ok.skip (Soft.tok (by simpa [headNot_iff] using hr)).soft)))) rfl fun txt => ?_
        simp only [build, Out.strs_mk, Out.str_mk, strs_other, strs_same, strs_nil, ne_eq, reduceCtorEq, not_false_eq_true, tk,
          List.append_nil, strsOf, Node.bare, Node.map, Option.some.injEq, Node.comment.injEq, true_and]
        exact ⟨rfl, show ([w] ++ []).flatten = w by simp⟩

/-! ## Pointers and slices -/

theorem reads_nil {k : Kind} : Reads (.ptr k) .nil := .inl rfl

theorem reads_ref {k : Kind} {x : Node k} (hc : (Node.ref x).canon = true) (hx : Reads k x) : Reads (.ptr k) (.ref x) := by
  simp only [Node.canon, Node.everywhere, Node.shaped, Bool.and_eq_true] at hc
  exact .inr ⟨x, rfl, hc.1.1, hc.2, hx⟩

theorem reads_nilSlice {k : Kind} : Reads (.slice k) .nilSlice := .inl rfl

theorem reads_mkSlice {k : Kind} {a : Nat} {xs : Node (.items k)} (hc : (Node.mkSlice a xs).canon = true)
    (hx : Reads (.items k) xs) : Reads (.slice k) (.mkSlice a xs) := by
  obtain ⟨l, rfl, hl⟩ := hx
  refine .inr ⟨a, l, rfl, ?_, hl⟩
  rintro rfl
  simp [Node.canon, Node.everywhere, Node.shaped, Out.items, Node.len] at hc

theorem reads_empty {k : Kind} : Reads (.items k) .empty := ⟨[], rfl, by simp⟩

theorem reads_cons {k : Kind} {x : Node (.ptr k)} {xs : Node (.items k)} (hc : (Node.cons x xs).canon = true)
    (hx : Reads (.ptr k) x) (hxs : Reads (.items k) xs) : Reads (.items k) (.cons x xs) := by
  obtain ⟨l, rfl, hl⟩ := hxs
  rcases hx with rfl | ⟨y, rfl, hy⟩
  · simp [Node.canon, Node.everywhere, Node.shaped, Node.isRef] at hc
  · exact ⟨y :: l, rfl, by simpa using ⟨hy, hl⟩⟩

/-! ## Types -/

theorem HeadIn.mono {k k' : Kind} {s : List Token} (h : HeadIn k s) (hk : ∀ y ∈ starts k, y ∈ starts k')
    (hv : textOk k' = fun _ => true := by rfl) : HeadIn k' s := by
  obtain ⟨t, u, rfl, hp, ho⟩ := h
  refine ⟨t, u, rfl, hp, ?_⟩
  simp only [startOk, Bool.and_eq_true, List.contains_iff_mem] at ho ⊢
  exact ⟨hk _ ho.1, by simp [hv]⟩

theorem HeadIn.append {k : Kind} {s : List Token} (h : HeadIn k s) (r : List Token) : HeadIn k (s ++ r) := by
  obtain ⟨t, u, rfl, hp, ho⟩ := h
  exact ⟨t, u ++ r, rfl, hp, ho⟩

theorem HeadIn.posOf {k : Kind} {s : List Token} (h : HeadIn k s) : posOf {} s = {} := by
  obtain ⟨t, u, rfl, hp, ho⟩ := h
  exact hp

theorem HeadIn.ne {k : Kind} {s : List Token} (h : HeadIn k s) : s ≠ [] := by
  obtain ⟨t, u, rfl, hp, ho⟩ := h
  simp

/-- Nothing that begins with other types of tokens matches. -/
theorem HeadIn.soft {k : Kind} {s : List Token} (h : HeadIn k s) {g : Gram}
    (ht : excluded (starts k) [] (firstG first g) = true := by decide) (hg : solid g = true := by rfl)
    (hn : null g = false := by rfl) : Soft {} g s := by
  obtain ⟨t, u, rfl, hp, ho⟩ := h
  simp only [startOk, Bool.and_eq_true, List.contains_iff_mem] at ho
  exact (bare_of_head (any_excluded ht ho.1 (by simp)) hg hn).soft

theorem reads_parameterType {m : Meta} {x1 : Node (.ptr .ident)} {x2 : Node (.ptr .funcSignature)}
    (hc : (Node.parameterType m x1 x2).canon = true) (h1 : Reads _ x1) (h2 : Reads _ x2) :
    Reads .parameterType (.parameterType m x1 x2) := by
  intro hset
  rcases h1 with rfl | ⟨y, rfl, hy, -, hr⟩
  · rcases h2 with rfl | ⟨z, rfl, hz, -, hr⟩
    · simp [Node.set, Node.isRef] at hset
    · have hr := hr hz
      have ht : (Node.parameterType m .nil (.ref z)).toks = z.toks := by simp [Node.toks, Node.isRef]
      have hh : HeadIn .funcSignature z.toks := hr.1 rfl
      rw [Good, ht]
      refine ⟨fun _ => hh.mono (by decide), fun r hf => ?_⟩
      have hz : OkKind {} (z.toks ++ r) z.bare r := hr.ok (by cases z; exact hf)
      exact OkKind.ofTakes (Takes.altR (hh.append r).soft (Takes.sub hz)) (hh.append r).posOf fun txt => rfl
  · have hr := hr hy
    rcases h2 with rfl | ⟨z, rfl, hz, -, hr'⟩
    · have ht : (Node.parameterType m (.ref y) .nil).toks = y.toks := by simp [Node.toks, Node.isRef]
      have hh : HeadIn .ident y.toks := hr.1 rfl
      rw [Good, ht]
      refine ⟨fun _ => hh.mono (by decide), fun r hf => ?_⟩
      have hz : OkKind {} (y.toks ++ r) y.bare r := hr.ok (by cases y; exact hf)
      exact OkKind.ofTakes (Takes.altL (Takes.sub hz)) (hh.append r).posOf fun txt => rfl
    · simp [Node.canon, Node.everywhere, Node.shaped, Node.isRef] at hc

/-- The first token of a struct that follows another one. -/
theorem Good.param {x : Node .parameterType} (h : Good x) {r : List Token} (hr : headNot (fun t => t.txt = c!".") r = true) :
    OkKind {} (x.toks ++ r) x.bare r := h.ok (by cases x; exact stopIdent_of hr)

theorem reads_funcSignature {m : Meta} {x1 : Node (.slice .parameterType)} {x2 : Node .parameterType}
    (hc : (Node.funcSignature m x1 x2).canon = true) (h1 : Reads _ x1) (h2 : Reads _ x2) :
    Reads .funcSignature (.funcSignature m x1 x2) := by
  intro _
  simp only [Node.canon, Node.everywhere, Node.shaped, Node.writable, Bool.and_eq_true] at hc
  have h2 := h2 hc.1.1.1
  have ht : (Node.funcSignature m x1 x2).toks =
      tk .opLParen c!"(" :: (sepBy [comma] x1.tokss ++ tk .opRParen c!")" :: tk .opLambdaDef c!"->" :: x2.toks) := by
    simp [Node.toks, parens]
  rw [Good, ht]
  refine ⟨fun _ => ⟨_, _, rfl, rfl, rfl⟩, fun r hf => ?_⟩
  have hret : OkKind {} (x2.toks ++ r) x2.bare r := h2.ok (by cases x2; exact hf)
  obtain ⟨l, hl, htk⟩ := Takes.optCommaSep (f := .parameters) h1 (t := tk .opRParen c!")")
    (r := tk .opLambdaDef c!"->" :: (x2.toks ++ r)) (fun y hs hy u hu => (hy hs).param (by
      rcases hu with rfl | ⟨v, rfl⟩ <;> rfl)) (bare_of_head rfl) (by decide)
  have := OkKind.ofTakes (k := .funcSignature) (Takes.seq (Takes.lit (t := tk .opLParen c!"(") rfl) (htk.seq (Takes.seq (Takes.lit rfl)
    (Takes.seq (Takes.tok rfl) (Takes.sub hret))))) rfl (x := (Node.funcSignature m x1 x2).bare) fun txt => by
      have : (Node.funcSignature m x1 x2).bare = .funcSignature noPos x1.bare x2.bare := rfl
      rw [this, hl]
      simp [build]
  rw [rest_kind]
  simpa using this

theorem reads_funcParameter {m : Meta} {w : Str} {x : Node (.ptr .parameterType)}
    (hx : Reads _ x) : Reads .funcParameter (.funcParameter m w x) := by
  intro _
  rcases hx with rfl | ⟨y, rfl, hy, -, hr⟩
  · have ht : (Node.funcParameter m w .nil).toks = [tk .ident w] := by simp [Node.toks, Node.isRef]
    rw [Good, ht]
    refine ⟨fun _ => ⟨_, _, rfl, rfl, rfl⟩, fun r hf => ?_⟩
    simp only [Node.follow, Bool.and_eq_true] at hf
    refine OkKind.ofTakes (Takes.seq (Takes.capTok (t := tk .ident w) rfl)
      (Takes.skip (Soft.seqL (Soft.lit (by simpa [headNot_iff] using hf.2)).soft))) rfl fun txt => ?_
    simp [build, tk]
    rfl
  · have hr := hr hy
    have ht : (Node.funcParameter m w (.ref y)).toks = tk .ident w :: tk .opColon c!":" :: y.toks := by
      simp [Node.toks, Node.isRef]
    rw [Good, ht]
    refine ⟨fun _ => ⟨_, _, rfl, rfl, rfl⟩, fun r hf => ?_⟩
    simp only [Node.follow, Bool.and_eq_true] at hf
    refine OkKind.ofTakes (Takes.seq (Takes.capTok (t := tk .ident w) rfl)
      (Takes.once (Takes.seq (Takes.lit rfl) (Takes.sub (hr.ok (by cases y; exact hf.1)))))) rfl fun txt => ?_
    simp [build, tk]
    rfl

end Verif.Etx
