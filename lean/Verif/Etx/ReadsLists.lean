import Verif.Etx.ReadsValue

/-!
# Reading back strings, heredocs, lists and maps
-/

set_option linter.unusedSimpArgs false

namespace Verif.Etx
open Gram

/-! ## Sequences of items -/

theorem headNot_congr {p : Token → Bool} {r r' : List Token} (h : r.head? = r'.head?) : headNot p r = headNot p r' := by
  cases r <;> cases r' <;> simp_all [headNot]

/-- The structs that are written one after the other. -/
def Kind.isItem : Kind → Bool
  | .rootItem | .blockItem | .funcStatement | .typeEnumItem | .typeObjectItem | .heredocFragment | .listItem | .mapItem
  | .stringFragment => true
  | _ => false

theorem follow_comment {x : Node (.ptr .comment)} {r r' : List Token} (h : r.head? = r'.head?) : x.follow r = x.follow r' := by
  cases x with
  | nil => rfl
  | ref x =>
    cases x
    simp only [Node.follow, headNot_congr h]

/-- Whether an item may be followed by something depends on its first token only. -/
theorem follow_head {k : Kind} (hk : k.isItem = true) (x : Node k) {r r' : List Token} (h : r.head? = r'.head?) :
    x.follow r = x.follow r' := by
  cases x <;> first | (simp only [Node.follow, headNot_congr h, follow_comment h]; done) | cases hk

theorem chain_head {k : Kind} (hk : k.isItem = true) (l : List (Node k)) {r r' : List Token} (h : r.head? = r'.head?) :
    (Out.items l).chain r = (Out.items l).chain r' := by
  induction l with
  | nil => rfl
  | cons x l ih =>
    simp only [Out.items, Node.chain, ih]
    congr 1
    simp only [Node.follow]
    refine follow_head hk x ?_
    cases (Out.items l).tokss.flatten with
    | nil => exact h
    | cons t u => rfl

variable [FloatValue]

theorem isItem_dangles {k : Kind} (h : k.isItem = true) : k.dangles = false := by cases k <;> first | rfl | cases h
theorem isItem_null {k : Kind} (h : k.isItem = true) : nullKind k = false := by cases k <;> first | rfl | cases h
theorem isItem_reads {k : Kind} (h : k.isItem = true) {y : Node k} (hs : y.set = true) (hr : Reads k y) : Good y := by
  cases y <;> first | exact hr hs | cases h

/-- The items of a slice. -/
theorem takes_body {f : Field} {k : Kind} (hk : k.isItem = true) {x : Node (.slice k)} (hx : Reads (.slice k) x) {t : Token}
    (hc : x.chain [t] = true) (r : List Token) (hs : Soft {} (.sub f k) (t :: r)) :
    ∃ l, x.bare = sliceOf l ∧ Takes (.star (.sub f k)) (x.tokss.flatten ++ t :: r) (capNodes f l) (t :: r) := by
  rcases hx with rfl | ⟨a, l, rfl, hl, hy⟩
  · exact ⟨[], bare_nilSlice, Takes.nil hs⟩
  · refine ⟨l.map Node.bare, bare_slice a hl, ?_⟩
    rw [Node.chain, chain_head hk l (r := [t]) (r' := t :: r) rfl] at hc
    rw [Node.tokss, tokss_items]
    have hg : ∀ y ∈ l, Good y := fun y hm => isItem_reads hk (hy y hm).1 (hy y hm).2.2
    exact Takes.items (fun y hm u hu => (hg y hm).ok hu (isItem_dangles hk)) (fun y hm => ((hg y hm).1 (isItem_null hk)).ne) hc hs

omit [FloatValue] in
theorem skipLF_body {k : Kind} {x : Node (.slice k)} (h : x.noBlank = true) {t : Token} (ht : t.sym ≠ .lf) (r : List Token) :
    skipLF (x.tokss.flatten ++ t :: r) = x.tokss.flatten ++ t :: r := by
  refine skipLF_headNot ?_
  rw [Node.noBlank] at h
  cases hx : x.tokss.flatten with
  | nil => simpa [headNot] using ht
  | cons u v => rw [hx] at h; exact h

/-- The items of a slice after the bracket that opens it. -/
theorem takes_lfsBody {f : Field} {k : Kind} (hk : k.isItem = true) {x : Node (.slice k)} (hx : Reads (.slice k) x) {t : Token}
    (hc : x.chain [t] = true) (hb : x.noBlank = true) (ht : t.sym ≠ .lf) (r : List Token) (hs : Soft {} (.sub f k) (t :: r)) {g : Gram}
    (hg : Takes g (t :: r) [] r) :
    ∃ l, x.bare = sliceOf l ∧ Takes (sq [lfs, .star (.sub f k), g])
      ((if x.isNilSlice then [] else lfTok :: x.tokss.flatten) ++ t :: r) (capNodes f l) r := by
  obtain ⟨l, hl, h⟩ := takes_body hk hx hc r hs
  refine ⟨l, hl, ?_⟩
  have := Takes.seq (Takes.lfs (lfTok :: (x.tokss.flatten ++ t :: r))) (Takes.seq (by
    rw [skipLF_lf rfl, skipLF_body hb ht]
    exact h) hg)
  rcases hx with rfl | ⟨a, l, rfl, -, -⟩
  · exact Takes.eq (Takes.seq (s := t :: r) (Takes.noLfs (by simpa [headNot] using ht)) (Takes.seq (s := t :: r) h hg)) (by simp)
  · have e : (Node.mkSlice a (Out.items l)).isNilSlice = false := rfl
    rw [e]
    simpa [sq] using this

/-! ## Strings -/

/-- `${ … }` and `%{ … }`. -/
theorem takes_interp {f : Field} {y : Sym} {w : Str} {x : Node .expr} (hx : Good x) (r : List Token) :
    Takes (sq [tok y, sub f .expr, tok .exprEnd]) (tk y w :: (x.toks ++ tk .exprEnd c!"}" :: r)) [.node f .expr x.bare] r := by
  have := Takes.seq (Takes.tok (y := y) (t := tk y w) rfl) (Takes.seq (Takes.sub (f := f) (hx.expr (t := tk .exprEnd c!"}") (u := r)))
    (Takes.tok (y := .exprEnd) rfl))
  simpa [sq] using this

theorem reads_stringFragment {m : Meta} {e u : Str} {x1 x2 : Node (.ptr .expr)} {t : Str}
    (hc : (Node.stringFragment m e u x1 x2 t).canon = true) (h1 : Reads _ x1) (h2 : Reads _ x2) :
    Reads .stringFragment (.stringFragment m e u x1 x2 t) := by
  intro _
  simp only [Node.canon, Node.everywhere, Node.shaped, Node.writable, Bool.and_eq_true] at hc
  obtain ⟨⟨⟨ho, -⟩, -⟩, -⟩ := hc
  have hb : (Node.stringFragment m e u x1 x2 t).bare = .stringFragment noPos e u x1.bare x2.bare t := rfl
  by_cases he : e = []
  case neg =>
    have hu : u = [] := by by_contra h; simp [Node.one, List.count_cons, he, h] at ho
    have ht : t = [] := by by_contra h; simp [Node.one, List.count_cons, he, h] at ho
    rcases h1 with rfl | ⟨y, rfl, -⟩
    case inr => simp [Node.one, List.count_cons, he, Node.isRef] at ho
    rcases h2 with rfl | ⟨y, rfl, -⟩
    case inr => simp [Node.one, List.count_cons, he, Node.isRef] at ho
    subst hu ht
    have ht : (Node.stringFragment m e [] .nil .nil []).toks = [tk .escaped e] := by simp [Node.toks, he]
    rw [Good, ht]
    refine ⟨fun _ => ⟨_, _, rfl, rfl, rfl⟩, fun r hf => ?_⟩
    refine OkKind.ofTakes (Takes.altL (Takes.capTok rfl)) rfl fun txt => ?_
    rw [hb]
    simp [build, bare_nil, ptrOf, tk]
  subst he
  by_cases hu : u = []
  case neg =>
    have ht : t = [] := by by_contra h; simp [Node.one, List.count_cons, hu, h] at ho
    rcases h1 with rfl | ⟨y, rfl, -⟩
    case inr => simp [Node.one, List.count_cons, hu, Node.isRef] at ho
    rcases h2 with rfl | ⟨y, rfl, -⟩
    case inr => simp [Node.one, List.count_cons, hu, Node.isRef] at ho
    subst ht
    have ht : (Node.stringFragment m [] u .nil .nil []).toks =
        [tk .unicode c!"\\u", tk (if u.length = 8 then .unicodeLong else .unicodeShort) u] := by simp [Node.toks, hu]
    rw [Good, ht]
    refine ⟨fun _ => ⟨_, _, rfl, rfl, rfl⟩, fun r hf => ?_⟩
    have hcap : Takes (cap .unicode (alt (tok .unicodeLong) (tok .unicodeShort)))
        (tk (if u.length = 8 then .unicodeLong else .unicodeShort) u :: r) [.toks .unicode [u]] r := by
      split
      · exact Takes.cap (Ok.altL (Ok.tok (t := tk .unicodeLong u) rfl))
      · have hsoft : Soft {} (tok .unicodeLong) (tk .unicodeShort u :: r) := (bare_of_head rfl).soft
        exact Takes.cap (Ok.altR hsoft (Ok.tok (t := tk .unicodeShort u) rfl))
    refine OkKind.ofTakes (Takes.altR (bare_of_head rfl).soft (Takes.altL (Takes.seq (Takes.tok rfl) hcap))) rfl fun txt => ?_
    rw [hb]
    simp [build, bare_nil, ptrOf]
  subst hu
  rcases h1 with rfl | ⟨y, rfl, hs, -, hy⟩
  case inr =>
    have ht : t = [] := by by_contra h; simp [Node.one, List.count_cons, h, Node.isRef] at ho
    rcases h2 with rfl | ⟨z, rfl, -⟩
    case inr => simp [Node.one, List.count_cons, Node.isRef] at ho
    subst ht
    have ht : (Node.stringFragment m [] [] (.ref y) .nil []).toks = tk .expr c!"${" :: (y.toks ++ [tk .exprEnd c!"}"]) := by
      simp [Node.toks, Node.isRef]
    rw [Good, ht]
    refine ⟨fun _ => ⟨_, _, rfl, rfl, rfl⟩, fun r hf => ?_⟩
    rw [List.cons_append, List.append_assoc]
    refine OkKind.ofTakes (Takes.altR (bare_of_head rfl).soft (Takes.altR (bare_of_head rfl).soft (Takes.altL
      (takes_interp (hy hs) r)))) rfl fun txt => ?_
    rw [hb]
    simp [build, bare_nil, bare_ref, ptrOf]
  rcases h2 with rfl | ⟨y, rfl, hs, -, hy⟩
  case inr =>
    have ht : t = [] := by by_contra h; simp [Node.one, List.count_cons, h, Node.isRef] at ho
    subst ht
    have ht : (Node.stringFragment m [] [] .nil (.ref y) []).toks = tk .directive c!"%{" :: (y.toks ++ [tk .exprEnd c!"}"]) := by
      simp [Node.toks, Node.isRef]
    rw [Good, ht]
    refine ⟨fun _ => ⟨_, _, rfl, rfl, rfl⟩, fun r hf => ?_⟩
    rw [List.cons_append, List.append_assoc]
    refine OkKind.ofTakes (Takes.altR (bare_of_head rfl).soft (Takes.altR (bare_of_head rfl).soft (Takes.altR (bare_of_head rfl).soft
      (Takes.altL (takes_interp (hy hs) r))))) rfl fun txt => ?_
    rw [hb]
    simp [build, bare_nil, bare_ref, ptrOf]
  have ht : (Node.stringFragment m [] [] .nil .nil t).toks = [tk (textSym t) t] := by simp [Node.toks, Node.isRef]
  have hy : textSym t ∈ [Sym.char, Sym.quote, Sym.nonExpr] := by
    unfold textSym
    split
    · simp
    · split <;> simp
  rw [Good, ht]
  refine ⟨fun _ => ⟨_, _, rfl, rfl, ?_⟩, fun r hf => ?_⟩
  · simp only [List.mem_cons, List.not_mem_nil, or_false] at hy
    rcases hy with h | h | h <;> rw [h] <;> rfl
  · have hno : ∀ g, excluded [Sym.char, Sym.quote, Sym.nonExpr] [] (firstG first g) = true → solid g = true → null g = false →
        Soft {} g ([tk (textSym t) t] ++ r) :=
      fun g hg hs hn => (bare_of_head (any_excluded hg hy (by simp)) hs hn).soft
    refine OkKind.ofTakes (Takes.altR (hno _ (by decide) rfl rfl) (Takes.altR (hno _ (by decide) rfl rfl) (Takes.altR (hno _ (by decide) rfl rfl)
      (Takes.altR (hno _ (by decide) rfl rfl) (Takes.cap (Ok.alToks (ys := [.char, .quote, .nonExpr]) hy)))))) rfl fun txt => ?_
    rw [hb]
    simp [build, bare_nil, ptrOf, tk]

omit [FloatValue] in
theorem chain_true {k : Kind} (h : ∀ (y : Node k) r, y.follow r = true) (x : Node (.slice k)) (c : List Token) : x.chain c = true := by
  have items : ∀ x : Node (.items k), x.chain c = true := by
    intro x
    generalize hk : Kind.items k = k' at x
    induction x with
    | cons y ys _ ih =>
      cases hk
      rw [Node.chain, ih rfl, Bool.and_true]
      cases y with
      | nil => rfl
      | ref y => exact h y _
    | _ => first | rfl | cases hk
  cases x with
  | nilSlice => rfl
  | mkSlice a xs => exact items xs

theorem reads_valueString {m : Meta} {x : Node (.slice .stringFragment)} (hx : Reads _ x) : Reads .valueString (.valueString m x) := by
  intro _
  have hb : (Node.valueString m x).bare = .valueString noPos x.bare := rfl
  have ht : (Node.valueString m x).toks = tk .string c!"\"" :: (x.tokss.flatten ++ [tk .stringEnd c!"\""]) := by simp [Node.toks]
  rw [Good, ht]
  refine ⟨fun _ => ⟨_, _, rfl, rfl, rfl⟩, fun r hf => ?_⟩
  obtain ⟨l, hl, hk⟩ := takes_body (f := .fragment) rfl hx (t := tk .stringEnd c!"\"")
    (chain_true (fun y r => by cases y; rfl) x _) r (bare_of_head rfl).soft
  rw [List.cons_append, List.append_assoc, rest_kind]
  refine OkKind.ofTakes (Takes.seq (Takes.tok rfl) (Takes.seq hk (Takes.tok rfl))) rfl fun txt => ?_
  rw [hb, hl]
  simp [build]

/-! ## Heredocs -/

omit [FloatValue] in
/-- The text of a heredoc is cut into tokens. -/
theorem bodyToks_spec (w : Str) : ((bodyToks w).map Token.txt).flatten = w ∧
    ∀ t ∈ bodyToks w, t.pos = {} ∧ (t.sym = .body ∨ t.sym = .eol ∨ t.sym = .nonExpr) := by
  fun_induction bodyToks w with
  | case1 => simp
  | case2 r ih => simp [tk, ih.1]; exact ih.2
  | case3 r ih => simp [tk, ih.1]; exact ih.2
  | case4 r ih => simp [tk, ih.1]; exact ih.2
  | case5 c r _ _ _ hr ih =>
    rw [hr] at ih
    simp [tk, ← ih.1]
  | case6 c r _ _ _ t ts hr ht ih =>
    rw [hr] at ih
    simp only [List.map_cons, List.flatten_cons, List.forall_mem_cons] at ih
    simp [tk, ← ih.1]
    exact ih.2.2
  | case7 c r _ _ _ t ts hr ht ih =>
    rw [hr] at ih
    simp only [List.map_cons, List.flatten_cons, List.forall_mem_cons] at ih
    simp [tk, ← ih.1]
    exact ih.2

theorem reads_heredocFragment {m : Meta} {x1 x2 : Node (.ptr .expr)} {t : Str}
    (hc : (Node.heredocFragment m x1 x2 t).canon = true) (h1 : Reads _ x1) (h2 : Reads _ x2) :
    Reads .heredocFragment (.heredocFragment m x1 x2 t) := by
  intro _
  simp only [Node.canon, Node.everywhere, Node.shaped, Node.writable, Bool.and_eq_true] at hc
  obtain ⟨⟨⟨ho, -⟩, -⟩, -⟩ := hc
  have hb : (Node.heredocFragment m x1 x2 t).bare = .heredocFragment noPos x1.bare x2.bare t := rfl
  rcases h1 with rfl | ⟨y, rfl, hs, -, hy⟩
  case inr =>
    have ht : t = [] := by by_contra h; simp [Node.one, List.count_cons, h, Node.isRef] at ho
    rcases h2 with rfl | ⟨z, rfl, -⟩
    case inr => simp [Node.one, List.count_cons, Node.isRef] at ho
    subst ht
    have ht : (Node.heredocFragment m (.ref y) .nil []).toks = tk .expr c!"${" :: (y.toks ++ [tk .exprEnd c!"}"]) := by
      simp [Node.toks, Node.isRef]
    rw [Good, ht]
    refine ⟨fun _ => ⟨_, _, rfl, rfl, rfl⟩, fun r hf => ?_⟩
    rw [List.cons_append, List.append_assoc]
    refine OkKind.ofTakes (Takes.altL (takes_interp (hy hs) r)) rfl fun txt => ?_
    rw [hb]
    simp [build, bare_nil, bare_ref, ptrOf]
  rcases h2 with rfl | ⟨y, rfl, hs, -, hy⟩
  case inr =>
    have ht : t = [] := by by_contra h; simp [Node.one, List.count_cons, h, Node.isRef] at ho
    subst ht
    have ht : (Node.heredocFragment m .nil (.ref y) []).toks = tk .directive c!"%{" :: (y.toks ++ [tk .exprEnd c!"}"]) := by
      simp [Node.toks, Node.isRef]
    rw [Good, ht]
    refine ⟨fun _ => ⟨_, _, rfl, rfl, rfl⟩, fun r hf => ?_⟩
    rw [List.cons_append, List.append_assoc]
    refine OkKind.ofTakes (Takes.altR (bare_of_head rfl).soft (Takes.altL (takes_interp (hy hs) r))) rfl fun txt => ?_
    rw [hb]
    simp [build, bare_nil, bare_ref, ptrOf]
  have ht : (Node.heredocFragment m .nil .nil t).toks = bodyToks t := by simp [Node.toks, Node.isRef]
  have hne : t ≠ [] := by rintro rfl; simp [Node.one, List.count_cons, Node.isRef] at ho
  obtain ⟨hflat, hsym⟩ := bodyToks_spec t
  obtain ⟨t0, ts, hcons⟩ : ∃ t0 ts, bodyToks t = t0 :: ts := by
    cases h : bodyToks t with
    | nil => rw [h] at hflat; exact absurd hflat.symm hne
    | cons a b => exact ⟨a, b, rfl⟩
  rw [Good, ht]
  rw [hcons] at hsym hflat ⊢
  have h0 := hsym t0 (by simp)
  refine ⟨fun _ => ⟨_, _, rfl, h0.1, by rcases h0.2 with h | h | h <;> simp [startOk, starts, textOk, h]⟩, fun r hf => ?_⟩
  simp only [Node.follow, Bool.or_eq_true, decide_eq_true_eq, hne, false_or] at hf
  have hsoft : Soft {} (cap .text (al [tok .body, tok .eol, tok .nonExpr])) r :=
    Soft.cap (Bare.alToks (ys := [.body, .eol, .nonExpr]) (by simp) (by simpa [headNot_iff, not_or, and_assoc] using hf))
  have one : ∀ (t : Token) (r : List Token), (t.sym = .body ∨ t.sym = .eol ∨ t.sym = .nonExpr) →
      Takes (cap .text (al [tok .body, tok .eol, tok .nonExpr])) (t :: r) [.toks .text [t.txt]] r := by
    intro t r h
    exact Takes.cap (Ok.alToks (ys := [.body, .eol, .nonExpr]) (by simpa using h))
  have star : ∀ l : List Token, (∀ t ∈ l, t.sym = .body ∨ t.sym = .eol ∨ t.sym = .nonExpr) →
      Takes (.star (cap .text (al [tok .body, tok .eol, tok .nonExpr]))) (l ++ r) (capStrs .text (l.map Token.txt)) r := by
    intro l hl
    induction l with
    | nil => exact Takes.nil hsoft
    | cons t l ih => exact Takes.cons (one t _ (hl t (by simp))) (by simp) (ih fun u hu => hl u (List.mem_cons_of_mem _ hu))
  have hx : ∀ {g : Gram} (_ : excluded [.body, .eol, .nonExpr] [] (firstG first g) = true) (_ : solid g = true)
      (_ : null g = false), Soft {} g (t0 :: ts ++ r) := by
    intro g h1 h2 h3
    exact (bare_of_head (any_excluded h1 (by simpa using h0.2) (by simp)) h2 h3).soft
  refine OkKind.ofTakes (Takes.altR (hx (by decide) rfl rfl) (Takes.altR (hx (by decide) rfl rfl)
    (Takes.plus (one t0 _ h0.2) (star ts fun u hu => (hsym u (by simp [hu])).2)))) h0.1 fun txt => ?_
  rw [hb]
  simpa [build, bare_nil, ptrOf, tk] using hflat

theorem reads_heredoc {m : Meta} {b : Bool} {d : Str} {x : Node (.slice .heredocFragment)}
    (hc : (Node.heredoc m b d x).canon = true) (hx : Reads _ x) : Reads .heredoc (.heredoc m b d x) := by
  intro _
  simp only [Node.canon, Node.everywhere, Node.shaped, Node.writable, Bool.and_eq_true, decide_eq_true_eq] at hc
  obtain ⟨⟨-, hd, hch⟩, -⟩ := hc
  have hb : (Node.heredoc m b d x).bare = .heredoc noPos b d x.bare := rfl
  have ht : (Node.heredoc m b d x).toks = tk .heredoc (c!"<<" ++ (if b then c!"-" else []) ++ d ++ c!"\n") ::
      (x.tokss.flatten ++ [tk .heredocEnd d]) := by rw [Node.toks]
  generalize c!"<<" ++ (if b then c!"-" else []) ++ d ++ c!"\n" = w at hd ht
  rw [Good, ht]
  refine ⟨fun _ => ⟨_, _, rfl, rfl, rfl⟩, fun r hf => ?_⟩
  obtain ⟨l, hl, hk⟩ := takes_body (f := .fragments) rfl hx hch r
    (bare_of_head (any_excluded (ys := [.heredocEnd]) (ws := []) (by decide) (by simp [tk]) (by simp))).soft
  rw [List.cons_append, List.append_assoc, rest_kind]
  refine OkKind.ofTakes (Takes.seq (Takes.capTok rfl) (Takes.seq hk (Takes.tok rfl))) rfl fun txt => ?_
  rw [hb, hl]
  simp [build, tk, hd]

/-! ## Lists and maps -/

theorem reads_valueList {m : Meta} {x : Node (.slice .listItem)} (hc : (Node.valueList m x).canon = true) (hx : Reads _ x) :
    Reads .valueList (.valueList m x) := by
  intro _
  simp only [Node.canon, Node.everywhere, Node.shaped, Node.writable, Bool.and_eq_true] at hc
  obtain ⟨⟨-, hch, hbl⟩, -⟩ := hc
  have hb : (Node.valueList m x).bare = .valueList noPos x.bare := rfl
  have ht : (Node.valueList m x).toks =
    tk .opLBracket c!"[" :: ((if x.isNilSlice then [] else lfTok :: x.tokss.flatten) ++ [tk .opRBracket c!"]"]) := by rw [Node.toks]
  rw [Good, ht]
  refine ⟨fun _ => ⟨_, _, rfl, rfl, rfl⟩, fun r hf => ?_⟩
  obtain ⟨l, hl, hk⟩ := takes_lfsBody (f := .items) (g := lit c!"]") rfl hx hch hbl (by decide) r
    (bare_of_head (by decide +kernel)).soft (Takes.lit rfl)
  rw [List.cons_append, List.append_assoc, rest_kind]
  refine OkKind.ofTakes (Takes.seq (Takes.lit rfl) hk) rfl fun txt => ?_
  rw [hb, hl]
  simp [build]

theorem reads_valueMap {m : Meta} {x : Node (.slice .mapItem)} (hc : (Node.valueMap m x).canon = true) (hx : Reads _ x) :
    Reads .valueMap (.valueMap m x) := by
  intro _
  simp only [Node.canon, Node.everywhere, Node.shaped, Node.writable, Bool.and_eq_true] at hc
  obtain ⟨⟨-, hch, hbl⟩, -⟩ := hc
  have hb : (Node.valueMap m x).bare = .valueMap noPos x.bare := rfl
  have ht : (Node.valueMap m x).toks =
    tk .blockStart c!"{" :: ((if x.isNilSlice then [] else lfTok :: x.tokss.flatten) ++ [tk .blockEnd c!"}"]) := by
    rw [Node.toks, braces]
  rw [Good, ht]
  refine ⟨fun _ => ⟨_, _, rfl, rfl, rfl⟩, fun r hf => ?_⟩
  obtain ⟨l, hl, hk⟩ := takes_lfsBody (f := .items) (g := lit c!"}") rfl hx hch hbl (by decide) r
    (bare_of_head (by decide +kernel)).soft (Takes.lit rfl)
  rw [List.cons_append, List.append_assoc, rest_kind]
  refine OkKind.ofTakes (Takes.seq (Takes.lit rfl) hk) rfl fun txt => ?_
  rw [hb, hl]
  simp [build]

theorem reads_mapKey {m : Meta} {x1 : Node (.ptr .ident)} {x2 : Node (.ptr .valueString)}
    (hc : (Node.mapKey m x1 x2).canon = true) (h1 : Reads _ x1) (h2 : Reads _ x2) : Reads .mapKey (.mapKey m x1 x2) := by
  intro _
  simp only [Node.canon, Node.everywhere, Node.shaped, Node.writable, Bool.and_eq_true] at hc
  obtain ⟨⟨⟨ho, -⟩, -⟩, -⟩ := hc
  have hb : (Node.mapKey m x1 x2).bare = .mapKey noPos x1.bare x2.bare := rfl
  rcases h1 with rfl | ⟨y, rfl, hs, -, hy⟩
  case inr =>
    rcases h2 with rfl | ⟨z, rfl, -⟩
    case inr => simp [Node.one, List.count_cons, Node.isRef] at ho
    have hy := hy hs
    have ht : (Node.mapKey m (.ref y) .nil).toks = y.toks := by simp [Node.toks, Node.isRef]
    have hh : HeadIn .ident y.toks := hy.1 rfl
    rw [Good, ht]
    refine ⟨fun _ => hh.mono (by decide), fun r hf => ?_⟩
    refine OkKind.ofTakes (Takes.altL (Takes.sub (hy.ok (by cases y; exact hf)))) (hh.append r).posOf fun txt => ?_
    rw [hb]
    simp [build, bare_nil, bare_ref, ptrOf]
  rcases h2 with rfl | ⟨z, rfl, hs, -, hy⟩
  case inl => simp [Node.one, List.count_cons, Node.isRef] at ho
  have hy := hy hs
  have ht : (Node.mapKey m .nil (.ref z)).toks = z.toks := by simp [Node.toks, Node.isRef]
  have hh : HeadIn .valueString z.toks := hy.1 rfl
  rw [Good, ht]
  refine ⟨fun _ => hh.mono (by decide), fun r hf => ?_⟩
  refine OkKind.ofTakes (Takes.altR (hh.append r).soft (Takes.sub (hy.ok (by cases z; rfl)))) (hh.append r).posOf fun txt => ?_
  rw [hb]
  simp [build, bare_nil, bare_ref, ptrOf]

/-- Nothing else begins like a comment. -/
theorem HeadIn.softComment {s : List Token} (h : HeadIn .comment s) {g : Gram}
    (ht : (firstG first g).all (fun | .sym y => !commentSyms.contains y | .lit w => !commentText w) = true := by decide +kernel)
    (hg : solid g = true := by rfl) (hn : null g = false := by rfl) : Soft {} g s := by
  obtain ⟨t, u, rfl, hp, ho⟩ := h
  simp only [startOk, Bool.and_eq_true] at ho
  refine (bare_of_head ?_ hg hn).soft
  rw [List.any_eq_false]
  intro x hx
  have := List.all_eq_true.mp ht x hx
  cases x with
  | sym y =>
    simp only [Test.ok, decide_eq_true_eq]
    rintro rfl
    have h : (commentSyms.contains t.sym) = true := ho.1
    simp only [h] at this
    cases this
  | lit w =>
    simp only [Test.ok, decide_eq_true_eq]
    rintro rfl
    have h : commentText t.txt = true := ho.2
    simp only [h] at this
    cases this

omit [FloatValue] in
@[simp] theorem flatten_chars (e : Str) : (List.map (fun c => [c]) e).flatten = e := by
  induction e with
  | nil => rfl
  | cons c e ih => simp [ih]

omit [FloatValue] in
/-- Blank lines. -/
theorem headIn_blank {e : Str} (h : e ≠ []) : ∃ u, blankToks e = tk .lf [e.head h] :: u := by
  cases e with
  | nil => exact absurd rfl h
  | cons c e => exact ⟨_, rfl⟩

theorem reads_listItem {m : Meta} {e : Str} {x1 : Node (.ptr .expr)} {x2 : Node (.ptr .comment)}
    (hc : (Node.listItem m e x1 x2).canon = true) (h1 : Reads _ x1) (h2 : Reads _ x2) : Reads .listItem (.listItem m e x1 x2) := by
  intro _
  simp only [Node.canon, Node.everywhere, Node.shaped, Node.writable, Bool.and_eq_true] at hc
  obtain ⟨⟨⟨ho, -⟩, -⟩, -⟩ := hc
  have hb : (Node.listItem m e x1 x2).bare = .listItem noPos e x1.bare x2.bare := rfl
  by_cases he : e = []
  case neg =>
    rcases h1 with rfl | ⟨z, rfl, -⟩
    case inr => simp [Node.one, List.count_cons, he, Node.isRef] at ho
    rcases h2 with rfl | ⟨z, rfl, -⟩
    case inr => simp [Node.one, List.count_cons, he, Node.isRef] at ho
    have ht : (Node.listItem m e .nil .nil).toks = blankToks e := by simp [Node.toks, he]
    obtain ⟨u, hu⟩ := headIn_blank he
    rw [Good, ht]
    refine ⟨fun _ => ⟨_, _, hu, rfl, rfl⟩, fun r hf => ?_⟩
    simp only [Node.follow, ne_eq, he, not_false_eq_true, if_true] at hf
    refine OkKind.ofTakes (Takes.altL (Takes.blanks he hf)) (by rw [hu]; rfl) fun txt => ?_
    rw [hb]
    simp [build, bare_nil, ptrOf]
  subst he
  rcases h1 with rfl | ⟨y, rfl, hs, -, hy⟩
  case inr =>
    rcases h2 with rfl | ⟨z, rfl, -⟩
    case inr => simp [Node.one, List.count_cons, Node.isRef] at ho
    have hy := hy hs
    have ht : (Node.listItem m [] (.ref y) .nil).toks = y.toks ++ [comma, lfTok] := by simp [Node.toks, Node.isRef]
    have hh : HeadIn .expr y.toks := hy.1 rfl
    rw [Good, ht]
    refine ⟨fun _ => (hh.append _).mono (by decide), fun r hf => ?_⟩
    rw [List.append_assoc]
    refine OkKind.ofTakes (Takes.altR (hh.append _).soft (Takes.altL (Takes.seq (Takes.sub (hy.expr (t := comma) (u := lfTok :: r)))
      (Takes.seq (Takes.once (Takes.lit rfl)) Takes.lf)))) (hh.append _).posOf fun txt => ?_
    rw [hb]
    simp [build, bare_nil, bare_ref, ptrOf]
  rcases h2 with rfl | ⟨y, rfl, hs, -, hy⟩
  case inl => simp [Node.one, List.count_cons, Node.isRef] at ho
  have hy := hy hs
  have ht : (Node.listItem m [] .nil (.ref y)).toks = y.toks := by simp [Node.toks, Node.isRef]
  have hh : HeadIn .comment y.toks := hy.1 rfl
  rw [Good, ht]
  refine ⟨fun _ => hh.mono (by decide), fun r hf => ?_⟩
  have hf : y.follow r = true := by simpa [Node.follow, Node.isRef] using hf
  refine OkKind.ofTakes (Takes.altR (hh.append r).soft (Takes.altR (hh.append r).softComment (Takes.sub (hy.ok hf))))
    (hh.append _).posOf fun txt => ?_
  rw [hb]
  simp [build, bare_nil, bare_ref, ptrOf]

theorem reads_mapItem {m : Meta} {e : Str} {x1 : Node (.ptr .mapKey)} {x2 : Node (.ptr .expr)} {x3 : Node (.ptr .comment)}
    (hc : (Node.mapItem m e x1 x2 x3).canon = true) (h1 : Reads _ x1) (h2 : Reads _ x2) (h3 : Reads _ x3) :
    Reads .mapItem (.mapItem m e x1 x2 x3) := by
  intro _
  simp only [Node.canon, Node.everywhere, Node.shaped, Node.writable, Bool.and_eq_true] at hc
  obtain ⟨⟨⟨⟨⟨ho, h12⟩, -⟩, -⟩, -⟩, -⟩ := hc
  have hb : (Node.mapItem m e x1 x2 x3).bare = .mapItem noPos e x1.bare x2.bare x3.bare := rfl
  by_cases he : e = []
  case neg =>
    rcases h1 with rfl | ⟨z, rfl, -⟩
    case inr => simp [Node.one, List.count_cons, he, Node.isRef] at ho
    rcases h2 with rfl | ⟨z, rfl, -⟩
    case inr => simp [Node.isRef] at h12
    rcases h3 with rfl | ⟨z, rfl, -⟩
    case inr => simp [Node.one, List.count_cons, he, Node.isRef] at ho
    have ht : (Node.mapItem m e .nil .nil .nil).toks = blankToks e := by simp [Node.toks, he]
    obtain ⟨u, hu⟩ := headIn_blank he
    rw [Good, ht]
    refine ⟨fun _ => ⟨_, _, hu, rfl, rfl⟩, fun r hf => ?_⟩
    simp only [Node.follow, ne_eq, he, not_false_eq_true, if_true] at hf
    refine OkKind.ofTakes (Takes.altL (Takes.blanks he hf)) (by rw [hu]; rfl) fun txt => ?_
    rw [hb]
    simp [build, bare_nil, ptrOf]
  subst he
  rcases h1 with rfl | ⟨y, rfl, hs, -, hy⟩
  case inr =>
    rcases h2 with rfl | ⟨z, rfl, hs', -, hz⟩
    case inl => simp [Node.isRef] at h12
    rcases h3 with rfl | ⟨c, rfl, -⟩
    case inr => simp [Node.one, List.count_cons, Node.isRef] at ho
    have hy := hy hs
    have hz := hz hs'
    have ht : (Node.mapItem m [] (.ref y) (.ref z) .nil).toks = y.toks ++ tk .opAssign c!"=" :: (z.toks ++ [comma, lfTok]) := by
      simp [Node.toks, Node.isRef]
    have hh : HeadIn .mapKey y.toks := hy.1 rfl
    rw [Good, ht]
    refine ⟨fun _ => (hh.append _).mono (by decide), fun r hf => ?_⟩
    rw [List.append_assoc, List.cons_append, List.append_assoc]
    refine OkKind.ofTakes (Takes.altR (hh.append _).soft (Takes.altL (Takes.seq (Takes.sub (hy.ok (by cases y; exact stopIdent_of rfl)))
      (Takes.seq (Takes.lit rfl) (Takes.seq (Takes.sub (hz.expr (t := comma) (u := lfTok :: r)))
      (Takes.seq (Takes.once (Takes.lit rfl)) Takes.lf)))))) (hh.append _).posOf fun txt => ?_
    rw [hb]
    simp [build, bare_nil, bare_ref, ptrOf]
  rcases h2 with rfl | ⟨z, rfl, -⟩
  case inr => simp [Node.isRef] at h12
  rcases h3 with rfl | ⟨y, rfl, hs, -, hy⟩
  case inl => simp [Node.one, List.count_cons, Node.isRef] at ho
  have hy := hy hs
  have ht : (Node.mapItem m [] .nil .nil (.ref y)).toks = y.toks := by simp [Node.toks, Node.isRef]
  have hh : HeadIn .comment y.toks := hy.1 rfl
  rw [Good, ht]
  refine ⟨fun _ => hh.mono (by decide), fun r hf => ?_⟩
  have hf : y.follow r = true := by simpa [Node.follow, Node.isRef] using hf
  refine OkKind.ofTakes (Takes.altR (hh.append r).soft (Takes.altR (hh.append r).softComment (Takes.sub (hy.ok hf))))
    (hh.append _).posOf fun txt => ?_
  rw [hb]
  simp [build, bare_nil, bare_ref, ptrOf]

end Verif.Etx
