import Verif.Etx.ReadsOps
import Verif.KernelRfl

/-!
# Reading back values
-/

namespace Verif.Etx
open Gram

variable [FloatValue]

theorem takes_cases {l : List (Node .exprCase)} (h : ∀ y ∈ l, Good y) (r : List Token) :
    Takes (.star (.seq (.sub .cases .exprCase) lfs)) ((l.map fun y => y.toks ++ [lfTok]).flatten ++ tk .blockEnd c!"}" :: r)
      (capNodes .cases (l.map Node.bare)) (tk .blockEnd c!"}" :: r) ∧
    skipLF ((l.map fun y => y.toks ++ [lfTok]).flatten ++ tk .blockEnd c!"}" :: r) =
      (l.map fun y => y.toks ++ [lfTok]).flatten ++ tk .blockEnd c!"}" :: r := by
  induction l with
  | nil => exact ⟨Takes.nil (bare_of_head rfl).soft, skipLF_cons (by decide)⟩
  | cons y l ih =>
    obtain ⟨ih, ihl⟩ := ih fun z hz => h z (List.mem_cons_of_mem _ hz)
    have hy := h y (by simp)
    have hyr := hy.ok (r := lfTok :: ((l.map fun y => y.toks ++ [lfTok]).flatten ++ tk .blockEnd c!"}" :: r)) (by cases y; rfl)
    have hl := Takes.lfs (lfTok :: ((l.map fun y => y.toks ++ [lfTok]).flatten ++ tk .blockEnd c!"}" :: r))
    rw [skipLF_lf rfl, ihl] at hl
    constructor
    · have := Takes.cons (Takes.seq (Takes.sub (f := .cases) hyr) hl) (by simp; omega) ih
      simpa [capNodes] using this
    · have := HeadIn.skipLF (hy.1 rfl) (lfTok :: ((l.map fun y => y.toks ++ [lfTok]).flatten ++ tk .blockEnd c!"}" :: r))
      simpa using this

theorem reads_switch {m : Meta} {x : Node (.bin .logicalOr)} {y : Node (.slice .exprCase)} (hx : Reads _ x) (hy : Reads _ y) :
    Reads .exprSwitch (.exprSwitch m x y) := by
  intro _
  have hx := hx (by cases x; rfl)
  have hb : (Node.exprSwitch m x y).bare = .exprSwitch noPos x.bare y.bare := rfl
  refine ⟨fun _ => by rw [Node.toks]; exact ⟨_, _, rfl, rfl, rfl⟩, fun r hf => ?_⟩
  rw [rest_kind]
  have key : ∃ l, y.bare = sliceOf l ∧ Takes (sq [lit c!"{", lfs, star (seq (sub .cases .exprCase) lfs), lit c!"}"])
      (tk .blockStart c!"{" :: ((if y.isNilSlice then [] else lfTok :: (y.tokss.map (· ++ [lfTok])).flatten) ++ tk .blockEnd c!"}" :: r))
      (capNodes .cases l) r := by
    rcases hy with rfl | ⟨a, l, rfl, hl, hy⟩
    · exact ⟨[], bare_nilSlice, Takes.seq (c := []) (Takes.lit rfl) (Takes.seq (c := []) (Takes.noLfs rfl)
        (Takes.seq (c := []) (takes_cases (l := []) (by simp) r).1 (Takes.lit rfl)))⟩
    · refine ⟨l.map Node.bare, bare_slice a hl, ?_⟩
      obtain ⟨h1, h2⟩ := takes_cases (fun z hz => (hy z hz).2.2 (hy z hz).1) r
      have hl := Takes.lfs (lfTok :: ((l.map fun y => y.toks ++ [lfTok]).flatten ++ tk .blockEnd c!"}" :: r))
      rw [skipLF_lf rfl, h2] at hl
      have := Takes.seq (Takes.lit (w := c!"{") (t := tk .blockStart c!"{") rfl) (Takes.seq hl (Takes.seq h1 (Takes.lit (w := c!"}") rfl)))
      have e : (Node.mkSlice a (Out.items l)).isNilSlice = false := rfl
      simpa [e, Node.tokss, tokss_items, Function.comp_def, sq] using this
  obtain ⟨l, hl, hk⟩ := key
  have hxr := hx.bin (t := tk .blockStart c!"{") (u := (if y.isNilSlice then [] else lfTok :: (y.tokss.map (· ++ [lfTok])).flatten) ++ tk .blockEnd c!"}" :: r)
  refine OkKind.cast (OkKind.ofTakes (k := .exprSwitch) (x := (Node.exprSwitch m x y).bare)
    (Takes.seq (Takes.tok (t := tk .switch_ c!"switch") rfl) (Takes.seq (Takes.sub hxr) (Takes.seq (Takes.noLfs rfl) hk))) rfl
    fun txt => ?_) ?_ rfl rfl
  · rw [hb, hl]
    simp [build]
  · simp [Node.toks, braces]

/-! ## Values -/

theorem captureNumber_null : captureNumber c!"null" = none := by kernel_rfl
theorem captureNumber_true : captureNumber c!"true" = none := by kernel_rfl
theorem captureNumber_false : captureNumber c!"false" = none := by kernel_rfl
theorem captureNumber_paren : captureNumber c!"(" = none := by kernel_rfl

/-- The text of a number is not a keyword. -/
theorem number_text {s : Str} {v : BigFloat} (h : captureNumber s = some (v, s)) :
    s ∉ [c!"null", c!"true", c!"false", c!"("] := by
  intro hm
  simp only [List.mem_cons, List.not_mem_nil, or_false] at hm
  rcases hm with rfl | rfl | rfl | rfl
  · rw [captureNumber_null] at h; cases h
  · rw [captureNumber_true] at h; cases h
  · rw [captureNumber_false] at h; cases h
  · rw [captureNumber_paren] at h; cases h

/-- The tokens of a value other than `null`, `true`, `false` and numbers. -/
theorem reads_value {m : Meta} {n : Bool} {x1 : Node (.ptr .valueBool)} {x2 : Node (.ptr .valueNumber)} {x3 : Node (.ptr .valueString)}
    {x4 : Node (.ptr .heredoc)} {x5 : Node (.ptr .valueList)} {x6 : Node (.ptr .valueMap)}
    (hc : (Node.value m n x1 x2 x3 x4 x5 x6).canon = true) (h1 : Reads _ x1) (h2 : Reads _ x2) (h3 : Reads _ x3)
    (h4 : Reads _ x4) (h5 : Reads _ x5) (h6 : Reads _ x6) : Reads .value (.value m n x1 x2 x3 x4 x5 x6) := by
  intro _
  simp only [Node.canon, Node.everywhere, Node.shaped, Node.writable, Bool.and_eq_true] at hc
  obtain ⟨⟨⟨⟨⟨⟨⟨ho, -⟩, -⟩, -⟩, -⟩, -⟩, -⟩, -⟩ := hc
  have hb : (Node.value m n x1 x2 x3 x4 x5 x6).bare = .value noPos n x1.bare x2.bare x3.bare x4.bare x5.bare x6.bare := rfl
  cases n with
  | true =>
    rcases h1 with rfl | ⟨y1, rfl, -⟩
    case inr => simp [Node.one, Node.isRef] at ho
    rcases h2 with rfl | ⟨y1, rfl, -⟩
    case inr => simp [Node.one, Node.isRef] at ho
    rcases h3 with rfl | ⟨y1, rfl, -⟩
    case inr => simp [Node.one, Node.isRef] at ho
    rcases h4 with rfl | ⟨y1, rfl, -⟩
    case inr => simp [Node.one, Node.isRef] at ho
    rcases h5 with rfl | ⟨y1, rfl, -⟩
    case inr => simp [Node.one, Node.isRef] at ho
    rcases h6 with rfl | ⟨y1, rfl, -⟩
    case inr => simp [Node.one, Node.isRef] at ho
    have ht : (Node.value m true .nil .nil .nil .nil .nil .nil).toks = [tk .ident c!"null"] := by simp [Node.toks]
    rw [Good, ht]
    refine ⟨fun _ => ⟨_, _, rfl, rfl, rfl⟩, fun r hf => ?_⟩
    exact OkKind.ofTakes (Takes.altL (Takes.capLit rfl)) rfl fun txt => rfl
  | false =>
  rcases h1 with rfl | ⟨y1, rfl, hs, hcy, hy⟩
  case inr =>
    rcases h2 with rfl | ⟨y2, rfl, -⟩
    case inr => simp [Node.one, Node.isRef] at ho
    rcases h3 with rfl | ⟨y2, rfl, -⟩
    case inr => simp [Node.one, Node.isRef] at ho
    rcases h4 with rfl | ⟨y2, rfl, -⟩
    case inr => simp [Node.one, Node.isRef] at ho
    rcases h5 with rfl | ⟨y2, rfl, -⟩
    case inr => simp [Node.one, Node.isRef] at ho
    rcases h6 with rfl | ⟨y2, rfl, -⟩
    case inr => simp [Node.one, Node.isRef] at ho
    cases y1 with | valueBool m' b => ?_
    have ht : (Node.value m false (.ref (.valueBool m' b)) .nil .nil .nil .nil .nil).toks =
      [tk .ident (if b then c!"true" else c!"false")] := by simp [Node.toks, Node.isRef]
    rw [Good, ht]
    refine ⟨fun _ => ⟨_, _, rfl, rfl, by cases b <;> rfl⟩, fun r hf => ?_⟩
    cases b with
    | true => exact OkKind.ofTakes (Takes.altR (bare_of_head rfl).soft (Takes.altL (Takes.cap (Ok.altL (Ok.lit rfl))))) rfl fun txt => rfl
    | false => exact OkKind.ofTakes (Takes.altR (bare_of_head rfl).soft (Takes.altL (Takes.cap (Ok.altR (bare_of_head rfl).soft
        (Ok.lit rfl))))) rfl fun txt => rfl
  rcases h2 with rfl | ⟨y1, rfl, hs, hcy, hy⟩
  case inr =>
    rcases h3 with rfl | ⟨y2, rfl, -⟩
    case inr => simp [Node.one, Node.isRef] at ho
    rcases h4 with rfl | ⟨y2, rfl, -⟩
    case inr => simp [Node.one, Node.isRef] at ho
    rcases h5 with rfl | ⟨y2, rfl, -⟩
    case inr => simp [Node.one, Node.isRef] at ho
    rcases h6 with rfl | ⟨y2, rfl, -⟩
    case inr => simp [Node.one, Node.isRef] at ho
    cases y1 with | valueNumber m' v s => ?_
    simp only [Node.canon, Node.everywhere, Node.shaped, Node.writable, Bool.and_eq_true, decide_eq_true_eq] at hcy
    obtain ⟨⟨hv, -⟩, hcn⟩ := hcy
    obtain ⟨⟨a, f⟩, rfl⟩ := Option.isSome_iff_exists.mp hv
    have hcn : captureNumber s = some (f, s) := hcn
    have hw := number_text hcn
    have ht : (Node.value m false .nil (.ref (.valueNumber m' (some (a, f)) s)) .nil .nil .nil .nil).toks = [tk .number s] := by
      simp [Node.toks, Node.isRef]
    rw [Good, ht]
    have hp : s ≠ c!"(" := fun h => hw (by simp [h])
    refine ⟨fun _ => ⟨_, _, rfl, rfl, ?_⟩, fun r hf => ?_⟩
    · have h : (starts .value).contains Sym.number = true := rfl
      have h' : (!decide (s = c!"(")) = true := by simpa using hp
      exact Bool.and_eq_true_iff.mpr ⟨h, h'⟩
    · refine OkKind.ofTakes (Takes.altR (bare_of_head ?_).soft (Takes.altR (bare_of_head ?_).soft (Takes.altL (Takes.capTok rfl)))) rfl
        fun txt => ?_
      · exact any_excluded (ys := [.number]) (ws := [c!"null", c!"true", c!"false", c!"("]) (by decide) (by simp [tk]) hw
      · exact any_excluded (ys := [.number]) (ws := [c!"null", c!"true", c!"false", c!"("]) (by decide) (by simp [tk]) hw
      · rw [hb]
        simp [build, tk, hcn, bare_nil, bare_ref, ptrOf]
        simp [Node.bare, Node.map, mapFloat]
  rcases h3 with rfl | ⟨y1, rfl, hs, hcy, hy⟩
  case inr =>
    rcases h4 with rfl | ⟨y2, rfl, -⟩
    case inr => simp [Node.one, Node.isRef] at ho
    rcases h5 with rfl | ⟨y2, rfl, -⟩
    case inr => simp [Node.one, Node.isRef] at ho
    rcases h6 with rfl | ⟨y2, rfl, -⟩
    case inr => simp [Node.one, Node.isRef] at ho
    have hy := hy hs
    have ht : (Node.value m false .nil .nil (.ref y1) .nil .nil .nil).toks = y1.toks := by simp [Node.toks, Node.isRef]
    have he : ∃ u, y1.toks = tk .string c!"\"" :: u := by cases y1; rw [Node.toks]; exact ⟨_, rfl⟩
    obtain ⟨u, he⟩ := he
    refine ⟨fun _ => by rw [ht, he]; exact ⟨_, _, rfl, rfl, rfl⟩, fun r hf => ?_⟩
    have hyr := hy.ok (r := r) (by cases y1; rfl)
    rw [ht]
    rw [he] at hyr ⊢
    refine OkKind.ofTakes (Takes.altR (bare_of_head rfl).soft (Takes.altR (bare_of_head rfl).soft (Takes.altR (bare_of_head rfl).soft
      (Takes.altL (Takes.sub hyr))))) rfl fun txt => ?_
    rw [hb]
    simp [build, bare_nil, bare_ref, ptrOf]
  rcases h4 with rfl | ⟨y1, rfl, hs, hcy, hy⟩
  case inr =>
    rcases h5 with rfl | ⟨y2, rfl, -⟩
    case inr => simp [Node.one, Node.isRef] at ho
    rcases h6 with rfl | ⟨y2, rfl, -⟩
    case inr => simp [Node.one, Node.isRef] at ho
    have hy := hy hs
    have ht : (Node.value m false .nil .nil .nil (.ref y1) .nil .nil).toks = y1.toks := by simp [Node.toks, Node.isRef]
    have he : ∃ w u, y1.toks = tk .heredoc ('<' :: w) :: u := by
      cases y1; rw [Node.toks]; exact ⟨_, _, rfl⟩
    obtain ⟨w, u, he⟩ := he
    refine ⟨fun _ => by rw [ht, he]; exact ⟨_, _, rfl, rfl, by simp [startOk, textOk, tk, starts, valueSyms]⟩, fun r hf => ?_⟩
    have hyr := hy.ok (r := r) (by cases y1; rfl)
    rw [ht]
    rw [he] at hyr ⊢
    have hno : (tk .heredoc ('<' :: w)).txt ∉ [c!"null", c!"true", c!"false"] := by simp [tk]
    have hsy : (tk .heredoc ('<' :: w)).sym ∈ [Sym.heredoc] := by simp [tk]
    refine OkKind.ofTakes (Takes.altR (bare_of_head (any_excluded (by decide) hsy hno)).soft
      (Takes.altR (bare_of_head (any_excluded (by decide) hsy hno)).soft (Takes.altR (bare_of_head (any_excluded (by decide) hsy hno)).soft
      (Takes.altR (bare_of_head (any_excluded (by decide) hsy hno)).soft (Takes.altL (Takes.sub hyr)))))) rfl fun txt => ?_
    rw [hb]
    simp [build, bare_nil, bare_ref, ptrOf]
  rcases h5 with rfl | ⟨y1, rfl, hs, hcy, hy⟩
  case inr =>
    rcases h6 with rfl | ⟨y2, rfl, -⟩
    case inr => simp [Node.one, Node.isRef] at ho
    have hy := hy hs
    have ht : (Node.value m false .nil .nil .nil .nil (.ref y1) .nil).toks = y1.toks := by simp [Node.toks, Node.isRef]
    have he : ∃ u, y1.toks = tk .opLBracket c!"[" :: u := by cases y1; rw [Node.toks]; exact ⟨_, rfl⟩
    obtain ⟨u, he⟩ := he
    refine ⟨fun _ => by rw [ht, he]; exact ⟨_, _, rfl, rfl, rfl⟩, fun r hf => ?_⟩
    have hyr := hy.ok (r := r) (by cases y1; rfl)
    rw [ht]
    rw [he] at hyr ⊢
    refine OkKind.ofTakes (Takes.altR (bare_of_head rfl).soft (Takes.altR (bare_of_head rfl).soft (Takes.altR (bare_of_head rfl).soft
      (Takes.altR (bare_of_head rfl).soft (Takes.altR (bare_of_head rfl).soft (Takes.altL (Takes.sub hyr))))))) rfl fun txt => ?_
    rw [hb]
    simp [build, bare_nil, bare_ref, ptrOf]
  rcases h6 with rfl | ⟨y1, rfl, hs, hcy, hy⟩
  case inl => simp [Node.one, Node.isRef] at ho
  have hy := hy hs
  have ht : (Node.value m false .nil .nil .nil .nil .nil (.ref y1)).toks = y1.toks := by simp [Node.toks, Node.isRef]
  have he : ∃ u, y1.toks = tk .blockStart c!"{" :: u := by cases y1; rw [Node.toks]; exact ⟨_, rfl⟩
  obtain ⟨u, he⟩ := he
  refine ⟨fun _ => by rw [ht, he]; exact ⟨_, _, rfl, rfl, rfl⟩, fun r hf => ?_⟩
  have hyr := hy.ok (r := r) (by cases y1; rfl)
  rw [ht]
  rw [he] at hyr ⊢
  refine OkKind.ofTakes (Takes.altR (bare_of_head rfl).soft (Takes.altR (bare_of_head rfl).soft (Takes.altR (bare_of_head rfl).soft
    (Takes.altR (bare_of_head rfl).soft (Takes.altR (bare_of_head rfl).soft (Takes.altR (bare_of_head rfl).soft (Takes.sub hyr)))))))
    rfl fun txt => ?_
  rw [hb]
  simp [build, bare_nil, bare_ref, ptrOf]

end Verif.Etx
