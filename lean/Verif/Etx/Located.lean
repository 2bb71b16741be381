import Verif.Etx.FaithfulParse
import Verif.Etx.Local

/-!
# Where the structs of a document are in the text

Every struct is built from a part of the tokens, and has the position of the first of these.
-/

namespace Verif.Etx
open Node Gram

/-- The text of an item that is only blank lines (nothing for all other structs). -/
def Node.blankLines : {k : Kind} → Node k → Str
  | _, .rootItem _ e _ _ _ _ _ _ => e
  | _, .blockItem _ e _ _ _ => e
  | _, .funcStatement _ e _ _ _ => e
  | _, .typeEnumItem _ e _ _ _ => e
  | _, .typeObjectItem _ e _ _ _ => e
  | _, .listItem _ e _ _ => e
  | _, .mapItem _ e _ _ _ => e
  | _, _ => []

/-- A line feed or a comma. -/
def Sym.layout : Sym → Bool
  | .lf | .opComma => true
  | _ => false

/-- A list of items, that may be blank lines. -/
def Kind.listing : Kind → Bool
  | .typeEnum | .typeObject => true
  | _ => false

/-- The struct is a part of the tokens, and where this part begins is its position:
* the tokens of this part are those of the struct, up to layout;
* it does not begin with layout, unless the struct is a blank line (or a listing that begins with one);
* it is empty only if the struct has no tokens at all;
* for blank lines, it is their line feeds. -/
def Located (ts : List Token) {k : Kind} (x : Node k) : Prop :=
  ∃ a b c, ts = a ++ b ++ c ∧ SameWords (words b) (words x.toks) ∧
    (∀ t ∈ b.head?, x.info.pos = t.pos ∧ (t.sym.layout = true → x.blankLines ≠ [] ∨ k.listing = true)) ∧
    (b = [] → x.toks = []) ∧
    (x.blankLines ≠ [] → (∀ t ∈ b, t.sym = .lf) ∧ (b.map (·.txt)).flatten = x.blankLines)

/-- The structs that are filled by a capture function (`value.go:125-129`, `value.go:164-178`); these have no position. -/
def Kind.captured : Kind → Bool
  | .valueBool | .valueNumber => true
  | _ => false

/-! ## The first token -/

/-- The structs that may begin with a line feed. -/
def layoutKind : Kind → Bool
  | .rootItem | .blockItem | .funcStatement | .typeEnumItem | .typeObjectItem | .listItem | .mapItem => true
  | .typeEnum | .typeObject => true
  | _ => false

/-- The production may begin with layout. -/
def layoutFirst : Gram → Bool
  | lit w => (litSym w).layout
  | tok y => y.layout
  | seq a b => layoutFirst a || (null a && layoutFirst b)
  | alt a b => layoutFirst a || layoutFirst b
  | Gram.opt a => layoutFirst a
  | Gram.star a => layoutFirst a
  | plus a => layoutFirst a
  | cap _ a => layoutFirst a
  | sub _ k => layoutKind k

theorem layoutFirst_of (k : Kind) : layoutFirst (of k) = layoutKind k := by
  cases k
  case bin l => cases l <;> decide +kernel
  case ptr | slice | items => rfl
  all_goals decide +kernel

/-- Nothing in the production captures a blank line. -/
def noBlank : Gram → Bool
  | lit _ => true
  | tok _ => true
  | seq a b => noBlank a && noBlank b
  | alt a b => noBlank a && noBlank b
  | Gram.opt a => noBlank a
  | Gram.star a => noBlank a
  | plus a => noBlank a
  | cap f _ => f ≠ .emptyLine
  | sub _ _ => true

variable [FloatValue]

theorem Strict.null {g : Gram} {s : List Token} {o : Out} (h : Strict g s o) (hs : s = []) : g.null = true := by
  induction h with
  | lit | tok => cases hs
  | seq _ _ iha ihb =>
    simp only [List.append_eq_nil_iff] at hs
    simp [Gram.null, iha hs.1, ihb hs.2]
  | altL _ ih => simp [Gram.null, ih hs]
  | altR _ ih => simp [Gram.null, ih hs]
  | skip | once | nil | cons => rfl
  | plus _ _ iha ihb =>
    simp only [List.append_eq_nil_iff] at hs
    simp [Gram.null, iha hs.1]
  | cap _ ih => simp [Gram.null, ih hs]
  | sub _ _ _ ih =>
    rw [Gram.null, ← null_of]
    exact ih hs

theorem Strict.layoutFirst {g : Gram} {s : List Token} {o : Out} (h : Strict g s o) :
    ∀ t ∈ s.head?, t.sym.layout = true → layoutFirst g = true := by
  have two : ∀ {s s' : List Token} {a b : Gram} {o : Out}, Strict a s o →
      (∀ t ∈ s.head?, t.sym.layout = true → Etx.layoutFirst a = true) →
      (∀ t ∈ s'.head?, t.sym.layout = true → Etx.layoutFirst b = true) →
      ∀ t ∈ (s ++ s').head?, t.sym.layout = true → (Etx.layoutFirst a || (a.null && Etx.layoutFirst b)) = true := by
    intro s s' a b o ha iha ihb t ht hl
    cases s with
    | nil => simp [ha.null rfl, ihb t ht hl]
    | cons u s =>
      simp only [List.cons_append, List.head?_cons] at ht iha
      simp [iha t ht hl]
  induction h with
  | lit _ h => intro t ht hl; simp at ht; subst ht; rwa [h] at hl
  | tok h => intro t ht hl; simp at ht; subst ht; rwa [h] at hl
  | seq ha _ iha ihb => exact two ha iha ihb
  | altL _ ih => intro t ht hl; simp [Etx.layoutFirst, ih t ht hl]
  | altR _ ih => intro t ht hl; simp [Etx.layoutFirst, ih t ht hl]
  | skip | nil => intro t ht; cases ht
  | once _ ih | cap _ ih => exact ih
  | cons ha _ iha ihb | plus ha _ iha ihb =>
    intro t ht hl
    have := two ha iha ihb t ht hl
    rw [Etx.layoutFirst]
    simp only [Bool.or_eq_true, Bool.and_eq_true] at this
    exact this.elim id And.right
  | sub _ _ _ ih =>
    intro t ht hl
    rw [Etx.layoutFirst, ← layoutFirst_of]
    exact ih t ht hl

theorem Strict.noBlank {g : Gram} {s : List Token} {o : Out} (h : Strict g s o) (hg : noBlank g = true) :
    o.toks .emptyLine = [] := by
  induction h with
  | lit | tok | skip | nil => rfl
  | seq _ _ iha ihb =>
    simp only [Etx.noBlank, Bool.and_eq_true] at hg
    rw [Out.toks_append, iha hg.1, ihb hg.2]; rfl
  | altL _ ih => simp only [Etx.noBlank, Bool.and_eq_true] at hg; exact ih hg.1
  | altR _ ih => simp only [Etx.noBlank, Bool.and_eq_true] at hg; exact ih hg.2
  | once _ ih => exact ih hg
  | cons _ _ iha ihb | plus _ _ iha ihb => rw [Out.toks_append, iha hg, ihb hg]; rfl
  | cap _ _ =>
    simp only [Etx.noBlank, ne_eq, decide_eq_true_eq] at hg
    simp [Out.toks, hg]
  | sub => rfl

/-! ## Blank lines -/

/-- What a production captures as blank lines: nothing, or the line feeds that are all it reads. -/
def BlankSpec (s : List Token) (o : Out) : Prop :=
  (o.str .emptyLine = [] ∧ ∀ t ∈ s.head?, t.sym.layout = false) ∨ ((∀ t ∈ s, t.sym = .lf) ∧ (s.map (·.txt)).flatten = o.str .emptyLine ∧ s ≠ [])

theorem strict_lfs {g : Gram} {s : List Token} {o : Out} (h : Strict g s o) :
    (g = .tok .lf → ∃ t : Token, s = [t] ∧ o = ⟨[t.txt], []⟩ ∧ t.sym = .lf) ∧
    (g = .cap .emptyLine (.tok .lf) → ∃ t : Token, s = [t] ∧ o.toks .emptyLine = [t.txt] ∧ t.sym = .lf) ∧
    (g = .star (.cap .emptyLine (.tok .lf)) → (∀ t ∈ s, t.sym = .lf) ∧ s.map (·.txt) = o.toks .emptyLine) ∧
    (g = .plus (.cap .emptyLine (.tok .lf)) → (∀ t ∈ s, t.sym = .lf) ∧ s.map (·.txt) = o.toks .emptyLine ∧ s ≠ []) := by
  induction h with
  | @tok y t h =>
    refine ⟨fun e => ?_, nofun, nofun, nofun⟩
    cases e
    exact ⟨t, rfl, rfl, h⟩
  | cap _ ih =>
    refine ⟨nofun, fun e => ?_, nofun, nofun⟩
    cases e
    obtain ⟨t, rfl, rfl, h⟩ := ih.1 rfl
    exact ⟨t, rfl, rfl, h⟩
  | nil => exact ⟨nofun, nofun, fun _ => ⟨nofun, rfl⟩, nofun⟩
  | cons _ _ iha ihb =>
    refine ⟨nofun, nofun, fun e => ?_, nofun⟩
    cases e
    obtain ⟨t, rfl, h1, h⟩ := iha.2.1 rfl
    obtain ⟨h2, h3⟩ := ihb.2.2.1 rfl
    refine ⟨by simpa [h] using h2, by rw [Out.toks_append, h1, ← h3]; rfl⟩
  | plus _ _ iha ihb =>
    refine ⟨nofun, nofun, nofun, fun e => ?_⟩
    cases e
    obtain ⟨t, rfl, h1, h⟩ := iha.2.1 rfl
    obtain ⟨h2, h3⟩ := ihb.2.2.1 rfl
    refine ⟨by simpa [h] using h2, by rw [Out.toks_append, h1, ← h3]; rfl, by simp⟩
  | lit | seq | altL | altR | skip | once | sub => exact ⟨nofun, nofun, nofun, nofun⟩

theorem strict_item {g : Gram} {s : List Token} {o : Out} (hg : noBlank g = true) (hl : layoutFirst g = false)
    (h : Strict (.alt (.plus (.cap .emptyLine (.tok .lf))) g) s o) : BlankSpec s o := by
  cases h with
  | altL h =>
    obtain ⟨h1, h2, h3⟩ := (strict_lfs h).2.2.2 rfl
    exact .inr ⟨h1, by rw [h2]; rfl, h3⟩
  | altR h =>
    refine .inl ⟨by rw [Out.str, h.noBlank hg]; rfl, fun t ht => ?_⟩
    have := h.layoutFirst t ht
    rw [hl] at this
    simpa using this

/-! ## Structs -/

theorem build_pos {m : Meta} {o : Out} {k : Kind} {x : Node k} (h : build m o k = some x) : x.info = m := by
  cases k
  case value =>
    simp only [build, Option.bind_eq_bind, Option.pure_def] at h
    cases e : o.toks .number with
    | nil => rw [e] at h; cases h; rfl
    | cons t l =>
      rw [e] at h
      simp only [Option.bind_eq_some_iff] at h
      obtain ⟨f, -, n, -, h⟩ := h
      cases h; rfl
  all_goals
    first
    | (cases h; rfl)
    | cases h
    | (simp only [build, Option.bind_eq_bind, Option.bind_eq_some_iff, Option.pure_def] at h
       obtain ⟨y, -, h⟩ := h
       cases h; rfl)

/-- The kinds of the items, that may be blank lines. -/
def itemKind : Kind → Bool
  | .rootItem | .blockItem | .funcStatement | .typeEnumItem | .typeObjectItem | .listItem | .mapItem => true
  | _ => false

theorem build_blank {m : Meta} {o : Out} {k : Kind} {x : Node k} (h : build m o k = some x) :
    x.blankLines = if itemKind k then o.str .emptyLine else [] := by
  cases k
  case value =>
    simp only [build, Option.bind_eq_bind, Option.pure_def] at h
    cases e : o.toks .number with
    | nil => rw [e] at h; cases h; rfl
    | cons t l =>
      rw [e] at h
      simp only [Option.bind_eq_some_iff] at h
      obtain ⟨f, -, n, -, h⟩ := h
      cases h; rfl
  all_goals
    first
    | (cases h; rfl)
    | cases h
    | (simp only [build, Option.bind_eq_bind, Option.bind_eq_some_iff, Option.pure_def] at h
       obtain ⟨y, -, h⟩ := h
       cases h; rfl)

theorem strict_blank {k : Kind} {s : List Token} {o : Out} (hk : itemKind k = true) (h : Strict (of k) s o) :
    BlankSpec s o := by
  cases k
  case rootItem | blockItem | funcStatement | typeEnumItem | typeObjectItem | listItem | mapItem =>
    exact strict_item (by decide +kernel) (by decide +kernel) h
  all_goals cases hk

theorem layout_of {k : Kind} (h : layoutKind k = true) : itemKind k = true ∨ k.listing = true := by
  cases k <;> first | exact .inl rfl | exact .inr rfl | cases h

/-- A list of structs that is derived from no tokens is empty. -/
theorem strict_empty {f : Field} {k : Kind} (hk : nullKind k = false) {g : Gram} {s : List Token} {o : Out} (h : Strict g s o)
    (hg : g = .star (.sub f k)) (hs : s = []) : o = {} := by
  cases h with
  | nil => rfl
  | cons ha _ =>
    cases hg
    simp only [List.append_eq_nil_iff] at hs
    have := ha.null hs.1
    rw [Gram.null, hk] at this
    cases this
  | _ => cases hg

/-- Nothing is read for a struct without tokens only. -/
theorem toks_empty {k : Kind} {o : Out} {m : Meta} {x : Node k} (h : Strict (of k) [] o) (hb : build m o k = some x) :
    x.toks = [] := by
  have hn := h.null rfl
  rw [null_of] at hn
  cases k
  case typeEnum =>
    have := strict_empty (by rfl) h rfl rfl
    subst this
    cases hb
    rfl
  case typeObject =>
    have := strict_empty (by rfl) h rfl rfl
    subst this
    cases hb
    rfl
  case invocation =>
    have h : Strict (.opt (Gram.commaSep .values .expr)) [] o := h
    generalize hs : ([] : List Token) = s at h
    cases h with
    | skip => cases hb; rfl
    | once h =>
      have := h.null hs.symm
      cases this
  all_goals cases hn

theorem struct_located {k : Kind} (hk : used k = true) {a s c ts : List Token} {o : Out} {pos : Position} {x : Node k}
    (hts : ts = a ++ s ++ c) (hg : ∀ t ∈ ts, Genuine t) (h : Strict (of k) s o)
    (hb : build { addr := 0, pos := pos } o k = some x) (hpos : ∀ t ∈ s.head?, pos = t.pos) : Located ts x := by
  have hgs : ∀ t ∈ s, Genuine t := fun t ht => hg t (by rw [hts]; simp [ht])
  refine ⟨a, s, c, hts, (faithful k hk (flat_of_strict h (used_of k hk) hgs) hb).1, ?_, ?_, ?_⟩
  · intro t ht
    refine ⟨by rw [build_pos hb]; exact hpos t ht, fun hl => ?_⟩
    have := h.layoutFirst t ht hl
    rw [layoutFirst_of] at this
    rcases layout_of this with hi | hi
    · left
      rw [build_blank hb, if_pos hi]
      rcases strict_blank hi h with ⟨-, h2⟩ | ⟨h1, h2, h3⟩
      · rw [h2 t ht] at hl; cases hl
      · rw [← h2]
        have ht' := List.mem_of_head? ht
        have hx := (hgs t ht').1
        rw [Token.exact, h1 t ht'] at hx
        intro e
        have : t.txt = [] := List.flatten_eq_nil_iff.mp e _ (List.mem_map.mpr ⟨t, ht', rfl⟩)
        rcases lf_exact hx with e | e <;> rw [e] at this <;> cases this
    · exact .inr hi
  · rintro rfl
    exact toks_empty h hb
  · intro hx
    rw [build_blank hb] at hx ⊢
    by_cases hi : itemKind k = true
    · rw [if_pos hi] at hx ⊢
      rcases strict_blank hi h with ⟨h1, -⟩ | ⟨h1, h2, h3⟩
      · exact absurd h1 hx
      · exact ⟨h1, h2⟩
    · rw [if_neg hi] at hx
      exact absurd rfl hx

/-! ## Everywhere -/

open Classical in
/-- `Located` for the structs that are parsed, as a test. -/
noncomputable def locatedIn (ts : List Token) {k : Kind} (x : Node k) : Bool :=
  !k.isStruct || k.captured || decide (Located ts x)

omit [FloatValue] in
theorem located_nothing (ts : List Token) {k : Kind} (x : Node k) (h : x.toks = []) (h' : x.blankLines = []) : Located ts x :=
  ⟨[], [], ts, rfl, by rw [h]; exact .nil, nofun, fun _ => h, fun hn => absurd h' hn⟩

omit [FloatValue] in
theorem locatedIn_structs (ts : List Token) : OfStructs (locatedIn ts) where
  nil _ := rfl
  ref _ _ := rfl
  nilSlice _ := rfl
  mkSlice _ _ _ := rfl
  empty _ := rfl
  cons _ _ _ := rfl
  valueBool _ := rfl
  valueNumber _ _ := rfl
  zeroExpr := by
    have := located_nothing ts zeroExpr (by decide +kernel) rfl
    simp [locatedIn, this]
  zeroParameterType := by
    have := located_nothing ts zeroParameterType (by decide +kernel) rfl
    simp [locatedIn, this]

theorem strict_located {ts : List Token} (hts : ∀ t ∈ ts, Genuine t) {g : Gram} {s : List Token} {o : Out} (h : Strict g s o)
    (hg : usedGram g = true) {a c : List Token} (he : ts = a ++ s ++ c) : o.All (locatedIn ts) := by
  induction h generalizing a c with
  | lit | tok | skip | nil => intro f k x hx; cases hx
  | @seq _ _ s s' _ _ _ _ iha ihb =>
    simp only [usedGram, Bool.and_eq_true] at hg
    have ha := iha hg.1 (a := a) (c := s' ++ c) (by simp [he])
    have hb := ihb hg.2 (a := a ++ s) (c := c) (by simp [he])
    intro f k x hx
    rcases List.mem_append.mp hx with hx | hx
    · exact ha _ _ _ hx
    · exact hb _ _ _ hx
  | @cons _ s s' _ _ _ _ iha ihb | @plus _ s s' _ _ _ _ iha ihb =>
    have ha := iha hg (a := a) (c := s' ++ c) (by simp [he])
    have hb := ihb hg (a := a ++ s) (c := c) (by simp [he])
    intro f k x hx
    rcases List.mem_append.mp hx with hx | hx
    · exact ha _ _ _ hx
    · exact hb _ _ _ hx
  | altL _ ih => simp only [usedGram, Bool.and_eq_true] at hg; exact ih hg.1 he
  | altR _ ih => simp only [usedGram, Bool.and_eq_true] at hg; exact ih hg.2 he
  | once _ ih => exact ih hg he
  | cap _ ih => intro f k x hx; simp at hx
  | @sub f k s o pos x hd hb hpos ih =>
    intro f' k' x' hx
    simp only [List.mem_singleton, Capture.node.injEq] at hx
    obtain ⟨rfl, rfl, hx⟩ := hx
    cases hx
    refine build_everywhere (locatedIn_structs ts) (ih (used_of _ hg) he) hb ?_
    have := struct_located hg he hts hd hb hpos
    simp [locatedIn, this]

theorem parseTree_located {s : Str} {x : Node (.slice .rootItem)} (h : parseTree s = some x) :
    ∃ ts, lex s = some ts ∧ x.everywhere (locatedIn ts) = true := by
  unfold parseTree at h
  simp only [Option.bind_eq_bind, Option.bind_eq_some_iff] at h
  obtain ⟨ts, h1, h2⟩ := h
  obtain ⟨o, h3, rfl⟩ := parseTokens_strict h1 h2
  have := strict_located (lex_genuine h1) h3 rfl (a := []) (c := []) (by simp)
  exact ⟨ts, h1, this.slice (locatedIn_structs ts) _ _⟩

omit [FloatValue] in
theorem locatedIn_erase (ts : List Token) {k : Kind} (x : Node k) : locatedIn ts x.erase = locatedIn ts x := by
  have h1 : x.erase.toks = x.toks := (toks_erase x).1
  have h2 : k.isStruct = true → x.erase.info.pos = x.info.pos := by
    cases x <;> first | (intro _; rfl) | (intro h; cases h)
  have h3 : x.erase.blankLines = x.blankLines := by cases x <;> rfl
  simp only [locatedIn]
  cases hk : k.isStruct
  · rfl
  · have : Located ts x.erase ↔ Located ts x := by
      unfold Located
      rw [h1, h2 hk, h3]
    rw [decide_eq_decide.mpr this]

end Verif.Etx
