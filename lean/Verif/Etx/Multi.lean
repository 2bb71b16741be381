import Verif.Etx.Lines

/-!
# Lists and maps over several lines

What the parser makes of the elements of lists and maps (`pkg/etx/value.go:436-632`), with or without commas, with comments and blank
lines between them.
-/

set_option linter.unusedSimpArgs false

namespace Verif.Etx
open Gram

variable [FloatValue]

/-- In a list. -/
def listKit : Kit .listItem := ⟨fun w => .listItem noPos w .nil .nil, fun c => .listItem noPos [] .nil (.ref c), some (.opRBracket, ']')⟩
/-- In a map. -/
def mapKit : Kit .mapItem := ⟨fun w => .mapItem noPos w .nil .nil .nil, fun c => .mapItem noPos [] .nil .nil (.ref c), some (.blockEnd, '}')⟩

theorem listKit_ok : listKit.Ok where
  shut := by simp [listKit]
  differ w c := by simp [listKit]
  bareE w := by simp only [listKit, Node.bare, Node.map]
  bareC c := by simp only [listKit, Node.bare, Node.map]
  empty n r hr := OkKind.ofTakes (Takes.altL (takes_lfs n hr)) rfl fun txt => by simp [build, ptrOf, listKit, flatten_lfs]
  comment t s c r h hp hy hw := by
    have soft : ∀ {g : Gram}, excluded [.singleLineComment, .multilineComment] grammarWords (firstG first g) = true → solid g = true →
        null g = false → Soft {} g (t :: s) := fun h1 h2 h3 => (bare_of_head (any_excluded h1 hy hw) h2 h3).soft
    exact OkKind.ofTakes (Takes.altR (soft (by decide +kernel) rfl rfl) (Takes.altR (soft (by decide +kernel) rfl rfl) (Takes.sub h))) hp
      fun txt => by simp [build, ptrOf, listKit]

theorem mapKit_ok : mapKit.Ok where
  shut := by simp [mapKit]
  differ w c := by simp [mapKit]
  bareE w := by simp only [mapKit, Node.bare, Node.map]
  bareC c := by simp only [mapKit, Node.bare, Node.map]
  empty n r hr := OkKind.ofTakes (Takes.altL (takes_lfs n hr)) rfl fun txt => by simp [build, ptrOf, mapKit, flatten_lfs]
  comment t s c r h hp hy hw := by
    have soft : ∀ {g : Gram}, excluded [.singleLineComment, .multilineComment] grammarWords (firstG first g) = true → solid g = true →
        null g = false → Soft {} g (t :: s) := fun h1 h2 h3 => (bare_of_head (any_excluded h1 hy hw) h2 h3).soft
    exact OkKind.ofTakes (Takes.altR (soft (by decide +kernel) rfl rfl) (Takes.altR (soft (by decide +kernel) rfl rfl) (Takes.sub h))) hp
      fun txt => by simp [build, ptrOf, mapKit]

/-- The tokens `ks` of an expression, in front of `z`, and what is left after it, a comma and the end of the line. -/
def ElemStops (ks : List (Sym × Str)) (x : Node .expr) (z r : List Token) : Prop :=
  ∃ z' z'', OkKind {} (toks ks ++ z) x z' ∧ Takes (.opt (.lit c!",")) z' [] z'' ∧ Takes lf? z'' [] r

/-- At the end of a line. -/
theorem LinePart.elem {ks : List (Sym × Str)} {x : Node .expr} (h : LinePart ks x) {z r : List Token} (hz : EndLine z r) : ElemStops ks x z r := by
  have hc : Takes (.opt (.lit c!",")) z [] z := Takes.skip (Soft.lit hz.noComma).soft
  obtain ⟨t, u, e, ⟨he, he'⟩ | he⟩ := hz.next
  · exact ⟨z, z, e ▸ h.line t u he he', hc, hz.takes⟩
  · exact ⟨z, z, h.ok z ⟨t, u, e, he⟩, hc, hz.takes⟩

/-- In front of the closing bracket. -/
theorem Part.elem {ks : List (Sym × Str)} {x : Node .expr} (h : Part ks x) {z : List Token} (hz : Closes z)
    (hc : ∀ t ∈ z.head?, t.txt ≠ c!",") : ElemStops ks x z z := by
  refine ⟨z, z, h.ok _ hz, Takes.skip (Soft.lit hc).soft, Takes.noLf ?_⟩
  obtain ⟨t, u, rfl, ht⟩ := hz
  revert ht
  simp [headNot, closers]
  rintro (⟨h, -⟩ | ⟨h, -⟩ | ⟨h, -⟩ | ⟨h, -⟩ | ⟨h, -⟩) <;> simp [h]

/-- In front of a comma. -/
theorem Part.comma {ks : List (Sym × Str)} {x : Node .expr} (h : Part ks x) {z r : List Token} (hz : Takes lf? z [] r) :
    ElemStops ks x (tk .opComma c!"," :: z) r :=
  ⟨_, z, h.ok _ (closes_cons (by decide) z), Takes.once (Takes.lit rfl), hz⟩

/-- An element of a list. -/
def listElem (x : Node .expr) : Node .listItem := .listItem noPos [] (.ref x) .nil

theorem listElem_ok {ks : List (Sym × Str)} {x : Node .expr} (h : Part ks x) {z r : List Token} (hz : ElemStops ks x z r) :
    OkKind {} (toks ks ++ z) (listElem x) r := by
  obtain ⟨z', z'', h1, h2, h3⟩ := hz
  exact OkKind.ofTakes (Takes.altR (Soft.plus (Soft.cap (Soft.tok fun t ht => of_decide_eq_false (headNot_iff.1 (h.noLf _) t ht)).soft))
    (Takes.altL (Takes.seq (Takes.sub h1) (Takes.seq h2 h3)))) (by
      obtain ⟨k, ks, rfl⟩ := List.exists_cons_of_ne_nil h.ne
      rfl) fun txt => by simp [build, ptrOf, listElem]

/-- A name as a key. -/
def nameKey (w : Str) : Node .mapKey := .mapKey noPos (.ref (oneName w)) .nil
/-- A text as a key. -/
def textKey (w : Str) : Node .mapKey := .mapKey noPos .nil (.ref (.valueString noPos (sliceOf [.stringFragment noPos [] [] .nil .nil w])))

/-- The tokens of keys. -/
inductive KeyPart : List (Sym × Str) → Node .mapKey → Prop
  | name (w : Str) : KeyPart [(.ident, w)] (nameKey w)
  | quoted (q w q' : Str) : KeyPart [(.string, q), (.char, w), (.stringEnd, q')] (textKey w)

theorem KeyPart.ok {ks : List (Sym × Str)} {x : Node .mapKey} (h : KeyPart ks x) (r : List Token) :
    OkKind {} (toks ks ++ tk .opAssign c!"=" :: r) x (tk .opAssign c!"=" :: r) := by
  cases h with
  | name w =>
    have h1 : OkKind {} (tk .ident w :: tk .opAssign c!"=" :: r) (oneName w) (tk .opAssign c!"=" :: r) :=
      OkKind.ofTakes (Takes.seq (Takes.capTok rfl) (Takes.once (Takes.nil (Soft.seqL (Soft.lit (by simp [tk])).soft)))) rfl fun txt => by
        simp [build, oneName, tk, strsOf]
    exact OkKind.ofTakes (Takes.altL (Takes.sub h1)) rfl fun txt => by simp [build, ptrOf, nameKey]
  | quoted q w q' =>
    have h1 : ∀ u, OkKind {} (tk .char w :: u) (.stringFragment noPos [] [] .nil .nil w) u := fun u =>
      OkKind.ofTakes (Takes.altR (bare_of_head rfl).soft (Takes.altR (bare_of_head rfl).soft (Takes.altR (bare_of_head rfl).soft
        (Takes.altR (bare_of_head rfl).soft (Takes.cap (o := ⟨[w], []⟩) (Ok.altL (Ok.tok rfl))))))) rfl fun txt => by simp [build, ptrOf, tk]
    have h2 : ∀ u, OkKind {} (tk .string q :: tk .char w :: tk .stringEnd q' :: u)
        (.valueString noPos (sliceOf [.stringFragment noPos [] [] .nil .nil w])) u := fun u =>
      OkKind.ofTakes (Takes.seq (Takes.tok rfl) (Takes.seq (Takes.cons (Takes.sub (h1 _)) (by simp) (Takes.nil (bare_of_head rfl).soft))
        (Takes.tok rfl))) rfl fun txt => by simp [build]
    exact OkKind.ofTakes (Takes.altR (bare_of_head rfl).soft (Takes.sub (h2 _))) rfl fun txt => by simp [build, ptrOf, textKey]

/-- An element of a map. -/
def mapElem (k : Node .mapKey) (x : Node .expr) : Node .mapItem := .mapItem noPos [] (.ref k) (.ref x) .nil

theorem mapElem_ok {kk ks : List (Sym × Str)} {k : Node .mapKey} {x : Node .expr} (hk : KeyPart kk k) {z r : List Token}
    (hz : ElemStops ks x z r) : OkKind {} (toks kk ++ tk .opAssign c!"=" :: (toks ks ++ z)) (mapElem k x) r := by
  obtain ⟨z', z'', h1, h2, h3⟩ := hz
  have h4 := hk.ok (toks ks ++ z)
  have h5 : Soft {} (.plus (.cap .emptyLine (.tok .lf))) (toks kk ++ tk .opAssign c!"=" :: (toks ks ++ z)) := by
    cases hk <;> exact Soft.plus (Soft.cap (Soft.tok (by simp [tk])).soft)
  refine OkKind.ofTakes (Takes.altR h5 (Takes.altL (Takes.seq (Takes.sub h4) (Takes.seq (Takes.lit rfl) (Takes.seq (Takes.sub h1)
    (Takes.seq h2 h3)))))) ?_ fun txt => by simp [build, ptrOf, mapElem]
  cases hk <;> rfl

/-- `[`, elements and `]` -/
def listOf (l : List (Node .listItem)) : Node .expr :=
  unaryExpr (justPrimary (.primary noPos .nil (.ref (.value noPos false .nil .nil .nil .nil (.ref (.valueList noPos (sliceOf l))) .nil)) .nil
    .nilSlice .nil))

/-- `{`, elements and `}` -/
def mapOf (l : List (Node .mapItem)) : Node .expr :=
  unaryExpr (justPrimary (.primary noPos .nil (.ref (.value noPos false .nil .nil .nil .nil .nil (.ref (.valueMap noPos (sliceOf l))))) .nil
    .nilSlice .nil))

theorem listOf_ok {us ts : List Token} {l : List (Node .listItem)} (he : LfsThen us ts) (h : Items listKit .items ts l) {r : List Token}
    (hr : headNot badExpr r = true) : OkKind {} (tk .opLBracket c!"[" :: (us ++ tk .opRBracket c!"]" :: r)) (listOf l) r := by
  have hq : quiet (tk .opRBracket c!"]" :: r) := by simp [quiet, headNot, tk]
  have h1 : OkKind {} (tk .opLBracket c!"[" :: (us ++ tk .opRBracket c!"]" :: r)) (.valueList noPos (sliceOf l)) r :=
    OkKind.ofTakes (Takes.seq (Takes.lit rfl) (Takes.seq (he.takes hq) (Takes.seq (h.takes _ (bare_of_head rfl).soft hq (Kit.fits_shut rfl _))
      (Takes.lit rfl)))) rfl fun txt => by simp [build]
  have h2 := OkKind.ofTakes (k := .value) (x := .value noPos false .nil .nil .nil .nil (.ref (.valueList noPos (sliceOf l))) .nil)
    (Takes.altR (bare_of_head rfl).soft (Takes.altR (bare_of_head rfl).soft
      (Takes.altR (bare_of_head rfl).soft (Takes.altR (bare_of_head rfl).soft (Takes.altR (bare_of_head rfl).soft (Takes.altL
      (Takes.sub h1))))))) rfl fun txt => by simp [build, ptrOf]
  exact value_ok h2 rfl (by decide) (by decide) hr

theorem mapOf_ok {us ts : List Token} {l : List (Node .mapItem)} (he : LfsThen us ts) (h : Items mapKit .items ts l) {r : List Token}
    (hr : headNot badExpr r = true) : OkKind {} (tk .blockStart c!"{" :: (us ++ tk .blockEnd c!"}" :: r)) (mapOf l) r := by
  have h1 : OkKind {} (tk .blockStart c!"{" :: (us ++ tk .blockEnd c!"}" :: r)) (.valueMap noPos (sliceOf l)) r :=
    OkKind.ofTakes (Takes.seq (Takes.lit rfl) (Takes.seq (he.takes (quiet_brace _)) (Takes.seq (h.takes _ (bare_of_head rfl).soft (quiet_brace _)
      (Kit.fits_shut rfl _)) (Takes.lit rfl)))) rfl fun txt => by simp [build]
  have h2 := OkKind.ofTakes (k := .value) (x := .value noPos false .nil .nil .nil .nil .nil (.ref (.valueMap noPos (sliceOf l))))
    (Takes.altR (bare_of_head rfl).soft (Takes.altR (bare_of_head rfl).soft
      (Takes.altR (bare_of_head rfl).soft (Takes.altR (bare_of_head rfl).soft (Takes.altR (bare_of_head rfl).soft (Takes.altR
      (bare_of_head rfl).soft (Takes.sub h1))))))) rfl fun txt => by simp [build, ptrOf]
  exact value_ok h2 rfl (by decide) (by decide) hr

end Verif.Etx
