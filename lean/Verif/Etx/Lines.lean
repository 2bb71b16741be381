import Verif.Etx.Compose
import Verif.Etx.Rename

/-!
# Documents of lines

What the parser makes of attributes, declarations, blocks and functions, line by line, if the expressions in them are read in front of
line ends (`LinePart`).
-/

set_option linter.unusedSimpArgs false

namespace Verif.Etx
open Gram

variable [FloatValue]

/-- How a line ends: with a line end, which is read, in front of a comment or in front of a closing bracket. -/
inductive EndLine : List Token → List Token → Prop
  | lf (r : List Token) : EndLine (lfTok :: r) r
  | note {t : Token} (r : List Token) : t.sym ∈ [Sym.singleLineComment, .multilineComment] → t.exact = true → EndLine (t :: r) (t :: r)
  | close {t : Token} (r : List Token) : (t.sym, t.txt) ∈ closers → t.txt ≠ c!"," → EndLine (t :: r) (t :: r)

/-- What lines end with. -/
def LineEnd (t : Token) : Prop := t.sym.endsLine = true ∧ t.exact = true ∨ (t.sym, t.txt) ∈ closers

section
omit [FloatValue]

theorem EndLine.next {z r : List Token} (h : EndLine z r) : ∃ t u, z = t :: u ∧ LineEnd t := by
  cases h with
  | lf r => exact ⟨_, _, rfl, .inl ⟨rfl, rfl⟩⟩
  | close r h _ => exact ⟨_, _, rfl, .inr h⟩
  | note r h1 h2 =>
    refine ⟨_, _, rfl, .inl ⟨?_, h2⟩⟩
    simp only [List.mem_cons, List.not_mem_nil, or_false] at h1
    rcases h1 with h | h <;> rw [h] <;> rfl

theorem EndLine.le {z r : List Token} (h : EndLine z r) : r.length ≤ z.length := by
  cases h <;> simp

/-- The text of line ends, comments and closing brackets. -/
theorem ends_txt {t : Token} {ws : List Str} (h : LineEnd t)
    (hw : ∀ w ∈ ws, w.head? ∉ [some '\n', some '\r', some '/', some '#', some '}', some ')', some ']', some ',']) : t.txt ∉ ws := by
  intro hm
  apply hw _ hm
  rcases h with ⟨h, he⟩ | h
  swap
  · simp only [closers, List.mem_cons, Prod.mk.injEq, List.not_mem_nil, or_false] at h
    rcases h with ⟨-, h⟩ | ⟨-, h⟩ | ⟨-, h⟩ | ⟨-, h⟩ | ⟨-, h⟩ <;> rw [h] <;> simp
  rw [Token.exact] at he
  cases e : t.sym <;> rw [e] at h he <;> first | cases h | skip
  · have : t.txt.head? = some '/' ∨ t.txt.head? = some '#' := by simpa [Sym.exact, Sym.word] using he
    rcases this with h | h <;> rw [h] <;> simp
  · have : t.txt.head? = some '/' ∧ t.txt.getLast? = some '/' := by simpa [Sym.exact, Sym.word] using he
    rw [this.1]; simp
  · have : t.txt = c!"\n" ∨ t.txt = c!"\r" := by simpa [Sym.exact, Sym.word] using he
    rcases this with h | h <;> rw [h] <;> simp

end

omit [FloatValue] in
theorem EndLine.noComma {z r : List Token} (h : EndLine z r) : ∀ t ∈ z.head?, t.txt ≠ c!"," := by
  intro t ht
  cases h with
  | lf r => cases ht; decide
  | close r _ h => cases ht; exact h
  | @note t' r h1 h2 =>
    cases ht
    intro e
    rw [Token.exact, e] at h2
    simp only [List.mem_cons, List.not_mem_nil, or_false] at h1
    rcases h1 with h | h <;> rw [h] at h2 <;> revert h2 <;> decide

theorem EndLine.takes {z r : List Token} (h : EndLine z r) : Takes lf? z [] r := by
  cases h with
  | lf r => exact Takes.lf
  | @note t r h1 h2 => exact Takes.skip (Soft.tok (by
      simp only [List.mem_cons, List.not_mem_nil, or_false] at h1
      rcases h1 with h | h <;> simp [h])).soft
  | @close t r h _ => exact Takes.skip (Soft.tok (by
      simp only [closers, List.mem_cons, Prod.mk.injEq, List.not_mem_nil, or_false] at h
      rcases h with ⟨h, -⟩ | ⟨h, -⟩ | ⟨h, -⟩ | ⟨h, -⟩ | ⟨h, -⟩ <;> simp [h])).soft

/-- What follows several lines: no line end, no comment and no `else`. -/
def quiet (z : List Token) : Prop := headNot (fun t => t.sym = .lf) z = true ∧ headNot (fun t => t.sym = .singleLineComment) z = true ∧
  headNot (fun t => t.sym = .else_) z = true

/-- How blank lines and comments are items, and what closes the items. -/
structure Kit (k : Kind) where
  empty : Str → Node k
  comment : Node .comment → Node k
  shut : Option (Sym × Char)

/-- The closing bracket comes first. -/
def Kit.fits {k : Kind} (q : Kit k) (z : List Token) : Prop := ∀ p ∈ q.shut, ∃ r, z = tk p.1 [p.2] :: r

/-- Several items, in front of more items or of something else. -/
def Items {k : Kind} (q : Kit k) (f : Field) (ts : List Token) (l : List (Node k)) : Prop :=
  ∀ z c r, Takes (.star (.sub f k)) z c r → quiet z → q.fits z → Takes (.star (.sub f k)) (ts ++ z) (capNodes f l ++ c) r

theorem Items.nil {k : Kind} (q : Kit k) (f : Field) : Items q f [] [] := fun _ _ _ hz _ _ => hz

/-- Nothing but these items. -/
theorem Items.takes {k : Kind} {q : Kit k} {f : Field} {ts : List Token} {l : List (Node k)} (h : Items q f ts l) (z : List Token)
    (hz : Soft {} (.sub f k) z) (hq : quiet z) (hs : q.fits z) : Takes (.star (.sub f k)) (ts ++ z) (capNodes f l) z := by
  have := h z [] z (Takes.nil hz) hq hs
  rwa [List.append_nil] at this

/-- One more, if what follows is right. -/
theorem Items.consIf {k : Kind} {q : Kit k} {f : Field} {t : Token} {ts us : List Token} {x : Node k} {l : List (Node k)} {P : List Token → Prop}
    (h : ∀ r, P r → OkKind {} (t :: (ts ++ r)) x r) (hP : ∀ z, quiet z → P (us ++ z)) (h' : Items q f us l) :
    Items q f (t :: (ts ++ us)) (x :: l) := by
  intro z c r hz hq hs
  have := Takes.cons (Takes.sub (f := f) (h (us ++ z) (hP z hq))) (by simp; omega) (h' z c r hz hq hs)
  simpa [capNodes] using this

/-- One more. -/
theorem Items.cons {k : Kind} {q : Kit k} {f : Field} {t : Token} {ts us : List Token} {x : Node k} {l : List (Node k)}
    (h : ∀ r, OkKind {} (t :: (ts ++ r)) x r) (h' : Items q f us l) : Items q f (t :: (ts ++ us)) (x :: l) :=
  Items.consIf (P := fun _ => True) (fun r _ => h r) (fun _ _ => trivial) h'

/-- One more, with what comes after it. -/
theorem Items.consStop {k : Kind} {q : Kit k} {f : Field} {t : Token} {ts us us' : List Token} {x : Node k} {l : List (Node k)}
    (h : ∀ z, quiet z → q.fits z → OkKind {} (t :: (ts ++ (us' ++ z))) x (us ++ z)) (he : us.length ≤ us'.length) (h' : Items q f us l) :
    Items q f (t :: (ts ++ us')) (x :: l) := by
  intro z c r hz hq hs
  have := Takes.cons (Takes.sub (f := f) (h z hq hs)) (by simp; omega) (h' z c r hz hq hs)
  simpa [capNodes] using this

/-- The tokens `ks` of an expression, in front of `z`, and what is left after it and the end of the line. -/
def StopsAt (ks : List (Sym × Str)) (x : Node .expr) (z r : List Token) : Prop := ∃ z', OkKind {} (toks ks ++ z) x z' ∧ Takes lf? z' [] r

theorem LinePart.stops {ks : List (Sym × Str)} {x : Node .expr} (h : LinePart ks x) {z r : List Token} (hz : EndLine z r) : StopsAt ks x z r := by
  obtain ⟨t, u, e, ⟨he, he'⟩ | he⟩ := hz.next
  · exact ⟨z, e ▸ h.line t u he he', hz.takes⟩
  · exact ⟨z, h.ok z ⟨t, u, e, he⟩, hz.takes⟩

/-- In brackets this holds for all expressions. -/
theorem Part.stops {ks : List (Sym × Str)} {x : Node .expr} (h : Part ks x) {z : List Token} (hz : Closes z) : StopsAt ks x z z := by
  refine ⟨_, h.ok _ hz, ?_⟩
  obtain ⟨t, u, rfl, ht⟩ := hz
  refine Takes.noLf ?_
  revert ht
  simp [headNot, closers]
  rintro (⟨h, -⟩ | ⟨h, -⟩ | ⟨h, -⟩ | ⟨h, -⟩ | ⟨h, -⟩) <;> simp [h]

/-! ## Blank lines and comments -/

/-- They are read in this way. -/
structure Kit.Ok {k : Kind} (q : Kit k) : Prop where
  empty : ∀ n r, headNot (fun t => t.sym = .lf) r = true →
    OkKind {} (lfTok :: (List.replicate n lfTok ++ r)) (q.empty (List.replicate (n + 1) '\n')) r
  comment : ∀ t s (c : Node .comment) r, OkKind {} (t :: s) c r → t.pos = {} → t.sym ∈ [Sym.singleLineComment, .multilineComment] →
    t.txt ∉ grammarWords → OkKind {} (t :: s) (q.comment c) r
  differ : ∀ w c, q.empty w ≠ q.comment c
  bareE : ∀ w, (q.empty w).bare = q.empty w
  bareC : ∀ c, (q.comment c).bare = q.comment c.bare
  shut : ∀ p ∈ q.shut, p ∈ [(Sym.blockEnd, '}'), (.opRBracket, ']')]

/-- In a document. -/
def rootKit : Kit .rootItem := ⟨fun w => .rootItem noPos w .nil .nil .nil .nil .nil .nil,
  fun c => .rootItem noPos [] .nil .nil .nil .nil .nil (.ref c), none⟩
/-- In a block. -/
def bodyKit : Kit .blockItem := ⟨fun w => .blockItem noPos w .nil .nil .nil, fun c => .blockItem noPos [] .nil .nil (.ref c),
  some (.blockEnd, '}')⟩
/-- In a function. -/
def stmtKit : Kit .funcStatement := ⟨fun w => .funcStatement noPos w .nil .nil .nil, fun c => .funcStatement noPos [] (.ref c) .nil .nil,
  some (.blockEnd, '}')⟩
/-- In an enumeration. -/
def enumKit : Kit .typeEnumItem := ⟨fun w => .typeEnumItem noPos w .nil [] zeroExpr, fun c => .typeEnumItem noPos [] (.ref c) [] zeroExpr,
  some (.blockEnd, '}')⟩
/-- In an object type. -/
def objectKit : Kit .typeObjectItem := ⟨fun w => .typeObjectItem noPos w .nil [] zeroParameterType,
  fun c => .typeObjectItem noPos [] (.ref c) [] zeroParameterType, some (.blockEnd, '}')⟩

theorem takes_lfs (n : Nat) {r : List Token} (hr : headNot (fun t => t.sym = .lf) r = true) :
    Takes (.plus (.cap .emptyLine (.tok .lf))) (lfTok :: (List.replicate n lfTok ++ r)) (capStrs .emptyLine (List.replicate (n + 1) c!"\n")) r := by
  have star : ∀ n, Takes (.star (.cap .emptyLine (.tok .lf))) (List.replicate n lfTok ++ r) (capStrs .emptyLine (List.replicate n c!"\n")) r := by
    intro n
    induction n with
    | zero => exact Takes.nil (Soft.cap (Soft.tok (by simpa [headNot_iff] using hr)).soft)
    | succ n ih =>
      have := Takes.cons (Takes.capTok (f := .emptyLine) (y := .lf) (t := lfTok) rfl) (by simp) ih
      simpa [List.replicate_succ, capStrs, lfTok, tk] using this
  have := Takes.plus (Takes.capTok (f := .emptyLine) (y := .lf) (t := lfTok) rfl) (star n)
  simpa [List.replicate_succ, capStrs, lfTok, tk] using this

omit [FloatValue] in
theorem flatten_lfs (n : Nat) : (List.replicate n c!"\n").flatten = List.replicate n '\n' := by
  induction n with
  | zero => rfl
  | succ n ih => simp [List.replicate_succ, ih]

theorem rootKit_ok : rootKit.Ok where
  shut := by simp [rootKit]
  differ w c := by simp [rootKit]
  bareE w := by simp only [rootKit, Node.bare, Node.map]
  bareC c := by simp only [rootKit, Node.bare, Node.map]
  empty n r hr := OkKind.ofTakes (Takes.altL (takes_lfs n hr)) rfl fun txt => by simp [build, ptrOf, rootKit, flatten_lfs]
  comment t s c r h hp hy hw := by
    have soft : ∀ {g : Gram}, excluded [.singleLineComment, .multilineComment] grammarWords (firstG first g) = true → solid g = true →
        null g = false → Soft {} g (t :: s) := fun h1 h2 h3 => (bare_of_head (any_excluded h1 hy hw) h2 h3).soft
    exact OkKind.ofTakes (Takes.altR (soft (by decide +kernel) rfl rfl) (Takes.altR (soft (by decide +kernel) rfl rfl) (Takes.altR
      (soft (by decide +kernel) rfl rfl) (Takes.altR (soft (by decide +kernel) rfl rfl) (Takes.altR (soft (by decide +kernel) rfl rfl)
      (Takes.altR (soft (by decide +kernel) rfl rfl) (Takes.sub h))))))) hp fun txt => by simp [build, ptrOf, rootKit]

theorem bodyKit_ok : bodyKit.Ok where
  shut := by simp [bodyKit]
  differ w c := by simp [bodyKit]
  bareE w := by simp only [bodyKit, Node.bare, Node.map]
  bareC c := by simp only [bodyKit, Node.bare, Node.map]
  empty n r hr := OkKind.ofTakes (Takes.altL (takes_lfs n hr)) rfl fun txt => by simp [build, ptrOf, bodyKit, flatten_lfs]
  comment t s c r h hp hy hw := by
    have soft : ∀ {g : Gram}, excluded [.singleLineComment, .multilineComment] grammarWords (firstG first g) = true → solid g = true →
        null g = false → Soft {} g (t :: s) := fun h1 h2 h3 => (bare_of_head (any_excluded h1 hy hw) h2 h3).soft
    exact OkKind.ofTakes (Takes.altR (soft (by decide +kernel) rfl rfl) (Takes.altR (soft (by decide +kernel) rfl rfl) (Takes.altR
      (soft (by decide +kernel) rfl rfl) (Takes.sub h)))) hp fun txt => by simp [build, ptrOf, bodyKit]

theorem stmtKit_ok : stmtKit.Ok where
  shut := by simp [stmtKit]
  differ w c := by simp [stmtKit]
  bareE w := by simp only [stmtKit, Node.bare, Node.map]
  bareC c := by simp only [stmtKit, Node.bare, Node.map]
  empty n r hr := OkKind.ofTakes (Takes.altL (takes_lfs n hr)) rfl fun txt => by simp [build, ptrOf, stmtKit, flatten_lfs]
  comment t s c r h hp hy hw := by
    have soft : ∀ {g : Gram}, excluded [.singleLineComment, .multilineComment] grammarWords (firstG first g) = true → solid g = true →
        null g = false → Soft {} g (t :: s) := fun h1 h2 h3 => (bare_of_head (any_excluded h1 hy hw) h2 h3).soft
    exact OkKind.ofTakes (Takes.altR (soft (by decide +kernel) rfl rfl) (Takes.altL (Takes.sub h))) hp fun txt => by
      simp [build, ptrOf, stmtKit]

theorem enumKit_ok : enumKit.Ok where
  shut := by simp [enumKit]
  differ w c := by simp [enumKit]
  bareE w := by simp only [enumKit, Node.bare, Node.map, zeroExpr]
  bareC c := by simp only [enumKit, Node.bare, Node.map, zeroExpr]
  empty n r hr := OkKind.ofTakes (Takes.altL (takes_lfs n hr)) rfl fun txt => by simp [build, ptrOf, enumKit, flatten_lfs]
  comment t s c r h hp hy hw := by
    have soft : ∀ {g : Gram}, excluded [.singleLineComment, .multilineComment] grammarWords (firstG first g) = true → solid g = true →
        null g = false → Soft {} g (t :: s) := fun h1 h2 h3 => (bare_of_head (any_excluded h1 hy hw) h2 h3).soft
    exact OkKind.ofTakes (Takes.altR (soft (by decide +kernel) rfl rfl) (Takes.altL (Takes.sub h))) hp fun txt => by
      simp [build, ptrOf, enumKit]

theorem objectKit_ok : objectKit.Ok where
  shut := by simp [objectKit]
  differ w c := by simp [objectKit]
  bareE w := by simp only [objectKit, Node.bare, Node.map, zeroParameterType]
  bareC c := by simp only [objectKit, Node.bare, Node.map, zeroParameterType]
  empty n r hr := OkKind.ofTakes (Takes.altL (takes_lfs n hr)) rfl fun txt => by simp [build, ptrOf, objectKit, flatten_lfs]
  comment t s c r h hp hy hw := by
    have soft : ∀ {g : Gram}, excluded [.singleLineComment, .multilineComment] grammarWords (firstG first g) = true → solid g = true →
        null g = false → Soft {} g (t :: s) := fun h1 h2 h3 => (bare_of_head (any_excluded h1 hy hw) h2 h3).soft
    exact OkKind.ofTakes (Takes.altR (soft (by decide +kernel) rfl rfl) (Takes.altL (Takes.sub h))) hp fun txt => by
      simp [build, ptrOf, objectKit]

/-- Lines with comments. -/
theorem lineComment_ok (v : Str) (ws : List Str) {r : List Token} (hr : headNot (fun t => t.sym = .singleLineComment) r = true) :
    OkKind {} (tk .singleLineComment v :: lfTok :: ((ws.flatMap fun w => [tk .singleLineComment w, lfTok]) ++ r))
      (.comment noPos (strsOf (v :: ws)) []) r := by
  have one : ∀ w r, Takes (.seq (.cap .singleLine (.tok .singleLineComment)) lf?) (tk .singleLineComment w :: lfTok :: r)
      [.toks .singleLine [w]] r := fun w r => (Takes.capTok (t := tk .singleLineComment w) rfl).seq Takes.lf
  have star : ∀ ws : List Str, Takes (.star (.seq (.cap .singleLine (.tok .singleLineComment)) lf?))
      ((ws.flatMap fun w => [tk .singleLineComment w, lfTok]) ++ r) (capStrs .singleLine ws) r := by
    intro ws
    induction ws with
    | nil => exact Takes.nil (Soft.seqL (Soft.cap (Soft.tok (by simpa [headNot_iff] using hr)).soft))
    | cons w ws ih => exact Takes.cons (one w _) (by simp; omega) ih
  refine OkKind.ofTakes (Takes.altL (Takes.plus (one v _) (star ws))) rfl fun txt => ?_
  simp [build, strsOf]

/-- A comment with an end, and a line end. -/
theorem blockComment_ok (v : Str) (r : List Token) :
    OkKind {} (tk .multilineComment v :: lfTok :: r) (.comment noPos .nil (v ++ c!"\n")) r := by
  refine OkKind.ofTakes (Takes.altR (Soft.plus (bare_of_head rfl).soft)
    (Takes.cap (Ok.seq (Ok.tok rfl) (Ok.once (Ok.tok rfl))))) rfl fun txt => ?_
  simp [build, strsOf, tk, lfTok]

/-! ## The names of types -/

/-- What the tokens `ks` of a type are read as. -/
structure TypePart (ks : List (Sym × Str)) (x : Node .parameterType) : Prop where
  ok : ∀ r, headNot (fun t => t.txt = c!".") r = true → OkKind {} (toks ks ++ r) x r
  head : ∀ k ∈ ks.head?, k.1 ∈ [Sym.ident, .opLParen]
  ne : ks ≠ []

/-- The type `a.b` -/
def nameType (ls : List Str) : Node .parameterType := .parameterType noPos (.ref (.ident noPos (strsOf ls))) .nil

/-- The tokens of `a.b` -/
def nameKinds : List Str → List (Sym × Str)
  | [] => []
  | w :: ls => (.ident, w) :: ls.flatMap fun w => [(.dot, c!"."), (.ident, w)]

theorem nameType_ok (w : Str) (ls : List Str) : TypePart (nameKinds (w :: ls)) (nameType (w :: ls)) where
  ok r hr := by
    have star : ∀ ls : List Str, Takes (.star (.seq (.lit c!".") (.cap .parts (.tok .ident))))
        (toks (ls.flatMap fun w => [(.dot, c!"."), (.ident, w)]) ++ r) (capStrs .parts ls) r := by
      intro ls
      induction ls with
      | nil => exact Takes.nil (Soft.seqL (Soft.lit (by simpa [headNot_iff] using hr)).soft)
      | cons w ls ih =>
        have := Takes.cons (Takes.seq (Takes.lit (w := c!".") (t := tk .dot c!".") rfl) (Takes.capTok (f := .parts) (y := .ident)
          (t := tk .ident w) rfl)) (by simp; omega) ih
        simpa [capStrs, tk, toks] using this
    have h1 : OkKind {} (tk .ident w :: (toks (ls.flatMap fun w => [(.dot, c!"."), (.ident, w)]) ++ r)) (.ident noPos (strsOf (w :: ls))) r :=
      OkKind.ofTakes (Takes.seq (Takes.capTok (y := .ident) rfl) (Takes.once (star ls))) rfl fun txt => by simp [build, tk, strsOf]
    exact OkKind.ofTakes (Takes.altL (Takes.sub h1)) rfl fun txt => by simp [build, ptrOf, nameType]
  head := by simp [nameKinds]
  ne := by simp [nameKinds]

/-- Things with commas between them. -/
theorem commaSep_ok {k : Kind} {f : Field} (l : List (List (Sym × Str) × Node k)) (r : List Token)
    (h : ∀ p ∈ l, ∀ c u, (c = tk .opComma c!"," ∨ c = tk .opRParen c!")") → OkKind {} (toks p.1 ++ c :: u) p.2 (c :: u)) (hne : l ≠ []) :
    Takes (commaSep f k) (toks (joinBy commaKind (l.map (·.1))) ++ tk .opRParen c!")" :: r) (capNodes f (l.map (·.2)))
      (tk .opRParen c!")" :: r) := by
  have star : ∀ l : List (List (Sym × Str) × Node k), (∀ p ∈ l, ∀ c u, (c = tk .opComma c!"," ∨ c = tk .opRParen c!")") →
      OkKind {} (toks p.1 ++ c :: u) p.2 (c :: u)) →
      Takes (.star (.seq (.lit c!",") (.sub f k))) (toks (l.flatMap fun p => commaKind :: p.1) ++ tk .opRParen c!")" :: r)
        (capNodes f (l.map (·.2))) (tk .opRParen c!")" :: r) ∧
      ∃ c u, toks (l.flatMap fun p => commaKind :: p.1) ++ tk .opRParen c!")" :: r = c :: u ∧ (c = tk .opComma c!"," ∨ c = tk .opRParen c!")") := by
    intro l
    induction l with
    | nil => exact fun _ => ⟨Takes.nil (Soft.seqL (Soft.lit (by simp [tk])).soft), _, _, rfl, .inr rfl⟩
    | cons p l ih =>
      intro h
      obtain ⟨h1, c, u, e, hc⟩ := ih fun p hp => h p (by simp [hp])
      refine ⟨?_, _, _, rfl, .inl rfl⟩
      rw [e] at h1
      have := Takes.cons (Takes.seq (Takes.lit (w := c!",") (t := tk .opComma c!",") rfl) (Takes.sub (f := f) (h p (by simp) c u hc)))
        (by simp; omega) h1
      rw [← e] at this
      simpa [capNodes, commaKind] using this
  cases l with
  | nil => exact absurd rfl hne
  | cons p l =>
    obtain ⟨h1, c, u, e, hc⟩ := star l fun p hp => h p (by simp [hp])
    rw [e] at h1
    have := Takes.seq (Takes.sub (f := f) (h p (by simp) c u hc)) h1
    rw [← e] at this
    have e : ∀ (p : List (Sym × Str) × Node k) l, joinBy commaKind ((p :: l).map (·.1)) = p.1 ++ l.flatMap fun p => commaKind :: p.1 := by
      intro p l
      induction l generalizing p with
      | nil => simp [joinBy]
      | cons q l ih =>
        have := ih q
        simp only [List.map_cons] at this ⊢
        rw [joinBy, this]
        · simp
        · simp
    rw [e]
    simpa [capNodes, commaSep] using this

/-- The type `(t₁,…) -> t` -/
def funcType (ts : List (Node .parameterType)) (t : Node .parameterType) : Node .parameterType :=
  .parameterType noPos .nil (.ref (.funcSignature noPos (sliceOf ts) t))

/-- Types in parentheses. -/
theorem types_ok {f : Field} (l : List (List (Sym × Str) × Node .parameterType)) (h : ∀ p ∈ l, TypePart p.1 p.2) (r : List Token) :
    Takes (.opt (commaSep f .parameterType)) (toks (joinBy commaKind (l.map (·.1))) ++ tk .opRParen c!")" :: r) (capNodes f (l.map (·.2)))
      (tk .opRParen c!")" :: r) := by
  cases l with
  | nil => exact Takes.skip (Soft.seqL (bare_of_head (by rfl)).soft)
  | cons p l =>
    exact Takes.once (commaSep_ok (p :: l) r (fun p hp c u hc => (h p hp).ok _ (by rcases hc with rfl | rfl <;> simp [headNot, tk])) (by simp))

theorem funcType_ok (l : List (List (Sym × Str) × Node .parameterType)) (h : ∀ p ∈ l, TypePart p.1 p.2) {ks : List (Sym × Str)}
    {x : Node .parameterType} (hx : TypePart ks x) :
    TypePart ((.opLParen, c!"(") :: (joinBy commaKind (l.map (·.1)) ++ (.opRParen, c!")") :: (.opLambdaDef, c!"->") :: ks))
      (funcType (l.map (·.2)) x) where
  ok r hr := by
    have h1 : OkKind {} (tk .opLParen c!"(" :: (toks (joinBy commaKind (l.map (·.1))) ++ tk .opRParen c!")" :: tk .opLambdaDef c!"->" ::
        (toks ks ++ r))) (.funcSignature noPos (sliceOf (l.map (·.2))) x) r :=
      OkKind.ofTakes (Takes.seq (Takes.lit rfl) (Takes.seq (types_ok l h _) (Takes.seq (Takes.lit rfl) (Takes.seq (Takes.tok rfl)
        (Takes.sub (hx.ok r hr)))))) rfl fun txt => by simp [build]
    have := OkKind.ofTakes (k := .parameterType) (x := funcType (l.map (·.2)) x) (Takes.altR (a := .sub .ident .ident)
      (bare_of_head (by rfl)).soft (Takes.sub (f := .func) h1)) rfl fun txt => by simp [build, ptrOf, funcType]
    simpa using this
  head := by simp
  ne := by simp

/-- A type that may be missing. -/
inductive OptTypePart : List (Sym × Str) → Option (Node .parameterType) → Prop
  | none : OptTypePart [] none
  | some {ks : List (Sym × Str)} {x : Node .parameterType} : TypePart ks x → OptTypePart ((.opColon, c!":") :: ks) (some x)

theorem optType_ok {ks : List (Sym × Str)} {x : Option (Node .parameterType)} (h : OptTypePart ks x) {t : Token} (r : List Token)
    (h1 : t.txt ≠ c!":") (h2 : t.txt ≠ c!".") :
    Takes (.opt (.seq (.lit c!":") (.sub .type .parameterType))) (toks ks ++ t :: r) (capNodes .type x.toList) (t :: r) := by
  cases h with
  | none => exact Takes.skip (Soft.seqL (Soft.lit (by simpa using h1)).soft)
  | some h => exact Takes.once (Takes.seq (Takes.lit (t := tk .opColon c!":") rfl) (Takes.sub (h.ok _ (by simpa [headNot] using h2))))

/-- A value that may be missing, and what is left after the end of the line. -/
inductive OptStops : List (Sym × Str) → Option (Node .expr) → List Token → List Token → Prop
  | none {z r : List Token} : EndLine z r → OptStops [] none z r
  | some {ks : List (Sym × Str)} {x : Node .expr} {z r : List Token} : StopsAt ks x z r → OptStops ((.opAssign, c!"=") :: ks) (some x) z r

theorem optStops_ok {ks : List (Sym × Str)} {x : Option (Node .expr)} {z r : List Token} (h : OptStops ks x z r) :
    ∃ z', Takes (.opt (.seq (.lit c!"=") (.sub .value .expr))) (toks ks ++ z) (capNodes .value x.toList) z' ∧ Takes lf? z' [] r := by
  cases h with
  | none hz =>
    obtain ⟨t, u, e, h1⟩ := hz.next
    exact ⟨z, e ▸ Takes.skip (Soft.seqL (Soft.lit (by simpa using ends_txt (ws := [c!"="]) h1 (by decide))).soft), hz.takes⟩
  | some h =>
    obtain ⟨z', h1, h2⟩ := h
    exact ⟨z', Takes.once (Takes.seq (Takes.lit (t := tk .opAssign c!"=") rfl) (Takes.sub h1)), h2⟩

/-- What comes after a name, with a value or without one. -/
def AfterName (t : Token) : Prop := LineEnd t ∨ t = tk .opAssign c!"="

theorem OptStops.next {ks : List (Sym × Str)} {x : Option (Node .expr)} {z r : List Token} (h : OptStops ks x z r) :
    ∃ t u, toks ks ++ z = t :: u ∧ AfterName t := by
  cases h with
  | none hz =>
    obtain ⟨t, u, rfl, h⟩ := hz.next
    exact ⟨_, _, rfl, .inl h⟩
  | some h => exact ⟨_, _, rfl, .inr rfl⟩

omit [FloatValue] in
theorem AfterName.sym {t : Token} (h : AfterName t) : t.sym ≠ .ident := by
  rcases h with (⟨h, -⟩ | h) | rfl
  · intro e
    rw [e] at h
    cases h
  · intro e
    simp [closers, e] at h
  · decide

omit [FloatValue] in
theorem AfterName.txt {t : Token} (h : AfterName t) : t.txt ≠ c!":" ∧ t.txt ≠ c!"." := by
  rcases h with h | rfl
  · simpa using ends_txt (ws := [c!":", c!"."]) h (by decide)
  · decide

theorem AfterName.block {f : Field} {w : Str} {t : Token} {r : List Token} (h : AfterName t) : Soft {} (.sub f .block) (tk .ident w :: t :: r) := by
  rcases h with h | h
  · refine Soft.sub (Soft.seqR (Ok.cap (Ok.tok rfl)) ?_ (by simp [lookahead]))
    refine bare_of_head (any_excluded (ys := [.lf, .singleLineComment, .multilineComment, .exprEnd, .blockEnd, .opRParen, .opRBracket, .opComma])
      (ws := [c!"{"]) (by decide) ?_ (ends_txt h (by decide)))
    rcases h with ⟨h1, -⟩ | h
    · cases e : t.sym <;> rw [e] at h1 <;> first | cases h1 | simp
      all_goals simp
    · simp only [closers, List.mem_cons, Prod.mk.injEq, List.not_mem_nil, or_false] at h
      rcases h with ⟨h, -⟩ | ⟨h, -⟩ | ⟨h, -⟩ | ⟨h, -⟩ | ⟨h, -⟩ <;> rw [h] <;> simp
  · exact soft_block (.inr h)

/-! ## Attributes and declarations -/

theorem attrLine_ok {k : Str} {ks : List (Sym × Str)} {x : Option (Node .expr)} {z r : List Token} (h : OptStops ks x z r) :
    ∃ z', OkKind {} (tk .ident k :: (toks ks ++ z)) (.attr noPos k (ptrOf x.toList)) z' ∧ Takes lf? z' [] r := by
  obtain ⟨z', h1, h2⟩ := optStops_ok h
  exact ⟨z', OkKind.ofTakes (Takes.seq (Takes.capTok rfl) h1) rfl fun txt => by simp [build, tk], h2⟩

/-- The item of a block that is an attribute. -/
def bodyAttr (k : Str) (x : Option (Node .expr)) : Node .blockItem := .blockItem noPos [] .nil (.ref (.attr noPos k (ptrOf x.toList))) .nil

/-- An attribute in a block. -/
theorem bodyAttr_ok {k : Str} {ks : List (Sym × Str)} {x : Option (Node .expr)} {z r : List Token} (h : OptStops ks x z r) :
    OkKind {} (tk .ident k :: (toks ks ++ z)) (bodyAttr k x) r := by
  obtain ⟨z', h1, hl⟩ := attrLine_ok (k := k) h
  obtain ⟨t, u, e, ht⟩ := h.next
  rw [e] at h1 ⊢
  refine OkKind.ofTakes (Takes.altR (bare_of_head rfl).soft (Takes.altR (Soft.seqL ht.block)
    (Takes.altL (Takes.seq (Takes.sub h1) hl)))) rfl fun txt => by simp [build, ptrOf, bodyAttr]

/-- The item of a document that is an attribute. -/
def rootAttr (k : Str) (x : Option (Node .expr)) : Node .rootItem :=
  .rootItem noPos [] .nil .nil .nil .nil (.ref (.attr noPos k (ptrOf x.toList))) .nil

/-- An attribute of the document. -/
theorem rootAttr_ok {k : Str} {ks : List (Sym × Str)} {x : Option (Node .expr)} {z r : List Token} (h : OptStops ks x z r) :
    OkKind {} (tk .ident k :: (toks ks ++ z)) (rootAttr k x) r := by
  obtain ⟨z', h1, hl⟩ := attrLine_ok (k := k) h
  obtain ⟨t, u, e, ht⟩ := h.next
  have ht' := ht.sym
  rw [e] at h1 ⊢
  refine OkKind.ofTakes (Takes.altR (bare_of_head rfl).soft (Takes.altR (Soft.seqL (soft_decl ht'))
    (Takes.altR (Soft.seqL (soft_func ht')) (Takes.altR (Soft.seqL (soft_type ht'))
    (Takes.altR (Soft.seqL ht.block) (Takes.altL (Takes.seq (Takes.sub h1) hl)))))))
    rfl fun txt => by simp [build, ptrOf, rootAttr]

/-- The kinds of declarations. -/
def declWords : List Str := [c!"input", c!"output", c!"const", c!"val"]

/-- A declaration of the document. -/
def declItem (d k : Str) (t : Option (Node .parameterType)) (x : Option (Node .expr)) : Node .rootItem :=
  .rootItem noPos [] (.ref (.decl noPos d k (ptrOf t.toList) (ptrOf x.toList))) .nil .nil .nil .nil .nil

theorem declItem_ok {d k : Str} (hd : d ∈ declWords) {kt ks : List (Sym × Str)} {t : Option (Node .parameterType)} {x : Option (Node .expr)}
    (ht : OptTypePart kt t) {z r : List Token} (h : OptStops ks x z r) :
    OkKind {} (tk .ident d :: tk .ident k :: (toks kt ++ (toks ks ++ z))) (declItem d k t x) r := by
  obtain ⟨z', h2, hl⟩ := optStops_ok h
  have h1 : OkKind {} (tk .ident d :: tk .ident k :: (toks kt ++ (toks ks ++ z))) (.decl noPos d k (ptrOf t.toList) (ptrOf x.toList))
      z' := by
    obtain ⟨a, u, e, ha⟩ := h.next
    rw [e] at h2 ⊢
    refine OkKind.ofTakes (Takes.seq (Takes.cap (Ok.alLits (ws := declWords) hd)) (Takes.seq (Takes.capTok rfl) (Takes.seq
      (optType_ok ht u ha.txt.1 ha.txt.2) h2))) rfl
      fun txt => by simp [build, tk]
  refine OkKind.ofTakes (Takes.altR (bare_of_head rfl).soft (Takes.altL (Takes.seq (Takes.sub h1) hl))) rfl fun txt => by
    simp [build, ptrOf, declItem]

/-! ## Blocks -/

/-- The tokens of the label of a block, and the label. -/
inductive LabelPart : List (Sym × Str) → Str → Prop
  | name (w : Str) : LabelPart [(.ident, w)] w
  | quoted (q w q' : Str) : LabelPart [(.string, q), (.char, w), (.stringEnd, q')] w

/-- The tokens of a block; `ts` begins with the end of the line. -/
def blockToks (n : Str) (ls : List (List (Sym × Str) × Str)) (ts : List Token) : List Token :=
  tk .ident n :: (toks (ls.flatMap (·.1)) ++ tk .blockStart c!"{" :: (ts ++ [tk .blockEnd c!"}"]))

theorem takes_names (ls : List (List (Sym × Str) × Str)) (h : ∀ p ∈ ls, LabelPart p.1 p.2) (r : List Token) :
    Takes (.star (.alt (sq [tok .string, cap .labels (tok .char), tok .stringEnd]) (cap .labels (tok .ident))))
      (toks (ls.flatMap (·.1)) ++ tk .blockStart c!"{" :: r) (capStrs .labels (ls.map (·.2))) (tk .blockStart c!"{" :: r) := by
  induction ls with
  | nil => exact Takes.nil (bare_of_head rfl).soft
  | cons p ls ih =>
    obtain ⟨ks, w⟩ := p
    have ih := ih fun p hp => h p (by simp [hp])
    have hp : LabelPart ks w := h (ks, w) (by simp)
    have one : ∀ u, Takes (.alt (sq [tok .string, cap .labels (tok .char), tok .stringEnd]) (cap .labels (tok .ident))) (toks ks ++ u)
        [.toks .labels [w]] u := by
      intro u
      cases hp with
      | name => exact Takes.altR (bare_of_head rfl).soft (Takes.capTok rfl)
      | quoted q w q' =>
        have := Takes.altL (b := cap .labels (tok .ident)) (Takes.seq (Takes.tok (y := .string) (t := tk .string q) rfl) (Takes.seq
          (Takes.capTok (f := .labels) (y := .char) (t := tk .char w) rfl) (Takes.tok (y := .stringEnd) (t := tk .stringEnd q') (r := u) rfl)))
        exact this
    have := Takes.cons (one _) (by cases hp <;> simp <;> omega) ih
    simpa [capStrs] using this

/-- A line end may be read: from `us`, `ts` is left. -/
def LfThen {k : Kind} (q : Kit k) (us ts : List Token) : Prop := ∀ z, quiet z → q.fits z → Takes lf? (us ++ z) [] (ts ++ z)

section
omit [FloatValue]

theorem quiet_brace (r : List Token) : quiet (tk .blockEnd c!"}" :: r) := by simp [quiet, headNot, tk]

theorem Kit.fits_shut {k : Kind} {q : Kit k} {y : Sym} {c : Char} (h : q.shut = some (y, c)) (r : List Token) : q.fits (tk y [c] :: r) := by
  intro p hp
  rw [h] at hp
  cases hp
  exact ⟨r, rfl⟩

end

theorem block_ok {n : Str} {ls : List (List (Sym × Str) × Str)} (hls : ∀ p ∈ ls, LabelPart p.1 p.2) {ts us : List Token}
    {l : List (Node .blockItem)} (he : LfThen bodyKit us ts) (h : Items bodyKit .body ts l)
    (r : List Token) : OkKind {} (blockToks n ls us ++ r) (.block noPos n (strsOf (ls.map (·.2))) (sliceOf l)) r := by
  have hb := h.takes (tk .blockEnd c!"}" :: r) (bare_of_head (by decide +kernel)).soft (quiet_brace _) (Kit.fits_shut rfl _)
  have := Takes.seq (Takes.capTok (f := .name) (y := .ident) (t := tk .ident n) rfl) (Takes.seq (takes_names ls hls _)
    (Takes.seq (Takes.lit (w := c!"{") (t := tk .blockStart c!"{") rfl) (Takes.seq (he _ (quiet_brace _) (Kit.fits_shut rfl _)) (Takes.seq hb (Takes.lit (w := c!"}") rfl)))))
  rw [blockToks, List.cons_append, List.append_assoc, List.cons_append, List.append_assoc]
  exact OkKind.ofTakes this rfl fun txt => by simp [build, tk]

/-- A block in a block. -/
def nestedItem (n : Str) (ls : List Str) (l : List (Node .blockItem)) : Node .blockItem :=
  .blockItem noPos [] (.ref (.block noPos n (strsOf ls) (sliceOf l))) .nil .nil

theorem nestedItem_ok {n : Str} {ls : List (List (Sym × Str) × Str)} (hls : ∀ p ∈ ls, LabelPart p.1 p.2) {ts us : List Token}
    {l : List (Node .blockItem)} (he : LfThen bodyKit us ts) (h : Items bodyKit .body ts l)
    {z r : List Token} (hz : Takes lf? z [] r) : OkKind {} (blockToks n ls us ++ z) (nestedItem n (ls.map (·.2)) l) r := by
  refine OkKind.ofTakes (Takes.altR (bare_of_head (by rfl)).soft (Takes.altL (Takes.seq (Takes.sub (block_ok hls he h _)) hz))) rfl
    fun txt => by simp [build, ptrOf, nestedItem]

/-- A block of the document. -/
def blockEntry (n : Str) (ls : List Str) (l : List (Node .blockItem)) : Node .rootItem :=
  .rootItem noPos [] .nil .nil .nil (.ref (.block noPos n (strsOf ls) (sliceOf l))) .nil .nil

theorem Soft.seqThird {a b c : Gram} {s s' s'' : List Token} {o o' : Out} (h : Ok {} a s o s') (h' : Ok {} b s' o' s'') (h'' : Bare {} c s'')
    (hl : s.length ≤ s''.length + lookahead) : Soft {} (.seq a (.seq b c)) s := by
  unfold Ok at h h'
  unfold Soft
  unfold Bare at h''
  have hs : stops s s'' = false := by simpa [stops] using hl
  unfold run
  rw [h]
  simp only
  rw [run, h']
  simp only
  cases e : run (parseKind {}) c s'' with
  | miss => exact hs
  | err r' => rw [e] at h''; cases h''; exact hs
  | ok o r => rw [e] at h''; exact h''.elim

theorem Bare.altBoth {a b : Gram} {s : List Token} (h : Soft {} a s) (h' : Soft {} b s) : Bare {} (.alt a b) s := by
  unfold Soft at h h'
  unfold Bare
  rw [run]
  cases e : run (parseKind {}) a s with
  | ok o r => rw [e] at h; exact h.elim
  | miss =>
    simp only
    cases e' : run (parseKind {}) b s with
    | ok o r => rw [e'] at h'; exact h'.elim
    | miss => trivial
    | err r' =>
      rw [e'] at h'
      have h' : stops s r' = false := h'
      simp only [h', Bool.false_eq_true, if_false]
      rfl
  | err r' =>
    rw [e] at h
    have h : stops s r' = false := h
    simp only [h, Bool.false_eq_true, if_false]
    cases e' : run (parseKind {}) b s with
    | ok o r => rw [e'] at h'; exact h'.elim
    | miss => rfl
    | err r' =>
      rw [e'] at h'
      have h' : stops s r' = false := h'
      simp only [h', Bool.false_eq_true, if_false]
      rfl

theorem Bare.seqHead {a b : Gram} {s : List Token} (h : Bare {} a s) : Bare {} (.seq a b) s := by
  unfold Bare at *
  rw [run]
  cases e : run (parseKind {}) a s with
  | ok o r => rw [e] at h; exact h.elim
  | miss => trivial
  | err r' => rw [e] at h; exact h

/-- The labels `ks` after the name `n` do not make it a declaration or a type. -/
structure BlockHead (n : Str) (ks : List (Sym × Str)) : Prop where
  decl : n ∈ declWords → ∀ k ∈ ks.head?, k.1 ≠ .ident
  type : n = c!"type" → ∀ k k', ks = [k, k'] → k'.2 ≠ c!"enum" ∧ k'.2 ≠ c!"object"
  paren : ∀ a k b, ks = a ++ k :: b → (∀ x ∈ a, x.1 = .ident) →
    k.2 ≠ c!"(" ∧ k.2 ≠ c!"{" ∧ (k.1 ≠ .ident → k.2 ∉ [c!"enum", c!"object"])

omit [FloatValue] in
theorem BlockHead.tail {n : Str} {k : Sym × Str} {ks : List (Sym × Str)} (h : BlockHead n (k :: ks)) (hk : k.1 = .ident) : BlockHead [] ks :=
  ⟨fun h => absurd h (by decide), fun h => absurd h (by decide), fun a k' b e ha =>
    h.paren (k :: a) k' b (by rw [e]; rfl) (by simpa [hk] using ha)⟩

omit [FloatValue] in
/-- What comes after the labels. -/
theorem blockHead_next {n : Str} {ks : List (Sym × Str)} (h : BlockHead n ks) (r : List Token) :
    ∃ t u, toks ks ++ tk .blockStart c!"{" :: r = t :: u ∧ t.txt ≠ c!"(" ∧ (t.txt = c!"{" → ks = []) ∧ (n ∈ declWords → t.sym ≠ .ident) := by
  cases ks with
  | nil => exact ⟨_, _, rfl, by simp [tk], fun _ => rfl, by simp [tk]⟩
  | cons k ks => exact ⟨_, _, rfl, (h.paren [] k ks rfl (by simp)).1, fun e => absurd e (h.paren [] k ks rfl (by simp)).2.1, fun hn => h.decl hn k rfl⟩

theorem blockHead_decl {n : Str} {ks : List (Sym × Str)} (h : BlockHead n ks) (r : List Token) :
    Soft {} (.sub .decl .decl) (tk .ident n :: (toks ks ++ tk .blockStart c!"{" :: r)) := by
  obtain ⟨t, u, e, -, -, ht⟩ := blockHead_next h r
  rw [e]
  by_cases hn : n ∈ declWords
  · exact soft_decl (ht hn)
  · exact Soft.sub (Soft.seqL (bare_of_head (any_excluded (ys := [.ident]) (ws := declWords) (by decide) (by simp [tk]) hn)).soft)

theorem blockHead_func {n : Str} {ks : List (Sym × Str)} (h : BlockHead n ks) (r : List Token) :
    Soft {} (.sub .func .func) (tk .ident n :: (toks ks ++ tk .blockStart c!"{" :: r)) := by
  by_cases hn : n = c!"def"
  · subst hn
    obtain ⟨t, u, e, ht, -, -⟩ := blockHead_next h r
    by_cases hi : t.sym = .ident
    · match ks, h, e with
      | [], h, e => simp only [toks_nil, List.nil_append, List.cons.injEq] at e; rw [← e.1] at hi; cases hi
      | k :: ks, h, e =>
        rw [toks_cons, List.cons_append, List.cons.injEq] at e
        have hk : BlockHead [] ks := h.tail (by rw [← e.1] at hi; exact hi)
        obtain ⟨t', u', e', ht', -, -⟩ := blockHead_next hk r
        rw [toks_cons, List.cons_append, e']
        refine Soft.sub (Soft.seqThird (Ok.lit rfl) (Ok.cap (Ok.tok (by rw [e.1]; exact hi))) (Bare.seqHead (Soft.lit (by simpa using ht')))
          (by simp [lookahead]))
    · rw [e]; exact soft_func hi
  · exact Soft.sub (Soft.seqL (Soft.lit (by simpa [tk] using hn)).soft)

theorem blockHead_type {n : Str} {ks : List (Sym × Str)} (h : BlockHead n ks) (r : List Token) :
    Soft {} (.sub .type .type) (tk .ident n :: (toks ks ++ tk .blockStart c!"{" :: r)) := by
  by_cases hn : n = c!"type"
  · subst hn
    obtain ⟨t, u, e, ht, -, -⟩ := blockHead_next h r
    by_cases hi : t.sym = .ident
    · match ks, h, e with
      | [], h, e => simp only [toks_nil, List.nil_append, List.cons.injEq] at e; rw [← e.1] at hi; cases hi
      | k :: ks, h, e =>
        rw [toks_cons, List.cons_append, List.cons.injEq] at e
        have hk : BlockHead [] ks := h.tail (by rw [← e.1] at hi; exact hi)
        have branch : ∀ (w : Str) (g : Gram), w ∈ [c!"enum", c!"object"] → (∀ k', ks = [k'] → k'.2 ≠ w) →
            Soft {} (.seq (.lit w) (.seq (.lit c!"{") g)) (toks ks ++ tk .blockStart c!"{" :: r) := by
          intro w g hw hl
          cases ks with
          | nil => exact Soft.seqL (Soft.lit (by revert w; simp [tk])).soft
          | cons k' ks =>
            by_cases hk' : k'.2 = w
            · have hk2 : BlockHead [] ks := hk.tail (by
                by_contra hc
                exact (hk.paren [] k' ks rfl (by simp)).2.2 hc (hk' ▸ hw))
              obtain ⟨t2, u2, e2, -, ht2, -⟩ := blockHead_next hk2 r
              rw [toks_cons, List.cons_append, e2]
              refine Soft.seqR (Ok.lit hk') (Bare.seqHead (Soft.lit ?_)) (by simp [lookahead])
              intro t ht he
              simp only [List.head?_cons, Option.mem_def, Option.some.injEq] at ht
              rw [← ht] at he
              exact hl k' (by rw [ht2 he]) hk'
            · exact Soft.seqL (Soft.lit (by simpa [tk] using hk')).soft
        rw [toks_cons, List.cons_append]
        refine Soft.sub (Soft.seqThird (Ok.lit rfl) (Ok.cap (Ok.tok (by rw [e.1]; exact hi))) (Bare.seqHead (Bare.altBoth ?_ ?_))
          (by simp [lookahead]))
        · exact branch _ _ (by decide) fun k' hk => (h.type rfl k k' (by rw [hk])).1
        · exact branch _ _ (by decide) fun k' hk => (h.type rfl k k' (by rw [hk])).2
    · rw [e]; exact soft_type hi
  · exact Soft.sub (Soft.seqL (Soft.lit (by simpa [tk] using hn)).soft)

theorem blockEntry_ok {n : Str} {ls : List (List (Sym × Str) × Str)} (hn : BlockHead n (ls.flatMap (·.1)))
    (hls : ∀ p ∈ ls, LabelPart p.1 p.2) {ts us : List Token} {l : List (Node .blockItem)} (he : LfThen bodyKit us ts)
    (h : Items bodyKit .body ts l) {z r : List Token} (hz : Takes lf? z [] r) : OkKind {} (blockToks n ls us ++ z) (blockEntry n (ls.map (·.2)) l) r := by
  have e : blockToks n ls us ++ z = tk .ident n :: (toks (ls.flatMap (·.1)) ++ tk .blockStart c!"{" ::
      (us ++ [tk .blockEnd c!"}"] ++ z)) := by simp [blockToks]
  refine OkKind.ofTakes (Takes.altR (bare_of_head (by rfl)).soft (Takes.altR (Soft.seqL (e ▸ blockHead_decl hn _)) (Takes.altR
    (Soft.seqL (e ▸ blockHead_func hn _)) (Takes.altR (Soft.seqL (e ▸ blockHead_type hn _)) (Takes.altL (Takes.seq
    (Takes.sub (block_ok hls he h _)) hz)))))) rfl fun txt => by simp [build, ptrOf, blockEntry]

/-! ## Functions -/

/-- A parameter. -/
def param (w : Str) (t : Option (Node .parameterType)) : Node .funcParameter := .funcParameter noPos w (ptrOf t.toList)

theorem param_ok {w : Str} {kt : List (Sym × Str)} {x : Option (Node .parameterType)} (h : OptTypePart kt x) {t : Token}
    (h1 : t.txt ≠ c!":") (h2 : t.txt ≠ c!".") (r : List Token) :
    OkKind {} (tk .ident w :: (toks kt ++ t :: r)) (param w x) (t :: r) := by
  refine OkKind.ofTakes (Takes.seq (Takes.capTok rfl) (optType_ok h r h1 h2)) rfl fun txt => by simp [build, param, tk]

/-- The tokens of parameters. -/
def paramKinds (ps : List (Str × List (Sym × Str) × Option (Node .parameterType))) : List (Sym × Str) :=
  joinBy commaKind (ps.map fun p => (.ident, p.1) :: p.2.1)

theorem params_ok (ps : List (Str × List (Sym × Str) × Option (Node .parameterType))) (h : ∀ p ∈ ps, OptTypePart p.2.1 p.2.2) (r : List Token) :
    Takes (.opt (commaSep .parameters .funcParameter)) (toks (paramKinds ps) ++ tk .opRParen c!")" :: r)
      (capNodes .parameters (ps.map fun p => param p.1 p.2.2)) (tk .opRParen c!")" :: r) := by
  cases ps with
  | nil => exact Takes.skip (Soft.seqL (bare_of_head (by rfl)).soft)
  | cons p ps =>
    have := commaSep_ok (k := .funcParameter) (f := .parameters) ((p :: ps).map fun p => ((.ident, p.1) :: p.2.1, param p.1 p.2.2)) r
      (fun q hq c u hc => by
        obtain ⟨p', hp, rfl⟩ := List.mem_map.1 hq
        have := param_ok (w := p'.1) (h p' hp) (t := c) (by rcases hc with rfl | rfl <;> simp [tk]) (by rcases hc with rfl | rfl <;> simp [tk]) u
        simpa using this) (by simp)
    simp only [List.map_map, Function.comp_def] at this
    exact Takes.once this

/-- What a function returns. -/
inductive RetPart : List (Sym × Str) → List (Node .parameterType) → Prop
  | none : RetPart [] []
  | one (w : Str) (ls : List Str) : w ≠ c!"(" → RetPart (nameKinds (w :: ls)) [nameType (w :: ls)]
  | many (l : List (List (Sym × Str) × Node .parameterType)) : (∀ p ∈ l, TypePart p.1 p.2) →
      RetPart ((.opLParen, c!"(") :: (joinBy commaKind (l.map (·.1)) ++ [(.opRParen, c!")")])) (l.map (·.2))

theorem ret_ok {ks : List (Sym × Str)} {l : List (Node .parameterType)} (h : RetPart ks l) (r : List Token) :
    Takes (.opt (.alt (sq [lit c!"(", opt (commaSep .ret .parameterType), lit c!")"]) (sub .ret .parameterType)))
      (toks ks ++ tk .blockStart c!"{" :: r) (capNodes .ret l) (tk .blockStart c!"{" :: r) := by
  cases h with
  | none => exact Takes.skip (bare_of_head (by rfl)).soft
  | one w ls hw =>
    exact Takes.once (Takes.altR (Soft.seqL (Soft.lit (by simpa [tk, nameKinds, toks] using hw)).soft) (Takes.sub ((nameType_ok w ls).ok _ (by simp [headNot, tk]))))
  | many l h =>
    have := Takes.once (Takes.altL (b := sub .ret .parameterType) (Takes.seq (Takes.lit (w := c!"(") (t := tk .opLParen c!"(") rfl) (Takes.seq
      (types_ok (f := .ret) l h (tk .blockStart c!"{" :: r)) (Takes.lit (w := c!")") rfl))))
    simpa [Gram.sq] using this

/-- A declaration in a function. -/
def localItem (d k : Str) (t : Option (Node .parameterType)) (x : Option (Node .expr)) : Node .funcStatement :=
  .funcStatement noPos [] .nil (.ref (.funcDecl noPos d k (ptrOf t.toList) (ptrOf x.toList))) .nil

theorem localItem_ok {d k : Str} (hd : d ∈ [c!"const", c!"val"]) {kt ks : List (Sym × Str)} {t : Option (Node .parameterType)}
    {x : Option (Node .expr)} (ht : OptTypePart kt t) {z r : List Token} (h : OptStops ks x z r) :
    OkKind {} (tk .ident d :: tk .ident k :: (toks kt ++ (toks ks ++ z))) (localItem d k t x) r := by
  obtain ⟨z', h2, hl⟩ := optStops_ok h
  have h1 : OkKind {} (tk .ident d :: tk .ident k :: (toks kt ++ (toks ks ++ z)))
      (.funcDecl noPos d k (ptrOf t.toList) (ptrOf x.toList)) z' := by
    obtain ⟨a, u, e, ha⟩ := h.next
    rw [e] at h2 ⊢
    refine OkKind.ofTakes (Takes.seq (Takes.cap (Ok.alLits (ws := [c!"const", c!"val"]) hd)) (Takes.seq (Takes.capTok rfl) (Takes.seq
      (optType_ok ht u ha.txt.1 ha.txt.2) h2))) rfl
      fun txt => by simp [build, tk]
  refine OkKind.ofTakes (Takes.altR (bare_of_head rfl).soft (Takes.altR (bare_of_head (by rfl)).soft (Takes.altL (Takes.seq (Takes.sub h1)
    hl)))) rfl fun txt => by simp [build, ptrOf, localItem]

/-- An expression in a function. -/
def stmtItem (x : Node .expr) : Node .funcStatement := .funcStatement noPos [] .nil .nil (.ref x)

/-- The tokens do not begin like a declaration or a comment. -/
def Plainly (ks : List (Sym × Str)) : Prop :=
  ∀ k ∈ ks.head?, k.1 ≠ .singleLineComment ∧ k.1 ≠ .multilineComment ∧ k.2 ≠ c!"const" ∧ k.2 ≠ c!"val"

theorem stmtItem_ok {ks : List (Sym × Str)} {x : Node .expr} (h : Part ks x) (hp : Plainly ks) {z r : List Token}
    (hz : StopsAt ks x z r) : OkKind {} (toks ks ++ z) (stmtItem x) r := by
  obtain ⟨z', hl, hz⟩ := hz
  obtain ⟨k, ks', rfl⟩ := List.exists_cons_of_ne_nil h.ne
  have h1 := h.head k rfl
  obtain ⟨h2, h3, h4, h5⟩ := hp k rfl
  refine OkKind.ofTakes (Takes.altR (Soft.plus (Soft.cap (Soft.tok (by simpa [tk] using h1)).soft)) (Takes.altR
    (bare_of_head ?_).soft (Takes.altR (Soft.seqL (bare_of_head ?_).soft) (Takes.seq (Takes.sub hl)
    hz)))) rfl fun txt => by simp [build, ptrOf, stmtItem]
  · rw [List.any_eq_false]
    intro u hu
    have : u ∈ [Test.sym .singleLineComment, .sym .multilineComment] := hu
    simp only [List.mem_cons, List.not_mem_nil, or_false] at this
    rcases this with rfl | rfl <;> simp [Test.ok, tk, *]
  · rw [List.any_eq_false]
    intro u hu
    have : u ∈ [Test.lit c!"const", .lit c!"val"] := hu
    simp only [List.mem_cons, List.not_mem_nil, or_false] at this
    rcases this with rfl | rfl <;> simp [Test.ok, tk, *]

omit [FloatValue] in
theorem headNot_brace {ts : List Token} (h : headNot (fun t => t.sym = .lf) ts = true) (z : List Token) :
    headNot (fun t => t.sym = .lf) (ts ++ tk .blockEnd c!"}" :: z) = true := by
  cases ts with
  | nil => rfl
  | cons t ts => exact h

/-- Line ends are read after an opening brace: from `us`, `ts` is left. -/
def LfsThen (us ts : List Token) : Prop := ∀ z, quiet z → skipLF (us ++ z) = ts ++ z

theorem LfsThen.takes {us ts : List Token} (h : LfsThen us ts) {z : List Token} (hz : quiet z) : Takes lfs (us ++ z) [] (ts ++ z) := by
  rw [← h z hz]
  exact Takes.lfs _

/-- The tokens of a function; `ts` begins with the end of the line. -/
def funcToks (f : Str) (kp kr : List (Sym × Str)) (ts : List Token) : List Token :=
  tk .ident c!"def" :: tk .ident f :: tk .opLParen c!"(" :: (toks kp ++
    tk .opRParen c!")" :: (toks kr ++ tk .blockStart c!"{" :: (ts ++ [tk .blockEnd c!"}"])))

/-- A function of the document. -/
def funcItem (f : Str) (ps : List (Node .funcParameter)) (rs : List (Node .parameterType)) (l : List (Node .funcStatement)) : Node .rootItem :=
  .rootItem noPos [] .nil (.ref (.func noPos f (sliceOf ps) (sliceOf rs) (sliceOf l))) .nil .nil .nil .nil

theorem funcItem_ok {f : Str} {ps : List (Str × List (Sym × Str) × Option (Node .parameterType))} (hps : ∀ p ∈ ps, OptTypePart p.2.1 p.2.2)
    {kr : List (Sym × Str)} {rs : List (Node .parameterType)} (hr : RetPart kr rs)
    {ts us : List Token} {l : List (Node .funcStatement)} (he : LfsThen us ts) (h : Items stmtKit .body ts l)
    {z r : List Token} (hz : Takes lf? z [] r) :
    OkKind {} (funcToks f (paramKinds ps) kr us ++ z) (funcItem f (ps.map fun p => param p.1 p.2.2) rs l) r := by
  have hb := h.takes (tk .blockEnd c!"}" :: z) (bare_of_head (by decide +kernel)).soft (quiet_brace _) (Kit.fits_shut rfl _)
  have h1 : OkKind {} (funcToks f (paramKinds ps) kr us ++ z) (.func noPos f (sliceOf (ps.map fun p => param p.1 p.2.2)) (sliceOf rs)
      (sliceOf l)) z := by
    have := Takes.seq (Takes.lit (w := c!"def") (t := tk .ident c!"def") rfl) (Takes.seq (Takes.capTok (f := .label) (y := .ident)
      (t := tk .ident f) rfl) (Takes.seq (Takes.lit (w := c!"(") (t := tk .opLParen c!"(") rfl) (Takes.seq (params_ok ps hps _) (Takes.seq
      (Takes.lit (w := c!")") (t := tk .opRParen c!")") rfl) (Takes.seq (ret_ok hr _) (Takes.seq (Takes.noLfs (by rfl)) (Takes.seq
      (Takes.lit (w := c!"{") (t := tk .blockStart c!"{") rfl) (Takes.seq (he.takes (quiet_brace z)) (Takes.seq hb (Takes.lit (w := c!"}") rfl))))))))))
    have e : funcToks f (paramKinds ps) kr us ++ z = tk .ident c!"def" :: tk .ident f :: tk .opLParen c!"(" ::
        (toks (paramKinds ps) ++ tk .opRParen c!")" :: (toks kr ++ tk .blockStart c!"{" ::
          (us ++ tk .blockEnd c!"}" :: z))) := by simp [funcToks]
    rw [e]
    exact OkKind.ofTakes this rfl fun txt => by simp [build, tk]
  refine OkKind.ofTakes (Takes.altR (bare_of_head (by rfl)).soft (Takes.altR (bare_of_head (by rfl)).soft (Takes.altL (Takes.seq
    (Takes.sub h1) hz)))) rfl fun txt => by simp [build, ptrOf, funcItem]

/-! ## Types -/

/-- An item of an enumeration. -/
def enumItem (k : Str) (x : Node .expr) : Node .typeEnumItem := .typeEnumItem noPos [] .nil k x

theorem enumItem_ok {k : Str} {ks : List (Sym × Str)} {x : Node .expr} {z r : List Token} (hz : StopsAt ks x z r) :
    OkKind {} (tk .ident k :: tk .opColon c!":" :: (toks ks ++ z)) (enumItem k x) r := by
  obtain ⟨z', hl, hz⟩ := hz
  refine OkKind.ofTakes (Takes.altR (bare_of_head rfl).soft (Takes.altR (bare_of_head (by rfl)).soft (Takes.seq (Takes.capTok rfl)
    (Takes.seq (Takes.lit rfl) (Takes.seq (Takes.sub hl) hz))))) rfl fun txt => by simp [build, ptrOf, enumItem, tk]

/-- A field of an object. -/
def objectItem (k : Str) (t : Node .parameterType) : Node .typeObjectItem := .typeObjectItem noPos [] .nil k t

theorem objectItem_ok {k : Str} {ks : List (Sym × Str)} {x : Node .parameterType} (h : TypePart ks x) {z r : List Token} (hz : EndLine z r) :
    OkKind {} (tk .ident k :: tk .opColon c!":" :: (toks ks ++ z)) (objectItem k x) r := by
  obtain ⟨t, u, e, he⟩ := hz.next
  have hl := h.ok z (by simpa [e, headNot] using ends_txt (ws := [c!"."]) he (by decide))
  refine OkKind.ofTakes (Takes.altR (bare_of_head rfl).soft (Takes.altR (bare_of_head (by rfl)).soft (Takes.seq (Takes.capTok rfl)
    (Takes.seq (Takes.lit rfl) (Takes.seq (Takes.sub hl) hz.takes))))) rfl fun txt => by
    simp [build, ptrOf, objectItem, tk]

/-- The tokens of a type; `ts` begins with the end of the line. -/
def typeToks (w n : Str) (ts : List Token) : List Token :=
  tk .ident c!"type" :: tk .ident n :: tk .ident w :: tk .blockStart c!"{" :: (ts ++ [tk .blockEnd c!"}"])

/-- An enumeration of the document. -/
def enumEntry (n : Str) (l : List (Node .typeEnumItem)) : Node .rootItem :=
  .rootItem noPos [] .nil .nil (.ref (.type noPos n (.ref (.typeEnum noPos (sliceOf l))) .nil)) .nil .nil .nil

/-- An object type of the document. -/
def objectEntry (n : Str) (l : List (Node .typeObjectItem)) : Node .rootItem :=
  .rootItem noPos [] .nil .nil (.ref (.type noPos n .nil (.ref (.typeObject noPos (sliceOf l))))) .nil .nil .nil

theorem enumEntry_ok {n : Str} {t : Token} {ts us : List Token} {l : List (Node .typeEnumItem)} (hp : t.pos = {})
    (he : LfsThen us (t :: ts)) (h : Items enumKit .items (t :: ts) l) {z r : List Token} (hz : Takes lf? z [] r) :
    OkKind {} (typeToks c!"enum" n us ++ z) (enumEntry n l) r := by
  have hb := h.takes (tk .blockEnd c!"}" :: z) (bare_of_head (by decide +kernel)).soft (quiet_brace _) (Kit.fits_shut rfl _)
  have h1 : OkKind {} (t :: ts ++ tk .blockEnd c!"}" :: z) (.typeEnum noPos (sliceOf l)) (tk .blockEnd c!"}" :: z) :=
    OkKind.ofTakes hb hp fun txt => by simp [build]
  have h2 : OkKind {} (typeToks c!"enum" n us ++ z) (.type noPos n (.ref (.typeEnum noPos (sliceOf l))) .nil) z := by
    have := Takes.seq (Takes.lit (w := c!"type") (t := tk .ident c!"type") rfl) (Takes.seq (Takes.capTok (f := .label) (y := .ident)
      (t := tk .ident n) rfl) (Takes.seq (Takes.altL (b := sq [lit c!"object", lit c!"{", lfs, sub .object .typeObject]) (Takes.seq
      (Takes.lit (w := c!"enum") (t := tk .ident c!"enum") rfl) (Takes.seq (Takes.lit (w := c!"{") (t := tk .blockStart c!"{") rfl)
      (Takes.seq (he.takes (quiet_brace z)) (Takes.sub (f := .enum) h1)))))
      (Takes.lit (w := c!"}") rfl)))
    have e : typeToks c!"enum" n us ++ z = tk .ident c!"type" :: tk .ident n :: tk .ident c!"enum" :: tk .blockStart c!"{" ::
        (us ++ tk .blockEnd c!"}" :: z) := by simp [typeToks]
    rw [e]
    exact OkKind.ofTakes this rfl fun txt => by simp [build, ptrOf, tk]
  refine OkKind.ofTakes (Takes.altR (bare_of_head (by rfl)).soft (Takes.altR (bare_of_head (by rfl)).soft (Takes.altR
    (bare_of_head (by rfl)).soft (Takes.altL (Takes.seq (Takes.sub h2) hz))))) rfl fun txt => by simp [build, ptrOf, enumEntry]

theorem objectEntry_ok {n : Str} {t : Token} {ts us : List Token} {l : List (Node .typeObjectItem)} (hp : t.pos = {})
    (he : LfsThen us (t :: ts)) (h : Items objectKit .items (t :: ts) l) {z r : List Token} (hz : Takes lf? z [] r) :
    OkKind {} (typeToks c!"object" n us ++ z) (objectEntry n l) r := by
  have hb := h.takes (tk .blockEnd c!"}" :: z) (bare_of_head (by decide +kernel)).soft (quiet_brace _) (Kit.fits_shut rfl _)
  have h1 : OkKind {} (t :: ts ++ tk .blockEnd c!"}" :: z) (.typeObject noPos (sliceOf l)) (tk .blockEnd c!"}" :: z) :=
    OkKind.ofTakes hb hp fun txt => by simp [build]
  have h2 : OkKind {} (typeToks c!"object" n us ++ z) (.type noPos n .nil (.ref (.typeObject noPos (sliceOf l)))) z := by
    have := Takes.seq (Takes.lit (w := c!"type") (t := tk .ident c!"type") rfl) (Takes.seq (Takes.capTok (f := .label) (y := .ident)
      (t := tk .ident n) rfl) (Takes.seq (Takes.altR (a := sq [lit c!"enum", lit c!"{", lfs, sub .enum .typeEnum]) (bare_of_head (by rfl)).soft
      (Takes.seq (Takes.lit (w := c!"object") (t := tk .ident c!"object") rfl) (Takes.seq (Takes.lit (w := c!"{") (t := tk .blockStart c!"{") rfl)
      (Takes.seq (he.takes (quiet_brace z)) (Takes.sub (f := .object) h1)))))
      (Takes.lit (w := c!"}") rfl)))
    have e : typeToks c!"object" n us ++ z = tk .ident c!"type" :: tk .ident n :: tk .ident c!"object" :: tk .blockStart c!"{" ::
        (us ++ tk .blockEnd c!"}" :: z) := by simp [typeToks]
    rw [e]
    exact OkKind.ofTakes this rfl fun txt => by simp [build, ptrOf, tk]
  refine OkKind.ofTakes (Takes.altR (bare_of_head (by rfl)).soft (Takes.altR (bare_of_head (by rfl)).soft (Takes.altR
    (bare_of_head (by rfl)).soft (Takes.altL (Takes.seq (Takes.sub h2) hz))))) rfl fun txt => by simp [build, ptrOf, objectEntry]

/-! ## Documents -/

theorem items_doc {ts : List Token} {l : List (Node .rootItem)} (h : Items rootKit .items ts l) :
    parseTokens {} ts = some (sliceOf l) := by
  have hs : Soft {} (.sub .items .rootItem) [] := (Bare.of (by simp [NoFirst]) rfl rfl).soft
  obtain ⟨txt, hk⟩ := h.takes [] hs (by simp [quiet, headNot]) (by simp [Kit.fits, rootKit])
  unfold Ok at hk
  rw [List.append_nil] at hk
  rw [parseTokens, hk]
  simp

end Verif.Etx
