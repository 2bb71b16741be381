import Verif.Etx.ReaderLemmas
import Verif.Etx.FormatTotal
import Verif.Props.AstParents
import Verif.Props.Number
import Verif.KernelRfl

/-! # Properties C26 and C28 of parsed documents, C50 and C51: the entry points -/

namespace Verif.Etx
open Node

/-! ## Tokens -/

theorem lexAll_mem {P : Token → Prop} (hP : ∀ st s r m st' pos, lexStep st s = some (r, m, st') → P ⟨r.sym, m.txt, pos⟩)
    (n : Nat) (st : Stack) (pos : Position) (s : Str) (ts : List Token) (h : lexFrom n st pos s = some ts) :
    ∀ t ∈ ts, P t := by
  induction n generalizing st pos s ts with
  | zero =>
    cases s with
    | nil => cases h; simp
    | cons c s => cases h
  | succ n ih =>
    cases s with
    | nil => cases h; simp
    | cons c s =>
      simp only [lexFrom, Option.bind_eq_bind, Option.bind_eq_some_iff, Option.pure_def, Option.some.injEq] at h
      obtain ⟨⟨r, m, st'⟩, h1, ts', h2, rfl⟩ := h
      have := ih _ _ _ _ h2
      split
      · exact this
      · simp only [List.forall_mem_cons]
        exact ⟨hP _ _ _ _ _ _ h1, this⟩

/-- No token is empty. -/
theorem lex_solid {s : Str} {ts : List Token} (h : lex s = some ts) : Solid ts :=
  lexAll_mem (P := fun t => t.txt ≠ []) (fun _ _ _ _ _ _ h => (lexStep_split h).2.1) _ _ _ _ _ h

/-- Every heredoc token of a text is captured, and can be written from what is captured. -/
theorem lex_heredoc_text {s : Str} {ts : List Token} (h : lex s = some ts) :
    ∀ t ∈ ts, t.sym = .heredoc → ∃ tabs d, captureDelimiter t.txt = some (tabs, d) ∧ d ≠ [] ∧
      t.txt = c!"<<" ++ (if tabs then c!"-" else []) ++ d ++ c!"\n" := by
  refine lexAll_mem ?_ _ _ _ _ _ h
  intro st s r m st' pos h hr
  obtain ⟨state, g, below, -, h0, -, -⟩ := lexStep_some h
  have ⟨h1, h2⟩ := firstRule_some h0
  clear h h0
  have : r.pat g = reHeredoc := by
    have key : ∀ rs : List Rule, Sym.heredoc ∉ rs.map Rule.sym → ∀ r ∈ rs, r.sym = .heredoc → r.pat g = reHeredoc :=
      fun rs h r hr hs => absurd (List.mem_map.mpr ⟨r, hr, hs⟩) h
    have core : ∀ r ∈ coreRules, r.sym = .heredoc → r.pat g = reHeredoc := by
      intro r hr hs
      have : coreRules = coreRules.take 14 ++ (rule .heredoc reHeredoc (.push .heredoc)) :: coreRules.drop 15 := rfl
      rw [this, List.mem_append, List.mem_cons] at hr
      rcases hr with hr | rfl | hr
      · exact key _ (by decide) r hr hs
      · rfl
      · exact key _ (by decide) r hr hs
    cases state
    case root => exact core r h1 hr
    case stringExpr =>
      rcases List.mem_cons.mp h1 with rfl | h1
      · cases hr
      · exact core r h1 hr
    all_goals exact key _ (by decide) r h1 hr
  rw [this] at h2
  obtain ⟨tabs, d, f, h3, -, -, h4, h5⟩ := C36_capture s m h2
  have hd : d ≠ [] := by
    rintro rfl
    cases tabs <;> cases h4
  refine ⟨tabs, d, h3, hd, ?_⟩
  dsimp only
  rw [h5]
  cases tabs <;> simp [fmtDelimiter, hd] at h4 <;> simp [← h4]

theorem lex_heredoc {s : Str} {ts : List Token} (h : lex s = some ts) :
    ∀ t ∈ ts, t.sym = .heredoc → ∃ tabs d, captureDelimiter t.txt = some (tabs, d) ∧ d ≠ [] := by
  intro t ht hs
  obtain ⟨tabs, d, h1, h2, -⟩ := lex_heredoc_text h t ht hs
  exact ⟨tabs, d, h1, h2⟩

variable [FloatValue]

theorem Derives.star_toks {f g : Field} {k : Kind} {a : Gram} {s : List Token} {o : Out} (h : Derives a s o)
    (ha : a = .star (.sub f k)) : o.toks g = [] := by
  induction h with
  | nil => rfl
  | cons h _ _ ih =>
    cases ha
    cases h
    rw [Out.toks_append, ih rfl]
    rfl
  | _ => cases ha

/-- What is captured into `Heredoc.Delimiter` is one heredoc token. -/
theorem heredoc_delimiter {ts : List Token} {o : Out} (h : Derives (Gram.of .heredoc) ts o) :
    ∃ t ∈ ts, t.sym = .heredoc ∧ o.str .delimiter = t.txt := by
  cases h with
  | seq h1 h2 =>
    cases h1 with
    | cap h1 =>
      cases h1 with
      | tok ht =>
        cases h2 with
        | seq h2 h3 =>
          cases h3 with
          | tok _ =>
            refine ⟨_, by simp, ht, ?_⟩
            simp only [Out.str, Out.toks_append, h2.star_toks rfl]
            simp [Out.toks]

/-! ## Parsed documents -/

omit [FloatValue] in
theorem Node.addrs_map (f : Meta → Meta) (hf : ∀ m, (f m).addr = m.addr) {k : Kind} (x : Node k) :
    (x.map f id).addrs = x.addrs := by
  have hs : ∀ s : Strs, (s.map id).collect (fun a => [a]) = s.collect (fun a => [a]) := fun s => by cases s <;> rfl
  have hv : ∀ v : Option (Nat × BigFloat), collectFloat (fun a => [a]) (mapFloat id v) = collectFloat (fun a => [a]) v :=
    fun v => by rcases v with _ | ⟨a, v⟩ <;> rfl
  unfold addrs
  induction x <;> simp only [Node.map, collect, hf, hs, hv, id, *]

omit [FloatValue] in
theorem Node.erase_map (f : Meta → Meta) (hf : ∀ m, (f m).pos = m.pos) {k : Kind} (x : Node k) :
    (x.map f id).erase = x.erase := by
  unfold erase
  rw [map_map]
  congr 1
  funext m
  simp only [Function.comp, hf]

omit [FloatValue] in
theorem Node.erase_shaped {k : Kind} (x : Node k) : x.erase.everywhere shaped = x.everywhere shaped :=
  everywhere_map _ _ (fun _ y => shaped_map _ _ y) x

/-- What a parse does: it fails, or returns the tree of a derivation, at different addresses, with parents set. -/
theorem parseString_eq (s : Str) : (parseTree s = none ∧ parseString s = .error) ∨
    ∃ (x : Node (.slice .rootItem)) (t : AST) (f : Meta → Meta), parseTree s = some x ∧ parseString s = .ok t ∧
    t.items = (x.place 1).1.map f id ∧ (∀ m, (f m).addr = m.addr ∧ (f m).pos = m.pos) ∧
    t.items.erase = x.erase ∧ t.items.everywhere shaped = true ∧ t.IsTree ∧ t.Plain ∧
    ∀ e ∈ t.items.storedBy false none, e.2.2.info.parent = e.1 := by
  unfold parseString
  cases hx : parseTree s with
  | none => exact .inl ⟨rfl, rfl⟩
  | some x =>
    refine .inr ?_
    have hsh : x.everywhere shaped = true := by
      unfold parseTree at hx
      simp only [Option.bind_eq_bind, Option.bind_eq_some_iff] at hx
      obtain ⟨ts, h1, h2⟩ := hx
      exact parseTokens_shaped h2 (lex_solid h1)
    have hsp : (x.place 1).1.everywhere shaped = true := by
      rw [← erase_shaped, place_erase, erase_shaped]
      exact hsh
    obtain ⟨t, h1, -, ⟨f, hf, h2⟩, h3⟩ := AST.updateParentRefs_spec ⟨0, (x.place 1).1⟩
      (everywhere_mono (fun _ y => plain_of_shaped y) _ hsp) (x.place_nodup 1)
    have ht : t.items.everywhere shaped = true := by rw [← erase_shaped, h2, erase_map f (fun m => (hf m).2), erase_shaped]; exact hsp
    refine ⟨x, t, f, rfl, by simp only [h1], h2, hf, ?_, ht, ?_, everywhere_mono (fun _ y => plain_of_shaped y) _ ht, h3⟩
    · rw [h2, erase_map f (fun m => (hf m).2), place_erase]
    · rw [AST.IsTree, h2, addrs_map f (fun m => (hf m).1)]
      exact x.place_nodup 1

/-- **C51.** `ParseString` never panics: for every text it returns a document or an error … -/
theorem C51_no_panic (s : Str) : parseString s ≠ .panic := by
  rcases parseString_eq s with ⟨-, h⟩ | ⟨x, t, f, -, h, -⟩ <;> rw [h] <;> simp

/-- … the captures of numbers return errors only, and those of heredoc delimiters always succeed, for whatever part of the
tokens of a text is read as a heredoc. -/
theorem C51_no_capture_panic (s : Str) (ts a b c : List Token) (o : Out) (h : lex s = some ts) (hts : ts = a ++ b ++ c)
    (hb : Derives (Gram.of .heredoc) b o) :
    ∃ tabs d, captureDelimiter (o.str .delimiter) = some (tabs, d) ∧ d ≠ [] := by
  obtain ⟨t, ht, hs, e⟩ := heredoc_delimiter hb
  rw [e]
  exact lex_heredoc h t (by simp [hts, ht]) hs

/-- **C26** for parsed documents in full. -/
def C26_parsed_full : Prop := ∀ s t, parseString s = .ok t → ∀ e ∈ t.items.stored none, e.2.2.info.parent = e.1

/-- The `Parent`s of a parsed text are right; `none` if it cannot be parsed. -/
def parentsRight (s : Str) : Option Bool :=
  match parseString s with
  | .ok t => some ((t.items.stored none).all fun e => decide (e.2.2.info.parent = e.1))
  | _ => none

/-- C26 fails for the text `x = a[0].b`. -/
theorem C26_parsed_post_missing : ¬ C26_parsed_full := by
  intro h
  have h1 : parentsRight c!"x = a[i].b" = some false := by kernel_rfl
  unfold parentsRight at h1
  split at h1
  · rename_i t ht
    have := h _ t ht
    simp only [Option.some.injEq, List.all_eq_false] at h1
    obtain ⟨e, he, hne⟩ := h1
    exact hne (decide_eq_true (this e he))
  · cases h1

/-- **C26** for parsed documents as far as it is true: the document is a tree of different objects, every node outside of
`ExprPostfix.Post` has as its `Parent` the node that directly contains it, and all nodes have if there is no `Post`.
Missing: what is inside a `Post`. -/
theorem C26_parsed_partial (s : Str) (t : AST) (h : parseString s = .ok t) :
    t.IsTree ∧ t.Plain ∧ (∀ e ∈ t.items.storedBy false none, e.2.2.info.parent = e.1) ∧
    (t.items.everywhere (fun y => y.noPost) = true → ∀ e ∈ t.items.stored none, e.2.2.info.parent = e.1) := by
  rcases parseString_eq s with ⟨-, h'⟩ | ⟨x, t', f, -, h', h2, hf, h3, h4, h5, h6, h7⟩
  · rw [h] at h'; cases h'
  · rw [h] at h'
    cases h'
    exact ⟨h5, h6, h7, fun hn => storedBy_noPost _ hn none ▸ h7⟩

example : parentsRight c!"a = b.c(x)[1]\n" = some true := by kernel_rfl

/-! ## C28 -/

/-- **C28** in full: formatting a parsed document does not panic. -/
def C28_full [FloatText] : Prop := ∀ s t, parseString s = .ok t → t.fmt ≠ none

/-- What formatting a parsed text gives (inner `none`: a panic). -/
def formatText [FloatText] (s : Str) : Option (Option Str) :=
  match parseString s with
  | .ok t => some t.fmt
  | _ => none

theorem C28_witness [FloatText] {s : Str} (h1 : formatText s = some none) : ¬ C28_full := by
  intro h
  unfold formatText at h1
  split at h1
  · rename_i t ht
    exact h _ t ht (Option.some.inj h1)
  · cases h1

/-- C28 fails for a map with a comment: the formatter takes it for an item with a key … -/
theorem C28_map_panics [FloatText] : ¬ C28_full :=
  C28_witness (s := c!"x = {\n// c\n}") (by kernel_rfl)

/-- … for a comment in an enum, and … -/
theorem C28_enum_panics [FloatText] : ¬ C28_full :=
  C28_witness (s := c!"type T enum {\n// c\n}") (by kernel_rfl)

/-- … for a blank line between the items of an object. -/
theorem C28_object_panics [FloatText] : ¬ C28_full :=
  C28_witness (s := c!"type T object {\na: b\n\nc: d\n}") (by kernel_rfl)

/-- **C28** as far as it is true: formatting does not panic if no item of an enum, an object or a map is a
comment or a blank line.  Missing: documents with such items. -/
theorem C28_no_panic_partial [FloatText] (s : Str) (t : AST) (h : parseString s = .ok t)
    (ht : t.items.everywhere tight = true) : t.fmt ≠ none := by
  rcases parseString_eq s with ⟨-, h'⟩ | ⟨x, t', f, -, h', h2, hf, h3, h4, h5, h6, h7⟩
  · rw [h] at h'; cases h'
  · rw [h] at h'
    cases h'
    have := (fmt_total t.items h4 ht).2.1 (slice_listy _)
    unfold AST.fmt
    rw [Option.isSome_iff_exists] at this
    obtain ⟨l, hl⟩ := this
    simp only [hl, Option.map_some]
    split <;> simp


example [FloatText] : formatText c!"type T enum {\na: 1\nb: x\n}\nx = [\n// c\n\n1]" =
    some (some c!"type T enum {\n\ta: 1\n\tb: x\n}\n\nx: [\n\t// c\n\n\t1,\n]\n") := by kernel_rfl

/-! ## C50 -/

section
variable [InvalidText]

/-- **C50.** `ParseBytes` and `ParseString` agree on all data, valid UTF-8 or not … -/
theorem C50_bytes (b : List UInt8) : parseBytes b = parseGoString b := by
  simp [parseBytes, parseGoString, Reader.readAll]

/-- … and so does `Parse` on every reader without a name that delivers the data, in whatever pieces. -/
theorem C50_reader (r : Reader) (hf : r.fails = false) (hn : r.name = []) : parseReader r = parseGoString r.chunks.flatten := by
  simp [parseReader, parseGoString, Reader.readAll, hf, hn]

/-- On the bytes of a text they give what `ParseString` was modelled to give for the text. -/
theorem C50_text (s : Str) : parseGoString (utf8 s) = parseString s := by
  simp only [parseGoString, parseBytesNamed, decode_utf8, parseTreeNamed_nil, finish, parseString]
  cases parseTree s <;> rfl

/-- The file name of a reader (as `*os.File` has one) only appears in the positions: the document is the same apart from
them. -/
theorem C50_named (r : Reader) (s : Str) (hf : r.fails = false) (hd : r.chunks.flatten = utf8 s) :
    parseReader r = (parseString s).map (AST.at (Position.named r.name)) := by
  rw [← C50_text]
  simp only [parseReader, parseGoString, Reader.readAll, hf, hd, Bool.false_eq_true, if_false, Option.bind_eq_bind,
    Option.bind_some, parseBytesNamed, decode_utf8]
  rw [parseTreeNamed_nil, parseTreeNamed_eq, finish_at]

/-- In particular it has the same formatted text. -/
theorem C50_named_format [FloatText] (r : Reader) (s : Str) (t t' : AST) (hf : r.fails = false)
    (hd : r.chunks.flatten = utf8 s) (h : parseString s = .ok t) (h' : parseReader r = .ok t') : t'.fmt = t.fmt := by
  rw [C50_named r s hf hd, h] at h'
  cases h'
  unfold AST.fmt AST.at Node.at
  simp only [(fmt_map (Meta.at (Position.named r.name)) id t.items).2.1, len_map]

/-- A reader that fails makes `Parse` return an error, whatever it delivered before. -/
theorem C50_failing (r : Reader) (hf : r.fails = true) : parseReader r = .error := by
  simp [parseReader, Reader.readAll, hf, finish]

end

/-- `Parse` does not panic on any text. -/
theorem C51_reader_no_panic [InvalidText] (r : Reader) (s : Str) (hd : r.chunks.flatten = utf8 s) :
    parseReader r ≠ .panic := by
  cases hf : r.fails with
  | true => rw [C50_failing r hf]; simp
  | false =>
    rw [C50_named r s hf hd]
    have := C51_no_panic s
    cases h : parseString s with
    | ok t => simp [Outcome.map]
    | error => simp [Outcome.map]
    | panic => exact absurd h this

example : utf8 c!"é = 1" = [0xc3, 0xa9, 0x20, 0x3d, 0x20, 0x31] := by decide +kernel
example : ({ chunks := [[0x61], [], [0x20, 0x3d, 0x20, 0x62]], name := c!"f.etx" } : Reader).chunks.flatten = utf8 c!"a = b" := by
  decide +kernel
example : decode [0xff] = none := by decide +kernel
example : (match parseTree c!"a = b" with
    | some (.mkSlice _ (.cons (.ref (.rootItem m ..)) .empty)) => some ((m.at (Position.named c!"f")).pos, m.pos)
    | _ => none) = some (⟨c!"f", 0, 1, 1⟩, ⟨[], 0, 1, 1⟩) := by kernel_rfl

end Verif.Etx
