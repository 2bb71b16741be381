import Verif.Etx.Canon
import Verif.Props.ParseDoc

/-! # Property C53: every document that can be written is read back -/

namespace Verif.Etx
open Node

variable [FloatValue]

/-- **C53.** Whatever document can be written as tokens (`canon`, `chain`), `ParseString` reads it back, and nothing else,
from every text with these tokens: the result has the same nodes and texts in the same places; only addresses, positions
and parents depend on the text. -/
theorem C53_read_back (x : Node (.slice .rootItem)) (hc : x.canon = true) (hch : x.chain [] = true) (s : Str)
    (ts : List Token) (hl : lex s = some ts) (hts : ts.map (fun t => (t.sym, t.txt)) = x.tokss.flatten.map fun t => (t.sym, t.txt)) :
    ∃ t, parseString s = .ok t ∧ t.items.bare = x.bare := by
  obtain ⟨y, hy, hb⟩ := parseTokens_at_toks (eof := Position.start.advance s) (s := ts) hc hch hts
  have hx : parseTree s = some y := by
    unfold parseTree
    rw [hl]
    exact hy
  rcases parseString_eq s with ⟨h, -⟩ | ⟨x', t, f, h1, h2, -, -, h3, -⟩
  · rw [hx] at h; cases h
  · rw [hx] at h1
    cases h1
    exact ⟨t, h2, (bare_erase h3).trans hb⟩

/-- The grammar is unambiguous: documents with the same tokens are the same. -/
theorem C53_unambiguous (x y : Node (.slice .rootItem)) (hx : x.canon = true) (hy : y.canon = true) (hxc : x.chain [] = true)
    (hyc : y.chain [] = true) (h : x.tokss.flatten = y.tokss.flatten) : x.bare = y.bare := by
  have h1 := parseTokens_toks x hx hxc
  have h2 := parseTokens_toks y hy hyc
  rw [h, h2] at h1
  exact (Option.some.inj h1).symm

/-- A text that is written as the reference printer does. -/
def standard (s : Str) : Bool :=
  match parseTree s, lex s with
  | some x, some ts => x.canon && x.chain [] && decide (ts.map (fun t => (t.sym, t.txt)) = x.tokss.flatten.map fun t => (t.sym, t.txt))
  | _, _ => false

example : standard c!"x = a.b + -c(e, f)[d].g * h\n" = true := by kernel_rfl
example : standard c!"b \"l\" {\nc = null\n\n\n# foo\nd {}\n}\n" = true := by kernel_rfl
example : standard c!"x = [\na,\n\n]\ny = {\nk = true,\n\"l\" = {},\n}\n" = true := by kernel_rfl
example : standard c!"def f(a: b, c) (d, (e) -> g) {\nval y = a ? b : c\nif a {\nb\n}\n}\n" = true := by kernel_rfl
example : standard c!"val x: a.b.c = switch a {\ncase b, c: {\nd\n}\ndefault: {\ne\n}\n}\n" = true := by kernel_rfl
example : standard c!"x = <<EOF\nfoo ${bar}baz\n$${\nEOF\ny = \"a ${b} \\n\\u00e9 c\"\n" = true := by kernel_rfl
example : standard c!"type a enum {\nb: c\n}\n/* foo */\ntype d object {\ne: (f) -> g\n}\n" = true := by kernel_rfl

end Verif.Etx
