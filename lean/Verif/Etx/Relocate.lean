import Verif.Etx.ParserLemmas
import Verif.Etx.Tree

/-!
# The parser does not look at positions

Changing the positions of the tokens changes the positions in the result in the same way, and nothing else.
-/

namespace Verif.Etx

/-- A token at another position. -/
def Token.at (f : Position → Position) (t : Token) : Token := { t with pos := f t.pos }

/-- Meta data with another position. -/
def Meta.at (f : Position → Position) (m : Meta) : Meta := { m with pos := f m.pos }

/-- The same value with other positions. -/
def Node.at (f : Position → Position) {k : Kind} (x : Node k) : Node k := x.map (Meta.at f) id

/-- A capture of the same value with other positions. -/
def Capture.at (f : Position → Position) : Capture → Capture
  | .toks g l => .toks g l
  | .node g k x => .node g k (x.at f)

/-- The same captures with other positions. -/
def Out.at (f : Position → Position) (o : Out) : Out := ⟨o.txt, o.caps.map (Capture.at f)⟩

/-- The same result with other positions. -/
def Res.at {α : Type} (f : Position → Position) (g : α → α) : Res α → Res α
  | .miss => .miss
  | .err r => .err (r.map (Token.at f))
  | .ok a r => .ok (g a) (r.map (Token.at f))

variable {f : Position → Position}

namespace Out

theorem at_append (a b : Out) : (a ++ b).at f = a.at f ++ b.at f := by
  show Out.mk (a.txt ++ b.txt) ((a.caps ++ b.caps).map (Capture.at f)) =
    Out.mk (a.txt ++ b.txt) (a.caps.map (Capture.at f) ++ b.caps.map (Capture.at f))
  rw [List.map_append]

theorem toks_at (o : Out) (g : Field) : (o.at f).toks g = o.toks g := by
  unfold Out.toks Out.at
  rw [List.flatMap_map]
  congr 1
  funext c
  cases c <;> rfl

theorem str_at (o : Out) (g : Field) : (o.at f).str g = o.str g := by rw [Out.str, toks_at]; rfl
theorem strs_at (o : Out) (g : Field) : (o.at f).strs g = (o.strs g).map id := by
  rw [Out.strs, toks_at, Out.strs]
  cases o.toks g <;> rfl
theorem flag_at (o : Out) (g : Field) : (o.at f).flag g = o.flag g := by rw [Out.flag, toks_at]; rfl

theorem nodes_at (o : Out) (g : Field) (k : Kind) : (o.at f).nodes g k = (o.nodes g k).map (Node.at f) := by
  unfold Out.nodes Out.at
  rw [List.flatMap_map, List.map_flatMap]
  congr 1
  funext c
  cases c with
  | toks => rfl
  | node g' k' x =>
    simp only [Capture.at]
    split
    · rename_i e
      subst e
      split <;> rfl
    · rfl

theorem ptr_at (o : Out) (g : Field) (k : Kind) : (o.at f).ptr g (k := k) = (o.ptr g).at f := by
  rw [Out.ptr, nodes_at, Out.ptr]
  cases o.nodes g k <;> rfl

theorem items_at {k : Kind} (l : List (Node k)) : items (l.map (Node.at f)) = (items l).at f := by
  induction l with
  | nil => rfl
  | cons x l ih => simp only [List.map_cons, items, ih]; rfl

theorem slice_at (o : Out) (g : Field) (k : Kind) : (o.at f).slice g (k := k) = (o.slice g).at f := by
  rw [Out.slice, nodes_at, Out.slice]
  cases o.nodes g k with
  | nil => rfl
  | cons x l => show Node.mkSlice 0 (items ((x :: l).map (Node.at f))) = _; rw [items_at]; rfl

theorem struct_at (o : Out) (g : Field) (k : Kind) : (o.at f).struct g (k := k) = (o.struct g).map (Node.at f) := by
  rw [Out.struct, nodes_at, Out.struct]
  cases o.nodes g k <;> rfl

end Out

theorem stops_at (s r : List Token) : stops (s.map (Token.at f)) (r.map (Token.at f)) = stops s r := by
  simp [stops]

theorem many_at {p p' : List Token → Res Out} (hp : ∀ s, p' (s.map (Token.at f)) = (p s).at f (Out.at f)) (n : Nat)
    (s : List Token) : many p' n (s.map (Token.at f)) = (many p n s).at f (Out.at f) := by
  induction n generalizing s with
  | zero => rfl
  | succ n ih =>
    unfold many
    rw [hp]
    cases p s with
    | miss => rfl
    | err r =>
      simp only [Res.at, stops_at]
      split <;> rfl
    | ok o r =>
      simp only [Res.at, List.length_map, ih]
      split
      · cases many p n r with
        | miss => rfl
        | err r' => rfl
        | ok o' r' => simp only [Out.at_append]
      · rfl

theorem run_at {p p' : (k : Kind) → List Token → Res (Node k)}
    (hp : ∀ k s, p' k (s.map (Token.at f)) = (p k s).at f (Node.at f)) (g : Gram) (s : List Token) :
    run p' g (s.map (Token.at f)) = (run p g s).at f (Out.at f) := by
  induction g generalizing s with
  | lit w =>
    cases s with
    | nil => rfl
    | cons t s =>
      simp only [run, List.map_cons, Token.at]
      split <;> rfl
  | tok y =>
    cases s with
    | nil => rfl
    | cons t s =>
      simp only [run, List.map_cons, Token.at]
      split <;> rfl
  | seq a b iha ihb =>
    simp only [run, iha]
    cases run p a s with
    | miss => rfl
    | err r => rfl
    | ok o r =>
      simp only [Res.at, ihb]
      cases run p b r with
      | miss => rfl
      | err r => rfl
      | ok o' r' => simp only [Out.at_append]
  | alt a b iha ihb =>
    simp only [run, iha, ihb]
    cases run p a s with
    | ok o r => rfl
    | miss =>
      simp only [Res.at]
      cases run p b s with
      | ok o r => rfl
      | miss => rfl
      | err r => simp only [stops_at]; split <;> rfl
    | err r =>
      simp only [Res.at, stops_at]
      split
      · rfl
      · cases run p b s with
        | ok o r => rfl
        | miss => rfl
        | err r => simp only [stops_at]; split <;> rfl
  | opt a iha =>
    simp only [run, iha]
    cases run p a s with
    | ok o r => rfl
    | miss => rfl
    | err r => simp only [Res.at, stops_at]; split <;> rfl
  | star a iha =>
    simp only [run, List.length_map]
    exact many_at iha _ _
  | plus a iha =>
    simp only [run, iha]
    cases run p a s with
    | miss => rfl
    | err r => simp only [Res.at, stops_at]; split <;> rfl
    | ok o r =>
      simp only [Res.at, List.length_map, many_at iha]
      cases many (run p a) (r.length + 1) r with
      | miss => rfl
      | err r => rfl
      | ok o' r' => simp only [Out.at_append]
  | cap g a iha =>
    simp only [run, iha]
    cases run p a s with
    | miss => rfl
    | err r => rfl
    | ok o r => rfl
  | sub g k =>
    simp only [run, hp]
    cases p k s with
    | miss => rfl
    | err r => rfl
    | ok o r => rfl

variable [FloatValue]

set_option linter.unusedSimpArgs false in
theorem build_at (hf : f {} = {}) (m : Meta) (o : Out) (k : Kind) :
    build (m.at f) (o.at f) k = (build m o k).map (Node.at f) := by
  cases k
  case value =>
    simp only [build, Out.toks_at, Out.ptr_at, Out.flag_at]
    have hm : noPos.at f = noPos := by simp [noPos, Meta.at, hf]
    cases o.toks .number with
    | nil =>
      simp only [Option.pure_def, Option.bind_eq_bind, Option.bind_some, Option.map_some, Node.at, Node.map]
      cases o.toks .bool <;> simp [Node.map, hm]
    | cons t l =>
      simp only [Option.pure_def, Option.bind_eq_bind, Option.bind_some]
      cases captureNumber t with
      | none => rfl
      | some c =>
        simp only [Option.bind_some, Option.map_some, Node.at, Node.map, hm, mapFloat]
        cases o.toks .bool <;> simp [Node.map, hm]
  case heredoc =>
    simp only [build, Out.str_at, Out.slice_at]
    cases captureDelimiter (o.str .delimiter) with
    | none => rfl
    | some c => rfl
  case typeEnumItem =>
    simp only [build, Out.str_at, Out.ptr_at, Out.struct_at, Option.map_some, Node.at, Node.map]
    cases o.struct .value with
    | some x => rfl
    | none => simp [zeroExpr, Node.map, noPos, Meta.at, hf]
  case typeObjectItem =>
    simp only [build, Out.str_at, Out.ptr_at, Out.struct_at, Option.map_some, Node.at, Node.map]
    cases o.struct .type with
    | some x => rfl
    | none => simp [zeroParameterType, Node.map, noPos, Meta.at, hf]
  case funcSignature =>
    simp only [build, Out.slice_at, Out.struct_at]
    cases o.struct .ret <;> rfl
  case lambda =>
    simp only [build, Out.slice_at, Out.struct_at, Out.ptr_at]
    cases o.struct .expr <;> rfl
  case exprIf =>
    simp only [build, Out.ptr_at, Out.struct_at]
    cases o.struct .condition <;> rfl
  case exprSwitch =>
    simp only [build, Out.slice_at, Out.struct_at]
    cases o.struct .selector <;> rfl
  case conditional =>
    simp only [build, Out.flag_at, Out.ptr_at, Out.struct_at]
    cases o.struct .condition <;> rfl
  case bin l =>
    simp only [build, Out.str_at, Out.ptr_at, Out.struct_at]
    cases o.struct .left <;> rfl
  case unary =>
    simp only [build, Out.str_at, Out.struct_at]
    cases o.struct .right <;> rfl
  case postfixE =>
    simp only [build, Out.ptr_at, Out.struct_at]
    cases o.struct .value <;> rfl
  all_goals
    simp only [build, Out.str_at, Out.strs_at, Out.flag_at, Out.ptr_at, Out.slice_at, Option.map_some, Option.map_none, Node.at,
      Node.map]

theorem parseFuel_at (hf : f {} = {}) (eof : Position) (n : Nat) (k : Kind) (s : List Token) :
    parseFuel (f eof) n k (s.map (Token.at f)) = (parseFuel eof n k s).at f (Node.at f) := by
  induction n generalizing k s with
  | zero => rfl
  | succ n ih =>
    unfold parseFuel structStep
    rw [run_at (fun k s => ih k s)]
    cases run (parseFuel eof n) (Gram.of k) s with
    | miss => rfl
    | err r => rfl
    | ok o r =>
      simp only [Res.at]
      have hm : ({ addr := 0, pos := posOf (f eof) (s.map (Token.at f)) } : Meta) =
          Meta.at f { addr := 0, pos := posOf eof s } := by
        cases s <;> rfl
      rw [hm, build_at hf]
      cases build { addr := 0, pos := posOf eof s } o k <;> rfl

/-- The parser on tokens at other positions. -/
theorem parseKind_at (hf : f {} = {}) (eof : Position) (k : Kind) (s : List Token) :
    parseKind (f eof) k (s.map (Token.at f)) = (parseKind eof k s).at f (Node.at f) := by
  unfold parseKind
  rw [List.length_map, parseFuel_at hf]

theorem parseTokens_at (hf : f {} = {}) (eof : Position) (s : List Token) :
    parseTokens (f eof) (s.map (Token.at f)) = (parseTokens eof s).map (Node.at f) := by
  unfold parseTokens
  rw [run_at (fun k s => parseKind_at hf eof k s)]
  cases run (fun k s => parseKind eof k s) (.star (.sub .items .rootItem)) s with
  | miss => rfl
  | err r => rfl
  | ok o r =>
    cases r with
    | nil => simp only [Res.at, List.map_nil, Option.map_some, Out.slice_at]
    | cons t r => rfl

end Verif.Etx
