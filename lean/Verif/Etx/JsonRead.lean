import Verif.Etx.Json
import Verif.Etx.Yield

/-!
# Reading back the JSON of the AST

`read (readStruct N n) k x.json` is `x` without positions and addresses, with its numbers as `N` reads them.
-/

namespace Verif.Etx

open Json (fld fldOpt strings read readStruct readElems readPtr struct get depth)

namespace Node

/-- The tree without positions, parents and addresses; the numbers are replaced by `G`. -/
def strip (G : Str → Option (Nat × BigFloat) → Option (Nat × BigFloat)) : {k : Kind} → Node k → Node k
  | _, .rootItem _ emptyLine decl' func' type' block' attr' comment' => .rootItem noPos emptyLine (decl'.strip G) (func'.strip G) (type'.strip G) (block'.strip G) (attr'.strip G) (comment'.strip G)
  | _, .parameterType _ ident' func' => .parameterType noPos (ident'.strip G) (func'.strip G)
  | _, .funcSignature _ parameters ret => .funcSignature noPos (parameters.strip G) (ret.strip G)
  | _, .ident _ parts => .ident noPos (parts.map fun _ => 0)
  | _, .comment _ singleLine multiline => .comment noPos (singleLine.map fun _ => 0) multiline
  | _, .attr _ key value' => .attr noPos key (value'.strip G)
  | _, .block _ name labels body => .block noPos name (labels.map fun _ => 0) (body.strip G)
  | _, .blockItem _ emptyLine block' attr' comment' => .blockItem noPos emptyLine (block'.strip G) (attr'.strip G) (comment'.strip G)
  | _, .decl _ declType label type' value' => .decl noPos declType label (type'.strip G) (value'.strip G)
  | _, .lambda _ comment' parameters expr' => .lambda noPos (comment'.strip G) (parameters.strip G) (expr'.strip G)
  | _, .lambdaParameter _ label type' => .lambdaParameter noPos label (type'.strip G)
  | _, .func _ label parameters ret body => .func noPos label (parameters.strip G) (ret.strip G) (body.strip G)
  | _, .funcParameter _ label type' => .funcParameter noPos label (type'.strip G)
  | _, .funcStatement _ emptyLine comment' decl' expr' => .funcStatement noPos emptyLine (comment'.strip G) (decl'.strip G) (expr'.strip G)
  | _, .funcDecl _ declType label type' value' => .funcDecl noPos declType label (type'.strip G) (value'.strip G)
  | _, .type _ label enum object => .type noPos label (enum.strip G) (object.strip G)
  | _, .typeEnum _ items' => .typeEnum noPos (items'.strip G)
  | _, .typeEnumItem _ emptyLine comment' label value' => .typeEnumItem noPos emptyLine (comment'.strip G) label (value'.strip G)
  | _, .typeObject _ items' => .typeObject noPos (items'.strip G)
  | _, .typeObjectItem _ emptyLine comment' label type' => .typeObjectItem noPos emptyLine (comment'.strip G) label (type'.strip G)
  | _, .value _ null bool number str heredoc' list map => .value noPos null (bool.strip G) (number.strip G) (str.strip G) (heredoc'.strip G) (list.strip G) (map.strip G)
  | _, .valueBool _ value' => .valueBool noPos value'
  | _, .valueNumber _ value' source => .valueNumber noPos (G source value') source
  | _, .heredoc _ leadingTabs delimiter fragments => .heredoc noPos leadingTabs delimiter (fragments.strip G)
  | _, .heredocFragment _ expr' directive text => .heredocFragment noPos (expr'.strip G) (directive.strip G) text
  | _, .valueString _ fragment => .valueString noPos (fragment.strip G)
  | _, .stringFragment _ escaped unicode expr' directive text => .stringFragment noPos escaped unicode (expr'.strip G) (directive.strip G) text
  | _, .valueList _ items' => .valueList noPos (items'.strip G)
  | _, .listItem _ emptyLine value' comment' => .listItem noPos emptyLine (value'.strip G) (comment'.strip G)
  | _, .valueMap _ items' => .valueMap noPos (items'.strip G)
  | _, .mapItem _ emptyLine key value' comment' => .mapItem noPos emptyLine (key.strip G) (value'.strip G) (comment'.strip G)
  | _, .mapKey _ ident' str => .mapKey noPos (ident'.strip G) (str.strip G)
  | _, .expr _ left ifE switch => .expr noPos (left.strip G) (ifE.strip G) (switch.strip G)
  | _, .exprIf _ condition left right => .exprIf noPos (condition.strip G) (left.strip G) (right.strip G)
  | _, .exprSwitch _ selector cases => .exprSwitch noPos (selector.strip G) (cases.strip G)
  | _, .exprCase _ conditions dflt expr' => .exprCase noPos (conditions.strip G) dflt (expr'.strip G)
  | _, .conditional _ condition conditionOp trueExpr falseExpr => .conditional noPos (condition.strip G) conditionOp (trueExpr.strip G) (falseExpr.strip G)
  | _, .bin l _ left op right => .bin l noPos (left.strip G) op (right.strip G)
  | _, .unary _ op right => .unary noPos op (right.strip G)
  | _, .postfixE _ value' index post => .postfixE noPos (value'.strip G) (index.strip G) (post.strip G)
  | _, .primary _ subExpression value' ident' monads post => .primary noPos (subExpression.strip G) (value'.strip G) (ident'.strip G) (monads.strip G) (post.strip G)
  | _, .invocation _ values => .invocation noPos (values.strip G)
  | _, .nil => .nil
  | _, .ref x => .ref (x.strip G)
  | _, .nilSlice => .nilSlice
  | _, .mkSlice _ xs => .mkSlice 0 (xs.strip G)
  | _, .empty => .empty
  | _, .cons x xs => .cons (x.strip G) (xs.strip G)

/-- A struct (not a pointer, a slice or elements). -/
def isStruct : {k : Kind} → Node k → Bool
  | _, .nil => false
  | _, .ref _ => false
  | _, .nilSlice => false
  | _, .mkSlice _ _ => false
  | _, .empty => false
  | _, .cons _ _ => false
  | _, _ => true

/-- Slices that are not nil have elements; pointers point to structs. -/
def filled : {k : Kind} → Node k → Bool
  | _, .mkSlice _ xs => !xs.noElems
  | _, .ref x => x.isStruct
  | _, .comment _ s _ => s.ok
  | _, .block _ _ s _ => s.ok
  | _, _ => true

/-- The numbers are read by `N` as `G` says. -/
def numbers (N : Str → Json .val → Option (Option (Nat × BigFloat))) (G : Str → Option (Nat × BigFloat) → Option (Nat × BigFloat)) :
    {k : Kind} → Node k → Bool
  | _, .valueNumber _ v s => N s (numJson v) = some (G s v)
  | _, _ => true

end Node

namespace Json

theorem get_fld (a b : Str) (x : Json .val) (l : Json .fields) : (fld a x l).get b = if a = b then some x else l.get b := rfl

theorem get_fldOpt (a b : Str) (e : Bool) (x : Json .val) (l : Json .fields) :
    (fldOpt a e x l).get b = if a = b then (if e then l.get b else some x) else l.get b := by
  unfold fldOpt
  cases e <;> simp [get]

theorem get_done (b : Str) : (Json.done).get b = none := rfl

theorem depth_fld {a : Str} {x : Json .val} {l : Json .fields} {n : Nat} (h : (fld a x l).depth ≤ n) : x.depth ≤ n ∧ l.depth ≤ n := by
  simp only [depth] at h
  omega

theorem depth_fldOpt {a : Str} {e : Bool} {x : Json .val} {l : Json .fields} {n : Nat} (h : (fldOpt a e x l).depth ≤ n) :
    (e = false → x.depth ≤ n) ∧ l.depth ≤ n := by
  cases e
  · simp only [fldOpt, Bool.false_eq_true, if_false, depth] at h
    omega
  · exact ⟨by simp, h⟩

theorem readStrings_strings (l : List Str) : (strings l).readStrings = some l := by
  induction l with
  | nil => rfl
  | cons s l ih => simp [strings, readStrings, ih]

end Json

variable {N : Str → Json .val → Option (Option (Nat × BigFloat))} {G : Str → Option (Nat × BigFloat) → Option (Nat × BigFloat)}

/-- The value can be read back. -/
def Back (N : Str → Json .val → Option (Option (Nat × BigFloat))) (G : Str → Option (Nat × BigFloat) → Option (Nat × BigFloat)) {k : Kind}
    (x : Node k) : Prop :=
  ∀ n, x.json.depth ≤ n → read (readStruct N n) k x.json = some (x.strip G)


theorem read_struct {k : Kind} {x : Node k} (h : x.isStruct = true) (p : (k : Kind) → Json .val → Option (Node k)) (j : Json .val) :
    read p k j = p k j := by
  cases x <;> first | rfl | cases h

theorem json_struct {k : Kind} {x : Node k} (h : x.isStruct = true) : ∃ fs, x.json = .obj fs := by
  cases x <;> first | exact ⟨_, rfl⟩ | cases h

theorem json_items {k : Kind} (x : Node (.items k)) : x.json = .arr x.json.elems := by
  cases x <;> rfl

theorem Back.obj {k : Kind} {x : Node k} {fs : Json .fields} (hj : x.json = .obj fs) (hs : x.isStruct = true)
    (h : ∀ n, fs.depth ≤ n → struct N (read (readStruct N n)) fs k = some (x.strip G)) : Back N G x := by
  intro n hn
  rw [hj] at hn ⊢
  rw [read_struct hs]
  simp only [depth] at hn
  obtain ⟨n, rfl⟩ : ∃ m, n = m + 1 := ⟨n - 1, by omega⟩
  exact h n (by omega)

theorem node_fld {k : Kind} {c : Node k} {fs : Json .fields} {name : Str} {n : Nat} (hb : Back N G c) (hd : c.json.depth ≤ n)
    (h : fs.get name = some c.json) : fs.node (read (readStruct N n)) name = some (c.strip G) := by
  simp only [Json.node, h]
  exact hb n hd

theorem node_opt {k : Kind} {c : Node k} {fs : Json .fields} {name : Str} {n : Nat} (hb : Back N G c)
    (hd : c.omitted = false → c.json.depth ≤ n) (hc : c.everywhere Node.filled = true)
    (h : fs.get name = if c.omitted = true then none else some c.json) : fs.node (read (readStruct N n)) name = some (c.strip G) := by
  cases e : c.omitted with
  | false => exact node_fld hb (hd e) (by simpa [e] using h)
  | true =>
    rw [if_pos e] at h
    cases c with
    | nil => simp only [Json.node, h, Node.strip]
    | nilSlice => simp only [Json.node, h, Node.strip]
    | mkSlice a xs =>
      simp only [Node.omitted] at e
      simp [Node.everywhere, Node.filled, e] at hc
    | _ => cases e

theorem str_fld {s : Str} {fs : Json .fields} {name : Str} (h : fs.get name = some (.str s)) : fs.str' name = some s := by
  simp only [Json.str', h]

theorem str_opt {s : Str} {fs : Json .fields} {name : Str} (h : fs.get name = if s = [] then none else some (.str s)) :
    fs.str' name = some s := by
  split at h
  · simp only [Json.str', h]
    simp [*]
  · simp only [Json.str', h]

theorem bool_fld {b : Bool} {fs : Json .fields} {name : Str} (h : fs.get name = some (.bool b)) : fs.bool' name = some b := by
  simp only [Json.bool', h]

theorem bool_opt {b : Bool} {fs : Json .fields} {name : Str} (h : fs.get name = if b = false then none else some (.bool b)) :
    fs.bool' name = some b := by
  cases b <;> simp at h <;> simp only [Json.bool', h]

theorem strs_fld {s : Strs} {fs : Json .fields} {name : Str} (h : fs.get name = some s.json) :
    fs.strs name = some (s.map fun _ => 0) := by
  cases s with
  | nil => simp only [Json.strs, h, Strs.json, Strs.map]
  | mk a l => simp [Json.strs, h, Strs.json, Strs.map, Json.readStrings_strings]

theorem strs_opt {s : Strs} {fs : Json .fields} {name : Str} (hs : s.ok = true)
    (h : fs.get name = if s.list = [] then none else some s.json) : fs.strs name = some (s.map fun _ => 0) := by
  split at h
  · rename_i e
    cases s with
    | nil => simp only [Json.strs, h, Strs.map]
    | mk a l =>
      simp only [Strs.list] at e
      simp [Strs.ok, e] at hs
  · exact strs_fld h

/-- Side conditions of the lemmas above. -/
local macro "field_goal" : tactic =>
  `(tactic| first
    | assumption
    | simp only [*]
    | (apply_assumption <;> simp only [*])
    | (simp [Json.get_fld, Json.get_fldOpt, Json.get_done]))

set_option linter.unusedSimpArgs false in
/-- The JSON value of a node determines it, except positions and addresses. -/
theorem back {k : Kind} (x : Node k) (hf : x.everywhere Node.filled = true) (hN : x.everywhere (Node.numbers N G) = true) :
    Back N G x := by
  induction x with
  | rootItem m emptyLine decl' func' type' block' attr' comment' ih0 ih1 ih2 ih3 ih4 ih5 =>
    simp only [Node.everywhere, Bool.and_eq_true, Node.filled, Node.numbers, decide_eq_true_eq] at hf hN
    refine Back.obj rfl rfl fun n hn => ?_
    obtain ⟨h0, hn⟩ := Json.depth_fldOpt hn
    obtain ⟨h1, hn⟩ := Json.depth_fldOpt hn
    obtain ⟨h2, hn⟩ := Json.depth_fldOpt hn
    obtain ⟨h3, hn⟩ := Json.depth_fldOpt hn
    obtain ⟨h4, hn⟩ := Json.depth_fldOpt hn
    obtain ⟨h5, hn⟩ := Json.depth_fldOpt hn
    obtain ⟨h6, hn⟩ := Json.depth_fldOpt hn
    simp only [struct]
    rw [str_opt (name := c!"empty_line") (s := emptyLine),
      node_opt (name := c!"decl") (c := decl'),
      node_opt (name := c!"func") (c := func'),
      node_opt (name := c!"type") (c := type'),
      node_opt (name := c!"block") (c := block'),
      node_opt (name := c!"attribute") (c := attr'),
      node_opt (name := c!"comment") (c := comment')]
    · rfl
    all_goals field_goal
  | parameterType m ident' func' ih0 ih1 =>
    simp only [Node.everywhere, Bool.and_eq_true, Node.filled, Node.numbers, decide_eq_true_eq] at hf hN
    refine Back.obj rfl rfl fun n hn => ?_
    obtain ⟨h0, hn⟩ := Json.depth_fld hn
    obtain ⟨h1, hn⟩ := Json.depth_fld hn
    simp only [struct]
    rw [node_fld (name := c!"ident") (c := ident'),
      node_fld (name := c!"func") (c := func')]
    · rfl
    all_goals field_goal
  | funcSignature m parameters ret ih0 ih1 =>
    simp only [Node.everywhere, Bool.and_eq_true, Node.filled, Node.numbers, decide_eq_true_eq] at hf hN
    refine Back.obj rfl rfl fun n hn => ?_
    obtain ⟨h0, hn⟩ := Json.depth_fldOpt hn
    obtain ⟨h1, hn⟩ := Json.depth_fld hn
    simp only [struct]
    rw [node_opt (name := c!"parameters") (c := parameters),
      node_fld (name := c!"return") (c := ret)]
    · rfl
    all_goals field_goal
  | ident m parts =>
    simp only [Node.everywhere, Bool.and_eq_true, Node.filled, Node.numbers, decide_eq_true_eq] at hf hN
    refine Back.obj rfl rfl fun n hn => ?_
    obtain ⟨h0, hn⟩ := Json.depth_fld hn
    simp only [struct]
    rw [strs_fld (name := c!"parts") (s := parts)]
    · rfl
    all_goals field_goal
  | comment m singleLine multiline =>
    simp only [Node.everywhere, Bool.and_eq_true, Node.filled, Node.numbers, decide_eq_true_eq] at hf hN
    refine Back.obj rfl rfl fun n hn => ?_
    obtain ⟨h0, hn⟩ := Json.depth_fldOpt hn
    obtain ⟨h1, hn⟩ := Json.depth_fldOpt hn
    simp only [struct]
    rw [strs_opt (name := c!"single_line") (s := singleLine),
      str_opt (name := c!"multiline") (s := multiline)]
    · rfl
    all_goals field_goal
  | attr m key value' ih0 =>
    simp only [Node.everywhere, Bool.and_eq_true, Node.filled, Node.numbers, decide_eq_true_eq] at hf hN
    refine Back.obj rfl rfl fun n hn => ?_
    obtain ⟨h0, hn⟩ := Json.depth_fld hn
    obtain ⟨h1, hn⟩ := Json.depth_fldOpt hn
    simp only [struct]
    rw [str_fld (name := c!"key") (s := key),
      node_opt (name := c!"value") (c := value')]
    · rfl
    all_goals field_goal
  | block m name labels body ih0 =>
    simp only [Node.everywhere, Bool.and_eq_true, Node.filled, Node.numbers, decide_eq_true_eq] at hf hN
    refine Back.obj rfl rfl fun n hn => ?_
    obtain ⟨h0, hn⟩ := Json.depth_fld hn
    obtain ⟨h1, hn⟩ := Json.depth_fldOpt hn
    obtain ⟨h2, hn⟩ := Json.depth_fld hn
    simp only [struct]
    rw [str_fld (name := c!"name") (s := name),
      strs_opt (name := c!"labels") (s := labels),
      node_fld (name := c!"body") (c := body)]
    · rfl
    all_goals field_goal
  | blockItem m emptyLine block' attr' comment' ih0 ih1 ih2 =>
    simp only [Node.everywhere, Bool.and_eq_true, Node.filled, Node.numbers, decide_eq_true_eq] at hf hN
    refine Back.obj rfl rfl fun n hn => ?_
    obtain ⟨h0, hn⟩ := Json.depth_fldOpt hn
    obtain ⟨h1, hn⟩ := Json.depth_fldOpt hn
    obtain ⟨h2, hn⟩ := Json.depth_fldOpt hn
    obtain ⟨h3, hn⟩ := Json.depth_fldOpt hn
    simp only [struct]
    rw [str_opt (name := c!"empty_line") (s := emptyLine),
      node_opt (name := c!"block") (c := block'),
      node_opt (name := c!"attribute") (c := attr'),
      node_opt (name := c!"comment") (c := comment')]
    · rfl
    all_goals field_goal
  | decl m declType label type' value' ih0 ih1 =>
    simp only [Node.everywhere, Bool.and_eq_true, Node.filled, Node.numbers, decide_eq_true_eq] at hf hN
    refine Back.obj rfl rfl fun n hn => ?_
    obtain ⟨h0, hn⟩ := Json.depth_fld hn
    obtain ⟨h1, hn⟩ := Json.depth_fld hn
    obtain ⟨h2, hn⟩ := Json.depth_fldOpt hn
    obtain ⟨h3, hn⟩ := Json.depth_fldOpt hn
    simp only [struct]
    rw [str_fld (name := c!"decl_type") (s := declType),
      str_fld (name := c!"label") (s := label),
      node_opt (name := c!"type") (c := type'),
      node_opt (name := c!"value") (c := value')]
    · rfl
    all_goals field_goal
  | lambda m comment' parameters expr' ih0 ih1 ih2 =>
    simp only [Node.everywhere, Bool.and_eq_true, Node.filled, Node.numbers, decide_eq_true_eq] at hf hN
    refine Back.obj rfl rfl fun n hn => ?_
    obtain ⟨h0, hn⟩ := Json.depth_fldOpt hn
    obtain ⟨h1, hn⟩ := Json.depth_fld hn
    obtain ⟨h2, hn⟩ := Json.depth_fld hn
    simp only [struct]
    rw [node_opt (name := c!"comment") (c := comment'),
      node_fld (name := c!"parameters") (c := parameters),
      node_fld (name := c!"expr") (c := expr')]
    · rfl
    all_goals field_goal
  | lambdaParameter m label type' ih0 =>
    simp only [Node.everywhere, Bool.and_eq_true, Node.filled, Node.numbers, decide_eq_true_eq] at hf hN
    refine Back.obj rfl rfl fun n hn => ?_
    obtain ⟨h0, hn⟩ := Json.depth_fld hn
    obtain ⟨h1, hn⟩ := Json.depth_fldOpt hn
    simp only [struct]
    rw [str_fld (name := c!"label") (s := label),
      node_opt (name := c!"type") (c := type')]
    · rfl
    all_goals field_goal
  | func m label parameters ret body ih0 ih1 ih2 =>
    simp only [Node.everywhere, Bool.and_eq_true, Node.filled, Node.numbers, decide_eq_true_eq] at hf hN
    refine Back.obj rfl rfl fun n hn => ?_
    obtain ⟨h0, hn⟩ := Json.depth_fld hn
    obtain ⟨h1, hn⟩ := Json.depth_fldOpt hn
    obtain ⟨h2, hn⟩ := Json.depth_fldOpt hn
    obtain ⟨h3, hn⟩ := Json.depth_fldOpt hn
    simp only [struct]
    rw [str_fld (name := c!"label") (s := label),
      node_opt (name := c!"parameters") (c := parameters),
      node_opt (name := c!"return") (c := ret),
      node_opt (name := c!"body") (c := body)]
    · rfl
    all_goals field_goal
  | funcParameter m label type' ih0 =>
    simp only [Node.everywhere, Bool.and_eq_true, Node.filled, Node.numbers, decide_eq_true_eq] at hf hN
    refine Back.obj rfl rfl fun n hn => ?_
    obtain ⟨h0, hn⟩ := Json.depth_fld hn
    obtain ⟨h1, hn⟩ := Json.depth_fld hn
    simp only [struct]
    rw [str_fld (name := c!"label") (s := label),
      node_fld (name := c!"type") (c := type')]
    · rfl
    all_goals field_goal
  | funcStatement m emptyLine comment' decl' expr' ih0 ih1 ih2 =>
    simp only [Node.everywhere, Bool.and_eq_true, Node.filled, Node.numbers, decide_eq_true_eq] at hf hN
    refine Back.obj rfl rfl fun n hn => ?_
    obtain ⟨h0, hn⟩ := Json.depth_fldOpt hn
    obtain ⟨h1, hn⟩ := Json.depth_fldOpt hn
    obtain ⟨h2, hn⟩ := Json.depth_fldOpt hn
    obtain ⟨h3, hn⟩ := Json.depth_fldOpt hn
    simp only [struct]
    rw [str_opt (name := c!"empty_line") (s := emptyLine),
      node_opt (name := c!"comment") (c := comment'),
      node_opt (name := c!"decl") (c := decl'),
      node_opt (name := c!"expr") (c := expr')]
    · rfl
    all_goals field_goal
  | funcDecl m declType label type' value' ih0 ih1 =>
    simp only [Node.everywhere, Bool.and_eq_true, Node.filled, Node.numbers, decide_eq_true_eq] at hf hN
    refine Back.obj rfl rfl fun n hn => ?_
    obtain ⟨h0, hn⟩ := Json.depth_fld hn
    obtain ⟨h1, hn⟩ := Json.depth_fld hn
    obtain ⟨h2, hn⟩ := Json.depth_fldOpt hn
    obtain ⟨h3, hn⟩ := Json.depth_fldOpt hn
    simp only [struct]
    rw [str_fld (name := c!"decl_type") (s := declType),
      str_fld (name := c!"label") (s := label),
      node_opt (name := c!"type") (c := type'),
      node_opt (name := c!"value") (c := value')]
    · rfl
    all_goals field_goal
  | type m label enum object ih0 ih1 =>
    simp only [Node.everywhere, Bool.and_eq_true, Node.filled, Node.numbers, decide_eq_true_eq] at hf hN
    refine Back.obj rfl rfl fun n hn => ?_
    obtain ⟨h0, hn⟩ := Json.depth_fld hn
    obtain ⟨h1, hn⟩ := Json.depth_fldOpt hn
    obtain ⟨h2, hn⟩ := Json.depth_fldOpt hn
    simp only [struct]
    rw [str_fld (name := c!"label") (s := label),
      node_opt (name := c!"enum") (c := enum),
      node_opt (name := c!"object") (c := object)]
    · rfl
    all_goals field_goal
  | typeEnum m items' ih0 =>
    simp only [Node.everywhere, Bool.and_eq_true, Node.filled, Node.numbers, decide_eq_true_eq] at hf hN
    refine Back.obj rfl rfl fun n hn => ?_
    obtain ⟨h0, hn⟩ := Json.depth_fldOpt hn
    simp only [struct]
    rw [node_opt (name := c!"items") (c := items')]
    · rfl
    all_goals field_goal
  | typeEnumItem m emptyLine comment' label value' ih0 ih1 =>
    simp only [Node.everywhere, Bool.and_eq_true, Node.filled, Node.numbers, decide_eq_true_eq] at hf hN
    refine Back.obj rfl rfl fun n hn => ?_
    obtain ⟨h0, hn⟩ := Json.depth_fldOpt hn
    obtain ⟨h1, hn⟩ := Json.depth_fldOpt hn
    obtain ⟨h2, hn⟩ := Json.depth_fld hn
    obtain ⟨h3, hn⟩ := Json.depth_fld hn
    simp only [struct]
    rw [str_opt (name := c!"empty_line") (s := emptyLine),
      node_opt (name := c!"comment") (c := comment'),
      str_fld (name := c!"label") (s := label),
      node_fld (name := c!"value") (c := value')]
    · rfl
    all_goals field_goal
  | typeObject m items' ih0 =>
    simp only [Node.everywhere, Bool.and_eq_true, Node.filled, Node.numbers, decide_eq_true_eq] at hf hN
    refine Back.obj rfl rfl fun n hn => ?_
    obtain ⟨h0, hn⟩ := Json.depth_fldOpt hn
    simp only [struct]
    rw [node_opt (name := c!"items") (c := items')]
    · rfl
    all_goals field_goal
  | typeObjectItem m emptyLine comment' label type' ih0 ih1 =>
    simp only [Node.everywhere, Bool.and_eq_true, Node.filled, Node.numbers, decide_eq_true_eq] at hf hN
    refine Back.obj rfl rfl fun n hn => ?_
    obtain ⟨h0, hn⟩ := Json.depth_fldOpt hn
    obtain ⟨h1, hn⟩ := Json.depth_fldOpt hn
    obtain ⟨h2, hn⟩ := Json.depth_fld hn
    obtain ⟨h3, hn⟩ := Json.depth_fld hn
    simp only [struct]
    rw [str_opt (name := c!"empty_line") (s := emptyLine),
      node_opt (name := c!"comment") (c := comment'),
      str_fld (name := c!"label") (s := label),
      node_fld (name := c!"type") (c := type')]
    · rfl
    all_goals field_goal
  | value m null bool number str heredoc' list map ih0 ih1 ih2 ih3 ih4 ih5 =>
    simp only [Node.everywhere, Bool.and_eq_true, Node.filled, Node.numbers, decide_eq_true_eq] at hf hN
    refine Back.obj rfl rfl fun n hn => ?_
    obtain ⟨h0, hn⟩ := Json.depth_fldOpt hn
    obtain ⟨h1, hn⟩ := Json.depth_fldOpt hn
    obtain ⟨h2, hn⟩ := Json.depth_fldOpt hn
    obtain ⟨h3, hn⟩ := Json.depth_fldOpt hn
    obtain ⟨h4, hn⟩ := Json.depth_fldOpt hn
    obtain ⟨h5, hn⟩ := Json.depth_fldOpt hn
    obtain ⟨h6, hn⟩ := Json.depth_fldOpt hn
    simp only [struct]
    rw [bool_opt (name := c!"null") (b := null),
      node_opt (name := c!"bool") (c := bool),
      node_opt (name := c!"number") (c := number),
      node_opt (name := c!"str") (c := str),
      node_opt (name := c!"heredoc") (c := heredoc'),
      node_opt (name := c!"list") (c := list),
      node_opt (name := c!"map") (c := map)]
    · rfl
    all_goals field_goal
  | valueBool m value' =>
    simp only [Node.everywhere, Bool.and_eq_true, Node.filled, Node.numbers, decide_eq_true_eq] at hf hN
    refine Back.obj rfl rfl fun n hn => ?_
    obtain ⟨h0, hn⟩ := Json.depth_fld hn
    simp only [struct]
    rw [bool_fld (name := c!"Value") (b := value')]
    · rfl
    all_goals field_goal
  | valueNumber m value' source =>
    simp only [Node.everywhere, Bool.and_eq_true, Node.filled, Node.numbers, decide_eq_true_eq] at hf hN
    refine Back.obj rfl rfl fun n hn => ?_
    obtain ⟨h0, hn⟩ := Json.depth_fld hn
    obtain ⟨h1, hn⟩ := Json.depth_fld hn
    simp only [struct]
    simp only [Json.get_fld, Json.str', if_true, Option.bind_some, List.cons.injEq, Char.reduceEq, false_and, if_false, hN]
    simp only [Option.bind_eq_bind, Option.bind_some, hN]
    rfl
  | heredoc m leadingTabs delimiter fragments ih0 =>
    simp only [Node.everywhere, Bool.and_eq_true, Node.filled, Node.numbers, decide_eq_true_eq] at hf hN
    refine Back.obj rfl rfl fun n hn => ?_
    obtain ⟨h0, hn⟩ := Json.depth_fld hn
    obtain ⟨h1, hn⟩ := Json.depth_fldOpt hn
    simp only [struct]
    simp only [Json.get_fld, Json.get_fldOpt, Json.delimiter, if_true, Option.bind_eq_bind, Option.bind_some, Json.bool', Json.str', List.cons.injEq, Char.reduceEq, false_and, and_false, if_false]
    rw [node_opt (name := c!"fragments") (c := fragments)]
    · rfl
    all_goals field_goal
  | heredocFragment m expr' directive text ih0 ih1 =>
    simp only [Node.everywhere, Bool.and_eq_true, Node.filled, Node.numbers, decide_eq_true_eq] at hf hN
    refine Back.obj rfl rfl fun n hn => ?_
    obtain ⟨h0, hn⟩ := Json.depth_fldOpt hn
    obtain ⟨h1, hn⟩ := Json.depth_fldOpt hn
    obtain ⟨h2, hn⟩ := Json.depth_fldOpt hn
    simp only [struct]
    rw [node_opt (name := c!"expr") (c := expr'),
      node_opt (name := c!"directive") (c := directive),
      str_opt (name := c!"text") (s := text)]
    · rfl
    all_goals field_goal
  | valueString m fragment ih0 =>
    simp only [Node.everywhere, Bool.and_eq_true, Node.filled, Node.numbers, decide_eq_true_eq] at hf hN
    refine Back.obj rfl rfl fun n hn => ?_
    obtain ⟨h0, hn⟩ := Json.depth_fldOpt hn
    simp only [struct]
    rw [node_opt (name := c!"fragment") (c := fragment)]
    · rfl
    all_goals field_goal
  | stringFragment m escaped unicode expr' directive text ih0 ih1 =>
    simp only [Node.everywhere, Bool.and_eq_true, Node.filled, Node.numbers, decide_eq_true_eq] at hf hN
    refine Back.obj rfl rfl fun n hn => ?_
    obtain ⟨h0, hn⟩ := Json.depth_fldOpt hn
    obtain ⟨h1, hn⟩ := Json.depth_fldOpt hn
    obtain ⟨h2, hn⟩ := Json.depth_fldOpt hn
    obtain ⟨h3, hn⟩ := Json.depth_fldOpt hn
    obtain ⟨h4, hn⟩ := Json.depth_fldOpt hn
    simp only [struct]
    rw [str_opt (name := c!"escaped") (s := escaped),
      str_opt (name := c!"unicode") (s := unicode),
      node_opt (name := c!"expr") (c := expr'),
      node_opt (name := c!"directive") (c := directive),
      str_opt (name := c!"text") (s := text)]
    · rfl
    all_goals field_goal
  | valueList m items' ih0 =>
    simp only [Node.everywhere, Bool.and_eq_true, Node.filled, Node.numbers, decide_eq_true_eq] at hf hN
    refine Back.obj rfl rfl fun n hn => ?_
    obtain ⟨h0, hn⟩ := Json.depth_fldOpt hn
    simp only [struct]
    rw [node_opt (name := c!"items") (c := items')]
    · rfl
    all_goals field_goal
  | listItem m emptyLine value' comment' ih0 ih1 =>
    simp only [Node.everywhere, Bool.and_eq_true, Node.filled, Node.numbers, decide_eq_true_eq] at hf hN
    refine Back.obj rfl rfl fun n hn => ?_
    obtain ⟨h0, hn⟩ := Json.depth_fldOpt hn
    obtain ⟨h1, hn⟩ := Json.depth_fldOpt hn
    obtain ⟨h2, hn⟩ := Json.depth_fldOpt hn
    simp only [struct]
    rw [str_opt (name := c!"empty_line") (s := emptyLine),
      node_opt (name := c!"value") (c := value'),
      node_opt (name := c!"comment") (c := comment')]
    · rfl
    all_goals field_goal
  | valueMap m items' ih0 =>
    simp only [Node.everywhere, Bool.and_eq_true, Node.filled, Node.numbers, decide_eq_true_eq] at hf hN
    refine Back.obj rfl rfl fun n hn => ?_
    obtain ⟨h0, hn⟩ := Json.depth_fldOpt hn
    simp only [struct]
    rw [node_opt (name := c!"items") (c := items')]
    · rfl
    all_goals field_goal
  | mapItem m emptyLine key value' comment' ih0 ih1 ih2 =>
    simp only [Node.everywhere, Bool.and_eq_true, Node.filled, Node.numbers, decide_eq_true_eq] at hf hN
    refine Back.obj rfl rfl fun n hn => ?_
    obtain ⟨h0, hn⟩ := Json.depth_fldOpt hn
    obtain ⟨h1, hn⟩ := Json.depth_fld hn
    obtain ⟨h2, hn⟩ := Json.depth_fld hn
    obtain ⟨h3, hn⟩ := Json.depth_fldOpt hn
    simp only [struct]
    rw [str_opt (name := c!"empty_line") (s := emptyLine),
      node_fld (name := c!"key") (c := key),
      node_fld (name := c!"value") (c := value'),
      node_opt (name := c!"comment") (c := comment')]
    · rfl
    all_goals field_goal
  | mapKey m ident' str ih0 ih1 =>
    simp only [Node.everywhere, Bool.and_eq_true, Node.filled, Node.numbers, decide_eq_true_eq] at hf hN
    refine Back.obj rfl rfl fun n hn => ?_
    obtain ⟨h0, hn⟩ := Json.depth_fldOpt hn
    obtain ⟨h1, hn⟩ := Json.depth_fldOpt hn
    simp only [struct]
    rw [node_opt (name := c!"ident") (c := ident'),
      node_opt (name := c!"str") (c := str)]
    · rfl
    all_goals field_goal
  | expr m left ifE switch ih0 ih1 ih2 =>
    simp only [Node.everywhere, Bool.and_eq_true, Node.filled, Node.numbers, decide_eq_true_eq] at hf hN
    refine Back.obj rfl rfl fun n hn => ?_
    obtain ⟨h0, hn⟩ := Json.depth_fldOpt hn
    obtain ⟨h1, hn⟩ := Json.depth_fldOpt hn
    obtain ⟨h2, hn⟩ := Json.depth_fldOpt hn
    simp only [struct]
    rw [node_opt (name := c!"left") (c := left),
      node_opt (name := c!"if") (c := ifE),
      node_opt (name := c!"switch") (c := switch)]
    · rfl
    all_goals field_goal
  | exprIf m condition left right ih0 ih1 ih2 =>
    simp only [Node.everywhere, Bool.and_eq_true, Node.filled, Node.numbers, decide_eq_true_eq] at hf hN
    refine Back.obj rfl rfl fun n hn => ?_
    obtain ⟨h0, hn⟩ := Json.depth_fld hn
    obtain ⟨h1, hn⟩ := Json.depth_fldOpt hn
    obtain ⟨h2, hn⟩ := Json.depth_fldOpt hn
    simp only [struct]
    rw [node_fld (name := c!"condition") (c := condition),
      node_opt (name := c!"left") (c := left),
      node_opt (name := c!"right") (c := right)]
    · rfl
    all_goals field_goal
  | exprSwitch m selector cases ih0 ih1 =>
    simp only [Node.everywhere, Bool.and_eq_true, Node.filled, Node.numbers, decide_eq_true_eq] at hf hN
    refine Back.obj rfl rfl fun n hn => ?_
    obtain ⟨h0, hn⟩ := Json.depth_fld hn
    obtain ⟨h1, hn⟩ := Json.depth_fldOpt hn
    simp only [struct]
    rw [node_fld (name := c!"selector") (c := selector),
      node_opt (name := c!"cases") (c := cases)]
    · rfl
    all_goals field_goal
  | exprCase m conditions dflt expr' ih0 ih1 =>
    simp only [Node.everywhere, Bool.and_eq_true, Node.filled, Node.numbers, decide_eq_true_eq] at hf hN
    refine Back.obj rfl rfl fun n hn => ?_
    obtain ⟨h0, hn⟩ := Json.depth_fld hn
    obtain ⟨h1, hn⟩ := Json.depth_fld hn
    obtain ⟨h2, hn⟩ := Json.depth_fldOpt hn
    simp only [struct]
    rw [node_fld (name := c!"conditions") (c := conditions),
      bool_fld (name := c!"default") (b := dflt),
      node_opt (name := c!"expr") (c := expr')]
    · rfl
    all_goals field_goal
  | conditional m condition conditionOp trueExpr falseExpr ih0 ih1 ih2 =>
    simp only [Node.everywhere, Bool.and_eq_true, Node.filled, Node.numbers, decide_eq_true_eq] at hf hN
    refine Back.obj rfl rfl fun n hn => ?_
    obtain ⟨h0, hn⟩ := Json.depth_fld hn
    obtain ⟨h1, hn⟩ := Json.depth_fldOpt hn
    obtain ⟨h2, hn⟩ := Json.depth_fldOpt hn
    obtain ⟨h3, hn⟩ := Json.depth_fldOpt hn
    simp only [struct]
    rw [node_fld (name := c!"condition") (c := condition),
      bool_opt (name := c!"condition_op") (b := conditionOp),
      node_opt (name := c!"true_expr") (c := trueExpr),
      node_opt (name := c!"false_expr") (c := falseExpr)]
    · rfl
    all_goals field_goal
  | bin l m left op right ih0 ih1 =>
    simp only [Node.everywhere, Bool.and_eq_true, Node.filled, Node.numbers, decide_eq_true_eq] at hf hN
    refine Back.obj rfl rfl fun n hn => ?_
    obtain ⟨h0, hn⟩ := Json.depth_fld hn
    obtain ⟨h1, hn⟩ := Json.depth_fldOpt hn
    obtain ⟨h2, hn⟩ := Json.depth_fldOpt hn
    simp only [struct]
    rw [node_fld (name := c!"left") (c := left),
      str_opt (name := c!"op") (s := op),
      node_opt (name := c!"right") (c := right)]
    · rfl
    all_goals field_goal
  | unary m op right ih0 =>
    simp only [Node.everywhere, Bool.and_eq_true, Node.filled, Node.numbers, decide_eq_true_eq] at hf hN
    refine Back.obj rfl rfl fun n hn => ?_
    obtain ⟨h0, hn⟩ := Json.depth_fldOpt hn
    obtain ⟨h1, hn⟩ := Json.depth_fld hn
    simp only [struct]
    rw [str_opt (name := c!"op") (s := op),
      node_fld (name := c!"right") (c := right)]
    · rfl
    all_goals field_goal
  | postfixE m value' index post ih0 ih1 ih2 =>
    simp only [Node.everywhere, Bool.and_eq_true, Node.filled, Node.numbers, decide_eq_true_eq] at hf hN
    refine Back.obj rfl rfl fun n hn => ?_
    obtain ⟨h0, hn⟩ := Json.depth_fld hn
    obtain ⟨h1, hn⟩ := Json.depth_fldOpt hn
    obtain ⟨h2, hn⟩ := Json.depth_fldOpt hn
    simp only [struct]
    rw [node_fld (name := c!"value") (c := value'),
      node_opt (name := c!"index") (c := index),
      node_opt (name := c!"post") (c := post)]
    · rfl
    all_goals field_goal
  | primary m subExpression value' ident' monads post ih0 ih1 ih2 ih3 ih4 =>
    simp only [Node.everywhere, Bool.and_eq_true, Node.filled, Node.numbers, decide_eq_true_eq] at hf hN
    refine Back.obj rfl rfl fun n hn => ?_
    obtain ⟨h0, hn⟩ := Json.depth_fldOpt hn
    obtain ⟨h1, hn⟩ := Json.depth_fldOpt hn
    obtain ⟨h2, hn⟩ := Json.depth_fld hn
    obtain ⟨h3, hn⟩ := Json.depth_fldOpt hn
    obtain ⟨h4, hn⟩ := Json.depth_fldOpt hn
    simp only [struct]
    rw [node_opt (name := c!"sub_expression") (c := subExpression),
      node_opt (name := c!"value") (c := value'),
      node_fld (name := c!"ident") (c := ident'),
      node_opt (name := c!"monads") (c := monads),
      node_opt (name := c!"post") (c := post)]
    · rfl
    all_goals field_goal
  | invocation m values ih0 =>
    simp only [Node.everywhere, Bool.and_eq_true, Node.filled, Node.numbers, decide_eq_true_eq] at hf hN
    refine Back.obj rfl rfl fun n hn => ?_
    obtain ⟨h0, hn⟩ := Json.depth_fldOpt hn
    simp only [struct]
    rw [node_opt (name := c!"values") (c := values)]
    · rfl
    all_goals field_goal
  | nil => intro n _; rfl
  | ref x ih =>
    simp only [Node.everywhere, Bool.and_eq_true, Node.filled] at hf hN
    intro n hn
    have := ih hf.2 hN.2 n hn
    rw [read_struct hf.1] at this
    obtain ⟨fs, e⟩ := json_struct hf.1
    simp only [Node.json] at hn ⊢
    rw [e] at this ⊢
    simp only [Json.read, readPtr, this, Option.map_some, Node.strip]
  | nilSlice => intro n _; rfl
  | mkSlice a xs ih =>
    simp only [Node.everywhere, Bool.and_eq_true, Node.filled] at hf hN
    intro n hn
    have := ih hf.2 hN.2 n hn
    simp only [Node.json]
    rw [json_items] at this ⊢
    simp only [Json.read] at this ⊢
    rw [this]
    rfl
  | empty => intro n _; rfl
  | cons x xs ih0 ih1 =>
    simp only [Node.everywhere, Bool.and_eq_true, Node.filled] at hf hN
    intro n hn
    simp only [Node.json, depth] at hn
    have h0 := ih0 hf.1.2 hN.1.2 n (by omega)
    have h1 := ih1 hf.2 hN.2 n (by rw [json_items]; simp only [depth]; omega)
    rw [json_items] at h1
    simp only [Json.read] at h0 h1
    simp only [Node.json, Json.read, readElems, h0, h1, Option.bind_eq_bind, Option.bind_some, Node.strip]
    rfl

end Verif.Etx
