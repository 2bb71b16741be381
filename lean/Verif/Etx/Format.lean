import Verif.Etx.Children

/-!
# `FormattedString`

`fmt x` is the text `x.FormattedString()`, or `none` if the call panics.  The order in which the parts of a
text are computed is not modelled: it only matters for which panic is raised first.
-/

namespace Verif.Etx

/-- `big.Float.String`, not modelled: any function. -/
class FloatText where
  /-- The text of a number. -/
  text : BigFloat → Str

/-- Parts of a text one after the other; a panic in one of them is a panic. -/
def cat : List (Option Str) → Option Str
  | [] => some []
  | p :: ps => do return (← p) ++ (← cat ps)

theorem cat_some_cons (a : Str) (l : List (Option Str)) : cat (some a :: l) = (cat l).map (a ++ ·) := by
  rw [cat]
  cases cat l <;> rfl

theorem cat_cons_iff (p : Option Str) (l : List (Option Str)) (s : Str) :
    cat (p :: l) = some s ↔ ∃ a r, p = some a ∧ cat l = some r ∧ s = a ++ r := by
  cases p with
  | none => simp [cat]
  | some a =>
    rw [cat_some_cons]
    cases cat l <;> simp [eq_comm]

theorem cat_nil_iff (s : Str) : cat [] = some s ↔ s = [] := by
  simp [cat, eq_comm]

/-- `if x != nil { mustFprintf(&sb, pre+"%s", x.FormattedString()) }` -/
def prefixed (present : Bool) (pre : Str) (t : Option Str) : Option Str :=
  if present then cat [some pre, t] else some []

/-- The longest label (`type.go:91-96`, `type.go:184-189`). -/
def maxLabel (rows : List (Str × Str)) : Nat := rows.foldl (fun m r => if m < byteLen r.1 then byteLen r.1 else m) 0

/-- `type.go:98-101`, `type.go:191-194` -/
def alignedRow (width : Nat) (r : Str × Str) : Str :=
  c!"\n" ++ r.1 ++ c!":" ++ spaces (width - byteLen r.1) ++ c!" " ++ r.2

/-- `type.go:88-104`, `type.go:181-197` -/
def aligned (rows : List (Str × Str)) : Str := (rows.map (alignedRow (maxLabel rows))).flatten

/-- `value.go:558-561` -/
def mapRow (r : Str × Str) : Str := indent (r.1 ++ c!": " ++ r.2) tab ++ c!",\n"

/-- `value.go:278-288` -/
def fmtDelimiter (leadingTabs : Bool) (d : Str) : Option Str :=
  if d = [] then none else if leadingTabs then some (c!"-" ++ d) else some d

/-- `value.go:202-208` -/
def fmtNumber [FloatText] (v : Option (Nat × BigFloat)) (source : Str) : Option Str :=
  if source = [] then v.map (fun f => FloatText.text f.2) else some source

/-- `comment.go:29-41` -/
def fmtComment (singleLine : Strs) (multiline : Str) : Str :=
  if multiline ≠ [] then multiline else (singleLine.list.map (· ++ c!"\n")).flatten

/-- `block.go:44-48` -/
def fmtLabels (labels : Strs) : Str := (labels.list.map (fun l => c!" \"" ++ l ++ c!"\"")).flatten

/-- The length of a slice (0 for other kinds). -/
def Node.len : {k : Kind} → Node k → Nat
  | _, .mkSlice _ xs => xs.len
  | _, .cons _ xs => xs.len + 1
  | _, _ => 0

/-- `s == nil` -/
def Node.isNilSlice : {k : Kind} → Node k → Bool
  | _, .nilSlice => true
  | _, _ => false

namespace Node

variable [FloatText]

mutual

/-- The method `FormattedString` of every struct; for a pointer, that of the struct pointed to (a nil
pointer panics, because all these methods have value receivers). -/
def fmt : {k : Kind} → Node k → Option Str
  -- ast.go:138-157
  | _, .rootItem _ emptyLine decl' func' type' block' attr' comment' =>
    if decl'.isRef then decl'.fmt
    else if func'.isRef then func'.fmt
    else if type'.isRef then type'.fmt
    else if block'.isRef then block'.fmt
    else if attr'.isRef then attr'.fmt
    else if comment'.isRef then comment'.fmt
    else if emptyLine ≠ [] then some emptyLine
    else none
  -- ast.go:192-201
  | _, .parameterType _ ident' func' =>
    if ident'.isRef then ident'.fmt else if func'.isRef then func'.fmt else none
  -- ast.go:234-245
  | _, .funcSignature _ parameters ret =>
    cat [some c!"(", parameters.texts.map (join c!", "), some c!") -> ", ret.fmt]
  -- ident.go:29-31
  | _, .ident _ parts => some (join c!"." parts.list)
  | _, .comment _ singleLine multiline => some (fmtComment singleLine multiline)
  -- attribute.go:35-45
  | _, .attr _ key value' => cat [some key, prefixed value'.isRef c!": " value'.fmt]
  -- block.go:37-64
  | _, .block _ name labels body =>
    if name = [] then some []
    else if body.len ≠ 0 then
      cat [some (name ++ fmtLabels labels ++ c!" {\n"), body.texts.map (fun ts => (ts.map (indent · tab)).flatten),
        some c!"\n}"]
    else some (name ++ fmtLabels labels ++ c!" {}")
  -- block.go:107-123
  | _, .blockItem _ _ block' attr' comment' =>
    cat [prefixed comment'.isRef [] comment'.fmt,
      if block'.isRef then block'.fmt else if attr'.isRef then attr'.fmt else some []]
  -- decl.go:46-64
  | _, .decl _ declType label type' value' =>
    if label = [] then some []
    else cat [some (declType ++ c!" " ++ label), prefixed type'.isRef c!": " type'.fmt,
      prefixed value'.isRef c!" = " value'.fmt]
  -- lambda.go:43-58
  | _, .lambda _ comment' parameters expr' =>
    cat [prefixed comment'.isRef [] comment'.fmt, some c!"(", parameters.texts.map (join c!", "), some c!") => ",
      expr'.fmt]
  -- lambda.go:89-95
  | _, .lambdaParameter _ label type' => cat [some label, prefixed type'.isRef c!": " type'.fmt]
  -- func.go:46-83
  | _, .func _ label parameters ret body =>
    cat [some (c!"def " ++ label ++ c!"("), parameters.texts.map (join c!", "), some c!")",
      if ret.len = 1 then cat [some c!" ", ret.texts.map (join c!", ")]
      else if 1 < ret.len then cat [some c!" (", ret.texts.map (join c!", "), some c!")"]
      else some [],
      if body.len ≠ 0 then
        cat [some c!" {\n", body.texts.map (fun ts => (ts.map (fun t => indent t tab ++ c!"\n")).flatten), some c!"}"]
      else some c!" {}"]
  -- func.go:114-120
  | _, .funcParameter _ label type' => cat [some label, prefixed type'.isRef c!": " type'.fmt]
  -- func.go:163-176
  | _, .funcStatement _ emptyLine comment' decl' expr' =>
    if comment'.isRef then comment'.fmt
    else if decl'.isRef then decl'.fmt
    else if expr'.isRef then expr'.fmt
    else some emptyLine
  -- func.go:215-233
  | _, .funcDecl _ declType label type' value' =>
    if label = [] then some []
    else cat [some (declType ++ c!" " ++ label), prefixed type'.isRef c!": " type'.fmt,
      prefixed value'.isRef c!" = " value'.fmt]
  -- type.go:45-60
  | _, .type _ label enum object =>
    cat [some (c!"type " ++ label ++ c!" "),
      if enum.isRef then cat [some c!"enum {", enum.fmt.map (indent · tab), some c!"\n}"]
      else if object.isRef then cat [some c!"object {", object.fmt.map (indent · tab), some c!"\n}"]
      else none]
  -- type.go:88-105
  | _, .typeEnum _ items' => items'.rows.map aligned
  -- type.go:142-151
  | _, .typeEnumItem _ emptyLine comment' label value' =>
    if comment'.isRef then comment'.fmt
    else if emptyLine ≠ [] then some emptyLine
    else cat [some (label ++ c!": "), value'.fmt]
  -- type.go:181-198
  | _, .typeObject _ items' => items'.rows.map aligned
  -- type.go:235-244
  | _, .typeObjectItem _ emptyLine comment' label type' =>
    if comment'.isRef then comment'.fmt
    else if emptyLine ≠ [] then some emptyLine
    else cat [some (label ++ c!": "), type'.fmt]
  -- value.go:84-114
  | _, .value _ null bool number str heredoc' list map' =>
    if null then some c!"null"
    else if bool.isRef then bool.fmt
    else if number.isRef then number.fmt
    else if str.isRef then str.fmt
    else if heredoc'.isRef then heredoc'.fmt
    else if list.isRef then list.fmt
    else if map'.isRef then map'.fmt
    else none
  -- value.go:148-150
  | _, .valueBool _ value' => some (if value' then c!"true" else c!"false")
  | _, .valueNumber _ value' source => fmtNumber value' source
  -- value.go:239-252
  | _, .heredoc _ leadingTabs delimiter fragments =>
    cat [some c!"<<", fmtDelimiter leadingTabs delimiter, fragments.texts.map List.flatten, some (c!"\n" ++ delimiter)]
  -- value.go:325-336
  | _, .heredocFragment _ expr' directive text =>
    if expr'.isRef then cat [some c!"${ ", expr'.fmt, some c!" }"]
    else if directive.isRef then cat [some c!"%{ ", directive.fmt, some c!" }"]
    else some text
  -- value.go:366-378
  | _, .valueString _ fragment => cat [some c!"\"", fragment.texts.map List.flatten, some c!"\""]
  -- value.go:417-432
  | _, .stringFragment _ escaped unicode expr' directive text =>
    if escaped ≠ [] then some (c!"\\" ++ escaped)
    else if unicode ≠ [] then some (c!"\\u" ++ unicode)
    else if expr'.isRef then cat [some c!"${", expr'.fmt, some c!"}"]
    else if directive.isRef then cat [some c!"%{", directive.fmt, some c!"}"]
    else some text
  -- value.go:461-476
  | _, .valueList _ items' =>
    if items'.len = 0 then some c!"[]"
    else cat [some c!"[\n", items'.texts.map (fun ts => (ts.map (indent · tab)).flatten), some c!"]"]
  -- value.go:511-522
  | _, .listItem _ emptyLine value' comment' =>
    if emptyLine ≠ [] then some emptyLine
    else if comment'.isRef then comment'.fmt
    else if value'.isRef then cat [value'.fmt, some c!",\n"]
    else none
  -- value.go:551-567
  | _, .valueMap _ items' =>
    if items'.len = 0 then some c!"{}"
    else cat [some c!"{\n", items'.rows.map (fun rs => (rs.map mapRow).flatten), some c!"}"]
  -- value.go:609-620
  | _, .mapItem _ emptyLine key value' comment' =>
    if emptyLine ≠ [] then some emptyLine
    else if comment'.isRef then comment'.fmt
    else if key.isRef ∧ value'.isRef then cat [key.fmt, some c!" = ", value'.fmt]
    else none
  -- value.go:653-662
  | _, .mapKey _ ident' str => if ident'.isRef then ident'.fmt else if str.isRef then str.fmt else none
  -- expr.go:43-54
  | _, .expr _ left ifE switch =>
    if left.isRef then left.fmt else if ifE.isRef then ifE.fmt else if switch.isRef then switch.fmt else none
  -- expr.go:93-103
  | _, .exprIf _ condition left right =>
    if left.isRef then
      if right.isRef then
        cat [some c!"if ", condition.fmt, some c!" {\n", left.fmt.map (indent · tab), some c!"\n} else {\n",
          right.fmt.map (indent · tab), some c!"\n}"]
      else cat [some c!"if ", condition.fmt, some c!" {\n", left.fmt.map (indent · tab), some c!"\n}"]
    else cat [some c!"if ", condition.fmt, some c!" { }"]
  -- expr.go:137-150
  | _, .exprSwitch _ selector cases =>
    if cases.len = 0 then cat [some c!"switch ", selector.fmt, some c!" { }"]
    else cat [some c!"switch ", selector.fmt, some c!" {\n", cases.texts.map (fun ts => indent (join c!"\n" ts) tab),
      some c!"\n}"]
  -- expr.go:188-205
  | _, .exprCase _ conditions dflt expr' =>
    if !conditions.isNilSlice then
      cat [some c!"case ", conditions.texts.map (join c!", "), some c!": {\n", expr'.fmt.map (indent · tab), some c!"\n}"]
    else if dflt then cat [some c!"default: {\n", expr'.fmt.map (indent · tab), some c!"\n}"]
    else none
  -- expr.go:249-264
  | _, .conditional _ condition conditionOp trueExpr falseExpr =>
    if conditionOp then
      cat [condition.fmt, some c!" ? ", if trueExpr.isRef then trueExpr.fmt else some c!"null", some c!" : ",
        if falseExpr.isRef then falseExpr.fmt else some c!"null"]
    else condition.fmt
  -- expr.go: 299-309, 344-354, 389-399, 434-444, 479-489, 524-534, 569-579, 614-624, 659-669, 704-714
  | _, .bin _ _ left op right =>
    if op = [] then left.fmt
    else if right.isRef then cat [left.fmt, some (c!" " ++ op ++ c!" "), right.fmt]
    else none
  -- expr.go:743-745
  | _, .unary _ op right => cat [some op, right.fmt]
  -- expr.go:780-793
  | _, .postfixE _ value' index post =>
    cat [value'.fmt, if index.isRef then cat [some c!"[", index.fmt, some c!"]"] else some [],
      prefixed post.isRef c!"." post.fmt]
  -- expr.go:847-877
  | _, .primary _ subExpression value' ident' monads post =>
    if subExpression.isRef then subExpression.fmt
    else if value'.isRef then value'.fmt
    else if ident'.isRef then
      cat [ident'.fmt, if monads.len ≠ 0 then monads.texts.map (fun ts => (ts.map (fun t => c!"(" ++ t ++ c!")")).flatten) else some [],
        prefixed post.isRef c!"." post.fmt]
    else none
  -- expr.go:906-913
  | _, .invocation _ values => values.texts.map (join c!", ")
  | _, .nil => none
  | _, .ref x => x.fmt
  | _, _ => none

/-- The formatted elements of a slice. -/
def texts : {k : Kind} → Node k → Option (List Str)
  | _, .nilSlice => some []
  | _, .mkSlice _ xs => xs.texts
  | _, .empty => some []
  | _, .cons x xs => do return (← x.fmt) :: (← xs.texts)
  | _, _ => none

/-- The labels or keys and the formatted values of a slice of `TypeEnumItem`s, `TypeObjectItem`s or
`MapItem`s, as used by the methods of `TypeEnum`, `TypeObject` and `ValueMap`. -/
def rows : {k : Kind} → Node k → Option (List (Str × Str))
  | _, .typeEnumItem _ _ _ label value' => do return [(label, ← value'.fmt)]
  | _, .typeObjectItem _ _ _ label type' => do return [(label, ← type'.fmt)]
  | _, .mapItem _ _ key value' _ => do return [(← key.fmt, ← value'.fmt)]
  | _, .nil => none
  | _, .ref x => x.rows
  | _, .nilSlice => some []
  | _, .mkSlice _ xs => xs.rows
  | _, .empty => some []
  | _, .cons x xs => do return (← x.rows) ++ (← xs.rows)
  | _, _ => none

end

theorem fmt_nil {k : Kind} : (nil : Node (.ptr k)).fmt = none := by simp only [fmt]
theorem fmt_ref {k : Kind} (x : Node k) : (ref x).fmt = x.fmt := by simp only [fmt]
theorem texts_nil {k : Kind} : (nil : Node (.ptr k)).texts = none := by simp only [texts]
theorem rows_nil {k : Kind} : (nil : Node (.ptr k)).rows = none := by simp only [rows]

end Node

/-- `ast.go:66-77`; the receiver is not a pointer. -/
def AST.fmt [FloatText] (t : AST) : Option Str :=
  if t.items.len = 0 then some [] else t.items.texts.map (fun ts => join c!"\n\n" ts ++ c!"\n")

end Verif.Etx
