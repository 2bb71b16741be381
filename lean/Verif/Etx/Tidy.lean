import Verif.Etx.WrittenText
import Verif.Etx.Canon

/-!
# Trees whose formatted text can be read

`Node.tidy` excludes what the formatter does not write as it can be read: parentheses, values of attributes, maps with
items, heredocs, escaped characters, blocks with several items, and texts that the lexer would split differently.
-/

namespace Verif.Etx

namespace Node

/-- A value that ends with a number, or may do so. -/
def numLike : {k : Kind} → Node k → Bool
  | _, .value _ _ _ number _ _ _ _ => number.isRef
  | _, .primary _ _ value' _ _ post => value'.numLike || post.isRef
  | _, .ref x => x.numLike
  | _, _ => false

/-- What may follow a fragment of a string. -/
def fragP : {k : Kind} → Node k → Char → Bool
  | _, .stringFragment _ _ u e d t =>
    if u ≠ [] then fun c => decide (u.length = 8) || !isHex c
    else if e.isRef || d.isRef then anyC
    else if textSym t = .char then isSpecial else anyC
  | _, .ref x => x.fragP
  | _, _ => anyC

/-- The fragments of a string. -/
def frags : {k : Kind} → Node k → List ((Char → Bool) × List Token)
  | _, .mkSlice _ xs => xs.frags
  | _, .cons x xs => (x.fragP, x.toks) :: xs.frags
  | _, _ => []

/-- No closing brace, which would end `${`. -/
def noBrace {k : Kind} (x : Node k) : Bool := x.toks.all fun t => t.sym ≠ .blockEnd

/-- Does not begin with a digit, which would be taken together with a dot. -/
def noDigit {k : Kind} (x : Node k) : Bool := headNot (fun t => t.txt.head?.any isDigitSep) x.toks

/-- A comment that ends with a line feed. -/
def lineComment {k : Kind} (x : Node k) : Bool := !x.isRef || (x.toks.getLast?.any fun t => t = lfTok)

/-- The blank line of an item. -/
def blankOf : {k : Kind} → Node k → Str
  | _, .rootItem _ e _ _ _ _ _ _ => e
  | _, .blockItem _ e _ _ _ => e
  | _, .funcStatement _ e _ _ _ => e
  | _, .ref x => x.blankOf
  | _, _ => []

/-- An item that is a comment. -/
def isRemark : {k : Kind} → Node k → Bool
  | _, .rootItem _ _ _ _ _ _ _ c => c.isRef
  | _, .blockItem _ _ _ _ c => c.isRef
  | _, .funcStatement _ _ c _ _ => c.isRef
  | _, .ref x => x.isRemark
  | _, _ => false

/-- Comments and one last item that is not one. -/
def blockBody : {k : Kind} → Node k → Bool
  | _, .mkSlice _ xs => xs.blockBody
  | _, .cons x xs => decide (x.blankOf = []) && ((x.isRemark && xs.blockBody) || (!x.isRemark && decide (xs.len = 0)))
  | _, .nilSlice => true
  | _, _ => false

/-- See above. -/
def tidy : {k : Kind} → Node k → Bool
  | _, .rootItem _ _ d _ _ _ a c => !d.dangling && !a.dangling && c.lineComment
  | _, .ident _ parts => parts.list.all identOk
  | _, .comment _ s m => s.list.all singleOk && (decide (m = []) || multiOk m)
  | _, .attr _ key v => identOk key && !v.isRef
  | _, .block _ name labels body => identOk name && labels.list.all charOk && body.blockBody
  | _, .decl _ _ l _ _ => identOk l
  | _, .func _ l _ ret _ => identOk l && (decide (ret.len ≠ 1) || ret.bareRet)
  | _, .funcParameter _ l _ => identOk l
  | _, .funcStatement _ _ c _ _ => c.lineComment
  | _, .funcDecl _ _ l _ _ => identOk l
  | _, .type _ l _ _ => identOk l
  | _, .typeEnumItem _ e c l _ => decide (e = []) && !c.isRef && identOk l
  | _, .typeObjectItem _ e c l _ => decide (e = []) && !c.isRef && identOk l
  | _, .value _ _ _ _ _ heredoc' _ _ => !heredoc'.isRef
  | _, .valueNumber _ _ s => numberOk s
  | _, .valueString _ f => fragsOk f.frags
  | _, .stringFragment _ esc u e d t =>
    decide (esc = []) && (decide (u = []) || unicodeOk u) && e.noBrace && d.noBrace &&
      (decide (t = []) || (decide (t ≠ c!"\"") && (decide (textSym t ≠ .char) || charOk t)))
  | _, .valueMap _ items' => items'.isNilSlice
  | _, .exprIf _ _ l r => l.isRef || !r.isRef
  | _, .postfixE _ v i post => !post.isRef || ((i.isRef || !v.numLike) && post.noDigit)
  | _, .primary _ sub _ _ _ post => !sub.isRef && (!post.isRef || post.noDigit)
  | _, _ => true

/-- Tidy everywhere. -/
def neat {k : Kind} (x : Node k) : Bool := x.everywhere tidy

end Node

/-! ## The blank lines that formatting adds -/

/-- Blank lines as an item, unless there are none. -/
def flush {k : Kind} (mk : Str → Node k) (pend : Str) : List (Node k) := if pend = [] then [] else [mk pend]

/-- The items that the formatted text is read as: `more` follows each line feed that is written after an item, except the
last one; `pend` are the line feeds in front. -/
def respace {k : Kind} (mk : Str → Node k) (re : Node k → Node k) (more : Str) : Str → List (Node k) → List (Node k)
  | pend, [] => flush mk pend
  | pend, x :: xs =>
    let sep := if xs.isEmpty then [] else more
    if x.blankOf ≠ [] then respace mk re more (pend ++ x.blankOf ++ '\n' :: sep) xs
    else if x.isRemark then flush mk pend ++ re x :: respace mk re more ('\n' :: sep) xs
    else flush mk pend ++ re x :: respace mk re more sep xs

/-- The elements of a slice. -/
def Node.structs : {k : Kind} → Node (.items k) → List (Node k)
  | _, .empty => []
  | _, .cons .nil xs => xs.structs
  | _, .cons (.ref x) xs => x :: xs.structs

/-- The struct pointed to is replaced. -/
def mapRef {k : Kind} (g : Node k → Node k) : Node (.ptr k) → Node (.ptr k)
  | .nil => .nil
  | .ref x => .ref (g x)

/-- The elements of a slice are replaced. -/
def mapSlice {k : Kind} (g : List (Node k) → List (Node k)) : Node (.slice k) → Node (.slice k)
  | .nilSlice => .nilSlice
  | .mkSlice a xs => .mkSlice a (Out.items (g xs.structs))

/-- A statement that is a blank line. -/
def blankStatement (e : Str) : Node .funcStatement := .funcStatement ⟨0, {}, none⟩ e .nil .nil .nil

/-- An item that is a blank line. -/
def blankItem (e : Str) : Node .rootItem := .rootItem ⟨0, {}, none⟩ e .nil .nil .nil .nil .nil .nil

/-- A formatted function. -/
def respaceFunc : Node .func → Node .func
  | .func m l ps ret body => .func m l ps ret (mapSlice (respace blankStatement id [] []) body)

/-- A formatted item. -/
def respaceItem : Node .rootItem → Node .rootItem
  | .rootItem m e d f t b a c => .rootItem m e d (mapRef respaceFunc f) t b a c

/-- The items of a formatted document. -/
def respaceDoc : Node (.slice .rootItem) → Node (.slice .rootItem) := mapSlice (respace blankItem respaceItem c!"\n" [])

end Verif.Etx
