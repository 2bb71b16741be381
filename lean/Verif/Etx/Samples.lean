import Verif.Etx.Tree

/-!
# Sample trees for the examples

Each builder takes the first of the consecutive addresses it uses.
-/

namespace Verif.Etx.Sample

open Node

/-- Meta data with only an address. -/
def at_ (a : Nat) : Meta := { addr := a }

/-- An expression that is just a primary; uses `a`, …, `a + 13`. -/
def ofPostfix (a : Nat) (p : Node .postfixE) : Node .expr :=
  .expr (at_ a) (.ref (.conditional (at_ (a + 1))
    (.bin .logicalOr (at_ (a + 2)) (.bin .logicalAnd (at_ (a + 3)) (.bin .bitwiseOr (at_ (a + 4))
      (.bin .bitwiseXor (at_ (a + 5)) (.bin .bitwiseAnd (at_ (a + 6)) (.bin .equality (at_ (a + 7))
        (.bin .relational (at_ (a + 8)) (.bin .shift (at_ (a + 9)) (.bin .additive (at_ (a + 10))
          (.bin .multiplicative (at_ (a + 11)) (.unary (at_ (a + 12)) [] p) [] .nil)
        [] .nil) [] .nil) [] .nil) [] .nil) [] .nil) [] .nil) [] .nil) [] .nil) [] .nil)
    false .nil .nil)) .nil .nil

/-- An expression that is just a value; uses `a`, …, `a + 14`. -/
def ofValue (a : Nat) (v : Node .value) : Node .expr :=
  ofPostfix a (.postfixE (at_ (a + 13)) (.primary (at_ (a + 14)) .nil (.ref v) .nil .nilSlice .nil) .nil .nil)

/-- An identifier; uses `a`, `a + 1`. -/
def identOf (a : Nat) (s : Str) : Node .ident := .ident (at_ a) (.mk (a + 1) [s])

/-- An expression that is just an identifier; uses `a`, …, `a + 16`. -/
def ofIdent (a : Nat) (s : Str) : Node .expr :=
  ofPostfix a (.postfixE (at_ (a + 13)) (.primary (at_ (a + 14)) .nil .nil (.ref (identOf (a + 15) s)) .nilSlice .nil)
    .nil .nil)

/-- A number literal; uses `a`, `a + 1`, `a + 2`. -/
def numberOf (a : Nat) (f : BigFloat) (s : Str) : Node .value :=
  .value (at_ a) false .nil (.ref (.valueNumber (at_ (a + 1)) (some (a + 2, f)) s)) .nil .nil .nil .nil

/-- A heredoc of one text fragment; uses `a`, …, `a + 3`. -/
def heredocOf (a : Nat) (d s : Str) : Node .value :=
  .value (at_ a) false .nil .nil .nil (.ref (.heredoc (at_ (a + 1)) false d
    (.mkSlice (a + 2) (.cons (.ref (.heredocFragment (at_ (a + 3)) .nil .nil s)) .empty)))) .nil .nil

/-- A root item holding an attribute; uses `a`, `a + 1`. -/
def attrItem (a : Nat) (k : Str) (e : Node .expr) : Node .rootItem :=
  .rootItem (at_ a) [] .nil .nil .nil .nil (.ref (.attr (at_ (a + 1)) k (.ref e))) .nil

/-- `x = 3`; addresses 0, …, 21. -/
def number : AST := ⟨0, .mkSlice 21 (.cons (.ref (attrItem 1 c!"x" (ofValue 3 (numberOf 18 ⟨53, 3, 0, false⟩ c!"3")))) .empty)⟩

/-- `x = <<E` … with the text `t`; addresses 0, …, 22. -/
def heredocDoc : AST :=
  ⟨0, .mkSlice 22 (.cons (.ref (attrItem 1 c!"x" (ofValue 3 (heredocOf 18 c!"E" c!"t")))) .empty)⟩

/-- `fn f() T { val v: T = y }` -/
def funcDoc : AST :=
  ⟨0, .mkSlice 1 (.cons (.ref (.rootItem (at_ 2) [] .nil
    (.ref (.func (at_ 3) c!"f" .nilSlice .nilSlice (.mkSlice 4 (.cons (.ref (.funcStatement (at_ 5) [] .nil
      (.ref (.funcDecl (at_ 6) c!"val" c!"v" (.ref (.parameterType (at_ 7) (.ref (identOf 8 c!"T")) .nil))
        (.ref (ofIdent 10 c!"y")))) .nil)) .empty))))
    .nil .nil .nil .nil)) .empty)⟩

/-- `x = a[0].b`: the postfix expression has an index and a further postfix expression. -/
def postDoc : AST :=
  ⟨0, .mkSlice 1 (.cons (.ref (attrItem 2 c!"x" (ofPostfix 4
    (.postfixE (at_ 17) (.primary (at_ 18) .nil .nil (.ref (identOf 19 c!"a")) .nilSlice .nil)
      (.ref (ofValue 21 (numberOf 36 ⟨53, 0, 0, false⟩ c!"0")))
      (.ref (.postfixE (at_ 39) (.primary (at_ 40) .nil .nil (.ref (identOf 41 c!"b")) .nilSlice .nil) .nil .nil))))))
    .empty)⟩

end Verif.Etx.Sample
