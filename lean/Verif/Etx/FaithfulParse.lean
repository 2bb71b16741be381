import Verif.Etx.FaithfulRest
import Verif.Etx.FormatLemmas
import Verif.Props.ParseDoc

/-!
# What a parse keeps of a text
-/

namespace Verif.Etx
open Node Gram

/-- No lambda: the grammar has a production for it, that is used nowhere. -/
def used : Kind → Bool
  | .lambda | .lambdaParameter => false
  | _ => true

/-- The structs inside a production are used. -/
def usedGram : Gram → Bool
  | lit _ => true
  | tok _ => true
  | seq a b => usedGram a && usedGram b
  | alt a b => usedGram a && usedGram b
  | Gram.opt a => usedGram a
  | Gram.star a => usedGram a
  | plus a => usedGram a
  | cap _ a => usedGram a
  | sub _ k => used k

theorem used_of (k : Kind) (h : used k = true) : usedGram (of k) = true := by
  cases k
  case bin l => cases l <;> decide +kernel
  case ptr | slice | items => rfl
  case lambda | lambdaParameter => cases h
  all_goals decide +kernel

variable [FloatValue]

theorem faithful (k : Kind) (hk : used k = true) : Faithful k := by
  cases k
  case lambda | lambdaParameter => cases hk
  case valueBool | valueNumber | ptr | slice | items => intro u o m x _ h; cases h
  case rootItem => exact faithful_rootItem
  case parameterType => exact faithful_parameterType
  case funcSignature => exact faithful_funcSignature
  case ident => exact faithful_ident
  case comment => exact faithful_comment
  case attr => exact faithful_attr
  case block => exact faithful_block
  case blockItem => exact faithful_blockItem
  case decl => exact faithful_decl
  case func => exact faithful_func
  case funcParameter => exact faithful_funcParameter
  case funcStatement => exact faithful_funcStatement
  case funcDecl => exact faithful_funcDecl
  case type => exact faithful_type
  case typeEnum => exact faithful_typeEnum
  case typeEnumItem => exact faithful_typeEnumItem
  case typeObject => exact faithful_typeObject
  case typeObjectItem => exact faithful_typeObjectItem
  case value => exact faithful_value
  case heredoc => exact faithful_heredoc
  case heredocFragment => exact faithful_heredocFragment
  case valueString => exact faithful_valueString
  case stringFragment => exact faithful_stringFragment
  case valueList => exact faithful_valueList
  case listItem => exact faithful_listItem
  case valueMap => exact faithful_valueMap
  case mapItem => exact faithful_mapItem
  case mapKey => exact faithful_mapKey
  case expr => exact faithful_expr
  case exprIf => exact faithful_exprIf
  case exprSwitch => exact faithful_exprSwitch
  case exprCase => exact faithful_exprCase
  case conditional => exact faithful_conditional
  case bin l => exact faithful_bin l
  case unary => exact faithful_unary
  case postfixE => exact faithful_postfixE
  case primary => exact faithful_primary
  case invocation => exact faithful_invocation

/-- A token of a text. -/
def Genuine (t : Token) : Prop := t.exact = true ∧ (t.sym = .heredoc → heredocWord t.txt)

theorem flat_of_strict {g : Gram} {s : List Token} {o : Out} (h : Strict g s o) (hg : usedGram g = true)
    (hs : ∀ t ∈ s, Genuine t) : Flat g (words s) o := by
  induction h with
  | @lit w t h h' =>
    subst h
    rw [words_cons, words_nil, List.append_nil, h']
    exact .lit
  | @tok y t h =>
    subst h
    rw [words_cons, words_nil, List.append_nil]
    exact .tok (hs t (by simp)).1 (hs t (by simp)).2
  | seq _ _ iha ihb =>
    simp only [usedGram, Bool.and_eq_true] at hg
    rw [words_append]
    exact .seq (iha hg.1 fun t ht => hs t (by simp [ht])) (ihb hg.2 fun t ht => hs t (by simp [ht]))
  | altL _ ih => exact .altL (ih (by simp [usedGram] at hg; exact hg.1) hs)
  | altR _ ih => exact .altR (ih (by simp [usedGram] at hg; exact hg.2) hs)
  | skip => exact .skip
  | once _ ih => exact .once (ih hg hs)
  | nil => exact .nil
  | cons _ _ iha ihb =>
    rw [words_append]
    exact .more (iha hg fun t ht => hs t (by simp [ht])) (ihb hg fun t ht => hs t (by simp [ht]))
  | plus _ _ iha ihb =>
    rw [words_append]
    exact .plus (iha hg fun t ht => hs t (by simp [ht])) (ihb hg fun t ht => hs t (by simp [ht]))
  | cap _ ih => exact .cap (ih hg hs)
  | @sub f k s o pos x _ hb _ ih =>
    have := faithful k hg (ih (used_of k hg) hs) hb
    exact .sub this.1 this.2

omit [FloatValue] in
theorem lex_genuine {s : Str} {ts : List Token} (h : lex s = some ts) : ∀ t ∈ ts, Genuine t := by
  intro t ht
  obtain ⟨st, hr⟩ := lex_run h
  refine ⟨hr.exact t ht, fun hs => ?_⟩
  obtain ⟨tabs, d, h1, -, h2⟩ := lex_heredoc_text h t ht hs
  exact ⟨tabs, d, h1, h2⟩

theorem parseTree_same {s : Str} {x : Node (.slice .rootItem)} (h : parseTree s = some x) :
    ∃ ts, lex s = some ts ∧ SameWords (words ts) (words x.tokss.flatten) := by
  unfold parseTree at h
  simp only [Option.bind_eq_bind, Option.bind_eq_some_iff] at h
  obtain ⟨ts, h1, h2⟩ := h
  obtain ⟨o, h3, rfl⟩ := parseTokens_strict h1 h2
  have h4 := flat_of_strict h3 rfl (lex_genuine h1)
  obtain ⟨t, l, rfl, hl, -⟩ := flat_subs h4
  refine ⟨ts, h1, ?_⟩
  rw [Out.slice_mk, nodes_capNodes, tokss_sliceOf]
  exact hl

/-! ## Addresses and parents do not matter -/

omit [FloatValue]

theorem bareRet_map (f : Meta → Meta) (fa : Nat → Nat) {k : Kind} (x : Node k) : (x.map f fa).bareRet = x.bareRet := by
  cases x with
  | mkSlice a xs =>
    cases xs with
    | empty => rename_i k; cases k <;> rfl
    | cons x xs =>
      cases x with
      | nil => rename_i k; cases k <;> cases xs <;> rfl
      | ref x =>
        cases x with
        | parameterType m p g => cases p <;> cases xs <;> rfl
        | _ => cases xs <;> rfl
  | _ => rfl

theorem toks_map (f : Meta → Meta) (fa : Nat → Nat) {k : Kind} (x : Node k) :
    (x.map f fa).toks = x.toks ∧ (x.map f fa).tokss = x.tokss := by
  induction x <;>
    simp only [Node.map, toks, tokss, isRef_map, isNilSlice_map, bareRet_map, Strs.list_map, mapFloat, *, and_self]

theorem toks_erase {k : Kind} (x : Node k) : x.erase.toks = x.toks ∧ x.erase.tokss = x.tokss := toks_map _ _ x

end Verif.Etx
