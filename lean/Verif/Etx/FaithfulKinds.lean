import Verif.Etx.Faithful

/-!
# What each struct keeps of its tokens
-/

namespace Verif.Etx
open Node Gram

theorem exact_word {y : Sym} {w v : Str} (h : y.exact w = true) (hv : y.word = some v) : w = v := by
  unfold Sym.exact at h
  rw [hv] at h
  simpa using h

theorem words_tk (y : Sym) (w : Str) (s : List Token) : words (tk y w :: s) = word y w ++ words s := rfl

theorem words_lf (s : List Token) : words (lfTok :: s) = words s := rfl

theorem words_comma (s : List Token) : words (comma :: s) = words s := rfl

theorem words_opt_lf (b : Bool) (s : List Token) : words (if b = true then [] else lfTok :: s) = if b = true then [] else words s := by
  cases b <;> rfl

theorem words_items {k : Kind} (l : List (Node k)) :
    words (if (sliceOf l).isNilSlice = true then [] else lfTok :: (l.map toks).flatten) = words (l.map toks).flatten := by
  cases l <;> rfl

theorem words_cases {k : Kind} (l : List (Node k)) :
    words (if (sliceOf l).isNilSlice = true then [] else lfTok :: (l.map ((fun x => x ++ [lfTok]) ∘ toks)).flatten) =
      words (l.map toks).flatten := by
  have : words (l.map ((fun x => x ++ [lfTok]) ∘ toks)).flatten = words (l.map toks).flatten := by
    induction l with
    | nil => rfl
    | cons x l ih =>
      simp only [List.map_cons, List.flatten_cons, words_append, ih]
      simp [words_append, words_lf, words_nil]
  rw [← this]
  cases l <;> rfl

theorem sliceOf_nil {k : Kind} : sliceOf ([] : List (Node k)) = .nilSlice := rfl

/-- Takes apart the first hypothesis of the goal. -/
syntax "flat_step" : tactic

macro_rules | `(tactic| flat_step) => `(tactic| intro h; rw [flat_sub] at h; obtain ⟨x, e, hx, hx'⟩ := h)
macro_rules | `(tactic| flat_step) => `(tactic| intro h; rw [flat_cap] at h; obtain ⟨o', e, h⟩ := h; revert h)
macro_rules
  | `(tactic| flat_step) =>
    `(tactic| intro h; rw [flat_opt] at h; rcases h with ⟨e, e'⟩ | h; on_goal 2 => revert h)
macro_rules | `(tactic| flat_step) => `(tactic| intro h; rw [flat_alt] at h; rcases h with h | h <;> revert h)
macro_rules
  | `(tactic| flat_step) =>
    `(tactic| intro h; rw [flat_seq] at h; obtain ⟨u1, u2, o1, o2, e, e', h1, h2⟩ := h; revert h2; revert h1)
macro_rules | `(tactic| flat_step) => `(tactic| intro h; rw [flat_tok] at h; obtain ⟨w, hw, hw', e, e'⟩ := h; (try have := exact_word hw (Eq.refl _)))
macro_rules | `(tactic| flat_step) => `(tactic| intro h; rw [flat_lit] at h; obtain ⟨e, e'⟩ := h)
macro_rules | `(tactic| flat_step) => `(tactic| intro h; obtain ⟨t, l, e, hl, hl'⟩ := flat_subs_lfs h; clear h)
macro_rules | `(tactic| flat_step) => `(tactic| intro h; obtain ⟨t, l, e, hl, hl'⟩ := flat_subs h; clear h)
macro_rules | `(tactic| flat_step) => `(tactic| intro h; obtain ⟨t, l, e, hl, hl'⟩ := flat_commas h; clear h)
macro_rules | `(tactic| flat_step) => `(tactic| intro h; obtain ⟨t, l, e, hl, hl'⟩ := flat_commaSep h; clear h)
macro_rules | `(tactic| flat_step) => `(tactic| intro h; obtain ⟨t, l, e, hl, hl'⟩ := flat_opt_commaSep h; clear h)
macro_rules | `(tactic| flat_step) => `(tactic| intro h; obtain ⟨e, t, l, e', hl⟩ := flat_blank h; clear h)
macro_rules | `(tactic| flat_step) => `(tactic| intro h; obtain ⟨e, t, e'⟩ := flat_lfs h; clear h)
macro_rules | `(tactic| flat_step) => `(tactic| intro h; obtain ⟨e, t, e', ht⟩ := flat_lf? h; clear h)

/-- Compares two lists of words piece by piece. -/
macro "same" : tactic =>
  `(tactic| repeat (first | assumption | exact SameWords.refl _ | apply SameWords.cons | apply SameWords.append))

/-- What is to be shown of each struct. -/
def Faithful [FloatValue] (k : Kind) : Prop :=
  ∀ {u : List Word} {o : Out} {m : Meta} {x : Node k}, Flat (of k) u o → build m o k = some x → SameWords u (words x.toks) ∧ typed x

variable [FloatValue]

/-- Reads the production of a struct. -/
macro "flat_start" : tactic =>
  `(tactic| (intro u o m x; simp only [Gram.of, Gram.sq, Gram.al]; (repeat' flat_step) <;> subst_vars))

/-- Builds the struct and compares the words. -/
macro "flat_done" : tactic =>
  `(tactic| (simp [build, out_append, ptrOf, sliceOf_nil] <;> (try (intro h; subst h)) <;>
    simp [toks, words_append, words_tk, words_nil, word, litSym, typed, words_blank, words_items, words_cases, tokss_sliceOf,
      words_lf, words_comma, tokss,
      words_sepBy_comma, parens, braces, Node.isRef, *] <;> same))

theorem faithful_conditional : Faithful .conditional := by
  flat_start
  all_goals flat_done

theorem faithful_rootItem : Faithful .rootItem := by
  flat_start
  all_goals flat_done

theorem faithful_parameterType : Faithful .parameterType := by
  flat_start
  all_goals flat_done

theorem faithful_funcSignature : Faithful .funcSignature := by
  flat_start
  all_goals flat_done

theorem faithful_attr : Faithful .attr := by
  flat_start
  all_goals flat_done

theorem faithful_blockItem : Faithful .blockItem := by
  flat_start
  all_goals flat_done

theorem faithful_decl : Faithful .decl := by
  flat_start
  all_goals flat_done

theorem faithful_funcParameter : Faithful .funcParameter := by
  flat_start
  all_goals flat_done

theorem faithful_funcStatement : Faithful .funcStatement := by
  flat_start
  all_goals flat_done

theorem faithful_funcDecl : Faithful .funcDecl := by
  flat_start
  all_goals flat_done

theorem faithful_type : Faithful .type := by
  flat_start
  all_goals flat_done

theorem faithful_typeEnum : Faithful .typeEnum := by
  flat_start
  all_goals flat_done

theorem faithful_typeEnumItem : Faithful .typeEnumItem := by
  flat_start
  all_goals flat_done

theorem faithful_typeObject : Faithful .typeObject := by
  flat_start
  all_goals flat_done

theorem faithful_typeObjectItem : Faithful .typeObjectItem := by
  flat_start
  all_goals flat_done

theorem faithful_valueString : Faithful .valueString := by
  flat_start
  all_goals flat_done

theorem faithful_valueList : Faithful .valueList := by
  flat_start
  all_goals flat_done

theorem faithful_listItem : Faithful .listItem := by
  flat_start
  all_goals flat_done

theorem faithful_valueMap : Faithful .valueMap := by
  flat_start
  all_goals flat_done

theorem faithful_mapItem : Faithful .mapItem := by
  flat_start
  all_goals flat_done

theorem faithful_mapKey : Faithful .mapKey := by
  flat_start
  all_goals flat_done

theorem faithful_expr : Faithful .expr := by
  flat_start
  all_goals flat_done

theorem faithful_exprIf : Faithful .exprIf := by
  flat_start
  all_goals flat_done

theorem faithful_exprSwitch : Faithful .exprSwitch := by
  flat_start
  all_goals flat_done

theorem faithful_exprCase : Faithful .exprCase := by
  flat_start
  all_goals flat_done

theorem faithful_postfixE : Faithful .postfixE := by
  flat_start
  all_goals flat_done

theorem faithful_invocation : Faithful .invocation := by
  flat_start
  all_goals flat_done

end Verif.Etx
