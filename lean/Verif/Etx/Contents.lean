import Verif.Etx.Rename
import Verif.Etx.Nest
import Mathlib.Data.List.Forall2

/-!
# The parser does not look at the contents of comments and quotes

Other texts in the tokens of comments, and of what stands in quotes and heredocs, change the result in the fields that these texts are
stored in, and nowhere else.  Words of the grammar are compared with the texts of all tokens, whatever their kind; but in a document
the parser keeps to the nesting of quotes and heredocs (`Nest.lean`), and looks for no words inside of them.
-/

namespace Verif.Etx
open Gram

/-- Whether there is a text. -/
def blankIf (c : Bool) (s : Str) : Str := if c && s ≠ [] then c!"#" else s

/-- How many texts there are. -/
def blankStrs (c : Bool) : Strs → Strs
  | .nil => .nil
  | .mk _ l => .mk 0 (l.map (blankIf c))

/-- A value without positions, addresses, parents and the texts of comments; with `c` also without the texts in quotes and heredocs
and the labels of blocks.  What remains of these texts is whether there is one. -/
def Node.hush (c : Bool) : {k : Kind} → Node k → Node k
  | _, .rootItem _ s1 x1 x2 x3 x4 x5 x6 => .rootItem noPos s1 (x1.hush c) (x2.hush c) (x3.hush c) (x4.hush c) (x5.hush c) (x6.hush c)
  | _, .parameterType _ x1 x2 => .parameterType noPos (x1.hush c) (x2.hush c)
  | _, .funcSignature _ x1 x2 => .funcSignature noPos (x1.hush c) (x2.hush c)
  | _, .ident _ s1 => .ident noPos (blankStrs false s1)
  | _, .comment _ s1 s2 => .comment noPos (blankStrs true s1) (blankIf true s2)
  | _, .attr _ s1 x1 => .attr noPos s1 (x1.hush c)
  | _, .block _ s1 s2 x1 => .block noPos s1 (blankStrs c s2) (x1.hush c)
  | _, .blockItem _ s1 x1 x2 x3 => .blockItem noPos s1 (x1.hush c) (x2.hush c) (x3.hush c)
  | _, .decl _ s1 s2 x1 x2 => .decl noPos s1 s2 (x1.hush c) (x2.hush c)
  | _, .lambda _ x1 x2 x3 => .lambda noPos (x1.hush c) (x2.hush c) (x3.hush c)
  | _, .lambdaParameter _ s1 x1 => .lambdaParameter noPos s1 (x1.hush c)
  | _, .func _ s1 x1 x2 x3 => .func noPos s1 (x1.hush c) (x2.hush c) (x3.hush c)
  | _, .funcParameter _ s1 x1 => .funcParameter noPos s1 (x1.hush c)
  | _, .funcStatement _ s1 x1 x2 x3 => .funcStatement noPos s1 (x1.hush c) (x2.hush c) (x3.hush c)
  | _, .funcDecl _ s1 s2 x1 x2 => .funcDecl noPos s1 s2 (x1.hush c) (x2.hush c)
  | _, .type _ s1 x1 x2 => .type noPos s1 (x1.hush c) (x2.hush c)
  | _, .typeEnum _ x1 => .typeEnum noPos (x1.hush c)
  | _, .typeEnumItem _ s1 x1 s2 x2 => .typeEnumItem noPos s1 (x1.hush c) s2 (x2.hush c)
  | _, .typeObject _ x1 => .typeObject noPos (x1.hush c)
  | _, .typeObjectItem _ s1 x1 s2 x2 => .typeObjectItem noPos s1 (x1.hush c) s2 (x2.hush c)
  | _, .value _ s1 x1 x2 x3 x4 x5 x6 => .value noPos s1 (x1.hush c) (x2.hush c) (x3.hush c) (x4.hush c) (x5.hush c) (x6.hush c)
  | _, .valueBool _ s1 => .valueBool noPos s1
  | _, .valueNumber _ s1 s2 => .valueNumber noPos (mapFloat (fun _ => 0) s1) s2
  | _, .heredoc _ s1 s2 x1 => .heredoc noPos s1 s2 (x1.hush c)
  | _, .heredocFragment _ x1 x2 s1 => .heredocFragment noPos (x1.hush c) (x2.hush c) (blankIf c s1)
  | _, .valueString _ x1 => .valueString noPos (x1.hush c)
  | _, .stringFragment _ s1 s2 x1 x2 s3 => .stringFragment noPos s1 s2 (x1.hush c) (x2.hush c) (blankIf c s3)
  | _, .valueList _ x1 => .valueList noPos (x1.hush c)
  | _, .listItem _ s1 x1 x2 => .listItem noPos s1 (x1.hush c) (x2.hush c)
  | _, .valueMap _ x1 => .valueMap noPos (x1.hush c)
  | _, .mapItem _ s1 x1 x2 x3 => .mapItem noPos s1 (x1.hush c) (x2.hush c) (x3.hush c)
  | _, .mapKey _ x1 x2 => .mapKey noPos (x1.hush c) (x2.hush c)
  | _, .expr _ x1 x2 x3 => .expr noPos (x1.hush c) (x2.hush c) (x3.hush c)
  | _, .exprIf _ x1 x2 x3 => .exprIf noPos (x1.hush c) (x2.hush c) (x3.hush c)
  | _, .exprSwitch _ x1 x2 => .exprSwitch noPos (x1.hush c) (x2.hush c)
  | _, .exprCase _ x1 s1 x2 => .exprCase noPos (x1.hush c) s1 (x2.hush c)
  | _, .conditional _ x1 s1 x2 x3 => .conditional noPos (x1.hush c) s1 (x2.hush c) (x3.hush c)
  | _, .bin l _ x1 s1 x2 => .bin l noPos (x1.hush c) s1 (x2.hush c)
  | _, .unary _ s1 x1 => .unary noPos s1 (x1.hush c)
  | _, .postfixE _ x1 x2 x3 => .postfixE noPos (x1.hush c) (x2.hush c) (x3.hush c)
  | _, .primary _ x1 x2 x3 x4 x5 => .primary noPos (x1.hush c) (x2.hush c) (x3.hush c) (x4.hush c) (x5.hush c)
  | _, .invocation _ x1 => .invocation noPos (x1.hush c)
  | _, .nil => .nil
  | _, .ref x1 => .ref (x1.hush c)
  | _, .nilSlice => .nilSlice
  | _, .mkSlice _ x1 => .mkSlice 0 (x1.hush c)
  | _, .empty => .empty
  | _, .cons x1 x2 => .cons (x1.hush c) (x2.hush c)


/-- The tokens whose texts are contents: comments, and with `c` what stands in quotes and the lines of heredocs. -/
def Sym.loose (c : Bool) : Sym → Bool
  | .singleLineComment | .multilineComment => true
  | .char | .body => c
  | _ => false

/-- The fields that contents are captured into. -/
def Field.loose (c : Bool) : Field → Bool
  | .singleLine | .multiline => true
  | .text | .labels => c
  | _ => false

/-- Two tokens of one kind with the same text, or else with contents. -/
structure Token.Akin (c : Bool) (t t' : Token) : Prop where
  sym : t.sym = t'.sym
  txt : t.txt = t'.txt ∨ t.sym.loose c = true
  exact : t.exact = true
  exact' : t'.exact = true

/-- A capture without contents. -/
def Capture.hush (c : Bool) : Capture → Capture
  | .toks g l => .toks g (l.map (blankIf (g.loose c)))
  | .node g k x => .node g k (x.hush c)

/-- Captures without contents. -/
def Out.hush (c : Bool) (o : Out) : Out := ⟨o.txt.map (blankIf true), o.caps.map (Capture.hush c)⟩

/-- The same results but for contents, and tokens left over that are alike. -/
def Res.Akin {α : Type} (c : Bool) (R : α → α → Prop) : Res α → Res α → Prop
  | .miss, .miss => True
  | .err r, .err r' => List.Forall₂ (Token.Akin c) r r'
  | .ok a r, .ok a' r' => R a a' ∧ List.Forall₂ (Token.Akin c) r r'
  | _, _ => False

/-- No token of the production has contents. -/
def Gram.firm (c : Bool) : Gram → Bool
  | .lit _ => true
  | .tok y => !y.loose c
  | .seq a b | .alt a b => a.firm c && b.firm c
  | .opt a | .star a | .plus a | .cap _ a => a.firm c
  | .sub _ _ => true

/-- Contents are captured into the fields for them only, and the words of the production are words of the grammar. -/
def Gram.neat (c : Bool) : Gram → Bool
  | .lit w => grammarWords.contains w && litOk w
  | .tok _ => true
  | .seq a b | .alt a b => a.neat c && b.neat c
  | .opt a | .star a | .plus a => a.neat c
  | .cap g a => a.neat c && (g.loose c || a.firm c)
  | .sub _ _ => true

theorem neat_of (c : Bool) (k : Kind) : (Gram.of k).neat c = true := by
  cases k
  case bin l => cases c <;> cases l <;> decide +kernel
  all_goals cases c <;> first | decide +kernel | rfl

variable {c : Bool}

theorem Token.exact_ne {t : Token} (h : t.exact = true) (hl : t.sym.loose c = true) : t.txt ≠ [] := by
  intro e
  rw [Token.exact, e] at h
  revert h hl
  cases t.sym <;> cases c <;> decide

theorem Token.Akin.blank {t t' : Token} (h : t.Akin c t') : blankIf true t.txt = blankIf true t'.txt := by
  rcases h.txt with e | h1
  · rw [e]
  · have e1 := Token.exact_ne h.exact h1
    have e2 := Token.exact_ne h.exact' (h.sym ▸ h1)
    simp [blankIf, e1, e2]

/-- Outside of quotes and heredocs, contents are comments. -/
theorem Token.loose_word {t : Token} {β : List Br} (hb : Br.top .stringExpr β = .stringExpr) (hn : (t.sym.nest .stringExpr β).isSome = true)
    (h : t.sym.loose c = true) (he : t.exact = true) {w : Str} (hw : w ∈ grammarWords) : t.txt ≠ w := by
  have hs : t.sym = .singleLineComment ∨ t.sym = .multilineComment := by
    unfold Sym.nest at hn
    rw [hb] at hn
    revert h hn
    cases t.sym <;> simp [Sym.loose, Sym.core] <;> cases c <;> decide
  have hh : t.txt.head? = some '/' ∨ t.txt.head? = some '#' := by
    rw [Token.exact] at he
    rcases hs with e | e <;> rw [e] at he
    · simpa [Sym.exact, Sym.word] using he
    · simp only [Sym.exact, Sym.word, Bool.and_eq_true, decide_eq_true_eq] at he
      exact .inl he.1
  rintro rfl
  have : ∀ w ∈ grammarWords, ¬ (w.head? = some '/' ∨ w.head? = some '#') := by decide
  exact this _ hw hh

theorem Token.Akin.word {t t' : Token} (h : t.Akin c t') {β : List Br} (hb : Br.top .stringExpr β = .stringExpr)
    (hn : (t.sym.nest .stringExpr β).isSome = true) {w : Str} (hw : w ∈ grammarWords) : t.txt = w ↔ t'.txt = w := by
  rcases h.txt with e | h1
  · rw [e]
  · exact ⟨fun e => absurd e (Token.loose_word hb hn h1 h.exact hw),
      fun e => absurd e (Token.loose_word hb (h.sym ▸ hn) (h.sym ▸ h1) h.exact' hw)⟩

/-- The tokens can be followed from here. -/
def Sound (β : List Br) (s : List Token) : Prop := (nest β s).isSome = true

theorem Sound.head {β : List Br} {t : Token} {s : List Token} (h : Sound β (t :: s)) : (t.sym.nest .stringExpr β).isSome = true := by
  unfold Sound at h
  simp only [Verif.Etx.nest] at h
  cases e : t.sym.nest .stringExpr β with
  | none => rw [e] at h; cases h
  | some => rfl

theorem Sound.tail {β β' : List Br} {t : Token} {s : List Token} (h : Sound β (t :: s)) (hs : t.sym.nest .stringExpr β = some β') :
    Sound β' s := by
  unfold Sound at h ⊢
  simpa only [Verif.Etx.nest, hs, Option.bind_some] using h

/-- What is to be shown of two outputs of a production. -/
def Out.Akin (c : Bool) (g : Gram) (o o' : Out) : Prop := o.hush c = o'.hush c ∧ (g.firm c = true → o.txt = o'.txt)

theorem Out.hush_append (a b : Out) : (a ++ b).hush c = a.hush c ++ b.hush c := by
  show Out.mk ((a.txt ++ b.txt).map _) ((a.caps ++ b.caps).map (Capture.hush c)) =
    Out.mk (a.txt.map _ ++ b.txt.map _) (a.caps.map (Capture.hush c) ++ b.caps.map (Capture.hush c))
  rw [List.map_append, List.map_append]

theorem Out.Akin.append {g a b : Gram} {o o' p p' : Out} (h : o.Akin c a o') (h' : p.Akin c b p') (ha : g.firm c = true → a.firm c = true)
    (hb : g.firm c = true → b.firm c = true) : (o ++ p).Akin c g (o' ++ p') := by
  refine ⟨by rw [hush_append, hush_append, h.1, h'.1], fun hg => ?_⟩
  show o.txt ++ p.txt = o'.txt ++ p'.txt
  rw [h.2 (ha hg), h'.2 (hb hg)]

theorem Out.Akin.refl (g : Gram) (o : Out) : o.Akin c g o := ⟨rfl, fun _ => rfl⟩

theorem stops_like {s s' r r' : List Token} (h : List.Forall₂ (Token.Akin c) s s') (h' : List.Forall₂ (Token.Akin c) r r') :
    stops s r = stops s' r' := by
  simp only [stops, h.length_eq, h'.length_eq]

theorem many_like {a g : Gram} (hg : g.firm c = true → a.firm c = true) {β : List Br} {p p' : List Token → Res Out}
    (hp : ∀ s s', List.Forall₂ (Token.Akin c) s s' → Sound β s →
      (p s).Akin c (Out.Akin c a) (p' s') ∧ ∀ o r, p s = .ok o r → Sound β r) (n : Nat) (s s' : List Token)
    (hs : List.Forall₂ (Token.Akin c) s s') (hn : Sound β s) :
    (many p n s).Akin c (Out.Akin c g) (many p' n s') ∧ ∀ o r, many p n s = .ok o r → Sound β r := by
  induction n generalizing s s' with
  | zero => exact ⟨⟨.refl _ _, hs⟩, fun o r h => by cases h; exact hn⟩
  | succ n ih =>
    unfold many
    obtain ⟨h, hk⟩ := hp s s' hs hn
    cases e : p s <;> cases e' : p' s' <;> rw [e, e'] at h <;> try exact h.elim
    · exact ⟨⟨.refl _ _, hs⟩, fun o r h => by cases h; exact hn⟩
    · simp only [stops_like hs h]
      split
      · exact ⟨h, fun o r h => by cases h⟩
      · exact ⟨⟨.refl _ _, hs⟩, fun o r h => by cases h; exact hn⟩
    · rename_i o r o' r'
      simp only [hs.length_eq, h.2.length_eq]
      have h1 : ∀ {x y : Out}, x.Akin c a y → x.Akin c g y := fun h => ⟨h.1, fun hx => h.2 (hg hx)⟩
      have hr := hk _ _ e
      split
      · obtain ⟨h2, hk2⟩ := ih r r' h.2 hr
        cases e2 : many p n r <;> cases e2' : many p' n r' <;> rw [e2, e2'] at h2 <;> try exact h2.elim
        · exact ⟨h2, fun o r h => by cases h⟩
        · exact ⟨h2, fun o r h => by cases h⟩
        · exact ⟨⟨h.1.append h2.1 hg id, h2.2⟩, fun o r h => by cases h; exact hk2 _ _ e2⟩
      · exact ⟨⟨h1 h.1, h.2⟩, fun o r h => by cases h; exact hr⟩

theorem run_like {p p' : (k : Kind) → List Token → Res (Node k)}
    (hp : ∀ k β s s', Br.top .stringExpr β = k.state → List.Forall₂ (Token.Akin c) s s' → Sound β s →
      (p k s).Akin c (fun x y => x.hush c = y.hush c) (p' k s') ∧ ∀ x r, p k s = .ok x r → Sound β r) (g : Gram)
    (hg : g.neat c = true) {b : LexState} {d d' β : List Br} (hb : Br.top .stringExpr β = b) (hd : g.nest b d = some d')
    (s s' : List Token) (hs : List.Forall₂ (Token.Akin c) s s') (hn : Sound (d ++ β) s) :
    (run p g s).Akin c (Out.Akin c g) (run p' g s') ∧ ∀ o r, run p g s = .ok o r → Sound (d' ++ β) r := by
  induction g generalizing d d' s s' with
  | lit w =>
    simp only [Gram.nest] at hd
    split at hd
    · rename_i hc
      cases hs with
      | nil => exact ⟨trivial, fun o r h => by cases h⟩
      | @cons t t' s s' ht hs =>
        simp only [Gram.neat, Bool.and_eq_true, List.contains_iff_mem] at hg
        have hb' : Br.top .stringExpr (d ++ β) = .stringExpr := by rw [Br.top_append hb, hc]
        have hx := ht.word hb' hn.head hg.1
        simp only [run, hx]
        split
        · rename_i e
          have e' := hx.2 e
          refine ⟨⟨⟨by rw [e, e'], fun _ => by rw [e, e']⟩, hs⟩, fun o r h => ?_⟩
          cases h
          obtain ⟨β', hn'⟩ := Option.isSome_iff_exists.mp hn.head
          have hsym := lit_nest hb hc hg.2 ht.exact e' hd hn'
          exact hn.tail (by rw [hsym]; exact Sym.nest_append hb hd)
        · exact ⟨trivial, fun o r h => by cases h⟩
    · cases hd
  | tok y =>
    simp only [Gram.nest] at hd
    cases hs with
    | nil => exact ⟨trivial, fun o r h => by cases h⟩
    | @cons t t' s s' ht hs =>
      simp only [run, ht.sym]
      split
      · rename_i e
        refine ⟨⟨⟨?_, fun hf => ?_⟩, hs⟩, fun o r h => ?_⟩
        · simp only [Out.hush, List.map_cons, List.map_nil, ht.blank]
        · rcases ht.txt with e' | h
          · simp only [e']
          · rw [ht.sym, e] at h
            simp [Gram.firm, h] at hf
        · cases h
          exact hn.tail (by rw [ht.sym, e]; exact Sym.nest_append hb hd)
      · exact ⟨trivial, fun o r h => by cases h⟩
  | seq a b' iha ihb =>
    simp only [Gram.nest, Option.bind_eq_some_iff] at hd
    obtain ⟨d1, hd1, hd2⟩ := hd
    simp only [Gram.neat, Bool.and_eq_true] at hg
    simp only [run]
    obtain ⟨h, hk⟩ := iha hg.1 hd1 s s' hs hn
    cases e : run p a s <;> cases e' : run p' a s' <;> rw [e, e'] at h <;> try exact h.elim
    · exact ⟨trivial, fun o r h => by cases h⟩
    · exact ⟨h, fun o r h => by cases h⟩
    · rename_i o r o' r'
      simp only
      obtain ⟨h2, hk2⟩ := ihb hg.2 hd2 r r' h.2 (hk _ _ e)
      cases e2 : run p b' r <;> cases e2' : run p' b' r' <;> rw [e2, e2'] at h2 <;> try exact h2.elim
      · exact ⟨h.2, fun o r h => by cases h⟩
      · exact ⟨h2, fun o r h => by cases h⟩
      · exact ⟨⟨h.1.append h2.1 (fun hf => by simp only [Gram.firm, Bool.and_eq_true] at hf; exact hf.1)
          (fun hf => by simp only [Gram.firm, Bool.and_eq_true] at hf; exact hf.2), h2.2⟩,
          fun o r h => by cases h; exact hk2 _ _ e2⟩
  | alt a b' iha ihb =>
    simp only [Gram.nest] at hd
    split at hd
    · rename_i hab
      have hd2 := hab ▸ hd
      simp only [Gram.neat, Bool.and_eq_true] at hg
      simp only [run]
      obtain ⟨h, hk⟩ := iha hg.1 hd s s' hs hn
      obtain ⟨h2, hk2⟩ := ihb hg.2 hd2 s s' hs hn
      have fa : ∀ {x y : Out}, x.Akin c a y → x.Akin c (.alt a b') y := fun h =>
        ⟨h.1, fun hf => h.2 (by simp only [Gram.firm, Bool.and_eq_true] at hf; exact hf.1)⟩
      have fb : ∀ {x y : Out}, x.Akin c b' y → x.Akin c (.alt a b') y := fun h =>
        ⟨h.1, fun hf => h.2 (by simp only [Gram.firm, Bool.and_eq_true] at hf; exact hf.2)⟩
      cases e : run p a s <;> cases e' : run p' a s' <;> rw [e, e'] at h <;> try exact h.elim
      · cases e2 : run p b' s <;> cases e2' : run p' b' s' <;> rw [e2, e2'] at h2 <;> try exact h2.elim
        · exact ⟨trivial, fun o r h => by cases h⟩
        · simp only [stops_like hs h2]
          split
          · exact ⟨h2, fun o r h => by cases h⟩
          · exact ⟨hs, fun o r h => by cases h⟩
        · exact ⟨⟨fb h2.1, h2.2⟩, fun o r h => by cases h; exact hk2 _ _ e2⟩
      · simp only [stops_like hs h]
        split
        · exact ⟨h, fun o r h => by cases h⟩
        · cases e2 : run p b' s <;> cases e2' : run p' b' s' <;> rw [e2, e2'] at h2 <;> try exact h2.elim
          · exact ⟨hs, fun o r h => by cases h⟩
          · simp only [stops_like hs h2]
            split
            · exact ⟨h2, fun o r h => by cases h⟩
            · exact ⟨hs, fun o r h => by cases h⟩
          · exact ⟨⟨fb h2.1, h2.2⟩, fun o r h => by cases h; exact hk2 _ _ e2⟩
      · exact ⟨⟨fa h.1, h.2⟩, fun o r h => by cases h; exact hk _ _ e⟩
    · cases hd
  | opt a iha =>
    simp only [Gram.nest] at hd
    split at hd
    · rename_i ha
      cases hd
      simp only [run]
      obtain ⟨h, hk⟩ := iha hg ha s s' hs hn
      cases e : run p a s <;> cases e' : run p' a s' <;> rw [e, e'] at h <;> try exact h.elim
      · exact ⟨⟨.refl _ _, hs⟩, fun o r h => by cases h; exact hn⟩
      · simp only [stops_like hs h]
        split
        · exact ⟨h, fun o r h => by cases h⟩
        · exact ⟨⟨.refl _ _, hs⟩, fun o r h => by cases h; exact hn⟩
      · exact ⟨⟨⟨h.1.1, h.1.2⟩, h.2⟩, fun o r h => by cases h; exact hk _ _ e⟩
    · cases hd
  | star a iha =>
    simp only [Gram.nest] at hd
    split at hd
    · rename_i ha
      cases hd
      simp only [run, hs.length_eq]
      exact many_like (a := a) id (fun s s' hs hn => iha hg ha s s' hs hn) _ _ _ hs hn
    · cases hd
  | plus a iha =>
    simp only [Gram.nest] at hd
    split at hd
    · rename_i ha
      cases hd
      simp only [run]
      obtain ⟨h, hk⟩ := iha hg ha s s' hs hn
      cases e : run p a s <;> cases e' : run p' a s' <;> rw [e, e'] at h <;> try exact h.elim
      · exact ⟨hs, fun o r h => by cases h⟩
      · simp only [stops_like hs h]
        split
        · exact ⟨h, fun o r h => by cases h⟩
        · exact ⟨hs, fun o r h => by cases h⟩
      · rename_i o r o' r'
        simp only [h.2.length_eq]
        obtain ⟨h2, hk2⟩ := many_like (a := a) (g := .plus a) id (fun s s' hs hn => iha hg ha s s' hs hn) (r'.length + 1) r r' h.2 (hk _ _ e)
        cases e2 : many (run p a) (r'.length + 1) r <;> cases e2' : many (run p' a) (r'.length + 1) r' <;> rw [e2, e2'] at h2 <;>
          try exact h2.elim
        · exact ⟨trivial, fun o r h => by cases h⟩
        · exact ⟨h2, fun o r h => by cases h⟩
        · exact ⟨⟨h.1.append h2.1 id id, h2.2⟩, fun o r h => by cases h; exact hk2 _ _ e2⟩
    · cases hd
  | cap g a iha =>
    simp only [Gram.neat, Bool.and_eq_true, Bool.or_eq_true] at hg
    simp only [run]
    obtain ⟨h, hk⟩ := iha hg.1 hd s s' hs hn
    cases e : run p a s <;> cases e' : run p' a s' <;> rw [e, e'] at h <;> try exact h.elim
    · exact ⟨trivial, fun o r h => by cases h⟩
    · exact ⟨h, fun o r h => by cases h⟩
    · rename_i o r o' r'
      have ht : o.txt.map (blankIf true) = o'.txt.map (blankIf true) := congrArg Out.txt h.1.1
      refine ⟨⟨⟨?_, h.1.2⟩, h.2⟩, fun o r h => by cases h; exact hk _ _ e⟩
      simp only [Out.hush, List.map_cons, List.map_nil, Capture.hush, ht]
      rcases hg.2 with hl | hf
      · rw [hl, ht]
      · rw [h.1.2 hf]
  | sub g k =>
    simp only [Gram.nest] at hd
    split at hd
    · rename_i ha
      cases hd
      simp only [run]
      obtain ⟨h, hk⟩ := hp k (d ++ β) s s' (by rw [Br.top_append hb, ha]) hs hn
      cases e : p k s <;> cases e' : p' k s' <;> rw [e, e'] at h <;> try exact h.elim
      · exact ⟨trivial, fun o r h => by cases h⟩
      · exact ⟨h, fun o r h => by cases h⟩
      · refine ⟨⟨⟨?_, fun _ => rfl⟩, h.2⟩, fun o r h => by cases h; exact hk _ _ e⟩
        simp only [Out.hush, List.map_cons, List.map_nil, Capture.hush]
        rw [h.1]
    · cases hd

namespace Out

theorem toks_hush (o : Out) (g : Field) : (o.hush c).toks g = (o.toks g).map (blankIf (g.loose c)) := by
  unfold Out.toks Out.hush
  rw [List.flatMap_map, List.map_flatMap]
  congr 1
  funext d
  cases d with
  | node => rfl
  | toks g' l =>
    simp only [Capture.hush]
    by_cases e : g' = g
    · subst e; simp
    · simp [e]

theorem nodes_hush (o : Out) (g : Field) (k : Kind) : (o.hush c).nodes g k = (o.nodes g k).map (Node.hush c) := by
  unfold Out.nodes Out.hush
  rw [List.flatMap_map, List.map_flatMap]
  congr 1
  funext d
  cases d with
  | toks => rfl
  | node g' k' x =>
    simp only [Capture.hush]
    split
    · rename_i e
      subst e
      split <;> rfl
    · rfl

theorem items_hush {k : Kind} (l : List (Node k)) : (items l).hush c = items (l.map (Node.hush c)) := by
  induction l with
  | nil => rfl
  | cons x l ih => simp only [List.map_cons, items, ← ih]; rfl

theorem blankIf_false : blankIf false = id := by funext s; rfl

variable {o o' : Out}

theorem toks_eq (h : o.hush c = o'.hush c) {g : Field} (hg : g.loose c = false) : o.toks g = o'.toks g := by
  have := congrArg (fun x => Out.toks x g) h
  simpa only [toks_hush, hg, blankIf_false, List.map_id] using this

theorem str_eq (h : o.hush c = o'.hush c) {g : Field} (hg : g.loose c = false) : o.str g = o'.str g := by
  rw [Out.str, toks_eq h hg]; rfl

theorem flag_eq (h : o.hush c = o'.hush c) {g : Field} (hg : g.loose c = false) : o.flag g = o'.flag g := by
  rw [Out.flag, toks_eq h hg]; rfl

theorem strs_eq (h : o.hush c = o'.hush c) (g : Field) : blankStrs (g.loose c) (o.strs g) = blankStrs (g.loose c) (o'.strs g) := by
  have := congrArg (fun x => Out.toks x g) h
  simp only [toks_hush] at this
  unfold Out.strs
  cases e : o.toks g <;> cases e' : o'.toks g <;> rw [e, e'] at this <;> simp_all [blankStrs]

theorem flatten_blank (l : List Str) : blankIf true l.flatten = blankIf true (l.map (blankIf true)).flatten := by
  have : l.flatten = [] ↔ (l.map (blankIf true)).flatten = [] := by
    simp only [List.flatten_eq_nil_iff, List.mem_map, forall_exists_index, and_imp, forall_apply_eq_imp_iff₂]
    refine forall₂_congr fun w _ => ?_
    unfold blankIf
    by_cases hw : w = [] <;> simp [hw]
  by_cases h : l.flatten = []
  · rw [h, this.1 h]
  · have h' := mt this.2 h
    generalize (l.map (blankIf true)).flatten = w at h' ⊢
    simp [blankIf, h, h']

theorem text_eq (h : o.hush c = o'.hush c) (g : Field) : blankIf (g.loose c) (o.str g) = blankIf (g.loose c) (o'.str g) := by
  cases hg : g.loose c with
  | false => rw [str_eq h hg]
  | true =>
    have := congrArg (fun x => Out.toks x g) h
    simp only [toks_hush, hg] at this
    rw [Out.str, Out.str, flatten_blank, this, ← flatten_blank]

theorem nodes_eq (h : o.hush c = o'.hush c) (g : Field) (k : Kind) : (o.nodes g k).map (Node.hush c) = (o'.nodes g k).map (Node.hush c) := by
  rw [← nodes_hush, h, nodes_hush]

theorem ptr_eq (h : o.hush c = o'.hush c) (g : Field) (k : Kind) : (o.ptr g (k := k)).hush c = (o'.ptr g).hush c := by
  have := nodes_eq h g k
  unfold Out.ptr
  cases e : o.nodes g k <;> cases e' : o'.nodes g k <;> rw [e, e'] at this <;> simp_all [Node.hush]

theorem slice_eq (h : o.hush c = o'.hush c) (g : Field) (k : Kind) : (o.slice g (k := k)).hush c = (o'.slice g).hush c := by
  have := nodes_eq h g k
  unfold Out.slice
  cases e : o.nodes g k <;> cases e' : o'.nodes g k <;> simp only [e, e', List.map_nil, List.map_cons, reduceCtorEq] at this ⊢
  · show Node.mkSlice 0 ((items _).hush c) = Node.mkSlice 0 ((items _).hush c)
    rw [items_hush, items_hush, List.map_cons, List.map_cons, this]

theorem struct_eq (h : o.hush c = o'.hush c) (g : Field) (k : Kind) :
    (o.struct g (k := k)).map (Node.hush c) = (o'.struct g).map (Node.hush c) := by
  have := nodes_eq h g k
  unfold Out.struct
  rw [← List.head?_map, ← List.head?_map, this]

end Out

variable [FloatValue]

theorem option_like {α β : Type} {f : α → β} {x y : Option α} (h : x.map f = y.map f) :
    (x = none ∧ y = none) ∨ ∃ a b, x = some a ∧ y = some b ∧ f a = f b := by
  cases x <;> cases y <;> simp_all

set_option linter.unusedSimpArgs false in
theorem build_like (m m' : Meta) {o o' : Out} (h : o.hush c = o'.hush c) (k : Kind) :
    (build m o k).map (Node.hush c) = (build m' o' k).map (Node.hush c) := by
  cases k
  case comment =>
    have h1 := Out.strs_eq h .singleLine
    have h2 := Out.text_eq h .multiline
    simp only [Field.loose] at h1 h2
    simp only [build, Option.map_some, Node.hush, h1, h2]
  case block =>
    have h1 := Out.strs_eq h .labels
    simp only [Field.loose] at h1
    simp only [build, Option.map_some, Node.hush, h1, Out.str_eq h (g := .name) rfl, Out.slice_eq h]
  case ident =>
    have h1 := Out.strs_eq h .parts
    simp only [Field.loose] at h1
    simp only [build, Option.map_some, Node.hush, h1]
  case heredocFragment =>
    have h1 := Out.text_eq h .text
    simp only [Field.loose] at h1
    simp only [build, Option.map_some, Node.hush, h1, Out.ptr_eq h]
  case stringFragment =>
    have h1 := Out.text_eq h .text
    simp only [Field.loose] at h1
    simp only [build, Option.map_some, Node.hush, h1, Out.ptr_eq h, Out.str_eq h (g := .escaped) rfl, Out.str_eq h (g := .unicode) rfl]
  case value =>
    simp only [build, Out.toks_eq h (g := .bool) rfl, Out.toks_eq h (g := .number) rfl, Out.flag_eq h (g := .null) rfl]
    cases o'.toks .number with
    | nil => simp only [Option.pure_def, Option.bind_eq_bind, Option.bind_some, Option.map_some, Node.hush, Out.ptr_eq h]
    | cons t l =>
      simp only [Option.pure_def, Option.bind_eq_bind, Option.bind_some]
      cases captureNumber t with
      | none => rfl
      | some c => simp only [Option.bind_some, Option.map_some, Node.hush, Out.ptr_eq h]
  case heredoc =>
    simp only [build, Out.str_eq h (g := .delimiter) rfl]
    cases captureDelimiter (o'.str .delimiter) with
    | none => rfl
    | some d =>
      simp only [Option.pure_def, Option.bind_eq_bind, Option.bind_some, Option.map_some, Node.hush, Out.slice_eq h]
  case typeEnumItem =>
    simp only [build, Option.map_some, Node.hush, Out.ptr_eq h, Out.str_eq h (g := .emptyLine) rfl, Out.str_eq h (g := .label) rfl]
    rcases option_like (Out.struct_eq h .value .expr) with ⟨e1, e2⟩ | ⟨a, b, e1, e2, e3⟩
    · rw [e1, e2]
    · simp only [e1, e2, Option.getD_some, e3]
  case typeObjectItem =>
    simp only [build, Option.map_some, Node.hush, Out.ptr_eq h, Out.str_eq h (g := .emptyLine) rfl, Out.str_eq h (g := .label) rfl]
    rcases option_like (Out.struct_eq h .type .parameterType) with ⟨e1, e2⟩ | ⟨a, b, e1, e2, e3⟩
    · rw [e1, e2]
    · simp only [e1, e2, Option.getD_some, e3]
  case funcSignature =>
    simp only [build]
    rcases option_like (Out.struct_eq h .ret .parameterType) with ⟨e1, e2⟩ | ⟨a, b, e1, e2, e3⟩ <;>
      simp [e1, e2, Node.hush, Out.slice_eq h, *]
  case lambda =>
    simp only [build]
    rcases option_like (Out.struct_eq h .expr .expr) with ⟨e1, e2⟩ | ⟨a, b, e1, e2, e3⟩ <;>
      simp [e1, e2, Node.hush, Out.slice_eq h, Out.ptr_eq h, *]
  case exprIf =>
    simp only [build]
    rcases option_like (Out.struct_eq h .condition (.bin .logicalOr)) with ⟨e1, e2⟩ | ⟨a, b, e1, e2, e3⟩ <;>
      simp [e1, e2, Node.hush, Out.slice_eq h, Out.ptr_eq h, *]
  case exprSwitch =>
    simp only [build]
    rcases option_like (Out.struct_eq h .selector (.bin .logicalOr)) with ⟨e1, e2⟩ | ⟨a, b, e1, e2, e3⟩ <;>
      simp [e1, e2, Node.hush, Out.slice_eq h, Out.ptr_eq h, *]
  case conditional =>
    simp only [build, Out.flag_eq h (g := .conditionOp) rfl]
    rcases option_like (Out.struct_eq h .condition (.bin .logicalOr)) with ⟨e1, e2⟩ | ⟨a, b, e1, e2, e3⟩ <;>
      simp [e1, e2, Node.hush, Out.slice_eq h, Out.ptr_eq h, *]
  case bin l =>
    simp only [build, Out.str_eq h (g := .op) rfl]
    rcases option_like (Out.struct_eq h .left l.operand) with ⟨e1, e2⟩ | ⟨a, b, e1, e2, e3⟩ <;>
      simp [e1, e2, Node.hush, Out.slice_eq h, Out.ptr_eq h, *]
  case unary =>
    simp only [build, Out.str_eq h (g := .op) rfl]
    rcases option_like (Out.struct_eq h .right .postfixE) with ⟨e1, e2⟩ | ⟨a, b, e1, e2, e3⟩ <;>
      simp [e1, e2, Node.hush, Out.slice_eq h, Out.ptr_eq h, *]
  case postfixE =>
    simp only [build]
    rcases option_like (Out.struct_eq h .value .primary) with ⟨e1, e2⟩ | ⟨a, b, e1, e2, e3⟩ <;>
      simp [e1, e2, Node.hush, Out.slice_eq h, Out.ptr_eq h, *]
  all_goals
    simp only [build, Option.map_some, Option.map_none, Node.hush, Out.ptr_eq h, Out.slice_eq h, Out.str_eq h (g := .emptyLine) rfl,
      Out.str_eq h (g := .key) rfl, Out.str_eq h (g := .label) rfl, Out.str_eq h (g := .declType) rfl, Out.flag_eq h (g := .dflt) rfl]

theorem parseFuel_like (eof eof' : Position) (n : Nat) (k : Kind) (β : List Br) (s s' : List Token) (hb : Br.top .stringExpr β = k.state)
    (hs : List.Forall₂ (Token.Akin c) s s') (hn : Sound β s) :
    (parseFuel eof n k s).Akin c (fun x y => x.hush c = y.hush c) (parseFuel eof' n k s') ∧
      ∀ x r, parseFuel eof n k s = .ok x r → Sound β r := by
  induction n generalizing k β s s' with
  | zero => exact ⟨hs, fun x r h => by cases h⟩
  | succ n ih =>
    unfold parseFuel structStep
    obtain ⟨h, hk⟩ := run_like (fun k β s s' hb hs hn => ih k β s s' hb hs hn) (Gram.of k) (neat_of c k) (d := []) hb (Gram.nest_of k) s s' hs hn
    cases e : run (parseFuel eof n) (Gram.of k) s <;> cases e' : run (parseFuel eof' n) (Gram.of k) s' <;> rw [e, e'] at h <;>
      try exact h.elim
    · exact ⟨trivial, fun x r h => by cases h⟩
    · exact ⟨h, fun x r h => by cases h⟩
    · rename_i o r o' r'
      simp only
      rcases option_like (build_like { addr := 0, pos := posOf eof s } { addr := 0, pos := posOf eof' s' } h.1.1 k) with
        ⟨e1, e2⟩ | ⟨a, b, e1, e2, e3⟩
      · rw [e1, e2]; exact ⟨h.2, fun x r h => by cases h⟩
      · rw [e1, e2]; exact ⟨⟨e3, h.2⟩, fun x r h => by cases h; exact hk _ _ e⟩

theorem parseTokens_like (eof eof' : Position) (s s' : List Token) (hs : List.Forall₂ (Token.Akin c) s s') (hn : Sound [] s) :
    (parseTokens eof s).map (Node.hush c) = (parseTokens eof' s').map (Node.hush c) := by
  unfold parseTokens
  obtain ⟨h, -⟩ := run_like (c := c) (p := fun k s => parseKind eof k s) (p' := fun k s => parseKind eof' k s) (fun k β s s' hb hs hn => by
    unfold parseKind
    rw [hs.length_eq]
    exact parseFuel_like eof eof' _ k β s s' hb hs hn) (.star (.sub .items .rootItem)) rfl (b := .stringExpr) (d := []) (d' := []) (β := []) rfl
    (by decide +kernel) s s' hs hn
  cases e : run (fun k s => parseKind eof k s) (.star (.sub .items .rootItem)) s <;>
    cases e' : run (fun k s => parseKind eof' k s) (.star (.sub .items .rootItem)) s' <;> rw [e, e'] at h <;> try exact h.elim
  rename_i o r o' r'
  obtain ⟨h1, h2⟩ := h
  cases h2 with
  | nil => simp only [Option.map_some, Out.slice_eq h1.1]
  | cons => rfl

end Verif.Etx
