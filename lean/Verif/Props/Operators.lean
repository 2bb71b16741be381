import Verif.Etx.Operators
import Verif.Etx.TokenLemmas
import Verif.Props.ParseBack

/-! # Properties C37 and C38: precedence and associativity of binary operators -/

namespace Verif.Etx
open Node

/-! ## The operators of a text -/

/-- The types of the binary operators. -/
def binSyms : List Sym := opTable.map Prod.snd

/-- The rules of operators match fixed texts. -/
def opRuleOk (r : Rule) : Prop := r.sym ∈ binSyms → ∃ w, (w, r.sym) ∈ opTable ∧ ∀ g, r.pat g = Re.lit w

theorem rules_op (st : LexState) : ∀ r ∈ rulesOf st, opRuleOk r := by
  have other : ∀ (y : Sym) (p : Str → Re) (a : LexAction), y ∉ binSyms → opRuleOk ⟨y, p, a⟩ := fun y p a h h' => absurd h' h
  have lit : ∀ (y : Sym) (w : Str) (a : LexAction), (w, y) ∈ opTable → opRuleOk (rule y (Re.lit w) a) :=
    fun y w a h _ => ⟨w, h, fun _ => rfl⟩
  have core : ∀ r ∈ coreRules, opRuleOk r := by
    unfold coreRules
    simp only [List.forall_mem_cons, List.not_mem_nil, false_imp_iff, implies_true, and_true]
    and_intros <;> first | exact lit _ _ _ (by decide) | exact other _ _ _ (by decide)
  cases st
  case root => exact core
  case stringExpr => exact List.forall_mem_cons.mpr ⟨other _ _ _ (by decide), core⟩
  all_goals
    simp only [rulesOf, stringRules, unicodeRules, heredocRules, List.forall_mem_cons, List.not_mem_nil, false_imp_iff,
      implies_true, and_true]
    and_intros <;> exact other _ _ _ (by decide)

/-- An operator token is spelled as in the table. -/
def Token.opOk (t : Token) : Prop := t.sym ∈ binSyms → (t.txt, t.sym) ∈ opTable

theorem lex_op {s : Str} {ts : List Token} (h : lex s = some ts) : ∀ t ∈ ts, t.opOk := by
  refine lexAll_mem ?_ _ _ _ _ _ h
  intro st s r m st' pos h hr
  obtain ⟨state, g, below, -, h0, -, -⟩ := lexStep_some h
  have ⟨h1, h2⟩ := firstRule_some h0
  obtain ⟨w, hw, hp⟩ := rules_op state r h1 hr
  rw [hp, first_lit] at h2
  split at h2
  · cases h2
    exact hw
  · cases h2

theorem binOp_text {l : Level} {t : Token} (ht : t.opOk) (hs : t.sym ∈ Gram.binOp l) : t.txt ∈ levelOps l := by
  have hall : ∀ l : Level, (Gram.binOp l).all (fun y => binSyms.contains y &&
      opTable.all fun p => decide (p.2 = y → p.1 ∈ levelOps l)) = true := by
    intro l; cases l <;> decide +kernel
  have := List.all_eq_true.mp (hall l) t.sym hs
  simp only [Bool.and_eq_true, List.contains_iff_mem] at this
  have h2 := List.all_eq_true.mp this.2 _ (ht this.1)
  simpa using h2

variable [FloatValue]

/-! ## Derivations -/

theorem Derives.alToks {ys : List Sym} {s : List Token} {o : Out} (hy : ys ≠ [])
    (h : Derives (Gram.al (ys.map Gram.tok)) s o) : ∃ t, s = [t] ∧ t.sym ∈ ys ∧ o = ⟨[t.txt], []⟩ := by
  induction ys generalizing s o with
  | nil => exact absurd rfl hy
  | cons y ys ih =>
    cases ys with
    | nil =>
      cases h with
      | tok h => exact ⟨_, rfl, by simp [h], rfl⟩
    | cons z ys =>
      cases h with
      | altL h =>
        cases h with
        | tok h => exact ⟨_, rfl, by simp [h], rfl⟩
      | altR h =>
        obtain ⟨t, h1, h2, h3⟩ := ih (by simp) h
        exact ⟨t, h1, List.mem_cons_of_mem _ h2, h3⟩

/-- How a binary expression is read: an operand, and possibly an operator and the rest. -/
theorem derives_bin {l : Level} {s : List Token} {o : Out} {m : Meta} {x : Node (.bin l)}
    (hd : Derives (Gram.of (.bin l)) s o) (hb : build m o (.bin l) = some x) :
    (∃ y, DerivesKind l.operand s y ∧ x = .bin l m y [] .nil) ∨
    ∃ s1 t s2 y z, s = s1 ++ t :: s2 ∧ DerivesKind l.operand s1 y ∧ t.sym ∈ Gram.binOp l ∧ DerivesKind (.bin l) s2 z ∧
      x = .bin l m y t.txt (.ref z) := by
  have hne : Gram.binOp l ≠ [] := by cases l <;> simp [Gram.binOp]
  cases hd with
  | seq h1 h2 =>
    cases h1 with
    | sub h1 hb1 hp1 =>
      cases h2 with
      | skip =>
        left
        refine ⟨_, ⟨_, _, by simpa using h1, hb1, by simpa using hp1⟩, ?_⟩
        simp [build, Out.struct, Out.nodes, Out.ptr, Out.str, Out.toks] at hb
        exact hb.symm
      | once h2 =>
        cases h2 with
        | seq h3 h4 =>
          cases h3 with
          | cap h3 =>
            obtain ⟨t, rfl, ht, rfl⟩ := h3.alToks hne
            cases h4 with
            | sub h4 hb4 hp4 =>
              right
              refine ⟨_, t, _, _, _, rfl, ⟨_, _, h1, hb1, hp1⟩, ht, ⟨_, _, h4, hb4, hp4⟩, ?_⟩
              simp [build, Out.struct, Out.nodes, Out.ptr, Out.str, Out.toks] at hb
              exact hb.symm

omit [FloatValue] in
theorem Node.opOk_map (f : Meta → Meta) (fa : Nat → Nat) {k : Kind} (y : Node k) : (y.map f fa).opOk = y.opOk := by
  cases y with
  | bin l m y op z => cases z <;> rfl
  | _ => rfl

/-- In a document every operator belongs to its struct. -/
theorem parse_opOk {s : Str} {t : AST} (h : parseString s = .ok t) : t.items.everywhere Node.opOk = true := by
  rcases parseString_eq s with ⟨-, h'⟩ | ⟨x, t', f, hx, h', h2, -⟩
  · rw [h] at h'; cases h'
  · rw [h] at h'
    cases h'
    have hx' : x.everywhere Node.opOk = true := by
      unfold parseTree at hx
      simp only [Option.bind_eq_bind, Option.bind_eq_some_iff] at hx
      obtain ⟨ts, h1, h2⟩ := hx
      refine parseTokens_all (Q := Token.opOk) ⟨fun _ => rfl, fun _ _ => rfl, fun _ => rfl, fun _ _ _ => rfl, fun _ => rfl,
        fun _ _ _ => rfl, fun _ => rfl, fun _ _ => rfl, rfl, rfl⟩ ?_ h2 (lex_op h1)
      intro k s o m x hd hq _ hb
      by_cases hk : ∃ l, k = .bin l
      · obtain ⟨l, rfl⟩ := hk
        rcases derives_bin hd hb with ⟨y, -, rfl⟩ | ⟨s1, t, s2, y, z, rfl, -, ht, -, rfl⟩
        · rfl
        · have := binOp_text (hq t (by simp)) ht
          simp [opOk, this]
      · cases x with
        | bin l => exact absurd ⟨_, rfl⟩ hk
        | _ => rfl
    rw [h2, everywhere_map f id (fun k y => opOk_map f id y)]
    have : ((x.place 1).1).everywhere Node.opOk = x.everywhere Node.opOk := by
      rw [← everywhere_map (P := Node.opOk) (fun m => { addr := 0, pos := m.pos, parent := none }) (fun _ => 0) (fun k y => opOk_map _ _ y),
        ← everywhere_map (P := Node.opOk) (fun m => { addr := 0, pos := m.pos, parent := none }) (fun _ => 0) (fun k y => opOk_map _ _ y) x]
      exact congrArg _ (x.place_erase 1)
    rw [this]
    exact hx'

/-! ## C38 -/

/-- **C38.** In every parsed document, each operator binds looser than all operators in its left operand and not tighter than
those in its right operand, up to what is in brackets (the operands of `opTree` are unary expressions) … -/
theorem C38_precedence (s : Str) (t : AST) (h : parseString s = .ok t) : ∀ e ∈ t.items.stored none, e.2.2.opTree.Grouped :=
  fun e he => (opTree_grouped _ (everywhere_stored _ (parse_opOk h) true none e he)).1

/-- The tokens of a tree of operators: those of the operands, in this order, with the operators in between. -/
inductive SpelledBy : OpTree AnyNode → List Token → Prop
  | leaf {s : List Token} {u : Node .unary} : DerivesKind .unary s u → SpelledBy (.leaf ⟨.unary, u⟩) s
  | node {l r : OpTree AnyNode} {s s' : List Token} {t : Token} : SpelledBy l s → SpelledBy r s' →
      SpelledBy (.node l t.txt r) (s ++ t :: s')

/-- … nothing is lost or reordered: the tokens read as a binary expression are those of its operands and operators … -/
theorem C38_tokens (l : Level) (s : List Token) (x : Node (.bin l)) (h : DerivesKind (.bin l) s x) : SpelledBy x.opTree s := by
  have key : ∀ n, ∀ {k : Kind} {s : List Token} {x : Node k}, x.size ≤ n → (k = .unary ∨ ∃ l, k = .bin l) → DerivesKind k s x →
      SpelledBy x.opTree s := by
    intro n
    induction n with
    | zero => intro k s x hn; cases x <;> simp [Node.size] at hn <;> (rintro (h | ⟨l, h⟩) <;> cases h)
    | succ n ih =>
      rintro k s x hn (rfl | ⟨l, rfl⟩) h
      · have : x.opTree = .leaf ⟨.unary, x⟩ := by cases x; rfl
        rw [this]
        exact .leaf h
      · have hk : l.operand = .unary ∨ ∃ l', l.operand = .bin l' := by cases l <;> simp [Level.operand]
        obtain ⟨o, pos, hd, hb, -⟩ := h
        rcases derives_bin hd hb with ⟨y, hy, rfl⟩ | ⟨s1, t, s2, y, z, rfl, hy, -, hz, rfl⟩
        · simp only [Node.size] at hn
          have : (Node.bin l { addr := 0, pos := pos } y [] .nil).opTree = y.opTree := by simp [opTree, isRef]
          rw [this]
          exact ih (by omega) hk hy
        · simp only [Node.size] at hn
          have : (Node.bin l { addr := 0, pos := pos } y t.txt (.ref z)).opTree = .node y.opTree t.txt z.opTree := by
            simp [opTree, isRef]
          rw [this]
          exact .node (ih (by omega) hk hy) (ih (by omega) (.inr ⟨l, rfl⟩) hz)
  exact key _ (Nat.le_refl _) (.inr ⟨l, rfl⟩) h

/-- The document `key = …` with a binary expression. -/
def attrDoc (key : Str) (x : Node (.bin .logicalOr)) : Node (.slice .rootItem) :=
  .mkSlice 0 (.cons (.ref (.rootItem noPos [] .nil .nil .nil .nil (.ref (.attr noPos key (.ref
    (.expr noPos (.ref (.conditional noPos x false .nil .nil)) .nil .nil)))) .nil)) .empty)

/-- … and every sequence of operands and binary operators is accepted, of any length, with operands that are any unary
expressions that can be written: `ParseString` of any text with the tokens of `key = u op₁ u₁ op₂ u₂ …` gives the
expression with these operands and operators, grouped by precedence.  There is only one such grouping. -/
theorem C38_accepts (key : Str) (hkey : key ≠ []) (u : Node .unary) (l : List (Str × Node .unary)) (hu : u.canon = true)
    (hl : ∀ p ∈ l, p.2.canon = true ∧ p.1 ∈ precedence.flatten) (s : Str) (ts : List Token) (hs : lex s = some ts)
    (hts : ts.map (fun t => (t.sym, t.txt)) =
      [(.ident, key), (.opAssign, c!"=")] ++ (seqToks u l).map (fun t => (t.sym, t.txt)) ++ [(.lf, c!"\n")]) :
    ∃ t x, parseString s = .ok t ∧ t.items.bare = attrDoc key x ∧ x.opTree.Grouped ∧ x.opTree.ops = l.map Prod.fst ∧
      x.opTree.leaves = ⟨.unary, u.bare⟩ :: (l.map fun p => ⟨.unary, p.2.bare⟩) ∧
      ∀ b : OpTree AnyNode, b.Grouped → b.ops = l.map Prod.fst →
        b.leaves = ⟨.unary, u.bare⟩ :: (l.map fun p => ⟨.unary, p.2.bare⟩) → b = x.opTree := by
  obtain ⟨x, h1, h2, h3, h4, h5⟩ := spells u l hu hl
  have hc : (attrDoc key x).canon = true := by
    have e : (attrDoc key x).canon = ((decide (key ≠ [])) && x.canon) := by
      simp only [attrDoc, canon, everywhere]
      generalize everywhere _ x = b
      cases b <;> simp [shaped, writable, one, isRef, Node.set, len, blank, List.count_cons]
    rw [e]
    simp [hkey, h1]
  have hch : (attrDoc key x).chain [] = true := rfl
  have htk : (attrDoc key x).tokss.flatten = [tk .ident key, tk .opAssign c!"="] ++ seqToks u l ++ [lfTok] := by
    simp [attrDoc, tokss, toks, isRef, h3]
  obtain ⟨t, ht, hb⟩ := C53_read_back (attrDoc key x) hc hch s ts hs (by rw [hts, htk]; simp [tk, lfTok])
  have hg : x.bare.everywhere Node.opOk = true := by
    rw [bare, everywhere_map (P := Node.opOk) _ _ (fun k y => opOk_map _ _ y)]
    refine everywhere_mono (P := fun y => y.shaped && y.writable) (fun k y hy => ?_) x h1
    cases y with
    | bin l m y op z =>
      simp only [shaped, writable, Bool.and_eq_true, Bool.or_eq_true, decide_eq_true_eq, beq_iff_eq] at hy
      simp only [opOk, Bool.or_eq_true, Bool.not_eq_true']
      rcases hy.2 with h | h
      · left; rw [← hy.1, h]; rfl
      · exact .inr (by simpa using h)
    | _ => rfl
  have hg := (opTree_grouped x.bare hg).1
  have ho : x.bare.opTree.ops = l.map Prod.fst := by
    rw [opTree_bare, OpTree.ops_map, h4]
  have hlv : x.bare.opTree.leaves = ⟨.unary, u.bare⟩ :: (l.map fun p => ⟨.unary, p.2.bare⟩) := by
    rw [opTree_bare, OpTree.leaves_map, h5]
    simp
  exact ⟨t, x.bare, ht, hb, hg, ho, hlv, fun b hb hbo hbl => hb.unique hg (hbo.trans ho.symm) (hbl.trans hlv.symm)⟩

/-! ## C37 -/

/-- **C37** in full: as documented, operators of the same row are grouped from the left. -/
def C37_full : Prop := ∀ s t, parseString s = .ok t → ∀ e ∈ t.items.stored none, e.2.2.opTree.GroupedLeft

omit [FloatValue] in
/-- Two operators of one row in a tree that is grouped from the right are not grouped from the left. -/
theorem not_groupedLeft {α : Type} {t : OpTree α} {p : Nat} (h : t.Grouped) (hp : ∀ w ∈ t.ops, prec w = p)
    (hn : 2 ≤ t.ops.length) : ¬ t.GroupedLeft := by
  intro hl
  cases t with
  | leaf a => simp [OpTree.ops] at hn
  | node l op r =>
    obtain ⟨-, h1, h2, -⟩ := h
    obtain ⟨-, k1, k2, -⟩ := hl
    have hop := hp op (by simp [OpTree.ops])
    have e1 : l.ops = [] := List.eq_nil_iff_forall_not_mem.mpr fun w hw => by
      have := hp w (by simp [OpTree.ops, hw])
      have := h1 w hw
      omega
    have e2 : r.ops = [] := List.eq_nil_iff_forall_not_mem.mpr fun w hw => by
      have := hp w (by simp [OpTree.ops, hw])
      have := k2 w hw
      omega
    simp [OpTree.ops, e1, e2] at hn

/-- C37 fails in every document, for every chain of two or more operators of the same row: the operands are grouped from the
right instead. -/
theorem C37_never_left (s : Str) (t : AST) (h : parseString s = .ok t) (p : Nat) : ∀ e ∈ t.items.stored none,
    (∀ w ∈ e.2.2.opTree.ops, prec w = p) → 2 ≤ e.2.2.opTree.ops.length →
    e.2.2.opTree.Grouped ∧ ¬ e.2.2.opTree.GroupedLeft :=
  fun e he hp hn => ⟨C38_precedence s t h e he, not_groupedLeft (C38_precedence s t h e he) hp hn⟩

/-- The operators of the first binary expression with some. -/
def firstOps (s : Str) : Option (List Str) :=
  match parseString s with
  | .ok t => ((t.items.stored none).map fun e => e.2.2.opTree.ops).find? fun l => !l.isEmpty
  | _ => none

/-- For example `a - b - c` means `a - (b - c)`. -/
theorem C37_left_fails : ¬ C37_full := by
  intro h
  have h1 : firstOps c!"x = a - b - c" = some [c!"-", c!"-"] := by kernel_rfl
  unfold firstOps at h1
  split at h1
  · rename_i t ht
    have hm := List.mem_of_find?_eq_some h1
    obtain ⟨e, he, hops⟩ := List.mem_map.mp hm
    exact (C37_never_left _ t ht 8 e he (by rw [hops]; decide +kernel) (by rw [hops]; decide)).2 (h _ t ht e he)
  · cases h1

/-- **C37** as far as it is true: if no two operators of the same row meet in an expression (outside of brackets), it is
grouped as documented.  Missing: expressions with several operators of the same row. -/
theorem C37_distinct_partial (s : Str) (t : AST) (h : parseString s = .ok t) : ∀ e ∈ t.items.stored none,
    (e.2.2.opTree.ops.map prec).Nodup → e.2.2.opTree.GroupedLeft := by
  intro e he hn
  have hg := C38_precedence s t h e he
  generalize e.2.2.opTree = a at hn hg
  induction a with
  | leaf x => trivial
  | node l op r ihl ihr =>
    obtain ⟨h0, h1, h2, h3, h4⟩ := hg
    simp only [OpTree.ops, List.map_append, List.map_cons, List.nodup_append, List.nodup_cons, List.mem_map, not_exists,
      not_and] at hn
    refine ⟨h0, fun w hw => Nat.le_of_lt (h1 w hw), fun w hw => ?_, ihl hn.1 h3, ihr hn.2.1.2 h4⟩
    have := h2 w hw
    have := hn.2.1.1 w hw
    omega

/-- The value of a tree, for any meaning of the operators. -/
def OpTree.eval {α : Type} (f : Str → α → α → α) : OpTree α → α
  | .leaf a => a
  | .node l op r => f op (l.eval f) (r.eval f)

/-- An operator and operands, grouped from the right. -/
def OpTree.join {α : Type} : OpTree α → Str → OpTree α → OpTree α
  | .leaf a, op, r => .node (.leaf a) op r
  | .node l w r', op, r => if prec w = prec op then .node l w (r'.join op r) else .node (.node l w r') op r

omit [FloatValue] in
theorem OpTree.join_spec {α : Type} {f : Str → α → α → α}
    (hf : ∀ v w a b c, prec v = prec w → f w (f v a b) c = f v a (f w b c)) (l : OpTree α) (op : Str) (r : OpTree α) :
    (l.join op r).ops = l.ops ++ op :: r.ops ∧ (l.join op r).leaves = l.leaves ++ r.leaves ∧
    (l.join op r).eval f = f op (l.eval f) (r.eval f) ∧
    (op ∈ precedence.flatten → l.Grouped → r.Grouped → (∀ w ∈ l.ops, prec op ≤ prec w) → (∀ w ∈ r.ops, prec op < prec w) →
      (l.join op r).Grouped) := by
  induction l with
  | leaf a => exact ⟨rfl, rfl, rfl, fun h _ hr _ hlt => ⟨h, by simp [ops], fun w hw => Nat.le_of_lt (hlt w hw), trivial, hr⟩⟩
  | node l w r' ihl ihr =>
    obtain ⟨i1, i2, i3, i4⟩ := ihr
    unfold join
    split
    · rename_i e
      refine ⟨by simp [ops, i1], by simp [leaves, i2], ?_, fun h hl hr hle hlt => ?_⟩
      · rw [eval, i3, eval, hf _ _ _ _ _ e]
      · obtain ⟨g0, g1, g2, g3, g4⟩ := hl
        refine ⟨g0, g1, fun v hv => ?_, g3, i4 h g4 hr (fun v hv => hle v (by simp [ops, hv])) hlt⟩
        rw [i1] at hv
        simp only [List.mem_append, List.mem_cons] at hv
        rcases hv with hv | rfl | hv
        · exact g2 v hv
        · omega
        · have := hlt v hv; omega
    · rename_i e
      refine ⟨by simp [ops], by simp [leaves], rfl, fun h hl hr hle hlt => ?_⟩
      have hw := hle w (by simp [ops])
      obtain ⟨g0, g1, g2, g3, g4⟩ := hl
      refine ⟨h, fun v hv => ?_, fun v hv => Nat.le_of_lt (hlt v hv), ⟨g0, g1, g2, g3, g4⟩, hr⟩
      simp only [ops, List.mem_append, List.mem_cons] at hv
      rcases hv with hv | rfl | hv
      · have := g1 v hv; omega
      · omega
      · have := g2 v hv; omega

omit [FloatValue] in
theorem OpTree.eval_left {α : Type} {f : Str → α → α → α}
    (hf : ∀ v w a b c, prec v = prec w → f w (f v a b) c = f v a (f w b c)) {t : OpTree α} (h : t.GroupedLeft) :
    ∃ t' : OpTree α, t'.Grouped ∧ t'.ops = t.ops ∧ t'.leaves = t.leaves ∧ t'.eval f = t.eval f := by
  induction t with
  | leaf a => exact ⟨.leaf a, trivial, rfl, rfl, rfl⟩
  | node l op r ihl ihr =>
    obtain ⟨h0, h1, h2, h3, h4⟩ := h
    obtain ⟨l', a1, a2, a3, a4⟩ := ihl h3
    obtain ⟨r', b1, b2, b3, b4⟩ := ihr h4
    obtain ⟨j1, j2, j3, j4⟩ := join_spec hf l' op r'
    exact ⟨_, j4 h0 a1 b1 (a2 ▸ h1) (b2 ▸ h2), by rw [j1, a2, b2]; rfl, by rw [j2, a3, b3]; rfl, by rw [j3, a4, b4]; rfl⟩

/-- The grouping does not matter for operators that are associative within each row: an evaluation of the parsed tree has the
result of the documented grouping `b`, for all operands.  Missing: operators like `-` and `/`. -/
theorem C37_associative_partial (s : Str) (t : AST) (h : parseString s = .ok t) {α : Type} (f : Str → α → α → α)
    (hf : ∀ v w a b c, prec v = prec w → f w (f v a b) c = f v a (f w b c)) (operand : AnyNode → α) :
    ∀ e ∈ t.items.stored none, ∀ b : OpTree α, b.GroupedLeft → b.ops = e.2.2.opTree.ops →
      b.leaves = e.2.2.opTree.leaves.map operand → b.eval f = (e.2.2.opTree.map operand).eval f := by
  intro e he b hb ho hl
  have hg := C38_precedence s t h e he
  obtain ⟨b', h1, h2, h3, h4⟩ := OpTree.eval_left hf hb
  rw [← h4]
  congr 1
  refine h1.unique ?_ (by rw [h2, ho, OpTree.ops_map]) (by rw [h3, hl, OpTree.leaves_map])
  generalize e.2.2.opTree = a at hg
  clear * - hg
  induction a with
  | leaf x => trivial
  | node l op r ihl ihr =>
    obtain ⟨h0, h1, h2, h3, h4⟩ := hg
    exact ⟨h0, by rwa [OpTree.ops_map], by rwa [OpTree.ops_map], ihl h3, ihr h4⟩

/-! ## Examples -/

example : firstOps c!"x = a * b + c << d" = some [c!"*", c!"+", c!"<<"] := by kernel_rfl
example : firstOps c!"x = a\n" = none := by kernel_rfl
example : prec c!"*" = 9 ∧ prec c!"+" = 8 ∧ prec c!"||" = 0 := by decide +kernel
/-- Operands that are identifiers. -/
def identOperand (w : Str) : Node .unary :=
  .unary noPos [] (.postfixE noPos (.primary noPos .nil .nil (.ref (.ident noPos (.mk 0 [w]))) .nilSlice .nil) .nil .nil)
example : (identOperand c!"a").canon = true := by kernel_rfl
example : (lex c!"x = a - b\n").map (fun l => l.map fun t => (t.sym, t.txt)) =
    some ([(.ident, c!"x"), (.opAssign, c!"=")] ++ (seqToks (identOperand c!"a") [(c!"-", identOperand c!"b")]).map
      (fun t => (t.sym, t.txt)) ++ [(.lf, c!"\n")]) := by decide +kernel
/-- Minimum and maximum … are associative: a meaning as in `C37_associative_partial`. -/
example : ∀ (v w : Str) (a b c : Nat), prec v = prec w → max (max a b) c = max a (max b c) := fun _ _ a b c _ => Nat.max_assoc a b c

end Verif.Etx
