import Verif.Props.Replace

/-! # C96: a vertex can be taken out without cutting the paths through it -/

set_option linter.unusedSectionVars false

namespace Verif.Dag
open M Relation

variable {K T : Type} [DecidableEq K] [GoZero K] [GoZero T]

/-! ## Specification -/

/-- The edge is there now, whether or not it was before. -/
def Res.there (r : Res K T) : Prop := r = .err none ∨ r = .err (some .edgeDuplicate)

/-! ## Proof -/

/-- Edges along paths are never refused. -/
theorem run_shortcuts {ω : Oracle} {es : List (K × K)} {σ τ : St K T} {rs : List (Res K T)} (hi : Inv σ.g)
    (h : ∀ e ∈ es, TransGen (abs σ.g).E e.1 e.2) (hr : run ω (addEdges es) σ = some (rs, τ)) :
    Inv τ.g ∧ (abs τ.g).V = (abs σ.g).V ∧ (∀ x y, (abs τ.g).E x y ↔ (abs σ.g).E x y ∨ (x, y) ∈ es) ∧ ∀ r ∈ rs, r.there := by
  induction es generalizing σ rs with
  | nil => cases hr; exact ⟨hi, rfl, by simp, by simp⟩
  | cons e es ih =>
    obtain ⟨s, t⟩ := e
    obtain ⟨r, rs1, σ1, hc, hr1, rfl⟩ := run_cons (op := .addEdge s t) (p := addEdges es) hr
    obtain ⟨hi1, ha, hok⟩ := hc.spec hi
    have hst : TransGen (abs σ.g).E s t := h _ (.head _)
    have hnl : ¬ TransGen (abs σ.g).E t s := fun hts => hi.base.acyc s (hst.trans hts)
    have he : Spec.edgeErr (abs σ.g) s t = none := by
      obtain ⟨m, h1, -⟩ := TransGen.head'_iff.mp hst
      obtain ⟨m', -, h2⟩ := TransGen.tail'_iff.mp hst
      refine (edgeErr_none hi s t).2 ⟨?_, ?_, ?_⟩
      · rintro rfl; exact hi.base.acyc _ hst
      · exact Option.ne_none_iff_exists'.1 (edge_ends hi h1).1
      · exact Option.ne_none_iff_exists'.1 (edge_ends hi h2).2
    have hE : ∀ x y, (abs σ1.g).E x y ↔ (abs σ.g).E x y ∨ (x = s ∧ y = t) := fun x y => by
      rw [ha]
      show (abs σ.g).E x y ∨ (Spec.CanAdd (abs σ.g) s t ∧ x = s ∧ y = t) ↔ _
      refine ⟨Or.imp_right And.right, fun h => ?_⟩
      rcases h with h | ⟨rfl, rfl⟩
      · exact .inl h
      · by_cases hE : (abs σ.g).E x y
        · exact .inl hE
        · exact .inr ⟨⟨he, hE, hnl⟩, rfl, rfl⟩
    obtain ⟨h1, h2, h3, h4⟩ := ih hi1 (fun e he => TransGen.mono (fun x y h => (hE x y).2 (.inl h)) _ _ (h e (.tail _ he))) hr1
    refine ⟨h1, h2.trans (by rw [ha]; rfl), fun x y => ?_, List.forall_mem_cons.2 ⟨?_, h4⟩⟩
    · rw [h3, hE, List.mem_cons, Prod.mk.injEq, or_assoc]
    · cases r <;> first | exact hok.elim | skip
      unfold Spec.ok at hok
      simp only [he] at hok
      by_cases hE' : (abs σ.g).E s t
      · exact .inr (congrArg _ (hok.1 hE'))
      · exact .inl (congrArg _ (hok.2.2 hE' hnl))

/-- Paths around `k`. -/
theorem around {E E' : K → K → Prop} {k : K} (hac : ¬ TransGen E k k) (h1 : ∀ x y, E x y → x ≠ k → y ≠ k → E' x y)
    (h2 : ∀ x y, E x k → E k y → E' x y) {x y : K} (hx : x ≠ k) (h : TransGen E x y) :
    (y ≠ k → TransGen E' x y) ∧ (y = k → ∃ p, E p k ∧ ReflTransGen E' x p) := by
  induction h with
  | single h => exact ⟨fun hy => .single (h1 _ _ h hx hy), fun e => ⟨x, e ▸ h, .refl⟩⟩
  | @tail b c hb hc ih =>
    by_cases hbk : b = k
    · subst hbk
      obtain ⟨p, hp, hxp⟩ := ih.2 rfl
      exact ⟨fun _ => TransGen.tail' hxp (h2 p c hp hc), fun e => absurd (.single (e ▸ hc)) hac⟩
    · exact ⟨fun hy => (ih.1 hbk).tail (h1 _ _ hc hbk hy), fun e => ⟨b, e ▸ hc, (ih.1 hbk).to_reflTransGen⟩⟩

/-! ## C96 -/

/-- **C96.** A client that adds an edge from each parent of a vertex to each of its children, in whatever order, is never refused (an edge may be
there already), and when it then deletes the vertex, all others keep their descendants and their payloads. -/
theorem C96_splice (ω ω₁ ω₂ ω₃ ω₄ : Oracle) (ops : List (Op K T)) (σ σ₁ σ₂ : St K T) (h : After ω₁ ops σ) (k : K) (ps cs : List (K × T))
    (hp : Call ω₂ σ (.getParents k) (.entriesE (.ok ps)) σ₁) (hc : Call ω₃ σ (.getChildren k) (.entriesE (.ok cs)) σ₂) (es : List (K × K))
    (hes : ∀ e, e ∈ es ↔ e.1 ∈ ps.map Prod.fst ∧ e.2 ∈ cs.map Prod.fst) :
    ∃ rs τ₁ τ, run ω (addEdges es) σ = some (rs, τ₁) ∧ (∀ r ∈ rs, r.there) ∧ Call ω₄ τ₁ (.deleteVertex k) (.err none) τ ∧
      (∀ x v, Bound τ x v ↔ x ≠ k ∧ Bound σ x v) ∧
      ∀ x y, TransGen (Edge τ) x y ↔ x ≠ k ∧ y ≠ k ∧ TransGen (Edge σ) x y := by
  have i := h.inv
  obtain ⟨-, -, hok⟩ := hp.spec i
  obtain ⟨hke, -, hp⟩ := orErr_ok (e := Spec.vertexErr (abs σ.g) k) hok
  obtain ⟨-, -, hok⟩ := hc.spec i
  obtain ⟨-, -, hc⟩ := orErr_ok (e := Spec.vertexErr (abs σ.g) k) hok
  have mes : ∀ x y, (x, y) ∈ es ↔ (abs σ.g).E x k ∧ (abs σ.g).E k y := fun x y => by
    rw [hes]
    refine and_congr ⟨fun hx => ?_, fun hx => ?_⟩ ⟨fun hx => ?_, fun hx => ?_⟩
    · obtain ⟨⟨z, v⟩, h1, rfl⟩ := List.mem_map.1 hx
      exact ((hp z v).1 h1).2
    · obtain ⟨v, hv⟩ := Option.ne_none_iff_exists'.1 (edge_ends i hx).1
      exact List.mem_map.2 ⟨(x, v), (hp x v).2 ⟨hv, hx⟩, rfl⟩
    · obtain ⟨⟨z, v⟩, h1, rfl⟩ := List.mem_map.1 hx
      exact ((hc z v).1 h1).2
    · obtain ⟨v, hv⟩ := Option.ne_none_iff_exists'.1 (edge_ends i hx).2
      exact List.mem_map.2 ⟨(y, v), (hc y v).2 ⟨hv, hx⟩, rfl⟩
  have short : ∀ e ∈ es, TransGen (abs σ.g).E e.1 e.2 := fun e he => by
    obtain ⟨h1, h2⟩ := (mes e.1 e.2).1 he
    exact .head h1 (.single h2)
  obtain ⟨rs, τ₁, h1, -, -, -⟩ := run_refines_from ω (addEdges es) σ i
  obtain ⟨h2, hV, hE, hd⟩ := run_shortcuts i short h1
  obtain ⟨r, τ, hcall⟩ := call_exists ω₄ h2 (.deleteVertex k)
  obtain ⟨j, hj, hr⟩ := hcall.spec h2
  have hr : r = .err none := by
    cases r <;> first | exact hr.elim | skip
    refine congrArg _ (Eq.trans hr ?_)
    rw [← hke]
    unfold Spec.vertexErr
    rw [hV]
  subst hr
  refine ⟨rs, τ₁, τ, h1, hd, hcall, fun x v => ?_, fun x y => ?_⟩
  · rw [bound_iff j, bound_iff i, hj]
    show (if x = k then none else (abs τ₁.g).V x) = some v ↔ _
    rw [hV]
    by_cases e : x = k <;> simp [e]
  · rw [edge_eq j, edge_eq i, hj]
    have hE' : ∀ x y, (Spec.next (abs τ₁.g) (.deleteVertex k)).E x y ↔ ((abs σ.g).E x y ∨ ((abs σ.g).E x k ∧ (abs σ.g).E k y)) ∧ x ≠ k ∧ y ≠ k :=
      fun x y => and_congr_left fun _ => by rw [hE, mes]
    constructor
    · intro ht
      obtain ⟨m, h3, -⟩ := TransGen.head'_iff.mp ht
      obtain ⟨m', -, h4⟩ := TransGen.tail'_iff.mp ht
      refine ⟨((hE' _ _).1 h3).2.1, ((hE' _ _).1 h4).2.2, ?_⟩
      have := TransGen.mono (p := TransGen (abs σ.g).E) (fun x y h => by
        rcases ((hE' x y).1 h).1 with h | ⟨h, h'⟩
        · exact TransGen.single h
        · exact TransGen.head h (.single h')) _ _ ht
      exact (transGen_eq_self (r := TransGen (abs σ.g).E)) ▸ this
    · rintro ⟨hx, hy, ht⟩
      refine (around (i.base.acyc k) (fun x y h hx hy => (hE' x y).2 ⟨.inl h, hx, hy⟩) (fun x y h h' => (hE' x y).2 ⟨.inr ⟨h, h'⟩, ?_, ?_⟩) hx ht).1 hy
      · rintro rfl; exact i.base.acyc _ (.single h)
      · rintro rfl; exact i.base.acyc _ (.single h')

/-- The diamond without 2: the edge from 1 to 4 is there already.  A chain without its middle: it is new. -/
example : (run Oracle.forward (demoOps ++ [.addEdge 1 4, .deleteVertex 2, .getDescendants 1]) St.init).map (fun x => x.1.drop demoOps.length) =
      some [.err (some .edgeDuplicate), .err none, .entriesE (.ok [(4, 40), (3, 30)])] ∧
    (run Oracle.forward (triangle ++ [.deleteEdge 1 3, .addEdge 1 3, .deleteVertex 2, .getDescendants 1]) St.init).map (fun x => x.1.drop 7) =
      some [.err none, .err none, .entriesE (.ok [(3, 30)])] := by
  decide +kernel

/-- The hypotheses. -/
example (σ₁ σ₂ : St Nat Nat) (hp : Call Oracle.forward demo (.getParents 4) (.entriesE (.ok [(1, 10), (2, 20), (3, 30)])) σ₁)
    (hc : Call Oracle.forward demo (.getChildren 4) (.entriesE (.ok [])) σ₂) :
    ∃ rs τ₁ τ, run Oracle.backward (addEdges []) demo = some (rs, τ₁) ∧ (∀ r ∈ rs, r.there) ∧
      Call Oracle.forward τ₁ (.deleteVertex 4) (.err none) τ ∧ (∀ x v, Bound τ x v ↔ x ≠ 4 ∧ Bound demo x v) ∧
      ∀ x y, TransGen (Edge τ) x y ↔ x ≠ 4 ∧ y ≠ 4 ∧ TransGen (Edge demo) x y :=
  C96_splice _ Oracle.forward Oracle.forward Oracle.forward Oracle.forward demoOps demo σ₁ σ₂ demo_after 4 _ _ hp hc [] (by simp)

example (σ₁ σ₂ : St Nat Nat) (hp : Call Oracle.forward demo (.getParents 2) (.entriesE (.ok [(1, 10)])) σ₁)
    (hc : Call Oracle.forward demo (.getChildren 2) (.entriesE (.ok [(4, 40)])) σ₂) :
    ∃ rs τ₁ τ, run Oracle.backward (addEdges [(1, 4)]) demo = some (rs, τ₁) ∧ (∀ r ∈ rs, r.there) ∧
      Call Oracle.forward τ₁ (.deleteVertex 2) (.err none) τ ∧ (∀ x v, Bound τ x v ↔ x ≠ 2 ∧ Bound demo x v) ∧
      ∀ x y, TransGen (Edge τ) x y ↔ x ≠ 2 ∧ y ≠ 2 ∧ TransGen (Edge demo) x y :=
  C96_splice _ Oracle.forward Oracle.forward Oracle.forward Oracle.forward demoOps demo σ₁ σ₂ demo_after 2 _ _ hp hc [(1, 4)]
    (fun e => by obtain ⟨a, b⟩ := e; simp)

end Verif.Dag
