import Verif.Props.BuildOrder
import Verif.Props.Change

/-! # C87: `ReduceTransitively` gives a normal form -/

set_option linter.unusedSectionVars false

namespace Verif.Dag
open M Relation

variable {K T : Type} [DecidableEq K] [GoZero K] [GoZero T]

/-! ## Specification -/

/-- The graphs have the same vertices, and each of them has the same descendants in both. -/
def SameReach (σ σ' : St K T) : Prop :=
  (∀ k v, Bound σ k v ↔ Bound σ' k v) ∧ ∀ x y, TransGen (Edge σ) x y ↔ TransGen (Edge σ') x y

/-- The calls that add something or ask for things that depend on reachability only. -/
def Op.byReach : Op K T → Bool
  | .addVertex .. | .addEdge .. | .getVertex .. | .getOrder | .getLeaves | .getRoots | .getVertices | .getAncestors .. | .getDescendants ..
  | .getOrderedAncestors .. | .getOrderedDescendants .. => true
  | _ => false

/-- The call is `ReduceTransitively`. -/
def Op.isReduce : Op K T → Bool
  | .reduceTransitively => true
  | _ => false

/-- The calls except `ReduceTransitively`, with their results. -/
def answers (p : List (Op K T)) (rs : List (Res K T)) : List (Op K T × Res K T) := (p.zip rs).filter fun x => !x.1.isReduce

/-- The same call with the same result; only for `AddEdge`, nil and `ErrEdgeDuplicate` are not distinguished. -/
def Alike (x x' : Op K T × Res K T) : Prop :=
  x.1 = x'.1 ∧ (x.2.Same x'.2 ∨
    ((∃ s t, x.1 = .addEdge s t) ∧ (x.2 = .err none ∨ x.2 = .err (some .edgeDuplicate)) ∧ (x'.2 = .err none ∨ x'.2 = .err (some .edgeDuplicate))))

/-! ## Graphs with the same reachability -/

/-- `SameReach` for abstract graphs. -/
def Abs.SameReach (a b : Abs K T) : Prop := a.V = b.V ∧ ∀ x y, TransGen a.E x y ↔ TransGen b.E x y

theorem sameReach_iff {σ σ' : St K T} (hi : Inv σ.g) (hi' : Inv σ'.g) : SameReach σ σ' ↔ (abs σ.g).SameReach (abs σ'.g) := by
  unfold SameReach Abs.SameReach
  rw [edge_eq hi, edge_eq hi']
  refine and_congr_left fun _ => ?_
  simp only [bound_iff hi, bound_iff hi']
  exact ⟨fun h => funext fun k => Option.ext fun v => h k v, fun h k v => by rw [h]⟩

theorem reduce_reach {σ : St K T} (hi : Inv σ.g) (x y : K) :
    TransGen (Spec.next (abs σ.g) .reduceTransitively).E x y ↔ TransGen (abs σ.g).E x y := by
  refine transGen_reduced hi.base.acyc (GoMap.keys σ.g.vertices) (fun a b hE => ?_) x y
  rw [GoMap.mem_keys_iff_has]
  exact (hi.base.ends a b hE).2

/-- What `AddEdge` does to reachability depends on reachability only. -/
theorem addEdge_reach (a : Abs K T) (s t x y : K) :
    TransGen (Spec.next a (.addEdge s t)).E x y ↔ TransGen a.E x y ∨
      ((Spec.edgeErr a s t = none ∧ ¬ TransGen a.E t s) ∧ (x = s ∨ TransGen a.E x s) ∧ (t = y ∨ TransGen a.E t y)) := by
  by_cases hc : Spec.CanAdd a s t
  · have : (Spec.next a (.addEdge s t)).E = fun x y => a.E x y ∨ (x = s ∧ y = t) := by
      funext x y
      simp [Spec.next, hc]
    rw [this, transGen_insert]
    simp [hc.1, hc.2.2]
  · have : (Spec.next a (.addEdge s t)).E = a.E := by
      funext x y
      simp [Spec.next, hc]
    rw [this]
    refine ⟨.inl, fun h => h.elim id fun ⟨⟨h1, h2⟩, h3, h4⟩ => ?_⟩
    have hE : a.E s t := by
      by_contra hn
      exact hc ⟨h1, hn, h2⟩
    have h5 : TransGen a.E x t := h3.elim (fun e => e ▸ .single hE) fun h => h.tail hE
    exact h4.elim (fun e => e ▸ h5) fun h => h5.trans h

theorem next_reach {a b : Abs K T} (h : a.SameReach b) (op : Op K T) (ho : op.byReach = true) :
    (Spec.next a op).SameReach (Spec.next b op) := by
  obtain ⟨V, E⟩ := a
  obtain ⟨V', E'⟩ := b
  obtain ⟨rfl, h2⟩ : V = V' ∧ ∀ x y, TransGen E x y ↔ TransGen E' x y := h
  cases op with
  | addEdge s t =>
    refine ⟨rfl, fun x y => ?_⟩
    rw [addEdge_reach, addEdge_reach]
    simp only [h2]
    rfl
  | addVertex id v => exact ⟨rfl, h2⟩
  | _ => first | exact ⟨rfl, h2⟩ | cases ho

theorem no_edge {E : K → K → Prop} (k : K) : (∀ x, ¬ E k x) ↔ ∀ x, ¬ TransGen E k x :=
  ⟨fun h x hx => by obtain ⟨m, hm, -⟩ := TransGen.head'_iff.mp hx; exact h m hm, fun h x hx => h x (.single hx)⟩

theorem no_edge' {E : K → K → Prop} (k : K) : (∀ x, ¬ E x k) ↔ ∀ x, ¬ TransGen E x k :=
  ⟨fun h x hx => by obtain ⟨m, -, hm⟩ := TransGen.tail'_iff.mp hx; exact h m hm, fun h x hx => h x (.single hx)⟩

theorem ok_reach {a b : Abs K T} (hac : ∀ x, ¬ TransGen a.E x x) (h : a.SameReach b) (op : Op K T) (ho : op.byReach = true) {r r' : Res K T} (hr : Spec.ok a op r)
    (hr' : Spec.ok b op r') : Alike (op, r) (op, r') := by
  obtain ⟨V, E⟩ := a
  obtain ⟨V', E'⟩ := b
  obtain ⟨rfl, h2⟩ : V = V' ∧ ∀ x y, TransGen E x y ↔ TransGen E' x y := h
  have ids : ∀ {e : Option Err} {q q' : Except Err (List K)} {F F' : K → K → Prop} {id : K}, (∀ x, TransGen F id x ↔ TransGen F' id x) →
      Spec.OrErr e q (fun l => BfsDone F id l) → Spec.OrErr e q' (fun l => BfsDone F' id l) →
      (Res.idsE q : Res K T).Same (Res.idsE q') := by
    intro e q q' F F' id hF k k'
    cases e with
    | some e => rw [show q = .error e from k, show q' = .error e from k']; rfl
    | none =>
      obtain ⟨x, rfl, px⟩ := k
      obtain ⟨y, rfl, py⟩ := k'
      exact (List.perm_ext_iff_of_nodup px.nodup py.nodup).mpr fun z => (px.mem z).trans ((hF z).trans (py.mem z).symm)
  refine ⟨rfl, ?_⟩
  cases op with
  | addEdge s t =>
    cases r <;> first | exact hr.elim | skip
    cases r' <;> first | exact hr'.elim | skip
    rename_i r r'
    unfold Spec.ok at hr hr'
    simp only at hr hr'
    have he : Spec.edgeErr (⟨V, E'⟩ : Abs K T) s t = Spec.edgeErr ⟨V, E⟩ s t := rfl
    rw [he] at hr'
    cases hc : Spec.edgeErr (⟨V, E⟩ : Abs K T) s t with
    | some e =>
      rw [hc] at hr hr'
      exact .inl (congrArg Res.err (Eq.trans hr (Eq.symm hr')))
    | none =>
      rw [hc] at hr hr'
      by_cases hts : TransGen E t s
      · have h3 : ¬ E s t := fun h => hac s (.head h hts)
        have h4 : ¬ E' s t := fun h => hac s ((h2 s s).mpr (.head h ((h2 t s).mp hts)))
        exact .inl (congrArg Res.err ((hr.2.1 h3 hts).trans (hr'.2.1 h4 ((h2 t s).mp hts)).symm))
      · refine .inr ⟨⟨s, t, rfl⟩, ?_, ?_⟩
        · by_cases h3 : E s t
          · exact .inr (congrArg _ (hr.1 h3))
          · exact .inl (congrArg _ (hr.2.2 h3 hts))
        · by_cases h3 : E' s t
          · exact .inr (congrArg _ (hr'.1 h3))
          · exact .inl (congrArg _ (hr'.2.2 h3 fun h => hts ((h2 t s).mpr h)))
  | getOrderedAncestors id =>
    cases r <;> first | exact hr.elim | skip
    cases r' <;> first | exact hr'.elim | skip
    refine .inl (ids (fun x => ?_) hr hr')
    exact (transGen_swap.trans (h2 x id)).trans transGen_swap.symm
  | getOrderedDescendants id =>
    cases r <;> first | exact hr.elim | skip
    cases r' <;> first | exact hr'.elim | skip
    exact .inl (ids (fun x => h2 id x) hr hr')
  | getLeaves =>
    have e : ∀ k, (∀ x, ¬ E k x) = ∀ x, ¬ E' k x := fun k =>
      propext ((no_edge k).trans ((forall_congr' fun x => not_congr (h2 k x)).trans (no_edge k).symm))
    refine .inl (ok_same (a := ⟨V, E⟩) (op := .getLeaves) hr ?_)
    cases r' <;> first | exact hr'.elim | skip
    simpa only [Spec.ok, e] using hr'
  | getRoots =>
    have e : ∀ k, (∀ x, ¬ E x k) = ∀ x, ¬ E' x k := fun k =>
      propext ((no_edge' k).trans ((forall_congr' fun x => not_congr (h2 x k)).trans (no_edge' k).symm))
    refine .inl (ok_same (a := ⟨V, E⟩) (op := .getRoots) hr ?_)
    cases r' <;> first | exact hr'.elim | skip
    simpa only [Spec.ok, e] using hr'
  | getAncestors id =>
    refine .inl (ok_same (a := ⟨V, E⟩) (op := .getAncestors id) hr ?_)
    cases r' <;> first | exact hr'.elim | skip
    simp only [Spec.ok, h2]
    exact hr'
  | getDescendants id =>
    refine .inl (ok_same (a := ⟨V, E⟩) (op := .getDescendants id) hr ?_)
    cases r' <;> first | exact hr'.elim | skip
    simp only [Spec.ok, h2]
    exact hr'
  | addVertex id v => exact .inl (ok_same (a := ⟨V, E⟩) (op := .addVertex id v) hr (by cases r' <;> exact hr'))
  | getVertex id => exact .inl (ok_same (a := ⟨V, E⟩) (op := .getVertex id) hr (by cases r' <;> exact hr'))
  | getOrder => exact .inl (ok_same (a := ⟨V, E⟩) (op := .getOrder) hr (by cases r' <;> exact hr'))
  | getVertices => exact .inl (ok_same (a := ⟨V, E⟩) (op := .getVertices) hr (by cases r' <;> exact hr'))
  | _ => cases ho

theorem Abs.SameReach.symm {a b : Abs K T} (h : a.SameReach b) : b.SameReach a := ⟨h.1.symm, fun x y => (h.2 x y).symm⟩
theorem Abs.SameReach.trans {a b c : Abs K T} (h : a.SameReach b) (h' : b.SameReach c) : a.SameReach c :=
  ⟨h.1.trans h'.1, fun x y => (h.2 x y).trans (h'.2 x y)⟩

theorem isReduce_eq {op : Op K T} (h : op.isReduce = true) : op = .reduceTransitively := by cases op <;> first | rfl | cases h

/-- One `ReduceTransitively`. -/
theorem call_reduce {ω : Oracle} {σ σ' : St K T} {r : Res K T} (hi : Inv σ.g) (hc : Call ω σ .reduceTransitively r σ') :
    Inv σ'.g ∧ (abs σ.g).SameReach (abs σ'.g) := by
  obtain ⟨hi', ha, -⟩ := hc.spec hi
  refine ⟨hi', ?_⟩
  rw [ha]
  exact ⟨rfl, fun x y => (reduce_reach hi x y).symm⟩

theorem run_cons {ω : Oracle} {op : Op K T} {p : List (Op K T)} {σ σ' : St K T} {rs : List (Res K T)} (h : run ω (op :: p) σ = some (rs, σ')) :
    ∃ r rs1 σ1, Call ω σ op r σ1 ∧ run ω p σ1 = some (rs1, σ') ∧ rs = r :: rs1 := by
  unfold run at h
  unfold Call
  split at h
  · cases h
  · rename_i r σ1 h1
    split at h
    · cases h
    · rename_i rs1 σ2 h2
      cases h
      exact ⟨r, rs1, σ1, h1, h2, rfl⟩

/-- Runs that differ in the calls of `ReduceTransitively`. -/
theorem run_reach {ω ω' : Oracle} {p p' : List (Op K T)} {σ₁ σ₂ σ₁' σ₂' : St K T} {rs rs' : List (Res K T)} (i₁ : Inv σ₁.g) (i₂ : Inv σ₂.g)
    (hs : (abs σ₁.g).SameReach (abs σ₂.g)) (hp : ∀ op ∈ p, op.byReach = true ∨ op.isReduce = true)
    (he : p.filter (fun op => !op.isReduce) = p'.filter (fun op => !op.isReduce))
    (h : run ω p σ₁ = some (rs, σ₁')) (h' : run ω' p' σ₂ = some (rs', σ₂')) :
    List.Forall₂ Alike (answers p rs) (answers p' rs') ∧ Inv σ₁'.g ∧ Inv σ₂'.g ∧ (abs σ₁'.g).SameReach (abs σ₂'.g) := by
  induction p generalizing p' σ₁ σ₂ rs rs' with
  | nil =>
    cases h
    induction p' generalizing σ₂ rs' with
    | nil => cases h'; exact ⟨.nil, i₁, i₂, hs⟩
    | cons op p' ih =>
      obtain ⟨r, rs1, σ, hc, hr, rfl⟩ := run_cons h'
      cases ho : op.isReduce with
      | false => rw [List.filter_cons_of_pos (by rw [ho]; rfl)] at he; cases he
      | true =>
        rw [List.filter_cons_of_neg (by rw [ho]; decide)] at he
        obtain rfl := isReduce_eq ho
        obtain ⟨i, hs'⟩ := call_reduce i₂ hc
        exact ih i he hr (hs.trans hs')
  | cons op p ih =>
    obtain ⟨r, rs1, σ, hc, hr, rfl⟩ := run_cons h
    cases ho : op.isReduce with
    | true =>
      rw [List.filter_cons_of_neg (by rw [ho]; decide)] at he
      obtain rfl := isReduce_eq ho
      obtain ⟨i, hs'⟩ := call_reduce i₁ hc
      exact ih i i₂ (hs'.symm.trans hs) (fun op h => hp op (.tail _ h)) he hr h'
    | false =>
      have hb : op.byReach = true := (hp op (.head _)).resolve_right (by rw [ho]; decide)
      induction p' generalizing σ₂ rs' with
      | nil => rw [List.filter_cons_of_pos (by rw [ho]; rfl)] at he; cases he
      | cons op' p' ih' =>
        obtain ⟨r', rs1', σ', hc', hr', rfl⟩ := run_cons h'
        cases ho' : op'.isReduce with
        | true =>
          rw [List.filter_cons_of_neg (p := fun op => !op.isReduce) (a := op') (by rw [ho']; decide)] at he
          obtain rfl := isReduce_eq ho'
          obtain ⟨i, hs'⟩ := call_reduce i₂ hc'
          exact ih' i (hs.trans hs') he hr'
        | false =>
          rw [List.filter_cons_of_pos (by rw [ho]; rfl), List.filter_cons_of_pos (by rw [ho']; rfl)] at he
          obtain ⟨rfl, he'⟩ := List.cons.inj he
          obtain ⟨i1, ha, hok⟩ := hc.spec i₁
          obtain ⟨i2, ha', hok'⟩ := hc'.spec i₂
          have hn := next_reach hs op hb
          rw [← ha, ← ha'] at hn
          obtain ⟨h1, h2⟩ := ih i1 i2 hn (fun op h => hp op (.tail _ h)) he' hr hr'
          refine ⟨?_, h2⟩
          have e : ∀ (q : List (Op K T)) (x : Res K T) (xs : List (Res K T)), answers (op :: q) (x :: xs) = (op, x) :: answers q xs := by
            intro q x xs
            unfold answers
            rw [List.zip_cons_cons, List.filter_cons_of_pos (by rw [ho]; rfl)]
          rw [e, e]
          exact .cons (ok_reach i₁.base.acyc hs op hb hok hok') h1

theorem normal_form {ω ω' : Oracle} {σ₁ σ₂ σ₁' σ₂' : St K T} (i₁ : Inv σ₁.g) (i₂ : Inv σ₂.g)
    (c₁ : Call ω σ₁ .reduceTransitively .unit σ₁') (c₂ : Call ω' σ₂ .reduceTransitively .unit σ₂') :
    SameGraph σ₁' σ₂' ↔ SameReach σ₁ σ₂ := by
  obtain ⟨i₁', e₁, -⟩ := c₁.spec i₁
  obtain ⟨i₂', e₂, -⟩ := c₂.spec i₂
  obtain ⟨-, s₁⟩ := call_reduce i₁ c₁
  obtain ⟨-, s₂⟩ := call_reduce i₂ c₂
  rw [sameReach_iff i₁ i₂]
  constructor
  · rintro ⟨hV, hE⟩
    refine (s₁.trans ?_).trans s₂.symm
    refine (sameReach_iff i₁' i₂').1 ⟨hV, fun x y => ?_⟩
    rw [show Edge σ₁' = Edge σ₂' from funext fun x => funext fun y => propext (hE x y)]
  · intro hs
    have half : ∀ {σ σ₂ : St K T}, (abs σ.g).SameReach (abs σ₂.g) → ∀ x y, (Spec.next (abs σ.g) .reduceTransitively).E x y →
        (Spec.next (abs σ₂.g) .reduceTransitively).E x y := by
      rintro σ σ₂ hs x y ⟨h1, h2⟩
      refine ⟨reduced_minimal (fun a b => (hs.2 a b).symm) h1 h2, fun ⟨m, h3, h4⟩ => ?_⟩
      obtain ⟨m', h5, h6⟩ := TransGen.head'_iff.mp ((hs.2 x m).mpr (.single h3))
      exact h2 ⟨m', h5, TransGen.trans_right h6 ((hs.2 m y).mpr h4)⟩
    refine ⟨fun k v => ?_, fun x y => ?_⟩
    · rw [bound_iff i₁', bound_iff i₂', e₁, e₂]
      show (abs σ₁.g).V k = some v ↔ (abs σ₂.g).V k = some v
      rw [hs.1]
    · rw [edge_iff i₁', edge_iff i₂', e₁, e₂]
      exact ⟨half hs x y, half hs.symm x y⟩

/-! ## C87 -/

/-- **C87** (first part).  After `ReduceTransitively` two graphs are the same exactly if before it they had the same vertices and
each vertex had the same descendants in both. -/
theorem C87_normal_form (ω₁ ω₂ ω ω' : Oracle) (h₁ h₂ : List (Op K T)) (σ₁ σ₂ σ₁' σ₂' : St K T) (a₁ : After ω₁ h₁ σ₁) (a₂ : After ω₂ h₂ σ₂)
    (c₁ : Call ω σ₁ .reduceTransitively .unit σ₁') (c₂ : Call ω' σ₂ .reduceTransitively .unit σ₂') :
    SameGraph σ₁' σ₂' ↔ SameReach σ₁ σ₂ :=
  normal_form a₁.inv a₂.inv c₁ c₂

/-- **C87** (second part).  While a graph is built and asked about reachability, `ReduceTransitively` can be called at any time:
take two sequences of such calls that differ only in where `ReduceTransitively` is called.  All other calls have the same results
(an edge that was removed can be added again, instead of `ErrEdgeDuplicate`), and if `ReduceTransitively` is called at
the end the graphs are the same. -/
theorem C87_any_time (ω₀ ω ω' ω₁ ω₂ : Oracle) (ops : List (Op K T)) (σ : St K T) (a : After ω₀ ops σ) (p p' : List (Op K T))
    (hp : ∀ op ∈ p, op.byReach = true ∨ op.isReduce = true)
    (he : p.filter (fun op => !op.isReduce) = p'.filter (fun op => !op.isReduce)) :
    ∃ rs rs' σ₁ σ₂ σ₁' σ₂', run ω p σ = some (rs, σ₁) ∧ run ω' p' σ = some (rs', σ₂) ∧ List.Forall₂ Alike (answers p rs) (answers p' rs') ∧
      SameReach σ₁ σ₂ ∧ Call ω₁ σ₁ .reduceTransitively .unit σ₁' ∧ Call ω₂ σ₂ .reduceTransitively .unit σ₂' ∧ SameGraph σ₁' σ₂' := by
  have hi := a.inv
  obtain ⟨rs, σ₁, h1, i₁, -, -⟩ := run_refines_from ω p σ hi
  obtain ⟨rs', σ₂, h2, i₂, -, -⟩ := run_refines_from ω' p' σ hi
  obtain ⟨h3, -, -, h4⟩ := run_reach hi hi ⟨rfl, fun _ _ => Iff.rfl⟩ hp he h1 h2
  have unit : ∀ {ω : Oracle} {σ : St K T}, Inv σ.g → ∃ σ', Call ω σ .reduceTransitively .unit σ' := by
    intro ω σ hi
    obtain ⟨r, σ', hc⟩ := call_exists ω hi .reduceTransitively
    obtain ⟨-, -, hok⟩ := hc.spec hi
    cases r <;> first | exact ⟨σ', hc⟩ | exact hok.elim
  obtain ⟨σ₁', c₁⟩ := unit (ω := ω₁) i₁
  obtain ⟨σ₂', c₂⟩ := unit (ω := ω₂) i₂
  have hs := (sameReach_iff i₁ i₂).mpr h4
  exact ⟨rs, rs', σ₁, σ₂, σ₁', σ₂', h1, h2, h3, hs, c₁, c₂, (normal_form i₁ i₂ c₁ c₂).mpr hs⟩

/-- A triangle: 1 → 2 → 3 and the shortcut 1 → 3. -/
def triangle : List (Op Nat Nat) := [.addVertex 1 10, .addVertex 2 20, .addVertex 3 30, .addEdge 1 2, .addEdge 2 3, .addEdge 1 3]

/-- **C87**, why only calls that add or ask: with `DeleteVertex` and `DeleteEdge` it does matter whether `ReduceTransitively` was called
before, because a removed edge does not come back. -/
theorem C87_delete (d : Op Nat Nat) (hd : d = .deleteVertex 2 ∨ d = .deleteEdge 1 2) :
    (run Oracle.forward (triangle ++ [d, .isEdge 1 3]) St.init).map (fun x => x.1.getLast?) = some (some (.flag (.ok true))) ∧
    (run Oracle.forward (triangle ++ [.reduceTransitively, d, .isEdge 1 3]) St.init).map (fun x => x.1.getLast?) = some (some (.flag (.ok false))) := by
  rcases hd with rfl | rfl <;> decide +kernel

/-- The triangle, reduced when it is complete … -/
def reducedBefore : List (Op Nat Nat) := triangle ++ [.reduceTransitively, .addEdge 1 3, .getRoots]

/-- … and at the beginning. -/
def reducedEarly : List (Op Nat Nat) := .reduceTransitively :: triangle ++ [.addEdge 1 3, .getRoots]

/-- The hypotheses of `C87_any_time` for the triangle, reduced in between: the shortcut can then be added again. -/
example : (∀ op ∈ reducedBefore, op.byReach = true ∨ op.isReduce = true) ∧
    reducedBefore.filter (fun op => !op.isReduce) =
      reducedEarly.filter (fun op => !op.isReduce) ∧
    (run Oracle.forward reducedBefore St.init).map (fun x => x.1.drop 6) =
      some [.unit, .err none, .entries [(1, 10)]] ∧
    (run Oracle.forward reducedEarly St.init).map (fun x => x.1.drop 7) =
      some [.err (some .edgeDuplicate), .entries [(1, 10)]] := by
  decide +kernel

/-- `C87_normal_form`: the triangle and the path 1 → 2 → 3 are different graphs with the same normal form. -/
example : (run Oracle.forward (triangle ++ [.isEdge 1 3, .reduceTransitively, .string]) St.init).map (fun x => x.1.drop 6) =
      some [.flag (.ok true), .unit, .listing 3 2 [3, 2, 1] [(2, 3), (1, 2)]] ∧
    (run Oracle.forward (triangle.dropLast ++ [.isEdge 1 3, .reduceTransitively, .string]) St.init).map (fun x => x.1.drop 5) =
      some [.flag (.ok false), .unit, .listing 3 2 [3, 2, 1] [(2, 3), (1, 2)]] := by
  decide +kernel

end Verif.Dag
