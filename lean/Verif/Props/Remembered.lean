import Verif.Dag.Remember
import Verif.Props.ConcurrentExact

/-!
# C59: which answers a graph remembers, and when a query writes

`Spec.remembered` (`Dag/Remember.lean`) says from the calls alone whose ancestors and descendants are remembered.
Here: a query writes exactly when it has to compute an answer; how to have everything remembered; and the goroutines
of C58 in these terms.
-/

set_option linter.unusedSectionVars false

namespace Verif.Dag
open M Relation

/-- The two questions whose answers are remembered. -/
inductive Kin where
  | anc | desc
  deriving DecidableEq

section
variable {K T : Type} [DecidableEq K] [GoZero K] [GoZero T]

/-- Whose relatives a call asks for. -/
def Op.kin : Op K T → Option (Kin × K)
  | .getAncestors id => some (.anc, id)
  | .getDescendants id => some (.desc, id)
  | _ => none

/-- The answer for `id` is remembered. -/
def Memo.has (m : Memo K) : Kin → K → Prop
  | .anc => m.anc
  | .desc => m.desc

/-- The call has to compute an answer. -/
def Op.Computes (a : Abs K T) (m : Memo K) (op : Op K T) : Prop :=
  ∃ k id, op.kin = some (k, id) ∧ Spec.vertexErr a id = none ∧ ¬ m.has k id

/-! ## Which answers are remembered -/

/-- **C59.**  Which answers are remembered is determined by the calls: it does not depend on the order in which maps
are visited. -/
theorem C59_remembered (ω : Oracle) (ops : List (Op K T)) :
    ∃ rs σ', run ω ops St.init = some (rs, σ') ∧ memo σ'.g = Spec.remembered Spec.empty Spec.Memo.none ops := by
  obtain ⟨rs, σ', h, _⟩ := run_refines ω ops
  refine ⟨rs, σ', h, ?_⟩
  have := run_memo (σ := (St.init : St K T)) inv_new h
  rw [this, show abs (St.init : St K T).g = Spec.empty from abs_new,
    show memo (St.init : St K T).g = Spec.Memo.none from memo_new]

/-- An answer that is there is returned without a change. -/
theorem closure_there (ω : Oracle) (d : Dir) (fuel : Nat) (id : K) (s : St K T)
    (h : checkVertexID s.g id = none → GoMap.has (d.cache s.g) id = true) :
    Tot (closureIDs ω d (fuel + 1) id) s (fun _ s' => s' = s) := by
  unfold closureIDs
  refine Tot.bind (Tot.getG ?_)
  cases hck : checkVertexID s.g id with
  | some e => exact Tot.pure rfl
  | none =>
    have := h hck
    rw [GoMap.has_iff] at this
    obtain ⟨S, hS⟩ := this
    simp only [hS]
    exact Tot.pure rfl

theorem query_there (ω : Oracle) (op : Op K T) (hq : op.isQuery = true) (σ : St K T) (hi : Inv σ.g)
    (h : ¬ op.Computes (abs σ.g) (memo σ.g)) : Tot (exec ω op) σ (fun _ σ' => σ'.g = σ.g) := by
  have load : ∀ (r : Except Err (GSet K)), Tot (match r with
      | .error e => Pure.pure (.error e)
      | .ok ids => do
        let g ← getG
        let r ← loadFromCache ω g ids
        return .ok r : M K T (Except Err (GoMap K T))) σ (fun _ σ' => σ'.g = σ.g) := by
    intro r
    cases r with
    | error e => exact Tot.pure rfl
    | ok ids =>
      refine Tot.bind (Tot.getG (Tot.bind (Tot.mono (loadFromCache_same ω _ ids σ) ?_)))
      intro _ s' e
      exact Tot.pure e
  cases op with
  | addVertex => cases hq
  | deleteVertex => cases hq
  | addEdge => cases hq
  | deleteEdge => cases hq
  | reduceTransitively => cases hq
  | getVertex id =>
    refine Tot.bind ?_
    unfold getVertex
    refine Tot.bind (Tot.getG ?_)
    cases checkVertexID σ.g id with
    | some e => exact Tot.pure (Tot.pure rfl)
    | none => exact Tot.pure (Tot.pure rfl)
  | isEdge s t =>
    refine Tot.bind ?_
    unfold isEdge
    exact Tot.bind (Tot.getG (Tot.pure (Tot.pure rfl)))
  | getOrder =>
    refine Tot.bind (Tot.mono (getOrder_spec σ hi) ?_)
    rintro r _ ⟨rfl, _⟩
    exact Tot.pure rfl
  | getSize =>
    refine Tot.bind (Tot.mono (getSize_spec ω σ hi) ?_)
    rintro r σ' ⟨h0, _⟩
    exact Tot.pure h0
  | getLeaves =>
    refine Tot.bind (Tot.mono (getLeaves_spec ω σ hi) ?_)
    rintro r σ' ⟨h0, _⟩
    exact Tot.pure h0
  | getRoots =>
    refine Tot.bind (Tot.mono (getRoots_spec ω σ hi) ?_)
    rintro r σ' ⟨h0, _⟩
    exact Tot.pure h0
  | getVertices =>
    refine Tot.bind (Tot.mono (getVertices_spec ω σ hi) ?_)
    rintro r σ' ⟨h0, _⟩
    exact Tot.pure h0
  | getParents id =>
    refine Tot.bind (Tot.mono (getParents_spec ω id σ hi) ?_)
    rintro r σ' ⟨h0, _⟩
    exact Tot.pure h0
  | getChildren id =>
    refine Tot.bind (Tot.mono (getChildren_spec ω id σ hi) ?_)
    rintro r σ' ⟨h0, _⟩
    exact Tot.pure h0
  | getAncestors id =>
    suffices hs : Tot (getAncestors ω id) σ (fun _ σ' => σ'.g = σ.g) from Tot.bind (Tot.mono hs fun _ _ e => Tot.pure e)
    unfold getAncestors
    refine Tot.bind (Tot.getG (Tot.bind ?_))
    rw [getAncestorsIDs_eq]
    refine Tot.mono (closure_there ω .up _ id σ ?_) (fun r s' e => by subst e; exact load r)
    intro hck
    rw [checkVertexID_eq] at hck
    exact by_contra fun hn => h ⟨.anc, id, rfl, hck, hn⟩
  | getDescendants id =>
    suffices hs : Tot (getDescendants ω id) σ (fun _ σ' => σ'.g = σ.g) from Tot.bind (Tot.mono hs fun _ _ e => Tot.pure e)
    unfold getDescendants
    refine Tot.bind (Tot.getG (Tot.bind ?_))
    rw [getDescendantsIDs_eq]
    refine Tot.mono (closure_there ω .down _ id σ ?_) (fun r s' e => by subst e; exact load r)
    intro hck
    rw [checkVertexID_eq] at hck
    exact by_contra fun hn => h ⟨.desc, id, rfl, hck, hn⟩
  | getOrderedAncestors id =>
    refine Tot.bind (Tot.mono (getOrderedAncestors_spec ω id σ hi) ?_)
    rintro r σ' ⟨h0, _⟩
    exact Tot.pure h0
  | getOrderedDescendants id =>
    refine Tot.bind (Tot.mono (getOrderedDescendants_spec ω id σ hi) ?_)
    rintro r σ' ⟨h0, _⟩
    exact Tot.pure h0
  | string =>
    refine Tot.bind (Tot.mono (stringListing_spec ω σ hi) ?_)
    rintro r σ' ⟨h0, _⟩
    exact Tot.pure h0

/-- **C59.**  After any history, a query changes the graph's memory exactly when it has to compute an answer. -/
theorem C59_writes (ω : Oracle) (ops : List (Op K T)) (rs : List (Res K T)) (σ : St K T)
    (h : run ω ops St.init = some (rs, σ)) (ω' : Oracle) (op : Op K T) (hq : op.isQuery = true) :
    ∃ r σ', exec ω' op σ = some (r, σ') ∧ (σ'.g ≠ σ.g ↔
      op.Computes (Spec.after Spec.empty ops) (Spec.remembered Spec.empty Spec.Memo.none ops)) := by
  obtain ⟨rs2, σ2, e2, hm⟩ := C59_remembered ω ops
  obtain ⟨rs3, σ3, e3, hi, ha, _⟩ := run_refines ω ops
  rw [e2] at h; cases h
  rw [e2] at e3; cases e3
  rw [← hm, ← ha]
  by_cases hc : op.Computes (abs σ.g) (memo σ.g)
  · obtain ⟨r, σ', e, hm'⟩ := exec_memo ω' op σ hi
    refine ⟨r, σ', e, fun _ => hc, fun _ hg => ?_⟩
    rw [hg] at hm'
    obtain ⟨k, id, hk, hv, hn⟩ := hc
    cases op <;> cases hk
    · refine hn ?_
      show (memo σ.g).anc id
      rw [hm']
      exact .inr ⟨hv, .inl rfl⟩
    · refine hn ?_
      show (memo σ.g).desc id
      rw [hm']
      exact .inr ⟨hv, .inl rfl⟩
  · obtain ⟨r, σ', e, hg⟩ := query_there ω' op hq σ hi hc
    exact ⟨r, σ', e, fun hne => absurd hg hne, fun h => absurd h hc⟩

/-! ## Having everything remembered -/

theorem Spec.next_query (a : Abs K T) {op : Op K T} (hq : op.isQuery = true) : Spec.next a op = a := by
  cases op <;> first | rfl | cases hq

theorem Spec.after_queries (a : Abs K T) (ws : List (Op K T)) (hq : ∀ op ∈ ws, op.isQuery = true) :
    Spec.after a ws = a := by
  induction ws with
  | nil => rfl
  | cons w ws ih =>
    show Spec.after (Spec.next a w) ws = a
    rw [Spec.next_query a (hq w List.mem_cons_self)]
    exact ih fun op h => hq op (List.mem_cons_of_mem _ h)

theorem Spec.remembered_append (a : Abs K T) (m : Memo K) (o1 o2 : List (Op K T)) :
    Spec.remembered a m (o1 ++ o2) = Spec.remembered (Spec.after a o1) (Spec.remembered a m o1) o2 := by
  induction o1 generalizing a m with
  | nil => rfl
  | cons op o1 ih => exact ih _ _

theorem Spec.remember_mono (a : Abs K T) (m : Memo K) {op : Op K T} (hq : op.isQuery = true) (k : Kin) (x : K)
    (h : m.has k x) : (Spec.remember a m op).has k x := by
  cases op <;> try first | exact h | cases hq
  · cases k
    · exact .inl h
    · exact h
  · cases k
    · exact h
    · exact .inl h

theorem Spec.remembered_mono (a : Abs K T) (m : Memo K) (ws : List (Op K T)) (hq : ∀ op ∈ ws, op.isQuery = true)
    (k : Kin) (x : K) (h : m.has k x) : (Spec.remembered a m ws).has k x := by
  induction ws generalizing m with
  | nil => exact h
  | cons w ws ih =>
    show (Spec.remembered (Spec.next a w) _ ws).has k x
    rw [Spec.next_query a (hq w List.mem_cons_self)]
    exact ih _ (fun op h => hq op (List.mem_cons_of_mem _ h)) (Spec.remember_mono a m (hq w List.mem_cons_self) k x h)

/-- What a query among `ws` has had answered is remembered after `ws`. -/
theorem Spec.remembered_asked (a : Abs K T) (m : Memo K) (ws : List (Op K T)) (hq : ∀ op ∈ ws, op.isQuery = true)
    {op : Op K T} (ho : op ∈ ws) (k : Kin) (x : K) (h : ∀ m', (Spec.remember a m' op).has k x) :
    (Spec.remembered a m ws).has k x := by
  induction ws generalizing m with
  | nil => cases ho
  | cons w ws ih =>
    show (Spec.remembered (Spec.next a w) _ ws).has k x
    rw [Spec.next_query a (hq w List.mem_cons_self)]
    rcases List.mem_cons.mp ho with rfl | ho
    · exact Spec.remembered_mono a _ ws (fun op h => hq op (List.mem_cons_of_mem _ h)) k x (h m)
    · exact ih _ (fun op h => hq op (List.mem_cons_of_mem _ h)) ho

/-- The queries `ws` ask for the descendants of all roots and the ancestors of all leaves. -/
structure Prefetch (a : Abs K T) (ws : List (Op K T)) : Prop where
  queries : ∀ op ∈ ws, op.isQuery = true
  roots : ∀ r, (a.V r).isSome = true → (∀ x, ¬ a.E x r) → .getDescendants r ∈ ws
  leaves : ∀ l, (a.V l).isSome = true → (∀ x, ¬ a.E l x) → .getAncestors l ∈ ws

theorem prefetch_all (ω : Oracle) (ops ws : List (Op K T)) (hw : Prefetch (Spec.after Spec.empty ops) ws)
    (k : Kin) (x : K) (hx : Spec.vertexErr (Spec.after Spec.empty ops) x = none) :
    (Spec.remembered Spec.empty Spec.Memo.none (ops ++ ws)).has k x := by
  obtain ⟨rs, σ, _, hi, ha, _⟩ := run_refines ω ops
  rw [Spec.remembered_append]
  rw [← ha] at hx hw ⊢
  have hv : GoMap.has σ.g.vertices x = true := (checkVertexID_none hi.base x).mp (by rw [checkVertexID_eq]; exact hx)
  have good : ∀ r, GoMap.has σ.g.vertices r = true → Spec.vertexErr (abs σ.g) r = none := by
    intro r hr
    rw [← checkVertexID_eq]; exact (checkVertexID_none hi.base r).mpr hr
  cases k with
  | anc =>
    obtain ⟨l, h1, h2, h3⟩ := exists_leaf hi.base x hv
    refine Spec.remembered_asked _ _ ws hw.queries (hw.leaves l h1 h2) .anc x (fun m' => .inr ⟨good l h1, ?_⟩)
    rcases h3 with rfl | h3
    · exact .inl rfl
    · exact .inr h3
  | desc =>
    obtain ⟨r, h1, h2, h3⟩ := exists_root hi.base x hv
    refine Spec.remembered_asked _ _ ws hw.queries (hw.roots r h1 h2) .desc x (fun m' => .inr ⟨good r h1, ?_⟩)
    rcases h3 with rfl | h3
    · exact .inl rfl
    · exact .inr h3

/-- **C59.**  Once the descendants of every root and the ancestors of every leaf have been asked for, no query writes
to the graph's memory. -/
theorem C59_prefetch (ω : Oracle) (ops ws : List (Op K T)) (hw : Prefetch (Spec.after Spec.empty ops) ws)
    (rs : List (Res K T)) (σ : St K T) (h : run ω (ops ++ ws) St.init = some (rs, σ))
    (ω' : Oracle) (op : Op K T) (hq : op.isQuery = true) :
    ∃ r σ', exec ω' op σ = some (r, σ') ∧ σ'.g = σ.g := by
  obtain ⟨r, σ', e, hiff⟩ := C59_writes ω _ rs σ h ω' op hq
  refine ⟨r, σ', e, by_contra fun hne => ?_⟩
  obtain ⟨k, id, _, hv, hn⟩ := hiff.mp hne
  refine hn (prefetch_all ω ops ws hw k id ?_)
  have : Spec.after (Spec.empty : Abs K T) (ops ++ ws) = Spec.after Spec.empty ops := by
    unfold Spec.after
    rw [List.foldl_append]
    exact Spec.after_queries _ ws hw.queries
  rw [this] at hv
  exact hv

/-! ## The goroutines of C58 -/

/-- The goroutine asks question `k` about some vertex. -/
def Job.Asks (a : Abs K T) (j : Job K T) (k : Kin) : Prop :=
  ∃ op ∈ j.ops, ∃ id, op.kin = some (k, id) ∧ Spec.vertexErr a id = none

/-- The goroutine asks question `k` about some vertex, and the answer is not remembered at the start. -/
def Job.Computes (a : Abs K T) (m : Memo K) (j : Job K T) (k : Kin) : Prop :=
  ∃ op ∈ j.ops, ∃ id, op.kin = some (k, id) ∧ Spec.vertexErr a id = none ∧ ¬ m.has k id

/-- Where the answers to a question are kept. -/
def Kin.fld : Kin → Fld
  | .anc => .anc
  | .desc => .desc

theorem Op.cache_kin (op : Op K T) (f : Fld) (id : K) :
    op.cache = some (f, id) ↔ ∃ k : Kin, k.fld = f ∧ op.kin = some (k, id) := by
  constructor
  · intro h
    cases op <;> cases h
    · exact ⟨.anc, rfl, rfl⟩
    · exact ⟨.desc, rfl, rfl⟩
  · rintro ⟨k, rfl, h⟩
    cases op <;> cases h <;> rfl

theorem check_abs (h : HSt K T) (id : K) : h.checkVertexID id = Spec.vertexErr (abs h.abs.g) id := by
  rw [← checkVertexID_eq]; rfl

theorem memo_abs (h : HSt K T) (k : Kin) (id : K) : (memo h.abs.g).has k id ↔ GoMap.get? (h.fld k.fld) id ≠ none := by
  rw [← not_iff_not, not_not, ← get?_fld, ← GoMap.has_eq_false]
  cases k <;> exact Bool.not_eq_true _ ▸ Iff.rfl

/-- **C58.**  Exactly which goroutines may query a graph at the same time, in terms of the calls that have built
it: no goroutine that has to compute the answer to a question runs together with another that asks this question. -/
theorem C58_calls (ω : Oracle) (ss : List (Act K T)) (os : List (Out K T)) (h : HSt K T)
    (hh : client ω ss [] HSt.init = some (os, h)) (jobs : List (Job K T))
    (hj : ∀ j ∈ jobs, j.ω.Natural ∧ ∀ op ∈ j.ops, op.isQuery = true) :
    (∀ c, (Conf.start h jobs).Reach c → Fine (Spec.after Spec.empty (calls ss)) jobs c) ↔
      ¬ ∃ (i i' : Nat) (j j' : Job K T) (k : Kin), i ≠ i' ∧ jobs[i]? = some j ∧ jobs[i']? = some j' ∧
        j.Computes (Spec.after Spec.empty (calls ss)) (Spec.remembered Spec.empty Spec.Memo.none (calls ss)) k ∧
        j'.Asks (Spec.after Spec.empty (calls ss)) k := by
  rw [C58_exact ω ss os h hh jobs hj]
  obtain ⟨_, _, ha⟩ := client_end hh
  obtain ⟨rs, σ', e, hm⟩ := C59_remembered ω (calls ss)
  rw [C57_calls ω ss os h hh] at e
  cases e
  rw [← hm, ← ha]
  have cold : ∀ (j : Job K T) (k : Kin), j.Cold h k.fld ↔ j.Computes (abs h.abs.g) (memo h.abs.g) k := by
    intro j k
    unfold Job.Cold Job.Computes
    refine exists_congr fun op => and_congr_right fun _ => exists_congr fun id => ?_
    rw [Op.cache_kin, check_abs, memo_abs, not_not]
    refine and_congr_left fun _ => ⟨?_, fun h => ⟨k, rfl, h⟩⟩
    rintro ⟨k', e, h⟩
    cases k <;> cases k' <;> first | exact h | cases e
  have touches : ∀ (j : Job K T) (k : Kin), j.Touches h k.fld ↔ j.Asks (abs h.abs.g) k := by
    intro j k
    unfold Job.Touches Job.Asks
    refine exists_congr fun op => and_congr_right fun _ => exists_congr fun id => ?_
    rw [Op.cache_kin, check_abs]
    refine and_congr_left fun _ => ⟨?_, fun h => ⟨k, rfl, h⟩⟩
    rintro ⟨k', e, h⟩
    cases k <;> cases k' <;> first | exact h | cases e
  refine not_congr ⟨?_, ?_⟩
  · rintro ⟨i, i', j, j', f, hne, e, e', c, t⟩
    have : ∃ k : Kin, k.fld = f := by
      obtain ⟨op, _, id, hc, _⟩ := c
      obtain ⟨k, hk, _⟩ := (Op.cache_kin op f id).mp hc
      exact ⟨k, hk⟩
    obtain ⟨k, rfl⟩ := this
    exact ⟨i, i', j, j', k, hne, e, e', (cold j k).mp c, (touches j' k).mp t⟩
  · rintro ⟨i, i', j, j', k, hne, e, e', c, t⟩
    exact ⟨i, i', j, j', k.fld, hne, e, e', (cold j k).mpr c, (touches j' k).mpr t⟩

/-- **C58, C59.**  Once the descendants of every root and the ancestors of every leaf have been asked for, any number
of goroutines may make any queries at the same time. -/
theorem C59_prefetched_together (ω : Oracle) (ss : List (Act K T)) (os : List (Out K T)) (h : HSt K T)
    (hh : client ω ss [] HSt.init = some (os, h)) (ops ws : List (Op K T)) (hc : calls ss = ops ++ ws)
    (hw : Prefetch (Spec.after Spec.empty ops) ws) (jobs : List (Job K T))
    (hj : ∀ j ∈ jobs, j.ω.Natural ∧ ∀ op ∈ j.ops, op.isQuery = true)
    (c : Conf K T) (hr : (Conf.start h jobs).Reach c) : Fine (Spec.after Spec.empty ops) jobs c := by
  have e : Spec.after (Spec.empty : Abs K T) (calls ss) = Spec.after Spec.empty ops := by
    rw [hc]
    unfold Spec.after
    rw [List.foldl_append]
    exact Spec.after_queries _ ws hw.queries
  have := (C58_calls ω ss os h hh jobs hj).mpr ?_ c hr
  · rw [e] at this; exact this
  · rw [e]
    rintro ⟨_, _, j, _, k, _, _, _, ⟨op, _, id, _, hv, hn⟩, _⟩
    rw [hc] at hn
    exact hn (prefetch_all ω ops ws hw k id hv)

end

/-! ### A chain of three vertices -/

/-- Building `1 → 2 → 3`. -/
def chain3 : List (Op Nat Nat) :=
  [.addVertex 1 10, .addVertex 2 20, .addVertex 3 30, .addEdge 1 2, .addEdge 2 3]

/-- Building it leaves the ancestors of 1 and 2 and the descendants of 3 remembered; asking for the descendants of
the root and the ancestors of the leaf adds the rest. -/
example : (run Oracle.forward chain3 St.init).map (fun p => (GoMap.keys p.2.g.ancC, GoMap.keys p.2.g.descC)) =
    some ([2, 1], [3]) := by decide +kernel

example : (run Oracle.forward (chain3 ++ [.getDescendants 1, .getAncestors 3]) St.init).map
    (fun p => (GoMap.keys p.2.g.ancC, GoMap.keys p.2.g.descC)) = some ([3, 2, 1], [1, 2, 3]) := by decide +kernel

/-- The graph it builds. -/
theorem chain3_prefetch : Prefetch (Spec.after Spec.empty chain3) [.getDescendants 1, .getAncestors 3] := by
  obtain ⟨rs, σ, h, hi, ha, _⟩ := run_refines Oracle.forward chain3
  have hv : GoMap.keys σ.g.vertices = [3, 2, 1] := by
    have e : (run Oracle.forward chain3 St.init).map (fun p => GoMap.keys p.2.g.vertices) = some [3, 2, 1] := by
      decide +kernel
    rw [h] at e; exact Option.some.inj e
  have ho : σ.g.outb = [(2, [(3, 3)]), (1, [(2, 2)])] := by
    have e : (run Oracle.forward chain3 St.init).map (fun p => p.2.g.outb) = some [(2, [(3, 3)]), (1, [(2, 2)])] := by
      decide +kernel
    rw [h] at e; exact Option.some.inj e
  have e12 : (abs σ.g).E 1 2 := by show σ.g.E 1 2; unfold Graph.E; rw [ho]; decide +kernel
  have e23 : (abs σ.g).E 2 3 := by show σ.g.E 2 3; unfold Graph.E; rw [ho]; decide +kernel
  have hk : ∀ r, ((abs σ.g).V r).isSome = true → r = 3 ∨ r = 2 ∨ r = 1 := by
    intro r hr
    have : r ∈ GoMap.keys σ.g.vertices := (GoMap.mem_keys_iff_has _ _).mpr hr
    rw [hv] at this
    simpa using this
  rw [← ha]
  refine ⟨by simp [Op.isQuery], fun r hr hn => ?_, fun l hl hn => ?_⟩
  · rcases hk r hr with rfl | rfl | rfl
    · exact absurd e23 (hn 2)
    · exact absurd e12 (hn 1)
    · simp
  · rcases hk l hl with rfl | rfl | rfl
    · simp
    · exact absurd e23 (hn 3)
    · exact absurd e12 (hn 2)

/-- After that, three goroutines may ask about everything. -/
example (os : List (Out Nat Nat)) (h : HSt Nat Nat)
    (hh : client Oracle.backward ((chain3 ++ [Op.getDescendants 1, Op.getAncestors 3]).map .call) [] HSt.init = some (os, h))
    (c : Conf Nat Nat) :
    let jobs : List (Job Nat Nat) := [⟨Oracle.forward, [.getAncestors 2, .getDescendants 2]⟩,
      ⟨Oracle.forward, [.getAncestors 2, .getAncestors 3]⟩, ⟨Oracle.backward, [.getDescendants 1, .string]⟩]
    (Conf.start h jobs).Reach c → Fine (Spec.after Spec.empty chain3) jobs c := by
  intro jobs hr
  refine C59_prefetched_together _ _ os h hh chain3 _ rfl chain3_prefetch jobs ?_ c hr
  intro j hj
  simp only [jobs, List.mem_cons, List.not_mem_nil, or_false] at hj
  rcases hj with rfl | rfl | rfl
  · exact ⟨forward_natural, by simp [Op.isQuery]⟩
  · exact ⟨forward_natural, by simp [Op.isQuery]⟩
  · exact ⟨backward_natural, by simp [Op.isQuery]⟩

/-- Such a client exists. -/
example : (client Oracle.backward ((chain3 ++ [Op.getDescendants 1, Op.getAncestors 3]).map .call) [] HSt.init).isSome = true := by
  decide +kernel

/-- Right after building it, asking for the ancestors of 2 changes nothing, for those of 3 it does. -/
example : ¬ (Op.getAncestors 2 : Op Nat Nat).Computes (Spec.after Spec.empty chain3)
      (Spec.remembered Spec.empty Spec.Memo.none chain3) ∧
    (Op.getAncestors 3 : Op Nat Nat).Computes (Spec.after Spec.empty chain3)
      (Spec.remembered Spec.empty Spec.Memo.none chain3) := by
  obtain ⟨rs, σ, h, hm⟩ := C59_remembered Oracle.forward chain3
  obtain ⟨rs', σ', h', hi, ha, _⟩ := run_refines Oracle.forward chain3
  rw [h] at h'; cases h'
  have hk : GoMap.keys σ.g.ancC = [2, 1] := by
    have e : (run Oracle.forward chain3 St.init).map (fun p => GoMap.keys p.2.g.ancC) = some [2, 1] := by decide +kernel
    rw [h] at e; exact Option.some.inj e
  have hv : GoMap.keys σ.g.vertices = [3, 2, 1] := by
    have e : (run Oracle.forward chain3 St.init).map (fun p => GoMap.keys p.2.g.vertices) = some [3, 2, 1] := by
      decide +kernel
    rw [h] at e; exact Option.some.inj e
  rw [← hm, ← ha]
  constructor
  · rintro ⟨k, id, e, _, hn⟩
    cases e
    refine hn ?_
    show GoMap.has σ.g.ancC 2 = true
    rw [← GoMap.mem_keys_iff_has, hk]; decide
  · refine ⟨.anc, 3, rfl, ?_, ?_⟩
    · rw [← checkVertexID_eq, checkVertexID_none hi.base, ← GoMap.mem_keys_iff_has, hv]; decide
    · show ¬ GoMap.has σ.g.ancC 3 = true
      rw [← GoMap.mem_keys_iff_has, hk]; decide

end Verif.Dag
