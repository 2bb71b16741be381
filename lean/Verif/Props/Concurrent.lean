import Verif.Dag.ConcOps
import Verif.Props.Sharing

/-!
# Queries from several goroutines (C58)

A graph is built; then several goroutines call queries on it at the same time.  `GetAncestors` and
`GetDescendants` write to caches, so two goroutines using them race.  The other queries only read:
any number of goroutines may use them, next to one that uses `GetAncestors` and `GetDescendants`.
-/

set_option linter.unusedSectionVars false

namespace Verif.Dag
open HSt (Ok)

section
variable {K T : Type} [DecidableEq K] [GoZero K] [GoZero T]

/-! ## Specification -/

/-- A call that is not meant to change the graph. -/
def Op.isQuery : Op K T → Bool
  | .addVertex _ _ => false
  | .deleteVertex _ => false
  | .addEdge _ _ => false
  | .deleteEdge _ _ => false
  | .reduceTransitively => false
  | _ => true

/-- A query that remembers its answer: where, and about which vertex it asks. -/
def Op.cache : Op K T → Option (Fld × K)
  | .getAncestors id => some (.anc, id)
  | .getDescendants id => some (.desc, id)
  | _ => none

/-- What a goroutine is to do: the map orders it will see, and its calls. -/
structure Job (K T : Type) where
  ω : Oracle
  ops : List (Op K T)

/-- Does it use `GetAncestors` or `GetDescendants`? -/
def Job.caching (j : Job K T) : Bool := j.ops.any fun op => op.cache.isSome

/-- It asks the cache `f` about some vertex. -/
def Job.Touches (h : HSt K T) (j : Job K T) (f : Fld) : Prop :=
  ∃ op ∈ j.ops, ∃ id, op.cache = some (f, id) ∧ h.checkVertexID id = none

/-- It asks the cache `f` about some vertex whose answer is not there at the start. -/
def Job.Cold (h : HSt K T) (j : Job K T) (f : Fld) : Prop :=
  ∃ op ∈ j.ops, ∃ id, op.cache = some (f, id) ∧ h.checkVertexID id = none ∧ GoMap.get? (h.fld f) id = none

/-- All goroutines before their first step. -/
def Conf.start (h : HSt K T) (jobs : List (Job K T)) : Conf K T :=
  ⟨h, jobs.map fun j => ⟨P.script (H.fuelFor h) j.ops, j.ω, 0⟩⟩

/-- The goroutine has returned from all its calls. -/
def Thread.done (t : Thread K T) (rs : List (Res K T)) : Prop := t.p = .ret rs

/-- What is claimed of every interleaving of `jobs` on a graph that stands for `a`. -/
structure Fine (a : Abs K T) (jobs : List (Job K T)) (c : Conf K T) : Prop where
  /-- no data race -/
  race : ¬ c.Race
  /-- no goroutine panics or is stuck -/
  progress : ∀ (i : Nat) (t : Thread K T), c.ts[i]? = some t → (∃ rs, t.done rs) ∨ ∃ c', c.step i = some c'
  /-- its answers are those a single goroutine may get -/
  answers : ∀ (i : Nat) (t : Thread K T) (j : Job K T) (rs : List (Res K T)), c.ts[i]? = some t →
    jobs[i]? = some j → t.done rs → Spec.okAll a j.ops rs
  /-- when all have finished, whatever is done next is done on the same graph -/
  after : (∀ (i : Nat) (t : Thread K T), c.ts[i]? = some t → ∃ rs, t.done rs) →
    ∀ (ω : Oracle) (ss : List (Act K T)), ∃ os h', client ω ss [] c.h = some (os, h') ∧ Ideal a [] ss os

/-- **C58.**  The claim in full. -/
def C58_full (K T : Type) [DecidableEq K] [GoZero K] [GoZero T] : Prop :=
  ∀ (ω : Oracle) (ss : List (Act K T)) (os : List (Out K T)) (h : HSt K T), client ω ss [] HSt.init = some (os, h) →
    ∀ (jobs : List (Job K T)), (∀ j ∈ jobs, j.ω.Natural ∧ ∀ op ∈ j.ops, op.isQuery = true) →
    ∀ c, (Conf.start h jobs).Reach c → Fine (Spec.after Spec.empty (calls ss)) jobs c

/-! ## Proof -/

theorem exec_conc {ω : Oracle} (nat : ω.Natural) {w : Mode} {n : Nat} {h : HSt K T} {γ : Graph K T} (op : Op K T)
    (hq : op.isQuery = true) (hc : ∀ f id, op.cache = some (f, id) → Entitled w γ f id) (g : Good w ∅ ∅ h γ) :
    CSim w ω (P.exec (fuelFor γ) op) n ∅ ∅ h (exec ω op) γ Equal := by
  have plain : ∀ {α : Type} (f : α → Res K T) {p : Prog K T α} {vm : M K T α}, CSim w ω p n ∅ ∅ h vm γ Equal →
      CSim w ω (p >>= fun a => Pure.pure (f a)) n ∅ ∅ h (vm >>= fun a => Pure.pure (f a)) γ Equal := by
    intro α f p vm s
    refine CSim.seq g s ?_
    rintro a _ n1 S1 G1 h1 γ1 g1 rfl
    exact CSim.ret g1 (fun _ _ => rfl)
  have map : ∀ {p : Prog K T Nat} {vm : M K T (GoMap K T)}, CSim w ω p n ∅ ∅ h vm γ NewMap →
      CSim w ω (p >>= P.exec.ofMap) n ∅ ∅ h (vm >>= fun a => Pure.pure (.entries a)) γ Equal := by
    intro p vm s
    refine CSim.seq g s ?_
    rintro a b n1 S1 G1 h1 γ1 g1 o
    refine CSim.dump g1 o.1 o.2 ?_
    intro h2 g2
    exact CSim.ret g2 (fun _ _ => rfl)
  have mapE : ∀ {p : Prog K T (Except Err Nat)} {vm : M K T (Except Err (GoMap K T))},
      CSim w ω p n ∅ ∅ h vm γ NewMapE →
      CSim w ω (p >>= P.exec.ofMapE) n ∅ ∅ h (vm >>= fun a => Pure.pure (.entriesE a)) γ Equal := by
    intro p vm s
    refine CSim.seq g s ?_
    rintro a b n1 S1 G1 h1 γ1 g1 (⟨e, rfl, rfl⟩ | ⟨r, v, rfl, rfl, o⟩)
    · exact CSim.ret g1 (fun _ _ => rfl)
    · refine CSim.dump g1 o.1 o.2 ?_
      intro h2 g2
      exact CSim.ret g2 (fun _ _ => rfl)
  cases op with
  | getVertex id => exact plain _ (getVertex_conc id g)
  | isEdge s t => exact plain _ (isEdge_conc s t g)
  | getOrder => exact plain _ (getOrder_conc g)
  | getSize => exact plain _ (getSize_conc nat g)
  | getLeaves => exact map (ends_conc .outb rfl g)
  | getRoots => exact map (ends_conc .inb rfl g)
  | getVertices => exact map (getVertices_conc g)
  | getParents id => exact mapE (neighbours_conc .inb rfl id g)
  | getChildren id => exact mapE (neighbours_conc .outb rfl id g)
  | getAncestors id =>
    refine mapE (vm := getAncestors ω id) ?_
    have := reach_conc (ω := ω) (n := n) .inb .anc rfl id (hc _ _ rfl) g
    unfold reachV at this
    simp only [reachIDsV_anc] at this
    exact this
  | getDescendants id =>
    refine mapE (vm := getDescendants ω id) ?_
    have := reach_conc (ω := ω) (n := n) .outb .desc rfl id (hc _ _ rfl) g
    unfold reachV at this
    simp only [reachIDsV_desc] at this
    exact this
  | getOrderedAncestors id => exact plain _ (ordered_conc .inb rfl id g)
  | getOrderedDescendants id => exact plain _ (ordered_conc .outb rfl id g)
  | string =>
    exact plain (fun l : Listing K => .listing l.order l.size l.vertices l.edges) (stringListing_conc nat g)
  | addVertex _ _ => cases hq
  | deleteVertex _ => cases hq
  | addEdge _ _ => cases hq
  | deleteEdge _ _ => cases hq
  | reduceTransitively => cases hq

/-- What a query may do to the graph: vertices and edges stay as they are, and so does what is cached; more
may be cached, if the query is one that remembers its answer. -/
structure Asked (op : Op K T) (g g' : Graph K T) : Prop where
  same : Same g g'
  keeps : ∀ f k, GoMap.get? (g.fld f) k ≠ none → GoMap.get? (g'.fld f) k ≠ none
  filled : ∀ f id, op.cache = some (f, id) → checkVertexID g id = none → GoMap.get? (g'.fld f) id ≠ none

theorem Asked.of_eq {op : Op K T} {g g' : Graph K T} (h : op.cache = none) (e : g' = g) : Asked op g g' := by
  subst e
  exact ⟨Same.refl _, fun _ _ h => h, fun _ _ h' => by rw [h] at h'; cases h'⟩

theorem loadFromCache_same (ω : Oracle) (g : Graph K T) (c : GSet K) (s : St K T) :
    Tot (loadFromCache ω g c) s (fun _ s' => s'.g = s.g) := by
  unfold loadFromCache
  refine Tot.bind (Tot.range ?_)
  intro cs _
  exact Tot.pure rfl

theorem getAncestors_asked (ω : Oracle) (id : K) (s : St K T) (hi : Inv s.g) :
    Tot (getAncestors ω id) s (fun _ s' => Asked (.getAncestors id) s.g s'.g) := by
  unfold getAncestors
  refine Tot.bind (Tot.getG (Tot.bind ?_))
  rw [getAncestorsIDs_eq]
  cases hck : checkVertexID s.g id with
  | some e =>
    refine Tot.mono (closure_err ω .up _ id s e hck) ?_
    rintro r s' ⟨rfl, rfl⟩
    refine Tot.pure ⟨Same.refl _, fun _ _ h => h, fun f id' h h' => ?_⟩
    cases h
    rw [hck] at h'; cases h'
  | none =>
    have hv := (checkVertexID_none hi.base id).mp hck
    refine Tot.mono (closure_spec ω .up _ id s hi.base hi.up hv ?_) ?_
    · have := rank_lt_order hi.base .up hv; unfold fuelFor; omega
    · rintro r s' ⟨h1, _, h3, S, rfl, _, _, h7, _⟩
      refine Tot.bind (Tot.getG (Tot.bind (Tot.mono (loadFromCache_same ω _ S s') ?_)))
      intro _ s2 e2
      refine Tot.pure ?_
      rw [e2]
      refine ⟨h1.same, fun f k hk => ?_, fun f id' h _ => ?_⟩
      · cases f with
        | inb => show GoMap.get? s'.g.inb k ≠ none; rw [h1.same.i]; exact hk
        | outb => show GoMap.get? s'.g.outb k ≠ none; rw [h1.same.o]; exact hk
        | anc =>
          obtain ⟨S, hS⟩ := Option.ne_none_iff_exists'.mp hk
          rw [show GoMap.get? (s'.g.fld .anc) k = some S from h3 k S hS]
          exact Option.some_ne_none _
        | desc =>
          have e : s'.g.descC = s.g.descC := by rw [h1]; rfl
          show GoMap.get? s'.g.descC k ≠ none; rw [e]; exact hk
      · cases h
        rw [show GoMap.get? (s'.g.fld .anc) id = some S from h7]
        exact Option.some_ne_none _

theorem getDescendants_asked (ω : Oracle) (id : K) (s : St K T) (hi : Inv s.g) :
    Tot (getDescendants ω id) s (fun _ s' => Asked (.getDescendants id) s.g s'.g) := by
  unfold getDescendants
  refine Tot.bind (Tot.getG (Tot.bind ?_))
  rw [getDescendantsIDs_eq]
  cases hck : checkVertexID s.g id with
  | some e =>
    refine Tot.mono (closure_err ω .down _ id s e hck) ?_
    rintro r s' ⟨rfl, rfl⟩
    refine Tot.pure ⟨Same.refl _, fun _ _ h => h, fun f id' h h' => ?_⟩
    cases h
    rw [hck] at h'; cases h'
  | none =>
    have hv := (checkVertexID_none hi.base id).mp hck
    refine Tot.mono (closure_spec ω .down _ id s hi.base hi.down hv ?_) ?_
    · have := rank_lt_order hi.base .down hv; unfold fuelFor; omega
    · rintro r s' ⟨h1, _, h3, S, rfl, _, _, h7, _⟩
      refine Tot.bind (Tot.getG (Tot.bind (Tot.mono (loadFromCache_same ω _ S s') ?_)))
      intro _ s2 e2
      refine Tot.pure ?_
      rw [e2]
      refine ⟨h1.same, fun f k hk => ?_, fun f id' h _ => ?_⟩
      · cases f with
        | inb => show GoMap.get? s'.g.inb k ≠ none; rw [h1.same.i]; exact hk
        | outb => show GoMap.get? s'.g.outb k ≠ none; rw [h1.same.o]; exact hk
        | desc =>
          obtain ⟨S, hS⟩ := Option.ne_none_iff_exists'.mp hk
          rw [show GoMap.get? (s'.g.fld .desc) k = some S from h3 k S hS]
          exact Option.some_ne_none _
        | anc =>
          have e : s'.g.ancC = s.g.ancC := by rw [h1]; rfl
          show GoMap.get? s'.g.ancC k ≠ none; rw [e]; exact hk
      · cases h
        rw [show GoMap.get? (s'.g.fld .desc) id = some S from h7]
        exact Option.some_ne_none _

theorem query_asked (ω : Oracle) (op : Op K T) (hq : op.isQuery = true) (σ : St K T) (hi : Inv σ.g) :
    Tot (exec ω op) σ (fun _ σ' => Asked op σ.g σ'.g) := by
  cases op with
  | getVertex id =>
    refine Tot.bind ?_
    unfold getVertex
    refine Tot.bind (Tot.getG ?_)
    cases hck : checkVertexID σ.g id with
    | some e => exact Tot.pure (Tot.pure (.of_eq rfl rfl))
    | none => exact Tot.pure (Tot.pure (.of_eq rfl rfl))
  | isEdge s t => exact Tot.bind (Tot.bind (Tot.getG (Tot.pure (Tot.pure (.of_eq rfl rfl)))))
  | getOrder => exact Tot.bind (Tot.mono (getOrder_spec σ hi) (fun _ _ h => Tot.pure (.of_eq rfl (by rw [h.1]))))
  | getSize => exact Tot.bind (Tot.mono (getSize_spec ω σ hi) (fun _ _ h => Tot.pure (.of_eq rfl h.1)))
  | getLeaves => exact Tot.bind (Tot.mono (getLeaves_spec ω σ hi) (fun _ _ h => Tot.pure (.of_eq rfl h.1)))
  | getRoots => exact Tot.bind (Tot.mono (getRoots_spec ω σ hi) (fun _ _ h => Tot.pure (.of_eq rfl h.1)))
  | getVertices => exact Tot.bind (Tot.mono (getVertices_spec ω σ hi) (fun _ _ h => Tot.pure (.of_eq rfl h.1)))
  | getParents id => exact Tot.bind (Tot.mono (getParents_spec ω id σ hi) (fun _ _ h => Tot.pure (.of_eq rfl h.1)))
  | getChildren id => exact Tot.bind (Tot.mono (getChildren_spec ω id σ hi) (fun _ _ h => Tot.pure (.of_eq rfl h.1)))
  | getAncestors id => exact Tot.bind (Tot.mono (getAncestors_asked ω id σ hi) (fun _ _ h => Tot.pure h))
  | getDescendants id => exact Tot.bind (Tot.mono (getDescendants_asked ω id σ hi) (fun _ _ h => Tot.pure h))
  | getOrderedAncestors id =>
    exact Tot.bind (Tot.mono (getOrderedAncestors_spec ω id σ hi) (fun _ _ h => Tot.pure (.of_eq rfl h.1)))
  | getOrderedDescendants id =>
    exact Tot.bind (Tot.mono (getOrderedDescendants_spec ω id σ hi) (fun _ _ h => Tot.pure (.of_eq rfl h.1)))
  | string => exact Tot.bind (Tot.mono (stringListing_spec ω σ hi) (fun _ _ h => Tot.pure (.of_eq rfl h.1)))
  | addVertex _ _ => cases hq
  | deleteVertex _ => cases hq
  | addEdge _ _ => cases hq
  | deleteEdge _ _ => cases hq
  | reduceTransitively => cases hq

theorem check_same {g g' : Graph K T} (h : Same g g') (id : K) : checkVertexID g' id = checkVertexID g id := by
  unfold checkVertexID; rw [h.v]

/-- What queries may do to the graph. -/
theorem run_asked (ω : Oracle) (ops : List (Op K T)) (hq : ∀ op ∈ ops, op.isQuery = true) (σ : St K T) (hi : Inv σ.g) :
    ∃ rs σ', run ω ops σ = some (rs, σ') ∧ Same σ.g σ'.g ∧
      (∀ f k, GoMap.get? (σ.g.fld f) k ≠ none → GoMap.get? (σ'.g.fld f) k ≠ none) ∧
      ∀ op ∈ ops, ∀ f id, op.cache = some (f, id) → checkVertexID σ.g id = none →
        GoMap.get? (σ'.g.fld f) id ≠ none := by
  induction ops generalizing σ with
  | nil => exact ⟨[], σ, rfl, Same.refl _, fun _ _ h => h, fun _ h => by cases h⟩
  | cons op ops ih =>
    obtain ⟨r, σ1, e1, hi1, _, _⟩ := exec_refines ω op σ hi
    have a := (query_asked ω op (hq op List.mem_cons_self) σ hi).elim e1
    obtain ⟨rs, σ2, e2, sm2, k2, f2⟩ := ih (fun o ho => hq o (List.mem_cons_of_mem _ ho)) σ1 hi1
    refine ⟨r :: rs, σ2, by simp [run, e1, e2], a.same.trans sm2, fun f k h => k2 f k (a.keeps f k h), ?_⟩
    intro o ho f id hc hck
    rcases List.mem_cons.mp ho with rfl | ho
    · exact k2 f id (a.filled f id hc hck)
    · exact f2 o ho f id hc (by rw [check_same a.same]; exact hck)

theorem Entitled.asked {w : Mode} {op : Op K T} {g g' : Graph K T} {f : Fld} {id : K} (h : Entitled w g f id)
    (a : Asked op g g') : Entitled w g' f id := by
  rcases h with h | h | ⟨h1, h2⟩
  · exact .inl h
  · exact .inr (.inl (by rw [check_same a.same]; exact h))
  · exact .inr (.inr ⟨h1, a.keeps f id h2⟩)

/-- A goroutine's calls, next to other goroutines. -/
theorem script_conc {ω : Oracle} (nat : ω.Natural) {w : Mode} (ops : List (Op K T))
    (hq : ∀ op ∈ ops, op.isQuery = true) {n fuel : Nat}
    {S G : Set Nat} {h : HSt K T} {γ : Graph K T}
    (hc : ∀ op ∈ ops, ∀ f id, op.cache = some (f, id) → Entitled w γ f id)
    (hf : fuel = fuelFor γ) (hi : Inv γ) (g : Good w S G h γ) :
    ∃ rs σ', run ω ops ⟨γ, n⟩ = some (rs, σ') ∧
      Safe w ω (fun a _ _ _ h' => a = rs ∧ View w h' σ'.g) (P.script fuel ops) n S G h := by
  induction ops generalizing n S G h γ with
  | nil => exact ⟨[], ⟨γ, n⟩, rfl, fun h' r => ⟨rfl, g.view.rely r⟩⟩
  | cons op ops ih =>
    obtain ⟨r, σ1, e1, hi1, _, _⟩ := exec_refines ω op ⟨γ, n⟩ hi
    have ask := (query_asked ω op (hq op List.mem_cons_self) ⟨γ, n⟩ hi).elim e1
    have hf1 : fuel = fuelFor σ1.g := by rw [hf]; unfold fuelFor; rw [ask.same.v]
    have s1 := CSim.call g (exec_conc (n := n) nat op (hq op List.mem_cons_self) (hc op List.mem_cons_self) g.empty)
      r σ1 e1
    rw [← hf] at s1
    obtain ⟨rs, σ2, e2, _⟩ := run_asked ω ops (fun o ho => hq o (List.mem_cons_of_mem _ ho)) σ1 hi1
    refine ⟨r :: rs, σ2, by simp [run, e1, e2], ?_⟩
    refine Safe.bind g.ok g.mine (s1.mono ?_)
    rintro a n1 S1 G1 h1 ⟨rfl, g1, _, _, _, _, rfl, _⟩
    obtain ⟨rs', σ2', e2', s2⟩ := ih (fun o ho => hq o (List.mem_cons_of_mem _ ho))
      (fun o ho f id hcf => (hc o (List.mem_cons_of_mem _ ho) f id hcf).asked ask) (n := σ1.n) hf1 hi1 g1
    rw [show (⟨σ1.g, σ1.n⟩ : St K T) = σ1 from rfl, e2] at e2'
    cases e2'
    refine Safe.bind g1.ok g1.mine (s2.mono ?_)
    rintro a n2 S2 G2 h2 ⟨rfl, v2⟩ h3 r3
    exact ⟨rfl, v2.rely r3⟩

/-! ### Goroutines together -/

/-- What holds between any two steps.  `W i`: how goroutine `i` uses the caches; `Q i` holds of its
results. -/
structure Together (W : Nat → Mode) (Q : Nat → List (Res K T) → Nat → Set Nat → Set Nat → HSt K T → Prop)
    (γ : Graph K T) (S M : Nat → Set Nat) (c : Conf K T) : Prop where
  ok : Ok c.h
  mine : ∀ i, Mine (S i) (M i) c.h
  apart : ∀ i j, i ≠ j → (∀ a ∈ S i, a ∉ S j) ∧ ∀ a ∈ M i, a ∉ M j
  safe : ∀ i t, c.ts[i]? = some t → Safe (W i) t.ω (Q i) t.p t.n (S i) (M i) c.h
  verts : c.h.verts = γ.vertices
  still : ∀ f, (∀ i, ¬ (W i).writes f) → GoMap.mapV c.h.deref (c.h.fld f) = γ.fld f

theorem Together.step {W : Nat → Mode} {Q : Nat → List (Res K T) → Nat → Set Nat → Set Nat → HSt K T → Prop}
    {γ : Graph K T} {S M : Nat → Set Nat} {c c' : Conf K T} (hW : ∀ i j, i ≠ j → ∀ f, ¬ ((W i).writes f ∧ (W j).sees f))
    (a : Together W Q γ S M c) {i : Nat} (e : c.step i = some c') : ∃ S' M', Together W Q γ S' M' c' := by
  unfold Conf.step at e
  cases ht : c.ts[i]? with
  | none => rw [ht] at e; cases e
  | some t =>
    rw [ht] at e
    obtain ⟨p, ω, n⟩ := t
    cases p with
    | ret _ => cases e
    | fail => cases e
    | op o k =>
      cases e
      obtain ⟨al, s⟩ := a.safe i _ ht c.h (Rely.refl a.ok (a.mine i))
      have q := o.quiet a.ok (a.mine i) al
      have hr : ∀ j, j ≠ i → Rely (W j) (S j) (M j) c.h (o.next c.h) := fun j hj =>
        q.rely (a.mine i) (a.mine j) (a.apart i j (Ne.symm hj)).1 (a.apart i j (Ne.symm hj)).2 (hW i j (Ne.symm hj))
      have hm0 : Mine (∅ : Set Nat) ∅ c.h := ⟨fun _ h => h.elim, fun _ h => h.elim⟩
      refine ⟨Function.update S i (o.ownS c.h (S i)), Function.update M i (o.ownM c.h (M i)), ⟨q.ok, ?_, ?_, ?_, ?_, ?_⟩⟩
      · intro j
        by_cases hj : j = i
        · subst hj; simp only [Function.update_self]; exact o.mine a.ok (a.mine _) al
        · simp only [Function.update_of_ne hj]; exact (hr j hj).mine
      · have key : ∀ j, j ≠ i → (∀ x ∈ o.ownS c.h (S i), x ∉ S j) ∧ ∀ x ∈ o.ownM c.h (M i), x ∉ M j := by
          intro j hj
          obtain ⟨d1, d2⟩ := a.apart i j (Ne.symm hj)
          constructor
          · cases o with
            | newSet =>
              rintro x (hx | hx) hxj
              · exact d1 x hx hxj
              · rw [Set.mem_singleton_iff] at hx
                subst hx
                exact Nat.lt_irrefl _ ((a.mine j).set _ hxj).1
            | store f id b => rintro x ⟨hx, _⟩; exact d1 x hx
            | _ => exact d1
          · cases o with
            | newMap =>
              rintro x (hx | hx) hxj
              · exact d2 x hx hxj
              · rw [Set.mem_singleton_iff] at hx
                subst hx
                exact Nat.lt_irrefl _ ((a.mine j).map _ hxj).1
            | _ => exact d2
        intro j1 j2 hne
        by_cases h1 : j1 = i
        · subst h1
          simp only [Function.update_self, Function.update_of_ne (Ne.symm hne)]
          exact key j2 (Ne.symm hne)
        · by_cases h2 : j2 = i
          · subst h2
            simp only [Function.update_self, Function.update_of_ne hne]
            exact ⟨fun x hx hy => (key j1 hne).1 x hy hx, fun x hx hy => (key j1 hne).2 x hy hx⟩
          · simp only [Function.update_of_ne h1, Function.update_of_ne h2]
            exact a.apart j1 j2 hne
      · intro j t' ht'
        by_cases hj : j = i
        · subst hj
          have hlt : j < c.ts.length := (List.getElem?_eq_some_iff.mp ht).1
          rw [List.getElem?_set_self hlt] at ht'
          cases ht'
          simp only [Function.update_self]
          exact s
        · rw [List.getElem?_set_ne (Ne.symm hj)] at ht'
          simp only [Function.update_of_ne hj]
          exact (a.safe j t' ht').rely (hr j hj)
      · have r0 : Rely .plain ∅ ∅ c.h (o.next c.h) := q.rely (a.mine i) hm0 (fun _ _ h => h) (fun _ _ h => h) (fun f h => by
          have h1 := h.1.cache
          rw [Mode.plain_sees h.2] at h1
          cases h1)
        exact r0.verts.trans a.verts
      · intro f hall
        rw [q.fld f (hall i), ← a.still f hall]
        exact GoMap.mapV_congr (fun x hx => q.deref x (fun hs => ((a.mine i).set x hs).2 (HSt.vals_owned hx)))

theorem Together.reach {W : Nat → Mode} {Q : Nat → List (Res K T) → Nat → Set Nat → Set Nat → HSt K T → Prop}
    {γ : Graph K T} {S M : Nat → Set Nat} {c c' : Conf K T} (hW : ∀ i j, i ≠ j → ∀ f, ¬ ((W i).writes f ∧ (W j).sees f))
    (a : Together W Q γ S M c) (r : c.Reach c') : ∃ S' M', Together W Q γ S' M' c' := by
  induction r with
  | refl => exact ⟨S, M, a⟩
  | step i _ e ih =>
    obtain ⟨S1, M1, a1⟩ := ih
    exact a1.step hW e

theorem Together.no_race {W : Nat → Mode} {Q : Nat → List (Res K T) → Nat → Set Nat → Set Nat → HSt K T → Prop}
    {γ : Graph K T} {S M : Nat → Set Nat} {c : Conf K T} (hW : ∀ i j, i ≠ j → ∀ f, ¬ ((W i).writes f ∧ (W j).sees f))
    (a : Together W Q γ S M c) : ¬ c.Race := by
  -- what a goroutine that is about to access a location is entitled to
  have acc : ∀ i l b, c.access i = some (l, b) → match l with
      | .fld f => (W i).sees f ∧ (b = true → (W i).writes f)
      | .set x => x ∈ S i ∨ (b = false ∧ x ∈ c.h.owned)
      | .map x => x ∈ M i ∨ (b = false ∧ x = c.h.vertices) := by
    intro i l b e
    unfold Conf.access at e
    cases ht : c.ts[i]? with
    | none => rw [ht] at e; cases e
    | some t =>
      rw [ht] at e
      obtain ⟨p, ω, n⟩ := t
      cases p with
      | ret _ => cases e
      | fail => cases e
      | op o k =>
        have al := (a.safe i _ ht c.h (Rely.refl a.ok (a.mine i))).1
        have rd : ∀ x, (x ∈ S i ∨ ∃ f, (W i).sees f ∧ x ∈ c.h.vals f) → x ∈ S i ∨ x ∈ c.h.owned := by
          rintro x (h | ⟨_, _, h⟩)
          · exact .inl h
          · exact .inr (HSt.vals_owned h)
        cases o with
        | vertex id => cases e; exact .inr ⟨rfl, rfl⟩
        | order => cases e; exact .inr ⟨rfl, rfl⟩
        | rangeVerts => cases e; exact .inr ⟨rfl, rfl⟩
        | look f id => cases e; exact ⟨al, fun h => by cases h⟩
        | rangeOuter f => cases e; exact ⟨al, fun h => by cases h⟩
        | elem x id =>
          cases x with
          | none => cases e
          | some x => cases e; rcases rd _ (al _ rfl) with h | h; exacts [.inl h, .inr ⟨rfl, h⟩]
        | size x => cases e; rcases rd _ al with h | h; exacts [.inl h, .inr ⟨rfl, h⟩]
        | range x =>
          cases x with
          | none => cases e
          | some x => cases e; rcases rd _ (al _ rfl) with h | h; exacts [.inl h, .inr ⟨rfl, h⟩]
        | newSet => cases e
        | newMap => cases e
        | add x v => cases e; exact .inl al
        | put x id v => cases e; exact .inl al
        | dump x => cases e; exact .inl al
        | store f id x => cases e; exact ⟨al.1.sees, fun _ => al.1⟩
  -- one of them writes
  have key : ∀ i j l b, i ≠ j → c.access i = some (l, true) → c.access j = some (l, b) → False := by
    intro i j l b hne hi hj
    have ai := acc i l true hi
    have aj := acc j l b hj
    cases l with
    | fld f => exact hW i j hne f ⟨ai.2 rfl, aj.1⟩
    | set x =>
      rcases ai with ai | ⟨h, _⟩
      · rcases aj with aj | ⟨_, aj⟩
        · exact (a.apart i j hne).1 x ai aj
        · exact ((a.mine i).set x ai).2 aj
      · cases h
    | map x =>
      rcases ai with ai | ⟨h, _⟩
      · rcases aj with aj | ⟨_, aj⟩
        · exact (a.apart i j hne).2 x ai aj
        · exact ((a.mine i).map x ai).2 aj
      · cases h
  rintro ⟨i, j, l, b, b', hne, hi, hj, rfl | rfl⟩
  · exact key i j l b' hne hi hj
  · exact key j i l b (Ne.symm hne) hj hi

/-- The memory a client leaves behind. -/
theorem client_end {ω : Oracle} {ss : List (Act K T)} {os : List (Out K T)} {h : HSt K T}
    (e : client ω ss [] HSt.init = some (os, h)) :
    Ok h ∧ Inv h.abs.g ∧ abs h.abs.g = Spec.after Spec.empty (calls ss) := by
  obtain ⟨os2, h2, h3, ⟨h4, h5⟩, _⟩ := client_ideal ω ss [] [] (HSt.init : HSt K T) ok_init inv_new
    ⟨.nil, List.nodup_nil, fun m hm => by cases hm⟩
  rw [e] at h3; cases h3
  obtain ⟨rs, σ', k1, k2, k3, _⟩ := run_refines ω (calls ss)
  have h4' : run ω (calls ss) St.init = some (results os, h.abs) := h4
  rw [k1] at h4'
  cases h4'
  exact ⟨h5, k2, k3⟩

theorem abs_fld (h : HSt K T) (f : Fld) : h.abs.g.fld f = GoMap.mapV h.deref (h.fld f) := by
  cases f <;> rfl

theorem get?_fld (h : HSt K T) (f : Fld) (k : K) :
    GoMap.get? (h.abs.g.fld f) k = none ↔ GoMap.get? (h.fld f) k = none := by
  rw [abs_fld, GoMap.get?_mapV]; exact Option.map_eq_none_iff

/-- Where each direction keeps its cache. -/
def Dir.fld : Dir → Fld
  | .down => .desc
  | .up => .anc

/-- The invariant of a cache that is a cache of the same graph. -/
theorem CInv.of_same {d : Dir} {g g' g2 : Graph K T} (hs : Same g g') (hs2 : Same g g2)
    (hc : g'.fld d.fld = g2.fld d.fld) (h : CInv d g2) : CInv d g' := by
  have ec : d.cache g' = d.cache g2 := by cases d <;> exact hc
  have ee : d.E g' = d.E g2 := by
    have : d.edges g' = d.edges g2 := by
      cases d with
      | down => exact hs.o.trans hs2.o.symm
      | up => exact hs.i.trans hs2.i.symm
    unfold Dir.E; rw [this]
  have ev : g'.vertices = g2.vertices := hs.v.trans hs2.v.symm
  refine ⟨by rw [ec]; exact h.nd, ?_, ?_⟩
  · rw [ec, ee, ev]; exact h.exact
  · rw [ec, ee]; exact h.closed

theorem Inv.of_same {g g' : Graph K T} (hi : Inv g) (hs : Same g g')
    (hc : ∀ d : Dir, ∃ g2, Inv g2 ∧ Same g g2 ∧ g'.fld d.fld = g2.fld d.fld) : Inv g' := by
  have hb : GInv g' := by
    have sb : SameBut .up g ⟨g.vertices, g.inb, g.outb, g'.ancC, g.descC⟩ := rfl
    have sb2 : SameBut .down ⟨g.vertices, g.inb, g.outb, g'.ancC, g.descC⟩ g' := by
      show g' = _
      obtain ⟨v, i, o, a, d⟩ := g'
      obtain ⟨h1, h2, h3⟩ := hs
      cases h1; cases h2; cases h3; rfl
    exact sb2.ginv (sb.ginv hi.base)
  obtain ⟨g2, i2, s2, e2⟩ := hc .down
  obtain ⟨g3, i3, s3, e3⟩ := hc .up
  exact ⟨hb, .of_same hs s2 e2 i2.down, .of_same hs s3 e3 i3.up⟩

theorem reach_length {c c' : Conf K T} (r : c.Reach c') : c'.ts.length = c.ts.length := by
  induction r with
  | refl => rfl
  | step i _ e ih =>
    rw [← ih]
    unfold Conf.step at e
    split at e
    · cases e
    · split at e
      · cases e
      · cases e
      · cases e; simp

open Classical in
/-- How a goroutine uses a cache. -/
noncomputable def Job.use (h : HSt K T) (j : Job K T) (f : Fld) : Use :=
  if j.Cold h f then .writes else if j.Touches h f then .reads else .none

/-- The claim, if no goroutine that has to compute an answer shares a cache with another. -/
theorem fine_of_apart {h : HSt K T} (ok : Ok h) (hi : Inv h.abs.g) (jobs : List (Job K T))
    (hj : ∀ j ∈ jobs, j.ω.Natural ∧ ∀ op ∈ j.ops, op.isQuery = true)
    (apart : ∀ (i i' : Nat) (j j' : Job K T) (f : Fld), i ≠ i' → jobs[i]? = some j → jobs[i']? = some j' →
      ¬ (j.Cold h f ∧ j'.Touches h f))
    (c : Conf K T) (hr : (Conf.start h jobs).Reach c) : Fine (abs h.abs.g) jobs c := by
  -- how each goroutine uses the caches
  obtain ⟨W, hWdef⟩ : ∃ W : Nat → Mode, ∀ i, W i = match jobs[i]? with
      | some j => ⟨j.use h .anc, j.use h .desc⟩
      | none => .plain := ⟨_, fun _ => rfl⟩
  have use : ∀ i f, f.isCache = true → (W i).use f = match jobs[i]? with | some j => j.use h f | none => .none := by
    intro i f hf
    rw [hWdef]
    cases jobs[i]? <;> cases f <;> first | rfl | cases hf
  have wr : ∀ i f, (W i).writes f → ∃ j, jobs[i]? = some j ∧ j.Cold h f := by
    intro i f hw
    have hu := use i f hw.cache
    rw [show (W i).use f = .writes from hw] at hu
    cases e : jobs[i]? with
    | none => rw [e] at hu; cases hu
    | some j =>
      rw [e] at hu
      refine ⟨j, rfl, ?_⟩
      have hu : Use.writes = j.use h f := hu
      unfold Job.use at hu
      by_contra hn
      rw [if_neg hn] at hu
      split at hu <;> cases hu
  have se : ∀ i f, f.isCache = true → (W i).sees f → ∃ j, jobs[i]? = some j ∧ j.Touches h f := by
    intro i f hf hs
    unfold Mode.sees at hs
    rw [use i f hf] at hs
    cases e : jobs[i]? with
    | none => rw [e] at hs; exact absurd rfl hs
    | some j =>
      rw [e] at hs
      refine ⟨j, rfl, ?_⟩
      have hs : j.use h f ≠ .none := hs
      unfold Job.use at hs
      by_cases hc : j.Cold h f
      · obtain ⟨op, ho, id, h1, h2, _⟩ := hc
        exact ⟨op, ho, id, h1, h2⟩
      · rw [if_neg hc] at hs
        by_contra hn
        rw [if_neg hn] at hs
        exact hs rfl
  have hW : ∀ i i', i ≠ i' → ∀ f, ¬ ((W i).writes f ∧ (W i').sees f) := by
    rintro i i' hne f ⟨h1, h2⟩
    obtain ⟨j, e1, c1⟩ := wr i f h1
    obtain ⟨j', e2, c2⟩ := se i' f h1.cache h2
    exact apart i i' j j' f hne e1 e2 ⟨c1, c2⟩
  have v0 : ∀ w, View w h h.abs.g := fun w => ⟨rfl, fun f _ => (abs_fld h f).symm⟩
  have m0 : Mine (∅ : Set Nat) ∅ h := ⟨fun _ h => h.elim, fun _ h => h.elim⟩
  have scr : ∀ i j, jobs[i]? = some j → ∃ rs σ', run j.ω j.ops ⟨h.abs.g, 0⟩ = some (rs, σ') ∧
      Safe (W i) j.ω (fun a _ _ _ h' => a = rs ∧ View (W i) h' σ'.g) (P.script (H.fuelFor h) j.ops) 0 ∅ ∅ h := by
    intro i j e
    have hm := List.mem_of_getElem? e
    refine script_conc (hj j hm).1 j.ops (hj j hm).2 ?_ rfl hi ⟨ok, m0, v0 _⟩
    intro op ho f id hc
    have hfc : f.isCache = true := by
      cases op <;> first | (cases hc; rfl) | cases hc
    have hu := use i f hfc
    rw [e] at hu
    have hu : (W i).use f = j.use h f := hu
    by_cases hck : h.checkVertexID id = none
    · by_cases hcold : j.Cold h f
      · refine .inl ?_
        show (W i).use f = .writes
        rw [hu]; unfold Job.use; rw [if_pos hcold]
      · refine .inr (.inr ⟨?_, ?_⟩)
        · show (W i).use f ≠ .none
          rw [hu]; unfold Job.use; rw [if_neg hcold, if_pos ⟨op, ho, id, hc, hck⟩]; decide
        · intro hn
          exact hcold ⟨op, ho, id, hc, hck, (get?_fld h f id).mp hn⟩
    · exact .inr (.inl hck)
  have start : Together W (fun i a _ _ _ h' => ∃ j σ', jobs[i]? = some j ∧ run j.ω j.ops ⟨h.abs.g, 0⟩ = some (a, σ') ∧
      View (W i) h' σ'.g) h.abs.g (fun _ => ∅) (fun _ => ∅) (Conf.start h jobs) := by
    refine ⟨ok, fun _ => m0, fun _ _ _ => ⟨fun _ h => h.elim, fun _ h => h.elim⟩, ?_, rfl, fun f _ => (abs_fld h f).symm⟩
    intro i t ht
    have ht' : (jobs.map fun j => (⟨P.script (H.fuelFor h) j.ops, j.ω, 0⟩ : Thread K T))[i]? = some t := ht
    rw [List.getElem?_map, Option.map_eq_some_iff] at ht'
    obtain ⟨j, e, rfl⟩ := ht'
    obtain ⟨rs, σ', e1, s⟩ := scr i j e
    refine s.mono ?_
    rintro a _ _ _ h' ⟨rfl, v⟩
    exact ⟨j, σ', e, e1, v⟩
  obtain ⟨S, M, a⟩ := start.reach hW hr
  -- what a goroutine that has finished has done
  have fin : ∀ i t rs, c.ts[i]? = some t → t.done rs → ∃ j σ', jobs[i]? = some j ∧
      run j.ω j.ops ⟨h.abs.g, 0⟩ = some (rs, σ') ∧ View (W i) c.h σ'.g := by
    intro i t rs ht hd
    have s := a.safe i t ht
    rw [hd] at s
    exact s c.h (Rely.refl a.ok (a.mine i))
  refine ⟨a.no_race hW, ?_, ?_, ?_⟩
  · intro i t ht
    have s := a.safe i t ht
    obtain ⟨p, ω, n⟩ := t
    cases p with
    | ret rs => exact .inl ⟨rs, rfl⟩
    | fail => exact s.elim
    | op o k => exact .inr ⟨_, by unfold Conf.step; rw [ht]⟩
  · intro i t j rs ht e hd
    obtain ⟨j', σ', e', k1, _⟩ := fin i t rs ht hd
    rw [e] at e'
    cases e'
    obtain ⟨rs2, σ2, k2, _, _, k3⟩ := run_refines_from j.ω j.ops ⟨h.abs.g, 0⟩ hi
    rw [k1] at k2
    cases k2
    exact k3
  · intro all ω' ss'
    -- the graph the goroutines leave
    have sm : Same h.abs.g c.h.abs.g := by
      have nw : ∀ f, f.isCache = false → c.h.abs.g.fld f = h.abs.g.fld f := by
        intro f hf
        rw [abs_fld, a.still f]
        intro i hw
        have := hw.cache
        rw [hf] at this; cases this
      exact ⟨a.verts, nw .inb rfl, nw .outb rfl⟩
    have hi' : Inv c.h.abs.g := by
      refine Inv.of_same hi sm ?_
      intro d
      by_cases hn : ∀ i, ¬ (W i).writes d.fld
      · exact ⟨h.abs.g, hi, Same.refl _, by rw [abs_fld]; exact a.still _ hn⟩
      · obtain ⟨i, hwi⟩ := not_forall.mp hn
        have hwi : (W i).writes d.fld := not_not.mp hwi
        obtain ⟨j, e, _⟩ := wr i _ hwi
        have hlen : i < c.ts.length := by
          rw [reach_length hr]
          show i < (jobs.map _).length
          rw [List.length_map]
          exact (List.getElem?_eq_some_iff.mp e).1
        obtain ⟨rs, hd⟩ := all i c.ts[i] (List.getElem?_eq_getElem hlen)
        obtain ⟨j', σ', e', k1, v⟩ := fin i _ rs (List.getElem?_eq_getElem hlen) hd
        have hm := List.mem_of_getElem? e'
        obtain ⟨rs2, σ2, k2, k3, _⟩ := run_refines_from j'.ω j'.ops ⟨h.abs.g, 0⟩ hi
        obtain ⟨rs3, σ3, k4, k5, _⟩ := run_asked j'.ω j'.ops (hj j' hm).2 ⟨h.abs.g, 0⟩ hi
        rw [k1] at k2 k4
        cases k2
        cases k4
        exact ⟨σ'.g, k3, k5, by rw [abs_fld]; exact v.fld _ hwi.sees⟩
    obtain ⟨os', h', k1, _, k3⟩ := client_ideal ω' ss' [] [] c.h a.ok hi'
      ⟨.nil, List.nodup_nil, fun m hm => by cases hm⟩
    rw [sm.abs] at k3
    exact ⟨os', h', k1, k3⟩

/-- **C58.**  The claim for goroutines of which at most one uses `GetAncestors` or `GetDescendants`.  What is
missing: `C58_full` allows several. -/
theorem C58_partial (ω : Oracle) (ss : List (Act K T)) (os : List (Out K T)) (h : HSt K T)
    (hh : client ω ss [] HSt.init = some (os, h)) (jobs : List (Job K T))
    (hj : ∀ j ∈ jobs, j.ω.Natural ∧ ∀ op ∈ j.ops, op.isQuery = true)
    (one : ∀ (i i' : Nat) (j j' : Job K T), jobs[i]? = some j → jobs[i']? = some j' → j.caching = true →
      j'.caching = true → i = i')
    (c : Conf K T) (hr : (Conf.start h jobs).Reach c) : Fine (Spec.after Spec.empty (calls ss)) jobs c := by
  obtain ⟨ok, hi, ha⟩ := client_end hh
  rw [← ha]
  refine fine_of_apart ok hi jobs hj ?_ c hr
  rintro i i' j j' f hne e e' ⟨⟨op, ho, id, h1, _⟩, op', ho', id', h1', _⟩
  exact hne (one i i' j j' e e' (List.any_eq_true.mpr ⟨op, ho, by rw [h1]; rfl⟩)
    (List.any_eq_true.mpr ⟨op', ho', by rw [h1']; rfl⟩))

/-! ### No interleaving goes on forever -/

/-- One goroutine of the list makes a step. -/
def OneStep (ts' ts : List (Thread K T)) : Prop :=
  ∃ (i : Nat) (o : Prim K T) (k : o.Ret → Prog K T (List (Res K T))) (ω : Oracle) (n n' : Nat) (r : o.Ret),
    ts[i]? = some ⟨.op o k, ω, n⟩ ∧ ts' = ts.set i ⟨k r, ω, n'⟩

theorem acc_nil : Acc (OneStep (K := K) (T := T)) [] :=
  ⟨_, by rintro _ ⟨i, _, _, _, _, _, _, h, _⟩; simp at h⟩

theorem acc_cons (p : Prog K T (List (Res K T))) (ts : List (Thread K T)) (hts : Acc OneStep ts) :
    ∀ ω n, Acc (OneStep (K := K) (T := T)) (⟨p, ω, n⟩ :: ts) := by
  induction p generalizing ts with
  | ret a =>
    induction hts with
    | intro ts _ ih =>
      intro ω n
      refine ⟨_, ?_⟩
      rintro _ ⟨i, o, k, ω', n1, n2, r, e, rfl⟩
      cases i with
      | zero => simp at e
      | succ i => exact ih _ ⟨i, o, k, ω', n1, n2, r, by simpa using e, rfl⟩ ω n
  | fail =>
    induction hts with
    | intro ts _ ih =>
      intro ω n
      refine ⟨_, ?_⟩
      rintro _ ⟨i, o, k, ω', n1, n2, r, e, rfl⟩
      cases i with
      | zero => simp at e
      | succ i => exact ih _ ⟨i, o, k, ω', n1, n2, r, by simpa using e, rfl⟩ ω n
  | op o0 k0 ihp =>
    induction hts with
    | intro ts hts ih =>
      intro ω n
      refine ⟨_, ?_⟩
      rintro _ ⟨i, o, k, ω', n1, n2, r, e, rfl⟩
      cases i with
      | zero =>
        simp at e
        obtain ⟨⟨rfl, e2⟩, _⟩ := e
        cases e2
        exact ihp r ts ⟨_, hts⟩ ω' n2
      | succ i => exact ih _ ⟨i, o, k, ω', n1, n2, r, by simpa using e, rfl⟩ ω n

theorem acc_all (ts : List (Thread K T)) : Acc OneStep ts := by
  induction ts with
  | nil => exact acc_nil
  | cons t ts ih => exact acc_cons t.p ts ih t.ω t.n

/-- **C58.**  However the goroutines are scheduled, they finish. -/
theorem C58_terminates (f : Nat → Conf K T) (hf : ∀ n, ∃ i, (f n).step i = some (f (n + 1))) : False := by
  have key : ∀ ts : List (Thread K T), Acc OneStep ts → ∀ n, (f n).ts = ts → False := by
    intro ts hacc
    induction hacc with
    | intro ts _ ih =>
      intro n hn
      obtain ⟨i, e⟩ := hf n
      refine ih (f (n + 1)).ts ?_ (n + 1) rfl
      unfold Conf.step at e
      rw [hn] at e
      cases ht : ts[i]? with
      | none => rw [ht] at e; cases e
      | some t =>
        rw [ht] at e
        obtain ⟨p, ω, m⟩ := t
        cases p with
        | ret _ => cases e
        | fail => cases e
        | op o k =>
          have e' := Option.some.inj e
          exact ⟨i, o, k, ω, m, _, _, ht, by rw [← e']⟩
  exact key _ (acc_all _) 0 rfl

end

/-! ### Two goroutines that ask for descendants -/

/-- Run the goroutines in a given order. -/
def Conf.steps {K T : Type} [DecidableEq K] [GoZero K] [GoZero T] (c : Conf K T) : List Nat → Option (Conf K T)
  | [] => some c
  | i :: is => match c.step i with
    | none => none
    | some c' => c'.steps is

theorem reach_steps {K T : Type} [DecidableEq K] [GoZero K] [GoZero T] {c0 c c' : Conf K T} {is : List Nat}
    (r : c0.Reach c) (h : c.steps is = some c') : c0.Reach c' := by
  induction is generalizing c with
  | nil => cases h; exact r
  | cons i is ih =>
    unfold Conf.steps at h
    cases e : c.step i with
    | none => rw [e] at h; cases h
    | some c1 => rw [e] at h; exact ih (.step i r e) h

theorem forward_natural : Oracle.forward.Natural := fun _ _ _ _ _ => rfl

theorem backward_natural : Oracle.backward.Natural := fun _ _ _ _ _ => List.map_reverse.symm

/-- A graph with one edge. -/
def edge12 : List (Act Nat Nat) := [.call (.addVertex 1 10), .call (.addVertex 2 20), .call (.addEdge 1 2)]

/-- The memory it leaves: adding the edge has filled one entry of each cache. -/
def edgeMem : HSt Nat Nat :=
  ⟨[[], [], [(2, 2)], [(1, 1)]], [[(2, 20), (1, 10)]], 0, [(2, 3)], [(1, 2)], [(1, 1)], [(2, 0)], 2⟩

theorem edgeMem_eq : ∃ os, client Oracle.forward edge12 [] HSt.init = some (os, edgeMem) := by
  obtain ⟨os, h', e, _⟩ := C57_own_maps Oracle.forward edge12
  have e2 : (client Oracle.forward edge12 [] HSt.init).map (·.2) = some edgeMem := by decide +kernel
  rw [e] at e2
  have e3 : h' = edgeMem := Option.some.inj e2
  exact ⟨os, by rw [e, e3]⟩

/-- Two goroutines that both ask for the descendants of a vertex. -/
def twice : List (Job Nat Nat) := [⟨Oracle.forward, [.getDescendants 1]⟩, ⟨Oracle.forward, [.getDescendants 1]⟩]

/-- Each of them finds nothing cached, makes a set, and fills it. -/
def twiceSteps : List Nat := List.replicate 9 0 ++ List.replicate 9 1

/-- **C58.**  The claim in full does not hold: both goroutines may be about to write to the cache. -/
theorem C58_full_false : ¬ C58_full Nat Nat := by
  intro hfull
  obtain ⟨os, hos⟩ := edgeMem_eq
  have e : ((Conf.start edgeMem twice).steps twiceSteps).map (fun c => (c.access 0, c.access 1)) =
      some (some (.fld .desc, true), some (.fld .desc, true)) := by decide +kernel
  cases hs : (Conf.start edgeMem twice).steps twiceSteps with
  | none => rw [hs] at e; cases e
  | some c =>
    rw [hs] at e
    have e' := Option.some.inj e
    refine (hfull _ edge12 os edgeMem hos twice ?_ c (reach_steps (.refl _) hs)).race
      ⟨0, 1, .fld .desc, true, true, by decide, (Prod.mk.inj e').1, (Prod.mk.inj e').2, .inl rfl⟩
    intro j hj
    simp only [twice, List.mem_cons, List.not_mem_nil, or_false] at hj
    rcases hj with rfl | rfl <;> exact ⟨forward_natural, by simp [Op.isQuery]⟩

/-! ### One goroutine that asks for descendants and two that do not -/

/-- Three goroutines; the first uses a cache. -/
def three : List (Job Nat Nat) :=
  [⟨Oracle.forward, [.getDescendants 1, .getDescendants 2]⟩, ⟨Oracle.backward, [.getOrderedDescendants 1, .getSize]⟩,
   ⟨Oracle.forward, [.getVertices, .isEdge 1 2, .getParents 2]⟩]

/-- They meet the conditions of `C58_partial`. -/
example (c : Conf Nat Nat) (hr : (Conf.start edgeMem three).Reach c) :
    Fine (Spec.after Spec.empty (calls edge12)) three c := by
  obtain ⟨os, hos⟩ := edgeMem_eq
  refine C58_partial _ edge12 os edgeMem hos three ?_ ?_ c hr
  · intro j hj
    simp only [three, List.mem_cons, List.not_mem_nil, or_false] at hj
    rcases hj with rfl | rfl | rfl
    · exact ⟨forward_natural, by simp [Op.isQuery]⟩
    · exact ⟨backward_natural, by simp [Op.isQuery]⟩
    · exact ⟨forward_natural, by simp [Op.isQuery]⟩
  · have z : ∀ (i : Nat) (j : Job Nat Nat), three[i]? = some j → j.caching = true → i = 0 := by
      intro i j e c
      match i, e with
      | 0, _ => rfl
      | 1, e => cases e; simp [Job.caching, Op.cache] at c
      | 2, e => cases e; simp [Job.caching, Op.cache] at c
      | i + 3, e => simp [three] at e
    intro i i' j j' e e' c c'
    rw [z i j e c, z i' j' e' c']

/-- What the goroutines have returned. -/
def Conf.returned {K T : Type} (c : Conf K T) : List (Option (List (Res K T))) :=
  c.ts.map fun t => match t.p with | .ret rs => some rs | _ => none

/-- One interleaving: in turns, as long as a goroutine has something to do. -/
def threeSteps : List Nat :=
  (List.replicate 9 [0, 1, 2]).flatten ++ (List.replicate 8 [0, 2]).flatten ++ [0, 0, 0]

example : ((Conf.start edgeMem three).steps threeSteps).map Conf.returned = some
    [some [.entriesE (.ok [(2, 20)]), .entriesE (.ok [])], some [.idsE (.ok [2]), .count 1],
     some [.entries [(1, 10), (2, 20)], .flag (.ok true), .entriesE (.ok [(1, 10)])]] := by decide +kernel

end Verif.Dag
