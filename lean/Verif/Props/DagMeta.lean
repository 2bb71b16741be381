import Verif.Props.DagCore

/-! # C04–C07, C19, C21: statements about whole histories -/

set_option linter.unusedSectionVars false
set_option linter.unusedSimpArgs false

namespace Verif.Dag
open M Relation

variable {K T : Type} [DecidableEq K] [GoZero K] [GoZero T]

/-- Two results agree: maps as sets of entries, the rest literally.  The list returned by the
ordered traversals is compared up to reordering only (C15 says which orders are possible). -/
def Res.Same : Res K T → Res K T → Prop
  | .entries m, .entries m' => m.Perm m'
  | .entriesE (.ok m), .entriesE (.ok m') => m.Perm m'
  | .idsE (.ok l), .idsE (.ok l') => l.Perm l'
  | .listing o s vs es, .listing o' s' vs' es' => o = o' ∧ s = s' ∧ vs.Perm vs' ∧ es.Perm es'
  | r, r' => r = r'

/-- Element by element. -/
def SameAll : List (Res K T) → List (Res K T) → Prop
  | [], [] => True
  | r :: rs, r' :: rs' => r.Same r' ∧ SameAll rs rs'
  | _, _ => False

theorem exactly_perm {m m' : List (K × T)} {P : K → T → Prop} (h : Spec.Exactly m P) (h' : Spec.Exactly m' P) :
    m.Perm m' := by
  have nd : ∀ {l : List (K × T)}, (l.map Prod.fst).Nodup → l.Nodup := by
    intro l hl
    have h2 := List.pairwise_map.mp hl
    exact h2.imp (fun h e => h (by rw [e]))
  refine (List.perm_ext_iff_of_nodup (nd h.1) (nd h'.1)).mpr ?_
  rintro ⟨k, v⟩
  rw [h.2, h'.2]

theorem count_unique {α : Type} {P : α → Prop} {n m : Nat} (h : Spec.Count P n) (h' : Spec.Count P m) : n = m := by
  obtain ⟨l, h1, h2, rfl⟩ := h
  obtain ⟨l', h1', h2', rfl⟩ := h'
  exact length_eq_of_same h1 h1' (fun x => (h2 x).trans (h2' x).symm)

theorem orErr_same {α : Type} {e : Option Err} {r r' : Except Err α} {P : α → Prop} (h : Spec.OrErr e r P)
    (h' : Spec.OrErr e r' P) :
    (∃ e', r = .error e' ∧ r' = .error e') ∨ (∃ x y, r = .ok x ∧ r' = .ok y ∧ P x ∧ P y) := by
  cases e with
  | some e => exact .inl ⟨e, h, h'⟩
  | none =>
    obtain ⟨x, hx, px⟩ := h
    obtain ⟨y, hy, py⟩ := h'
    exact .inr ⟨x, y, hx, hy, px, py⟩

/-- The specification determines the result up to `Res.Same`. -/
theorem ok_same {a : Abs K T} {op : Op K T} {r r' : Res K T} (h : Spec.ok a op r) (h' : Spec.ok a op r') :
    r.Same r' := by
  have entriesE : ∀ {e : Option Err} {q q' : Except Err (List (K × T))} {P : K → T → Prop},
      Spec.OrErr e q (fun m => Spec.Exactly m P) → Spec.OrErr e q' (fun m => Spec.Exactly m P) →
      (Res.entriesE q).Same (Res.entriesE q') := by
    intro e q q' P k k'
    rcases orErr_same k k' with ⟨e', rfl, rfl⟩ | ⟨x, y, rfl, rfl, px, py⟩
    · rfl
    · exact exactly_perm px py
  have ids : ∀ {e : Option Err} {q q' : Except Err (List K)} {E : K → K → Prop} {id : K},
      Spec.OrErr e q (fun l => BfsDone E id l) → Spec.OrErr e q' (fun l => BfsDone E id l) →
      (Res.idsE q : Res K T).Same (Res.idsE q') := by
    intro e q q' E id k k'
    rcases orErr_same k k' with ⟨e', rfl, rfl⟩ | ⟨x, y, rfl, rfl, px, py⟩
    · rfl
    · exact (List.perm_ext_iff_of_nodup px.nodup py.nodup).mpr (fun z => (px.mem z).trans (py.mem z).symm)
  cases op with
  | addVertex id v =>
    cases r <;> first | exact h.elim | skip
    cases r' <;> first | exact h'.elim | skip
    exact congrArg Res.err (Eq.trans h (Eq.symm h'))
  | getVertex id =>
    cases r <;> first | exact h.elim | skip
    cases r' <;> first | exact h'.elim | skip
    rcases orErr_same (e := Spec.vertexErr a id) h h' with ⟨e', rfl, rfl⟩ | ⟨x, y, rfl, rfl, px, py⟩
    · rfl
    · rw [px] at py; cases py; rfl
  | deleteVertex id =>
    cases r <;> first | exact h.elim | skip
    cases r' <;> first | exact h'.elim | skip
    exact congrArg Res.err (Eq.trans h (Eq.symm h'))
  | addEdge s t =>
    cases r <;> first | exact h.elim | skip
    cases r' <;> first | exact h'.elim | skip
    rename_i q q'
    have : q = q' := by
      unfold Spec.ok at h h'
      simp only at h h'
      cases he : Spec.edgeErr a s t with
      | some e => rw [he] at h h'; rw [h, h']
      | none =>
        rw [he] at h h'
        by_cases h1 : a.E s t
        · rw [h.1 h1, h'.1 h1]
        · by_cases h2 : TransGen a.E t s
          · rw [h.2.1 h1 h2, h'.2.1 h1 h2]
          · rw [h.2.2 h1 h2, h'.2.2 h1 h2]
    rw [this]; rfl
  | isEdge s t =>
    cases r <;> first | exact h.elim | skip
    cases r' <;> first | exact h'.elim | skip
    rcases orErr_same (e := Spec.edgeErr a s t) h h' with ⟨e', rfl, rfl⟩ | ⟨x, y, rfl, rfl, px, py⟩
    · rfl
    · have : x = y := Bool.eq_iff_iff.mpr (px.trans py.symm)
      rw [this]; rfl
  | deleteEdge s t =>
    cases r <;> first | exact h.elim | skip
    cases r' <;> first | exact h'.elim | skip
    rename_i q q'
    have : q = q' := by
      unfold Spec.ok at h h'
      simp only at h h'
      cases he : Spec.edgeErr a s t with
      | some e => rw [he] at h h'; rw [h, h']
      | none =>
        rw [he] at h h'
        by_cases h1 : a.E s t
        · rw [h.1 h1, h'.1 h1]
        · rw [h.2 h1, h'.2 h1]
    rw [this]; rfl
  | getOrder =>
    cases r <;> first | exact h.elim | skip
    cases r' <;> first | exact h'.elim | skip
    exact congrArg Res.count (count_unique h h')
  | getSize =>
    cases r <;> first | exact h.elim | skip
    cases r' <;> first | exact h'.elim | skip
    exact congrArg Res.count (count_unique h h')
  | getLeaves =>
    cases r <;> first | exact h.elim | skip
    cases r' <;> first | exact h'.elim | skip
    exact exactly_perm h h'
  | getRoots =>
    cases r <;> first | exact h.elim | skip
    cases r' <;> first | exact h'.elim | skip
    exact exactly_perm h h'
  | getVertices =>
    cases r <;> first | exact h.elim | skip
    cases r' <;> first | exact h'.elim | skip
    exact exactly_perm h h'
  | getParents id =>
    cases r <;> first | exact h.elim | skip
    cases r' <;> first | exact h'.elim | skip
    exact entriesE (e := Spec.vertexErr a id) h h'
  | getChildren id =>
    cases r <;> first | exact h.elim | skip
    cases r' <;> first | exact h'.elim | skip
    exact entriesE (e := Spec.vertexErr a id) h h'
  | getAncestors id =>
    cases r <;> first | exact h.elim | skip
    cases r' <;> first | exact h'.elim | skip
    exact entriesE (e := Spec.vertexErr a id) h h'
  | getDescendants id =>
    cases r <;> first | exact h.elim | skip
    cases r' <;> first | exact h'.elim | skip
    exact entriesE (e := Spec.vertexErr a id) h h'
  | getOrderedAncestors id =>
    cases r <;> first | exact h.elim | skip
    cases r' <;> first | exact h'.elim | skip
    exact ids (e := Spec.vertexErr a id) h h'
  | getOrderedDescendants id =>
    cases r <;> first | exact h.elim | skip
    cases r' <;> first | exact h'.elim | skip
    exact ids (e := Spec.vertexErr a id) h h'
  | reduceTransitively =>
    cases r <;> first | exact h.elim | skip
    cases r' <;> first | exact h'.elim | skip
    rfl
  | string =>
    cases r <;> first | exact h.elim | skip
    cases r' <;> first | exact h'.elim | skip
    obtain ⟨h1, h2, h3, h4, h5, h6⟩ := h
    obtain ⟨h1', h2', h3', h4', h5', h6'⟩ := h'
    have p1 := (List.perm_ext_iff_of_nodup h1 h1').mpr (fun x => (h2 x).trans (h2' x).symm)
    have p2 := (List.perm_ext_iff_of_nodup h3 h3').mpr (fun x => (h4 x.1 x.2).trans (h4' x.1 x.2).symm)
    exact ⟨by rw [h5, h5', p1.length_eq], by rw [h6, h6', p2.length_eq], p1, p2⟩

theorem okAll_same {a : Abs K T} {ops : List (Op K T)} {rs rs' : List (Res K T)} (h : Spec.okAll a ops rs)
    (h' : Spec.okAll a ops rs') : SameAll rs rs' := by
  induction ops generalizing a rs rs' with
  | nil =>
    cases rs <;> cases rs' <;> first | exact h.elim | exact h'.elim | trivial
  | cons op ops ih =>
    cases rs with
    | nil => exact h.elim
    | cons r rs =>
      cases rs' with
      | nil => exact h'.elim
      | cons r' rs' => exact ⟨ok_same h.1 h'.1, ih h.2 h'.2⟩

theorem okAll_append {a : Abs K T} {p q : List (Op K T)} {rs : List (Res K T)} (h : Spec.okAll a (p ++ q) rs) :
    ∃ r1 r2, rs = r1 ++ r2 ∧ Spec.okAll a p r1 ∧ Spec.okAll (Spec.after a p) q r2 := by
  induction p generalizing a rs with
  | nil => exact ⟨[], rs, rfl, trivial, h⟩
  | cons op p ih =>
    cases rs with
    | nil => exact h.elim
    | cons r rs =>
      obtain ⟨r1, r2, rfl, h1, h2⟩ := ih h.2
      exact ⟨r :: r1, r2, rfl, ⟨h.1, h1⟩, h2⟩

theorem okAll_length {a : Abs K T} {ops : List (Op K T)} {rs : List (Res K T)} (h : Spec.okAll a ops rs) :
    rs.length = ops.length := by
  induction ops generalizing a rs with
  | nil => cases rs <;> first | rfl | exact h.elim
  | cons op ops ih => cases rs with
    | nil => exact h.elim
    | cons r rs => simp [ih h.2]

theorem next_readOnly (a : Abs K T) {op : Op K T} (h : op.readOnly = true) : Spec.next a op = a := by
  cases op <;> first | rfl | (simp [Op.readOnly] at h)

theorem after_readOnly (a : Abs K T) {qs : List (Op K T)} (h : ∀ q ∈ qs, q.readOnly = true) :
    Spec.after a qs = a := by
  induction qs with
  | nil => rfl
  | cons q qs ih =>
    show Spec.after (Spec.next a q) qs = a
    rw [next_readOnly a (h q List.mem_cons_self)]
    exact ih (fun q hq => h q (List.mem_cons_of_mem _ hq))

theorem after_append (a : Abs K T) (p q : List (Op K T)) : Spec.after a (p ++ q) = Spec.after (Spec.after a p) q := by
  unfold Spec.after; rw [List.foldl_append]

/-! ## C05 -/

/-- **C05.** Two executions of a history under two independent choices of all iteration orders
return the same results, and the graphs left behind cannot be told apart. -/
theorem C05_order_independent (ω ω' : Oracle) (ops : List (Op K T)) :
    ∃ rs rs' σ σ', run ω ops St.init = some (rs, σ) ∧ run ω' ops St.init = some (rs', σ') ∧
      SameAll rs rs' ∧ (∀ k v, Bound σ k v ↔ Bound σ' k v) ∧ (∀ a b, Edge σ a b ↔ Edge σ' a b) := by
  obtain ⟨rs, σ, h1, h2, h3, h4⟩ := run_refines ω ops
  obtain ⟨rs', σ', h1', h2', h3', h4'⟩ := run_refines ω' ops
  refine ⟨rs, rs', σ, σ', h1, h1', okAll_same h4 h4', ?_, ?_⟩
  · intro k v; rw [bound_iff h2, bound_iff h2', h3, h3']
  · intro a b; rw [edge_iff h2, edge_iff h2', h3, h3']

/-- The two orders really are different: a query on the demo graph lists its map in two ways. -/
example : (∃ σ', Call Oracle.forward demo (.getChildren 1) (.entriesE (.ok [(2, 20), (3, 30), (4, 40)])) σ') ∧
    (∃ σ', Call Oracle.backward demo (.getChildren 1) (.entriesE (.ok [(4, 40), (3, 30), (2, 20)])) σ') :=
  ⟨call_of_result (by decide +kernel), call_of_result (by decide +kernel)⟩

/-! ## C04 -/

/-- **C04.** Inserting read-only calls `qs` anywhere in a history (and so also removing or repeating
them) leaves the results of all other calls, and the graph observed afterwards, the same; this
holds whatever iteration orders the two executions see. -/
theorem C04_queries_pure (ω ω' : Oracle) (pre qs post : List (Op K T)) (hq : ∀ q ∈ qs, q.readOnly = true) :
    ∃ r1 rq r2 σ r1' r2' σ',
      run ω (pre ++ qs ++ post) St.init = some (r1 ++ rq ++ r2, σ) ∧
      run ω' (pre ++ post) St.init = some (r1' ++ r2', σ') ∧
      r1.length = pre.length ∧ rq.length = qs.length ∧ r1'.length = pre.length ∧
      SameAll r1 r1' ∧ SameAll r2 r2' ∧
      (∀ k v, Bound σ k v ↔ Bound σ' k v) ∧ (∀ a b, Edge σ a b ↔ Edge σ' a b) := by
  obtain ⟨rs, σ, h1, h2, h3, h4⟩ := run_refines ω (pre ++ qs ++ post)
  obtain ⟨rs', σ', h1', h2', h3', h4'⟩ := run_refines ω' (pre ++ post)
  obtain ⟨r12, r3, rfl, k1, k3⟩ := okAll_append h4
  obtain ⟨r1, r2, rfl, k1, k2⟩ := okAll_append k1
  obtain ⟨s1, s3, rfl, l1, l3⟩ := okAll_append h4'
  rw [after_append, after_readOnly _ hq] at k3
  rw [after_append, after_append, after_readOnly _ hq, ← after_append] at h3
  refine ⟨r1, r2, r3, σ, s1, s3, σ', h1, h1', okAll_length k1, okAll_length k2, okAll_length l1,
    okAll_same k1 l1, okAll_same k3 l3, ?_, ?_⟩
  · intro k v; rw [bound_iff h2, bound_iff h2', h3, h3']
  · intro a b; rw [edge_iff h2, edge_iff h2', h3, h3']

/-- Queries do write to the state: here one fills the cache of the descendants of 1. -/
example : ((run Oracle.forward [.addVertex 1 0, .addVertex 2 0, .addEdge 1 2] (St.init : St Nat Nat)).map
      (fun p => (p.2.g.descC.map Prod.fst).contains 1)) = some false ∧
    ((run Oracle.forward [.addVertex 1 0, .addVertex 2 0, .addEdge 1 2, .getDescendants 1] (St.init : St Nat Nat)).map
      (fun p => (p.2.g.descC.map Prod.fst).contains 1)) = some true := by
  decide +kernel

/-! ## C06 -/

/-- `m'` is defined wherever `m` is, with the same outcome. -/
def M.Le {α : Type} (m m' : M K T α) : Prop := ∀ s x, m s = some x → m' s = some x

theorem M.Le.refl {α : Type} (m : M K T α) : M.Le m m := fun _ _ h => h

theorem M.Le.bind {α β : Type} {m m' : M K T α} {f f' : α → M K T β} (h : M.Le m m')
    (hf : ∀ a, M.Le (f a) (f' a)) : M.Le (m >>= f) (m' >>= f') := by
  intro s x hx
  change M.bind m f s = some x at hx
  show M.bind m' f' s = some x
  unfold M.bind at hx ⊢
  cases hm : m s with
  | none => rw [hm] at hx; cases hx
  | some p =>
    obtain ⟨a, s'⟩ := p
    rw [hm] at hx
    rw [h s _ hm]
    exact hf a s' x hx

theorem M.Le.loop {α β : Type} (xs : List α) (b : β) {f f' : β → α → M K T β}
    (hf : ∀ b a, M.Le (f b a) (f' b a)) : M.Le (M.loop xs b f) (M.loop xs b f') := by
  induction xs generalizing b with
  | nil => exact M.Le.refl _
  | cons x xs ih => exact M.Le.bind (hf b x) (fun b' => ih b')

theorem closureIDs_le (ω : Oracle) (d : Dir) (n : Nat) (id : K) :
    M.Le (closureIDs ω d n id : M K T _) (closureIDs ω d (n + 1) id) := by
  induction n generalizing id with
  | zero => intro s x h; cases h
  | succ n ih =>
    unfold closureIDs
    refine M.Le.bind (M.Le.refl _) (fun g => ?_)
    cases checkVertexID g id with
    | some e => exact M.Le.refl _
    | none =>
      dsimp only
      cases GoMap.get? (d.cache g) id with
      | some c => exact M.Le.refl _
      | none =>
        dsimp only
        cases GoMap.get? (d.edges g) id with
        | none => exact M.Le.refl _
        | some nexts =>
          refine M.Le.bind (M.Le.refl _) (fun cs => M.Le.bind (M.Le.loop _ _ (fun b a => ?_)) (fun _ => M.Le.refl _))
          exact M.Le.bind (ih a.1) (fun _ => M.Le.refl _)

theorem closureIDs_le' (ω : Oracle) (d : Dir) {n m : Nat} (hnm : n ≤ m) (id : K) :
    M.Le (closureIDs ω d n id : M K T _) (closureIDs ω d m id) := by
  induction hnm with
  | refl => exact M.Le.refl _
  | step _ ih => exact fun s x h => closureIDs_le ω d _ id s x (ih s x h)

theorem drain_le (step : Walk K → M K T (Option (K × Walk K))) (n : Nat) (w : Walk K) :
    M.Le (drain step n w) (drain step (n + 1) w) := by
  induction n generalizing w with
  | zero => intro s x h; cases h
  | succ n ih =>
    unfold drain
    refine M.Le.bind (M.Le.refl _) (fun r => ?_)
    cases r with
    | none => exact M.Le.refl _
    | some p => exact M.Le.bind (ih p.2) (fun _ => M.Le.refl _)

/-- The fuel of the model only cuts executions off, it never changes one: with more fuel the
recursive queries and the traversal loop, where they end at all, do exactly the same. -/
theorem C06_fuel_irrelevant (ω : Oracle) (n m : Nat) (hnm : n ≤ m) (id : K) (w : Walk K)
    (step : Walk K → M K T (Option (K × Walk K))) :
    M.Le (getDescendantsIDs ω n id : M K T _) (getDescendantsIDs ω m id) ∧
    M.Le (getAncestorsIDs ω n id : M K T _) (getAncestorsIDs ω m id) ∧
    M.Le (drain step n w) (drain step m w) := by
  simp only [getDescendantsIDs_eq, getAncestorsIDs_eq]
  refine ⟨closureIDs_le' ω _ hnm id, closureIDs_le' ω _ hnm id, ?_⟩
  induction hnm with
  | refl => exact M.Le.refl _
  | step _ ih => exact fun s x h => drain_le step _ w s x (ih s x h)

/-- **C06.** Every history of calls terminates, whatever the iteration orders: no call ever runs
out of the recursion depth that the model allows, which is the number of vertices plus one. -/
theorem C06_terminates (ω : Oracle) (ops : List (Op K T)) :
    ∃ rs σ, run ω ops St.init = some (rs, σ) ∧ rs.length = ops.length ∧
      ∀ ω' id n, σ.g.vertices.length < n →
        (getDescendantsIDs ω' n id σ).isSome = true ∧ (getAncestorsIDs ω' n id σ).isSome = true := by
  obtain ⟨rs, σ, h1, h2, h3, h4⟩ := run_refines ω ops
  refine ⟨rs, σ, h1, okAll_length h4, ?_⟩
  intro ω' id n hn
  have hf : fuelFor σ.g ≤ n := hn
  cases hck : checkVertexID σ.g id with
  | some e =>
    obtain ⟨k, rfl⟩ : ∃ k, n = k + 1 := ⟨n - 1, by omega⟩
    constructor
    · unfold getDescendantsIDs
      show (M.bind M.getG _ σ).isSome = true
      simp only [M.bind, M.getG, hck]; rfl
    · unfold getAncestorsIDs
      show (M.bind M.getG _ σ).isSome = true
      simp only [M.bind, M.getG, hck]; rfl
  | none =>
    have hv := (checkVertexID_none h2.base id).mp hck
    obtain ⟨a, s, he, -⟩ := getDescendantsIDs_spec ω' id σ h2 hv
    obtain ⟨a', s', he', -⟩ := getAncestorsIDs_spec ω' id σ h2 hv
    have hle := C06_fuel_irrelevant (T := T) ω' (fuelFor σ.g) n hf id ⟨[], []⟩ (fun _ => M.pure none)
    rw [hle.1 _ _ he, hle.2.1 _ _ he']
    exact ⟨rfl, rfl⟩

/-- The depth bound is not slack by more than one: a chain of three vertices with cold caches needs
depth three. -/
example : (run Oracle.forward
      [.addVertex 1 0, .addVertex 2 0, .addVertex 3 0, .addEdge 2 3, .addEdge 1 2, .addVertex 4 0,
        .addEdge 3 4, .deleteVertex (4 : Nat)] (St.init : St Nat Nat)).map
      (fun p => ((getDescendantsIDs Oracle.forward 2 1 p.2).isSome, (getDescendantsIDs Oracle.forward 3 1 p.2).isSome))
    = some (false, true) := by decide +kernel

/-! ## C07 -/

/-- The bindings that a client expects from the calls it made and the results it got. -/
def bindingsStep (b : K → Option T) : Op K T × Res K T → K → Option T
  | (.addVertex id v, .err none) => fun k => if k = id then some v else b k
  | (.deleteVertex id, .err none) => fun k => if k = id then none else b k
  | _ => b

/-- Bindings after a history of calls and their results. -/
def bindings (h : List (Op K T × Res K T)) : K → Option T := h.foldl bindingsStep (fun _ => none)

theorem bindingsStep_next {a : Abs K T} {op : Op K T} {r : Res K T} (hz : a.V zero = none) (h : Spec.ok a op r) :
    bindingsStep a.V (op, r) = (Spec.next a op).V := by
  cases op with
  | addVertex id v =>
    cases r <;> first | exact h.elim | skip
    rename_i q
    have hq : q = Spec.addVertexErr a id := h
    cases q with
    | none => funext k; simp [bindingsStep, Spec.next, ← hq]
    | some e => funext k; simp [bindingsStep, Spec.next, ← hq]
  | deleteVertex id =>
    cases r <;> first | exact h.elim | skip
    rename_i q
    have hq : q = Spec.vertexErr a id := h
    cases q with
    | none => rfl
    | some e =>
      funext k
      simp only [bindingsStep, Spec.next]
      by_cases hk : k = id
      · subst hk
        rw [if_pos rfl]
        unfold Spec.vertexErr at hq
        by_cases h1 : k = zero
        · rw [h1]; exact hz
        · rw [if_neg h1] at hq
          cases hv : a.V k with
          | none => rfl
          | some v => simp [hv] at hq
      · rw [if_neg hk]
  | _ => rfl

theorem next_zero {a : Abs K T} (op : Op K T) (hz : a.V zero = none) : (Spec.next a op).V zero = none := by
  cases op with
  | addVertex id v =>
    show (if zero = id ∧ _ then _ else _) = none
    rw [if_neg]
    · exact hz
    · rintro ⟨rfl, h⟩
      unfold Spec.addVertexErr at h
      simp at h
  | deleteVertex id =>
    show (if zero = id then none else _) = none
    split <;> first | rfl | exact hz
  | _ => exact hz

theorem bindings_after {a : Abs K T} (hz : a.V zero = none) {ops : List (Op K T)} {rs : List (Res K T)}
    (h : Spec.okAll a ops rs) : (ops.zip rs).foldl bindingsStep a.V = (Spec.after a ops).V := by
  induction ops generalizing a rs with
  | nil => rfl
  | cons op ops ih =>
    cases rs with
    | nil => exact h.elim
    | cons r rs =>
      show (ops.zip rs).foldl bindingsStep (bindingsStep a.V (op, r)) = _
      rw [bindingsStep_next hz h.1]
      exact ih (next_zero op hz) h.2

/-- **C07.** The vertex calls behave like a finite map: with `b` the bindings made by the successful
`AddVertex`/`DeleteVertex` calls of the history, `AddVertex` fails exactly for the zero id and for
bound ids, `GetVertex` returns the binding, `GetVertices` all of them and `GetOrder` their number. -/
theorem C07_vertex_store (ω ω' : Oracle) (ops : List (Op K T)) (rs : List (Res K T)) (σ : St K T)
    (h : run ω ops St.init = some (rs, σ)) :
    let b := bindings (ops.zip rs)
    (∀ id v, ∃ σ', Call ω' σ (.addVertex id v)
        (.err (if id = zero then some .vertexIDEmpty
          else if (b id).isSome then some .vertexDuplicate else none)) σ') ∧
    (∀ id, ∃ σ', Call ω' σ (.getVertex id)
        (.payload (if id = zero then .error .vertexIDEmpty
          else match b id with | none => .error .vertexNotFound | some v => .ok v)) σ') ∧
    (∃ m σ', Call ω' σ .getVertices (.entries m) σ' ∧ (m.map Prod.fst).Nodup ∧
        (∀ k v, (k, v) ∈ m ↔ b k = some v) ∧
      ∃ σ'', Call ω' σ .getOrder (.count m.length) σ'') := by
  intro b
  obtain ⟨rs', σ', h1, hi, h3, h4⟩ := run_refines ω ops
  rw [h] at h1; cases h1
  have hb : b = (abs σ.g).V := by
    rw [h3]; exact bindings_after (a := Spec.empty) rfl h4
  rw [hb]
  refine ⟨?_, ?_, ?_⟩
  · intro id v
    obtain ⟨r, σ', hc⟩ := call_exists ω' hi (.addVertex id v)
    have hok := (hc.spec hi).2.2
    cases r <;> first | exact hok.elim | skip
    rename_i q
    have hq : q = Spec.addVertexErr (abs σ.g) id := hok
    subst hq
    exact ⟨σ', hc⟩
  · intro id
    obtain ⟨r, σ', hc⟩ := call_exists ω' hi (.getVertex id)
    have hok := (hc.spec hi).2.2
    cases r <;> first | exact hok.elim | skip
    rename_i q
    refine ⟨σ', ?_⟩
    suffices hq : q = (if id = zero then .error .vertexIDEmpty
          else match (abs σ.g).V id with | none => .error .vertexNotFound | some v => .ok v) by
      rw [← hq]; exact hc
    by_cases h1 : id = zero
    · rw [if_pos h1]
      exact orErr_some (e := Spec.vertexErr (abs σ.g) id) (by unfold Spec.vertexErr; rw [if_pos h1]) hok
    · rw [if_neg h1]
      cases hv : (abs σ.g).V id with
      | none => exact orErr_some (e := Spec.vertexErr (abs σ.g) id) (by unfold Spec.vertexErr; simp [h1, hv]) hok
      | some v =>
        obtain ⟨x, hx, px⟩ := orErr_none (e := Spec.vertexErr (abs σ.g) id)
          (by unfold Spec.vertexErr; simp [h1, hv]) hok
        rw [hv] at px; cases px; exact hx
  · obtain ⟨r, σ', hc⟩ := call_exists ω' hi .getVertices
    have hok := (hc.spec hi).2.2
    cases r <;> first | exact hok.elim | skip
    rename_i m
    refine ⟨m, σ', hc, hok.1, hok.2, ?_⟩
    obtain ⟨r, σ'', hc2⟩ := call_exists ω' hi .getOrder
    have hok2 := (hc2.spec hi).2.2
    cases r <;> first | exact hok2.elim | skip
    rename_i n
    refine ⟨σ'', ?_⟩
    suffices n = m.length by rw [← this]; exact hc2
    refine count_unique hok2 ⟨m.map Prod.fst, hok.1, fun k => ?_, by simp⟩
    show _ ↔ ((abs σ.g).V k).isSome = true
    rw [List.mem_map, Option.isSome_iff_exists]
    constructor
    · rintro ⟨⟨k', v⟩, hm, rfl⟩; exact ⟨v, (hok.2 k' v).mp hm⟩
    · rintro ⟨v, hv⟩; exact ⟨(k, v), (hok.2 k v).mpr hv, rfl⟩

/-- A history with a rejected duplicate, a deletion and a re-binding. -/
example : (run Oracle.forward [.addVertex 1 10, .addVertex 1 11, .addVertex 2 20, .deleteVertex 1, .addVertex 1 (12 : Nat)]
      (St.init : St Nat Nat)).map
      (fun p => (bindings (([.addVertex 1 10, .addVertex 1 11, .addVertex 2 20, .deleteVertex 1, .addVertex 1 12] :
        List (Op Nat Nat)).zip p.1) 1)) = some (some 12) := by decide +kernel

/-! ## C19 -/

/-- The edges that a client expects from the calls it made and the results it got. -/
def edgesStep (E : K → K → Prop) : Op K T × Res K T → K → K → Prop
  | (.addEdge s t, .err none) => fun x y => E x y ∨ (x = s ∧ y = t)
  | (.deleteEdge s t, .err none) => fun x y => E x y ∧ ¬ (x = s ∧ y = t)
  | (.deleteVertex id, .err none) => fun x y => E x y ∧ x ≠ id ∧ y ≠ id
  | (.reduceTransitively, .unit) => fun x y => E x y ∧ ¬ Implied E x y
  | _ => E

/-- Edges after a history of calls and their results. -/
def edgesOf (h : List (Op K T × Res K T)) : K → K → Prop := h.foldl edgesStep (fun _ _ => False)

/-- Ends of edges are vertices. -/
def Abs.EndsOk (a : Abs K T) : Prop := ∀ x y, a.E x y → (a.V x).isSome = true ∧ (a.V y).isSome = true

theorem edgeErr_none' {a : Abs K T} {s t : K} (h : Spec.edgeErr a s t = none) :
    (a.V s).isSome = true ∧ (a.V t).isSome = true := by
  unfold Spec.edgeErr at h
  cases h1 : a.V s <;> cases h2 : a.V t <;> simp [h1, h2] at h ⊢ <;> (repeat' split at h) <;> simp_all

theorem edgesStep_next {σ σ' : St K T} {ω : Oracle} {op : Op K T} {r : Res K T} (hi : Inv σ.g)
    (hc : Call ω σ op r σ') : edgesStep (abs σ.g).E (op, r) = (abs σ'.g).E := by
  obtain ⟨hi', hn, h⟩ := hc.spec hi
  rw [hn]
  cases op with
  | addEdge s t =>
    cases r <;> first | exact h.elim | skip
    rename_i q
    have key : q = none ↔ Spec.CanAdd (abs σ.g) s t := by
      unfold Spec.CanAdd
      unfold Spec.ok at h
      simp only at h
      cases he : Spec.edgeErr (abs σ.g) s t with
      | some e => rw [he] at h; rw [h]; simp
      | none =>
        rw [he] at h
        by_cases h6 : (abs σ.g).E s t
        · rw [h.1 h6]; simp [h6]
        · by_cases h7 : TransGen (abs σ.g).E t s
          · rw [h.2.1 h6 h7]; simp [h7]
          · rw [h.2.2 h6 h7]; simp [h6, h7]
    cases q with
    | none => funext x y; simp [edgesStep, Spec.next, ← key]
    | some e => funext x y; simp [edgesStep, Spec.next, ← key]
  | deleteEdge s t =>
    cases r <;> first | exact h.elim | skip
    rename_i q
    cases q with
    | none => rfl
    | some e =>
      funext x y
      refine propext ⟨fun hE => ⟨hE, ?_⟩, fun hE => hE.1⟩
      rintro ⟨rfl, rfl⟩
      have hE' : (abs σ.g).E x y := hE
      have hne : Spec.edgeErr (abs σ.g) x y = none := by
        rw [edgeErr_none hi, ← known_iff hi, ← known_iff hi]
        refine ⟨?_, edge_known hi ((edge_iff hi x y).mpr hE')⟩
        rintro rfl; exact hi.base.acyc _ (.single hE')
      unfold Spec.ok at h
      simp only [hne] at h
      cases h.1 hE'
  | deleteVertex id =>
    cases r <;> first | exact h.elim | skip
    rename_i q
    cases q with
    | none => rfl
    | some e =>
      funext x y
      refine propext ⟨fun hE => ?_, fun hE => hE.1⟩
      have hE' : (abs σ.g).E x y := hE
      have hk := edge_known hi ((edge_iff hi x y).mpr hE')
      rw [← known_vertexErr hi, ← known_vertexErr hi] at hk
      have h' : some e = Spec.vertexErr (abs σ.g) id := h
      refine ⟨hE, ?_, ?_⟩
      · rintro rfl; rw [hk.1] at h'; cases h'
      · rintro rfl; rw [hk.2] at h'; cases h'
  | reduceTransitively =>
    cases r <;> first | exact h.elim | rfl
  | _ => rfl

theorem edgesOf_run {ω : Oracle} {ops : List (Op K T)} {rs : List (Res K T)} {σ σ' : St K T} (hi : Inv σ.g)
    (h : run ω ops σ = some (rs, σ')) :
    Inv σ'.g ∧ (ops.zip rs).foldl edgesStep (abs σ.g).E = (abs σ'.g).E := by
  induction ops generalizing σ rs with
  | nil => simp only [run, Option.some.injEq, Prod.mk.injEq] at h; obtain ⟨rfl, rfl⟩ := h; exact ⟨hi, rfl⟩
  | cons op ops ih =>
    obtain ⟨r, σ1, hc⟩ := call_exists ω hi op
    have hc' : exec ω op σ = some (r, σ1) := hc
    obtain ⟨hi1, -, -⟩ := hc.spec hi
    cases hr : run ω ops σ1 with
    | none => simp [run, hc', hr] at h
    | some p =>
      obtain ⟨rs', σ2⟩ := p
      simp only [run, hc', hr, Option.some.injEq, Prod.mk.injEq] at h
      obtain ⟨rfl, rfl⟩ := h
      obtain ⟨k1, k2⟩ := ih hi1 hr
      refine ⟨k1, ?_⟩
      show (ops.zip rs').foldl edgesStep (edgesStep (abs σ.g).E (op, r)) = _
      rw [edgesStep_next hi hc, k2]

/-- **C19** (first part).  `IsEdge` answers according to the successful calls of the history, and
`DeleteEdge` succeeds exactly on present edges and removes exactly that edge. -/
theorem C19_edge_history (ω ω' : Oracle) (ops : List (Op K T)) (rs : List (Res K T)) (σ : St K T)
    (h : run ω ops St.init = some (rs, σ)) (s t : K) :
    (Edge σ s t ↔ edgesOf (ops.zip rs) s t) ∧
    (s ≠ t → Known σ s → Known σ t →
      (∃ b σ', Call ω' σ (.isEdge s t) (.flag (.ok b)) σ' ∧ (b = true ↔ edgesOf (ops.zip rs) s t)) ∧
      ∃ r σ', Call ω' σ (.deleteEdge s t) (.err r) σ' ∧
        r = (open Classical in if Edge σ s t then none else some .edgeNotFound) ∧
        (∀ k v, Bound σ' k v ↔ Bound σ k v) ∧
        ∀ x y, Edge σ' x y ↔ Edge σ x y ∧ ¬ (x = s ∧ y = t)) := by
  have hE0 : (abs (St.init : St K T).g).E = fun _ _ => False := by
    rw [show abs (St.init : St K T).g = Spec.empty from abs_new]; rfl
  obtain ⟨hi, hE⟩ := edgesOf_run (σ := St.init) inv_new h
  rw [hE0] at hE
  have hEq : Edge σ = edgesOf (ops.zip rs) := by rw [edge_eq hi, ← hE]; rfl
  refine ⟨by rw [hEq], fun hst hs ht => ?_⟩
  have hne : Spec.edgeErr (abs σ.g) s t = none :=
    (edgeErr_none hi s t).mpr ⟨hst, (known_iff hi s).mp hs, (known_iff hi t).mp ht⟩
  constructor
  · obtain ⟨r, σ', hc⟩ := call_exists ω' hi (.isEdge s t)
    have hok := (hc.spec hi).2.2
    cases r <;> first | exact hok.elim | skip
    obtain ⟨b, rfl, hb⟩ := orErr_none hne hok
    refine ⟨b, σ', hc, ?_⟩
    rw [hb, ← hEq, edge_eq hi]
  · obtain ⟨r, σ', hc⟩ := call_exists ω' hi (.deleteEdge s t)
    obtain ⟨hi', hn, hok⟩ := hc.spec hi
    cases r <;> first | exact hok.elim | skip
    rename_i q
    refine ⟨q, σ', hc, ?_, ?_, ?_⟩
    · unfold Spec.ok at hok
      simp only [hne] at hok
      by_cases hx : Edge σ s t
      · rw [if_pos hx]; exact hok.1 ((edge_iff hi s t).mp hx)
      · rw [if_neg hx]; exact hok.2 (fun h => hx ((edge_iff hi s t).mpr h))
    · intro k v; rw [bound_iff hi', bound_iff hi, hn]; rfl
    · intro x y; rw [edge_iff hi', edge_iff hi, hn]; rfl

/-- **C19** (second part).  A successful `AddEdge` followed by `DeleteEdge` of the same pair, and a
successful `DeleteEdge` followed by `AddEdge`, both succeed and restore every observable. -/
theorem C19_inverse (ω ω' : Oracle) (ops : List (Op K T)) (σ σ1 : St K T) (h : After ω ops σ) (s t : K) :
    (Call ω' σ (.addEdge s t) (.err none) σ1 →
      ∃ σ2, Call ω' σ1 (.deleteEdge s t) (.err none) σ2 ∧
        (∀ k v, Bound σ2 k v ↔ Bound σ k v) ∧ ∀ x y, Edge σ2 x y ↔ Edge σ x y) ∧
    (Call ω' σ (.deleteEdge s t) (.err none) σ1 →
      ∃ σ2, Call ω' σ1 (.addEdge s t) (.err none) σ2 ∧
        (∀ k v, Bound σ2 k v ↔ Bound σ k v) ∧ ∀ x y, Edge σ2 x y ↔ Edge σ x y) := by
  have hi := h.inv
  constructor
  · intro hc
    obtain ⟨hi1, hn1, hok1⟩ := hc.spec hi
    have hstep := edgesStep_next hi hc
    have hE1 : (abs σ1.g).E s t := by rw [← hstep]; exact .inr ⟨rfl, rfl⟩
    have hnot : ¬ (abs σ.g).E s t := by
      intro hE
      unfold Spec.ok at hok1
      simp only at hok1
      cases he : Spec.edgeErr (abs σ.g) s t with
      | some e => rw [he] at hok1; cases hok1
      | none => rw [he] at hok1; cases hok1.1 hE
    obtain ⟨r, σ2, hc2⟩ := call_exists ω' hi1 (.deleteEdge s t)
    obtain ⟨hi2, hn2, hok2⟩ := hc2.spec hi1
    cases r <;> first | exact hok2.elim | skip
    rename_i q
    have hne : Spec.edgeErr (abs σ1.g) s t = none := by
      rw [edgeErr_none hi1, ← known_iff hi1, ← known_iff hi1]
      refine ⟨?_, edge_known hi1 ((edge_iff hi1 s t).mpr hE1)⟩
      rintro rfl; exact hi1.base.acyc _ (.single hE1)
    have hq : q = none := by
      unfold Spec.ok at hok2
      simp only [hne] at hok2
      exact hok2.1 hE1
    subst hq
    refine ⟨σ2, hc2, ?_, ?_⟩
    · intro k v; rw [bound_iff hi2, bound_iff hi, hn2, hn1]; rfl
    · intro x y
      rw [edge_iff hi2, edge_iff hi, hn2]
      show (abs σ1.g).E x y ∧ ¬ (x = s ∧ y = t) ↔ _
      rw [← hstep]
      show ((abs σ.g).E x y ∨ (x = s ∧ y = t)) ∧ ¬ (x = s ∧ y = t) ↔ _
      constructor
      · rintro ⟨h1 | h1, h2⟩
        · exact h1
        · exact absurd h1 h2
      · intro hE
        refine ⟨.inl hE, ?_⟩
        rintro ⟨rfl, rfl⟩; exact hnot hE
  · intro hc
    obtain ⟨hi1, hn1, hok1⟩ := hc.spec hi
    have hstep := edgesStep_next hi hc
    have hne : Spec.edgeErr (abs σ.g) s t = none := by
      unfold Spec.ok at hok1
      simp only at hok1
      cases he : Spec.edgeErr (abs σ.g) s t with
      | some e => rw [he] at hok1; cases hok1
      | none => rfl
    have hE : (abs σ.g).E s t := by
      unfold Spec.ok at hok1
      simp only [hne] at hok1
      by_cases hE : (abs σ.g).E s t
      · exact hE
      · cases hok1.2 hE
    have hE1 : ∀ x y, (abs σ1.g).E x y ↔ (abs σ.g).E x y ∧ ¬ (x = s ∧ y = t) := by
      intro x y; rw [← hstep]; rfl
    obtain ⟨r, σ2, hc2⟩ := call_exists ω' hi1 (.addEdge s t)
    obtain ⟨hi2, hn2, hok2⟩ := hc2.spec hi1
    cases r <;> first | exact hok2.elim | skip
    rename_i q
    have hne1 : Spec.edgeErr (abs σ1.g) s t = none := by rw [hn1]; exact hne
    have hq : q = none := by
      unfold Spec.ok at hok2
      simp only [hne1] at hok2
      refine hok2.2.2 (fun h => ((hE1 s t).mp h).2 ⟨rfl, rfl⟩) (fun h => ?_)
      have : TransGen (abs σ.g).E t s := TransGen.mono (fun a b h => ((hE1 a b).mp h).1) _ _ h
      exact hi.base.acyc t (this.tail hE)
    subst hq
    have hstep2 := edgesStep_next hi1 hc2
    refine ⟨σ2, hc2, ?_, ?_⟩
    · intro k v; rw [bound_iff hi2, bound_iff hi, hn2, hn1]; rfl
    · intro x y
      rw [edge_iff hi2, edge_iff hi, ← hstep2]
      show (abs σ1.g).E x y ∨ (x = s ∧ y = t) ↔ _
      rw [hE1]
      constructor
      · rintro (h | ⟨rfl, rfl⟩)
        · exact h.1
        · exact hE
      · intro h
        by_cases hx : x = s ∧ y = t
        · exact .inr hx
        · exact .inl ⟨h, hx⟩

/-- Both kinds of calls succeed in the demo graph. -/
example : (∃ σ', Call Oracle.forward demo (.addEdge 2 3) (.err none) σ') ∧
    (∃ σ', Call Oracle.forward demo (.deleteEdge 1 4) (.err none) σ') :=
  ⟨call_of_result (by decide +kernel), call_of_result (by decide +kernel)⟩

/-! ## C21 -/

/-- **C21.** The text returned by `String` consists of the header with the numbers of vertices and
edges, one line for each vertex, and one line for each edge. -/
theorem C21_string (ω ω' : Oracle) (ops : List (Op K T)) (σ : St K T) (h : After ω ops σ) (fmtK : K → String) :
    ∃ l σ', stringListing ω' σ = some (l, σ') ∧
      ∃ (vs : List K) (es : List (K × K)), vs.Nodup ∧ (∀ k, k ∈ vs ↔ Known σ k) ∧
        es.Nodup ∧ (∀ a b, (a, b) ∈ es ↔ Edge σ a b) ∧
        renderString fmtK l =
          s!"DAG Vertices: {vs.length} - Edges: {es.length}\nVertices:\n" ++
          String.join (vs.map fun k => "  " ++ fmtK k ++ "\n") ++ "Edges:\n" ++
          String.join (es.map fun e => "  " ++ fmtK e.1 ++ " -> " ++ fmtK e.2 ++ "\n") := by
  have hi := h.inv
  obtain ⟨l, σ', hl, h0, h1, h2, h3, h4, h5, h6⟩ := stringListing_spec ω' σ hi
  refine ⟨l, σ', hl, l.vertices, l.edges, h1, ?_, h3, ?_, ?_⟩
  · intro k; rw [h2]; exact isSome_iff_known hi k
  · intro a b; rw [h4, edge_eq hi]; rfl
  · unfold renderString
    rw [h5, h6]
    simp [String.append_assoc, toString]

/-- The text for the demo graph under one order. -/
example : (stringListing Oracle.backward demo).map (fun p => renderString toString p.1) =
    some ("DAG Vertices: 4 - Edges: 5\nVertices:\n  1\n  2\n  3\n  4\nEdges:\n" ++
      "  1 -> 2\n  1 -> 3\n  1 -> 4\n  2 -> 4\n  3 -> 4\n") := by decide +kernel

end Verif.Dag
