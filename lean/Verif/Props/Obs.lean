import Verif.Dag.Run

/-!
# What a client of the graph can observe

The property theorems about the graph are stated with these notions only: a state reached by a
history of calls, and the result of one more call in it.
-/

set_option linter.unusedSectionVars false

namespace Verif.Dag
open M Relation

variable {K T : Type} [DecidableEq K] [GoZero K] [GoZero T]

/-- `σ` is reached from a fresh graph by the calls `ops`, iteration orders chosen by `ω`. -/
def After (ω : Oracle) (ops : List (Op K T)) (σ : St K T) : Prop :=
  ∃ rs, run ω ops St.init = some (rs, σ)

/-- The call `op` made in state `σ` returns `r` and leads to `σ'`. -/
def Call (ω : Oracle) (σ : St K T) (op : Op K T) (r : Res K T) (σ' : St K T) : Prop :=
  exec ω op σ = some (r, σ')

/-- `GetVertex(k)` returns `v`. -/
def Bound (σ : St K T) (k : K) (v : T) : Prop :=
  ∀ ω, ∃ σ', Call ω σ (.getVertex k) (.payload (.ok v)) σ'

/-- `GetVertex(k)` succeeds. -/
def Known (σ : St K T) (k : K) : Prop := ∃ v, Bound σ k v

/-- `IsEdge(a,b)` returns true. -/
def Edge (σ : St K T) (a b : K) : Prop :=
  ∀ ω, ∃ σ', Call ω σ (.isEdge a b) (.flag (.ok true)) σ'

/-! ### Link with the abstract graph -/

theorem After.spec {ω : Oracle} {ops : List (Op K T)} {σ : St K T} (h : After ω ops σ) :
    Inv σ.g ∧ abs σ.g = Spec.after Spec.empty ops := by
  obtain ⟨rs, h⟩ := h
  obtain ⟨rs', σ', h1, h2, h3, _⟩ := run_refines ω ops
  rw [h] at h1; cases h1
  exact ⟨h2, h3⟩

theorem After.inv {ω : Oracle} {ops : List (Op K T)} {σ : St K T} (h : After ω ops σ) : Inv σ.g := h.spec.1

theorem Call.spec {ω : Oracle} {σ σ' : St K T} {op : Op K T} {r : Res K T} (hi : Inv σ.g)
    (h : Call ω σ op r σ') :
    Inv σ'.g ∧ abs σ'.g = Spec.next (abs σ.g) op ∧ Spec.ok (abs σ.g) op r :=
  Tot.elim (exec_refines ω op σ hi) h

theorem call_exists (ω : Oracle) {σ : St K T} (hi : Inv σ.g) (op : Op K T) : ∃ r σ', Call ω σ op r σ' := by
  obtain ⟨r, σ', h, _⟩ := exec_refines ω op σ hi
  exact ⟨r, σ', h⟩

theorem vertexErr_none {σ : St K T} (hi : Inv σ.g) (k : K) :
    Spec.vertexErr (abs σ.g) k = none ↔ ∃ v, (abs σ.g).V k = some v := by
  rw [← checkVertexID_eq, checkVertexID_none hi.base, GoMap.has_iff]; rfl

theorem edgeErr_none {σ : St K T} (hi : Inv σ.g) (s t : K) :
    Spec.edgeErr (abs σ.g) s t = none ↔
      s ≠ t ∧ (∃ v, (abs σ.g).V s = some v) ∧ ∃ v, (abs σ.g).V t = some v := by
  rw [← checkEdgeIDs_eq, checkEdgeIDs_none hi.base, GoMap.has_iff, GoMap.has_iff]; rfl

theorem orErr_ok {α : Type} {e : Option Err} {x : α} {P : α → Prop} (h : Spec.OrErr e (.ok x) P) :
    e = none ∧ P x := by
  cases e with
  | some e => cases h
  | none => obtain ⟨y, hy, h⟩ := h; cases hy; exact ⟨rfl, h⟩

theorem orErr_error {α : Type} {e : Option Err} {e' : Err} {P : α → Prop}
    (h : Spec.OrErr e (.error e') P) : e = some e' := by
  cases e with
  | some e => cases h; rfl
  | none => obtain ⟨y, hy, h⟩ := h; cases hy

theorem orErr_none {α : Type} {e : Option Err} {r : Except Err α} {P : α → Prop} (he : e = none)
    (h : Spec.OrErr e r P) : ∃ x, r = .ok x ∧ P x := by
  subst he; exact h

theorem orErr_some {α : Type} {e : Option Err} {e' : Err} {r : Except Err α} {P : α → Prop}
    (he : e = some e') (h : Spec.OrErr e r P) : r = .error e' := by
  subst he; exact h

theorem bound_iff {σ : St K T} (hi : Inv σ.g) (k : K) (v : T) :
    Bound σ k v ↔ (abs σ.g).V k = some v := by
  constructor
  · intro h
    obtain ⟨σ', h⟩ := h ⟨fun _ _ l => l, fun _ _ _ => List.Perm.refl _⟩
    obtain ⟨_, _, h⟩ := h.spec hi
    exact (orErr_ok (e := Spec.vertexErr (abs σ.g) k) h).2
  · intro hv ω
    obtain ⟨r, σ', h⟩ := call_exists ω hi (.getVertex k)
    obtain ⟨_, _, hok⟩ := h.spec hi
    cases r with
    | payload r =>
      obtain ⟨x, rfl, hx⟩ := orErr_none (e := Spec.vertexErr (abs σ.g) k) ((vertexErr_none hi k).mpr ⟨v, hv⟩) hok
      rw [hv] at hx; cases hx
      exact ⟨σ', h⟩
    | _ => exact hok.elim

theorem known_iff {σ : St K T} (hi : Inv σ.g) (k : K) : Known σ k ↔ ∃ v, (abs σ.g).V k = some v := by
  unfold Known; simp only [bound_iff hi]

theorem edge_iff {σ : St K T} (hi : Inv σ.g) (a b : K) : Edge σ a b ↔ (abs σ.g).E a b := by
  constructor
  · intro h
    obtain ⟨σ', h⟩ := h ⟨fun _ _ l => l, fun _ _ _ => List.Perm.refl _⟩
    obtain ⟨_, _, h⟩ := h.spec hi
    exact (orErr_ok (e := Spec.edgeErr (abs σ.g) a b) h).2.mp rfl
  · intro hE ω
    obtain ⟨r, σ', h⟩ := call_exists ω hi (.isEdge a b)
    obtain ⟨_, _, hok⟩ := h.spec hi
    cases r with
    | flag r =>
      have hne : Spec.edgeErr (abs σ.g) a b = none := by
        rw [edgeErr_none hi]
        refine ⟨?_, ?_⟩
        · rintro rfl; exact hi.base.acyc _ (.single hE)
        · have := hi.base.ends _ _ hE
          rw [GoMap.has_iff, GoMap.has_iff] at this; exact this
      obtain ⟨x, rfl, hx⟩ := orErr_none hne hok
      rw [hx.mpr hE] at h
      exact ⟨σ', h⟩
    | _ => exact hok.elim

theorem edge_eq {σ : St K T} (hi : Inv σ.g) : Edge σ = (abs σ.g).E := by
  funext a b; exact propext (edge_iff hi a b)

theorem known_vertexErr {σ : St K T} (hi : Inv σ.g) (k : K) :
    Spec.vertexErr (abs σ.g) k = none ↔ Known σ k := by
  rw [vertexErr_none hi, known_iff hi]

theorem not_known_zero {σ : St K T} (hi : Inv σ.g) : ¬ Known σ (zero : K) := by
  rw [known_iff hi]
  rintro ⟨v, hv⟩
  have := hi.base.nz
  rw [GoMap.has_eq_false] at this
  rw [show (abs σ.g).V zero = GoMap.get? σ.g.vertices zero from rfl, this] at hv
  cases hv

theorem isNone_iff_not_known {σ : St K T} (hi : Inv σ.g) (k : K) :
    ((abs σ.g).V k).isNone = true ↔ ¬ Known σ k := by
  rw [known_iff hi, Option.isNone_iff_eq_none]
  cases (abs σ.g).V k <;> simp

theorem isSome_iff_known {σ : St K T} (hi : Inv σ.g) (k : K) :
    ((abs σ.g).V k).isSome = true ↔ Known σ k := by
  rw [known_iff hi, Option.isSome_iff_exists]

theorem edge_known {σ : St K T} (hi : Inv σ.g) {a b : K} (h : Edge σ a b) : Known σ a ∧ Known σ b := by
  rw [edge_iff hi] at h
  have := hi.base.ends a b h
  rw [known_iff hi, known_iff hi]
  rw [GoMap.has_iff, GoMap.has_iff] at this
  exact this

/-! ### Concrete data for the examples -/

instance : GoZero Nat := ⟨0⟩

/-- Visits every map in list order. -/
def Oracle.forward : Oracle := ⟨fun _ _ l => l, fun _ _ l => List.Perm.refl l⟩
/-- Visits every map backwards. -/
def Oracle.backward : Oracle := ⟨fun _ _ l => l.reverse, fun _ _ l => List.reverse_perm l⟩

/-- Used to exhibit concrete calls: the result is computed by the kernel. -/
theorem call_of_result {ω : Oracle} {σ : St K T} {op : Op K T} {r : Res K T}
    (h : (exec ω op σ).map Prod.fst = some r) : ∃ σ', Call ω σ op r σ' := by
  unfold Call
  cases he : exec ω op σ with
  | none => rw [he] at h; simp at h
  | some p => rw [he] at h; cases p; simp at h; exact ⟨_, by rw [h]⟩

/-- A history: a diamond 1→2→4, 1→3→4 with the shortcut 1→4, and some rejected calls. -/
def demoOps : List (Op Nat Nat) :=
  [.addVertex 1 10, .addVertex 2 20, .addVertex 3 30, .addVertex 4 40, .addVertex 1 99, .addVertex 0 5,
   .addEdge 1 2, .addEdge 1 3, .addEdge 2 4, .getDescendants 1, .addEdge 3 4, .getAncestors 4,
   .addEdge 1 4, .addEdge 4 1, .addEdge 1 2, .addEdge 2 2]

/-- The state after `demoOps`. -/
def demo : St Nat Nat := ((run Oracle.forward demoOps St.init).getD ([], St.init)).2

theorem demo_after : After Oracle.forward demoOps demo := by
  obtain ⟨rs, σ', h, _⟩ := run_refines (K := Nat) (T := Nat) Oracle.forward demoOps
  refine ⟨rs, ?_⟩
  unfold demo; rw [h]; rfl

theorem demo_known (k : Nat) : Known demo k ↔ k = 1 ∨ k = 2 ∨ k = 3 ∨ k = 4 := by
  rw [known_iff demo_after.inv, demo_after.spec.2]
  simp only [Spec.after, demoOps, List.foldl, Spec.next, Spec.addVertexErr, Spec.empty, zero]
  by_cases h1 : k = 1
  · simp [h1]
  by_cases h2 : k = 2
  · simp [h2]
  by_cases h3 : k = 3
  · simp [h3]
  by_cases h4 : k = 4
  · simp [h4]
  simp [h1, h2, h3, h4]

theorem demo_edge (a b : Nat) : Edge demo a b ↔
    (a, b) ∈ [((1 : Nat), (2 : Nat)), (1, 3), (2, 4), (3, 4), (1, 4)] := by
  rw [edge_iff demo_after.inv]
  have : demo.g.outb = [(3, [(4, 4)]), (2, [(4, 4)]), (1, [(4, 4), (3, 3), (2, 2)])] := by
    decide +kernel
  show GSet.includes (setAt demo.g.outb a) b = true ↔ _
  rw [this]
  simp only [setAt, GSet.includes, GoMap.has, GoMap.get?_cons, GoMap.get?_nil]
  by_cases h1 : a = 1
  · subst h1
    by_cases h2 : b = 2
    · simp [h2, GoMap.get?]
    by_cases h3 : b = 3
    · simp [h3, GoMap.get?]
    by_cases h4 : b = 4
    · simp [h4, GoMap.get?]
    simp [h2, h3, h4, Ne.symm h2, Ne.symm h3, Ne.symm h4, GoMap.get?]
  by_cases h2 : a = 2
  · subst h2
    by_cases h4 : b = 4
    · simp [h4, GoMap.get?]
    simp [h4, Ne.symm h4, GoMap.get?]
  by_cases h3 : a = 3
  · subst h3
    by_cases h4 : b = 4
    · simp [h4, GoMap.get?]
    simp [h4, Ne.symm h4, GoMap.get?]
  simp [h1, h2, h3, Ne.symm h1, Ne.symm h2, Ne.symm h3]

end Verif.Dag
