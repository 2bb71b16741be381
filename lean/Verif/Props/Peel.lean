import Verif.Props.DagCore

/-! # C70: working through a graph in the order of its edges

A client that asks for the roots, handles one of them, deletes it, and starts again. -/

set_option linter.unusedSectionVars false

namespace Verif.Dag
open M Relation

variable {K T : Type} [DecidableEq K] [GoZero K] [GoZero T]

/-! ## Specification -/

/-- From which end the client works. -/
inductive End where
  | roots
  | leaves
  deriving DecidableEq

/-- The query for the vertices at this end. -/
def End.op : End → Op K T
  | .roots => .getRoots
  | .leaves => .getLeaves

/-- `b` has to wait for `a`. -/
def End.Waits (e : End) (E : K → K → Prop) (a b : K) : Prop :=
  match e with
  | .roots => E a b
  | .leaves => E b a

/-- The client has gone through its loop once for each of the ids: each time it asked for the vertices at the end, took any of
them, and deleted it. -/
inductive Rounds (e : End) : St K T → List K → St K T → Prop
  | stop (σ) : Rounds e σ [] σ
  | round {σ σ₁ σ₂ σ' : St K T} {ω ω' : Oracle} {m : List (K × T)} {k : K} {v : T} {r : Res K T} {l : List K} :
      Call ω σ e.op (.entries m) σ₁ → (k, v) ∈ m → Call ω' σ₁ (.deleteVertex k) r σ₂ → Rounds e σ₂ l σ' → Rounds e σ (k :: l) σ'

/-- The client has come to its end: there is nothing left to take. -/
def Finished (e : End) (σ : St K T) : Prop := ∀ ω, ∃ σ', Call ω σ e.op (.entries []) σ'

/-- A list of all vertices, each once, in which nobody comes before one they have to wait for. -/
structure Sorted (V : K → Prop) (W : K → K → Prop) (l : List K) : Prop where
  nodup : l.Nodup
  all : ∀ k, k ∈ l ↔ V k
  order : l.Pairwise fun x y => ¬ W y x

/-! ## One round -/

/-- The vertices at the end. -/
theorem op_spec {e : End} {ω : Oracle} {σ σ' : St K T} {r : Res K T} (hi : Inv σ.g) (h : Call ω σ e.op r σ') :
    Inv σ'.g ∧ abs σ'.g = abs σ.g ∧
      ∃ m, r = .entries m ∧ ∀ k v, (k, v) ∈ m ↔ (abs σ.g).V k = some v ∧ ∀ x, ¬ e.Waits (abs σ.g).E x k := by
  obtain ⟨h1, h2, h3⟩ := h.spec hi
  cases e <;> cases r <;> first | exact False.elim h3 | exact ⟨h1, h2, _, rfl, h3.2⟩

theorem op_exists {e : End} {σ : St K T} (hi : Inv σ.g) {k : K} {v : T} (hk : (abs σ.g).V k = some v) :
    ∃ k' v', (abs σ.g).V k' = some v' ∧ ∀ x, ¬ e.Waits (abs σ.g).E x k' := by
  cases e with
  | roots =>
    obtain ⟨r, h1, h2, -⟩ := exists_root hi.base k ((GoMap.has_iff _ _).mpr ⟨v, hk⟩)
    obtain ⟨w, hw⟩ := (GoMap.has_iff _ _).mp h1
    exact ⟨r, w, hw, h2⟩
  | leaves =>
    obtain ⟨r, h1, h2, -⟩ := exists_leaf hi.base k ((GoMap.has_iff _ _).mpr ⟨v, hk⟩)
    obtain ⟨w, hw⟩ := (GoMap.has_iff _ _).mp h1
    exact ⟨r, w, hw, h2⟩

/-- The graph after a round. -/
theorem delete_spec {ω : Oracle} {σ σ' : St K T} {r : Res K T} (hi : Inv σ.g) {k : K} (h : Call ω σ (.deleteVertex k) r σ') :
    Inv σ'.g ∧ (∀ x v, (abs σ'.g).V x = some v ↔ (abs σ.g).V x = some v ∧ x ≠ k) ∧
      ∀ (e : End) x y, e.Waits (abs σ'.g).E x y ↔ e.Waits (abs σ.g).E x y ∧ x ≠ k ∧ y ≠ k := by
  obtain ⟨h1, h2, -⟩ := h.spec hi
  refine ⟨h1, fun x v => ?_, fun e x y => ?_⟩
  · rw [h2]
    simp only [Spec.next]
    split
    · rename_i e; simp [e]
    · rename_i e; simp [e]
  · rw [h2]
    cases e
    · exact Iff.rfl
    · exact and_congr Iff.rfl and_comm

theorem waits_ends {e : End} {σ : St K T} (hi : Inv σ.g) {a b : K} (h : e.Waits (abs σ.g).E a b) :
    (∃ v, (abs σ.g).V a = some v) ∧ ∃ v, (abs σ.g).V b = some v := by
  cases e with
  | roots =>
    have := hi.base.ends _ _ h
    rw [GoMap.has_iff, GoMap.has_iff] at this
    exact this
  | leaves =>
    have := hi.base.ends _ _ h
    rw [GoMap.has_iff, GoMap.has_iff] at this
    exact this.symm

theorem finished_iff {e : End} {σ : St K T} (hi : Inv σ.g) : Finished e σ ↔ ∀ k v, (abs σ.g).V k ≠ some v := by
  constructor
  · intro h k v hk
    obtain ⟨k', v', h1⟩ := op_exists (e := e) hi hk
    obtain ⟨σ', h2⟩ := h ⟨fun _ _ l => l, fun _ _ _ => List.Perm.refl _⟩
    obtain ⟨-, -, m, hm, h3⟩ := op_spec hi h2
    cases hm
    have := (h3 k' v').mpr h1
    simp at this
  · intro h ω
    obtain ⟨r, σ', hc⟩ := call_exists ω hi e.op
    obtain ⟨-, -, m, rfl, h3⟩ := op_spec hi hc
    cases m with
    | nil => exact ⟨σ', hc⟩
    | cons x m => exact absurd ((h3 x.1 x.2).mp (by simp)).1 (h _ _)

/-! ## All rounds -/

theorem Rounds.inv {e : End} {σ σ' : St K T} {l : List K} (h : Rounds e σ l σ') (hi : Inv σ.g) : Inv σ'.g := by
  induction h with
  | stop => exact hi
  | round h1 _ h3 _ ih => exact ih (delete_spec (op_spec hi h1).1 h3).1

theorem Rounds.trans {e : End} {σ σ' σ'' : St K T} {l l' : List K} (h : Rounds e σ l σ') (h' : Rounds e σ' l' σ'') : Rounds e σ (l ++ l') σ'' := by
  induction h with
  | stop => exact h'
  | round h1 h2 h3 _ ih => exact .round h1 h2 h3 (ih h')

theorem Rounds.sorted {e : End} {σ σ' : St K T} {l : List K} (h : Rounds e σ l σ') (hi : Inv σ.g) (hf : Finished e σ') :
    Sorted (fun k => ∃ v, (abs σ.g).V k = some v) (e.Waits (abs σ.g).E) l := by
  induction h with
  | stop =>
    rw [finished_iff hi] at hf
    exact ⟨List.nodup_nil, fun k => ⟨by simp, fun ⟨v, hv⟩ => absurd hv (hf k v)⟩, List.Pairwise.nil⟩
  | @round σ σ₁ σ₂ σ' ω ω' m k v r l h1 h2 h3 _ ih =>
    obtain ⟨hi₁, ha, m', hm, hmem⟩ := op_spec hi h1
    cases hm
    obtain ⟨hi₂, hV, hE⟩ := delete_spec hi₁ h3
    rw [ha] at hV hE
    obtain ⟨hk, hroot⟩ := (hmem k v).mp h2
    have ih := ih hi₂ hf
    have hin : ∀ x, x ∈ l ↔ (∃ v, (abs σ.g).V x = some v) ∧ x ≠ k := by
      intro x
      rw [ih.all]
      simp only [hV, exists_and_right]
    refine ⟨List.nodup_cons.mpr ⟨fun hm => ((hin k).mp hm).2 rfl, ih.nodup⟩, fun x => ?_, List.pairwise_cons.mpr ⟨fun y _ => hroot y, ?_⟩⟩
    · rw [List.mem_cons, hin]
      constructor
      · rintro (rfl | h)
        · exact ⟨v, hk⟩
        · exact h.1
      · intro h
        by_cases e : x = k
        · exact .inl e
        · exact .inr ⟨h, e⟩
    · refine ih.order.imp_of_mem fun {x y} hx hy hn hw => hn ((hE e y x).mpr ⟨hw, ((hin y).mp hy).2, ((hin x).mp hx).2⟩)

/-- Whatever was taken so far, the client can go on and comes to its end. -/
theorem rounds_exist (e : End) (n : Nat) : ∀ (σ : St K T) (vs : List K), Inv σ.g → vs.Nodup → (∀ k, k ∈ vs ↔ ∃ v, (abs σ.g).V k = some v) →
    vs.length = n → ∃ l σ', Rounds e σ l σ' ∧ Finished e σ' := by
  induction n with
  | zero =>
    intro σ vs hi _ hall hl
    obtain rfl := List.length_eq_zero_iff.mp hl
    exact ⟨[], σ, .stop σ, (finished_iff hi).mpr fun k v hv => by simpa using (hall k).mpr ⟨v, hv⟩⟩
  | succ n ih =>
    intro σ vs hi hnd hall hl
    obtain ⟨k, hk⟩ : ∃ k, k ∈ vs := List.exists_mem_of_length_pos (by omega)
    obtain ⟨v, hv⟩ := (hall k).mp hk
    obtain ⟨k', v', h1⟩ := op_exists (e := e) hi hv
    let ω : Oracle := ⟨fun _ _ l => l, fun _ _ _ => List.Perm.refl _⟩
    obtain ⟨r, σ₁, hc⟩ := call_exists ω hi e.op
    obtain ⟨hi₁, ha, m, rfl, hm⟩ := op_spec hi hc
    obtain ⟨r', σ₂, hc'⟩ := call_exists ω hi₁ (.deleteVertex k')
    obtain ⟨hi₂, hV, -⟩ := delete_spec hi₁ hc'
    rw [ha] at hV
    have hk' : k' ∈ vs := (hall k').mpr ⟨v', h1.1⟩
    obtain ⟨l, σ', h2, h3⟩ := ih σ₂ (vs.erase k') hi₂ (hnd.erase _)
      (fun x => by rw [hnd.mem_erase_iff, hall]; simp only [hV, exists_and_right]; exact and_comm)
      (by rw [List.length_erase_of_mem hk', hl]; rfl)
    exact ⟨k' :: l, σ', .round hc ((hm k' v').mpr h1) hc' h2, h3⟩

theorem rounds_of_sorted {e : End} {l : List K} : ∀ {σ : St K T}, Inv σ.g →
    Sorted (fun k => ∃ v, (abs σ.g).V k = some v) (e.Waits (abs σ.g).E) l → ∃ σ', Rounds e σ l σ' ∧ Finished e σ' := by
  induction l with
  | nil => exact fun {σ} hi h => ⟨σ, .stop σ, (finished_iff hi).mpr fun k v hv => by simpa using (h.all k).mpr ⟨v, hv⟩⟩
  | cons k l ih =>
    intro σ hi h
    obtain ⟨hnd, hnd'⟩ := List.nodup_cons.mp h.nodup
    obtain ⟨ho, ho'⟩ := List.pairwise_cons.mp h.order
    obtain ⟨v, hv⟩ := (h.all k).mp List.mem_cons_self
    have hroot : ∀ x, ¬ e.Waits (abs σ.g).E x k := by
      intro x hx
      rcases List.mem_cons.mp ((h.all x).mpr (waits_ends hi hx).1) with rfl | hm
      · cases e <;> exact hi.base.acyc _ (.single hx)
      · exact ho x hm hx
    let ω : Oracle := ⟨fun _ _ l => l, fun _ _ _ => List.Perm.refl _⟩
    obtain ⟨r, σ₁, hc⟩ := call_exists ω hi e.op
    obtain ⟨hi₁, ha, m, rfl, hm⟩ := op_spec hi hc
    obtain ⟨r', σ₂, hc'⟩ := call_exists ω hi₁ (.deleteVertex k)
    obtain ⟨hi₂, hV, hE⟩ := delete_spec hi₁ hc'
    rw [ha] at hV hE
    obtain ⟨σ', h2, h3⟩ := ih (σ := σ₂) hi₂ ⟨hnd', fun x => by
        simp only [hV, exists_and_right]
        rw [← h.all, List.mem_cons]
        constructor
        · exact fun hx => ⟨.inr hx, fun e => hnd (e ▸ hx)⟩
        · rintro ⟨rfl | hx, hne⟩
          · exact absurd rfl hne
          · exact hx,
      ho'.imp fun {x y} hn hw => hn ((hE e y x).mp hw).1⟩
    exact ⟨σ', .round hc ((hm k v).mpr ⟨hv, hroot⟩) hc' h2, h3⟩

/-! ## C70 -/

theorem sorted_iff {e : End} {σ : St K T} (hi : Inv σ.g) (l : List K) :
    Sorted (Known σ) (e.Waits (Edge σ)) l ↔ Sorted (fun k => ∃ v, (abs σ.g).V k = some v) (e.Waits (abs σ.g).E) l := by
  rw [edge_eq hi, show Known σ = fun k => ∃ v, (abs σ.g).V k = some v from funext fun k => propext (known_iff hi k)]

/-- **C70** (what it does).  The lists of vertices the client can have worked through when it comes to its end are exactly the
topological orders of the graph. -/
theorem C70_orders (ω : Oracle) (ops : List (Op K T)) (σ : St K T) (h : After ω ops σ) (e : End) (l : List K) :
    (∃ σ', Rounds e σ l σ' ∧ Finished e σ') ↔ Sorted (Known σ) (e.Waits (Edge σ)) l := by
  have hi := h.inv
  rw [sorted_iff hi]
  exact ⟨fun ⟨σ', h1, h2⟩ => h1.sorted hi h2, rounds_of_sorted hi⟩

/-- **C70** (it always ends).  Whatever the client has taken so far, it can go on to its end; the number of rounds is the number of
vertices, and nothing is left. -/
theorem C70_ends (ω : Oracle) (ops : List (Op K T)) (σ : St K T) (h : After ω ops σ) (e : End) (l : List K) (σ' : St K T)
    (hr : Rounds e σ l σ') :
    (∃ l' σ'', Rounds e σ' l' σ'' ∧ Finished e σ'') ∧
      ∀ l' σ'', Rounds e σ' l' σ'' → Finished e σ'' → Spec.Count (Known σ) (l.length + l'.length) ∧ ∀ k, ¬ Known σ'' k := by
  have hi := h.inv
  have hi' := hr.inv hi
  refine ⟨rounds_exist e _ σ' (GoMap.keys σ'.g.vertices) hi' hi'.base.vnd (fun k => ?_) rfl, fun l' σ'' h1 h2 => ?_⟩
  · exact (GoMap.mem_keys_iff_has _ _).trans (GoMap.has_iff _ _)
  · have h3 := (sorted_iff hi _).mpr ((hr.trans h1).sorted hi h2)
    refine ⟨⟨l ++ l', h3.nodup, h3.all, by simp⟩, fun k hk => ?_⟩
    have hi'' := h1.inv hi'
    obtain ⟨v, hv⟩ := (known_iff hi'' k).mp hk
    exact (finished_iff hi'').mp h2 k v hv

/-- The demo graph has the edges 1 → 2, 1 → 3, 2 → 4, 3 → 4, 1 → 4 and two orders in each direction. -/
example : Sorted (Known demo) (End.Waits .roots (Edge demo)) [1, 2, 3, 4] ∧ Sorted (Known demo) (End.Waits .roots (Edge demo)) [1, 3, 2, 4] ∧
    Sorted (Known demo) (End.Waits .leaves (Edge demo)) [4, 3, 2, 1] ∧ ¬ Sorted (Known demo) (End.Waits .roots (Edge demo)) [2, 1, 3, 4] := by
  refine ⟨⟨by decide, fun k => by rw [demo_known]; simp, by simp [End.Waits, demo_edge]⟩,
    ⟨by decide, fun k => by rw [demo_known]; simp; tauto, by simp [End.Waits, demo_edge]⟩,
    ⟨by decide, fun k => by rw [demo_known]; simp; tauto, by simp [End.Waits, demo_edge]⟩, fun h => ?_⟩
  have := h.order
  simp [End.Waits, demo_edge] at this

end Verif.Dag
