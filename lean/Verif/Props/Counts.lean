import Verif.Props.Retry
import Mathlib.Data.Finset.Prod

/-! # C93: the numbers of vertices, edges, roots, leaves and relatives fit together -/

set_option linter.unusedSectionVars false

namespace Verif.Dag
open M Relation

variable {K T : Type} [DecidableEq K] [GoZero K] [GoZero T]

/-! ## Lists without repetitions -/

theorem length_le_of_subset {α : Type} [DecidableEq α] {l l' : List α} (hl : l.Nodup) (h : ∀ x ∈ l, x ∈ l') : l.length ≤ l'.length := by
  calc l.length = l.toFinset.card := (List.toFinset_card_of_nodup hl).symm
    _ ≤ l'.toFinset.card := Finset.card_le_card fun x hx => List.mem_toFinset.2 (h x (List.mem_toFinset.1 hx))
    _ ≤ l'.length := List.toFinset_card_le l'

/-- At most `n (n - 1) / 2` pairs of `n` things, if no pair is there in both directions. -/
theorem pairs_le {α : Type} [DecidableEq α] {vs : List α} {es : List (α × α)} (hv : vs.Nodup) (he : es.Nodup)
    (hends : ∀ e ∈ es, e.1 ∈ vs ∧ e.2 ∈ vs) (hone : ∀ x y, (x, y) ∈ es → (y, x) ∉ es) : 2 * es.length ≤ vs.length * (vs.length - 1) := by
  have hn : (es ++ es.map Prod.swap).Nodup := by
    refine List.nodup_append.2 ⟨he, he.map Prod.swap_injective, fun a ha b hb => ?_⟩
    rintro rfl
    obtain ⟨e, h1, h2⟩ := List.mem_map.1 hb
    subst h2
    exact hone _ _ h1 ha
  have hsub : (es ++ es.map Prod.swap).toFinset ⊆ vs.toFinset.offDiag := by
    intro a ha
    have hne : ∀ e ∈ es, e.1 ≠ e.2 := fun ⟨x, y⟩ h e => by
      obtain rfl : x = y := e
      exact hone _ _ h h
    rw [Finset.mem_offDiag, List.mem_toFinset, List.mem_toFinset]
    rcases List.mem_append.1 (List.mem_toFinset.1 ha) with h | h
    · exact ⟨(hends a h).1, (hends a h).2, hne a h⟩
    · obtain ⟨e, h1, rfl⟩ := List.mem_map.1 h
      exact ⟨(hends e h1).2, (hends e h1).1, (hne e h1).symm⟩
  have h := Finset.card_le_card hsub
  rw [List.toFinset_card_of_nodup hn, Finset.offDiag_card, List.toFinset_card_of_nodup hv, List.length_append, List.length_map] at h
  rw [Nat.mul_sub_one]
  omega

/-! ## C93 -/

/-- **C93.** A graph with `n` vertices has at most `n (n - 1) / 2` edges. -/
theorem C93_size (ω ω₁ ω₂ : Oracle) (ops : List (Op K T)) (σ σ₁ σ₂ : St K T) (h : After ω ops σ) (n m : Nat)
    (hn : Call ω₁ σ .getOrder (.count n) σ₁) (hm : Call ω₂ σ .getSize (.count m) σ₂) : 2 * m ≤ n * (n - 1) := by
  have hi := h.inv
  obtain ⟨-, -, vs, hv, hv', rfl⟩ := hn.spec hi
  obtain ⟨-, -, es, he, he', rfl⟩ := hm.spec hi
  refine pairs_le hv he (fun e h => ?_) fun x y h h' => ?_
  · obtain ⟨h1, h2⟩ := edge_ends hi ((he' e).1 h)
    exact ⟨(hv' _).2 (Option.isSome_iff_ne_none.2 h1), (hv' _).2 (Option.isSome_iff_ne_none.2 h2)⟩
  · exact hi.base.acyc x (.head ((he' _).1 h) (.single ((he' _).1 h')))

/-- **C93.** Every vertex that is no root has an edge to it and every one that is no leaf has an edge from it: there are at least as many edges as
vertices that are no roots (no leaves). -/
theorem C93_ends (ω ω₁ ω₂ ω₃ ω₄ : Oracle) (ops : List (Op K T)) (σ σ₁ σ₂ σ₃ σ₄ : St K T) (h : After ω ops σ) (n m : Nat) (mr ml : List (K × T))
    (hn : Call ω₁ σ .getOrder (.count n) σ₁) (hm : Call ω₂ σ .getSize (.count m) σ₂) (hr : Call ω₃ σ .getRoots (.entries mr) σ₃)
    (hl : Call ω₄ σ .getLeaves (.entries ml) σ₄) : n ≤ m + mr.length ∧ n ≤ m + ml.length := by
  have hi := h.inv
  obtain ⟨-, -, vs, hv, hv', rfl⟩ := hn.spec hi
  obtain ⟨-, -, es, he, he', rfl⟩ := hm.spec hi
  obtain ⟨-, -, -, hr'⟩ := hr.spec hi
  obtain ⟨-, -, -, hl'⟩ := hl.spec hi
  constructor
  · have := length_le_of_subset (l' := es.map Prod.snd ++ mr.map Prod.fst) hv fun k hk => by
      obtain ⟨v, hv⟩ := Option.isSome_iff_exists.1 ((hv' k).1 hk)
      by_cases hp : ∃ x, (abs σ.g).E x k
      · obtain ⟨x, hx⟩ := hp
        exact List.mem_append_left _ (List.mem_map.2 ⟨(x, k), (he' _).2 hx, rfl⟩)
      · exact List.mem_append_right _ (List.mem_map.2 ⟨(k, v), (hr' k v).2 ⟨hv, fun x hx => hp ⟨x, hx⟩⟩, rfl⟩)
    simpa using this
  · have := length_le_of_subset (l' := es.map Prod.fst ++ ml.map Prod.fst) hv fun k hk => by
      obtain ⟨v, hv⟩ := Option.isSome_iff_exists.1 ((hv' k).1 hk)
      by_cases hp : ∃ x, (abs σ.g).E k x
      · obtain ⟨x, hx⟩ := hp
        exact List.mem_append_left _ (List.mem_map.2 ⟨(k, x), (he' _).2 hx, rfl⟩)
      · exact List.mem_append_right _ (List.mem_map.2 ⟨(k, v), (hl' k v).2 ⟨hv, fun x hx => hp ⟨x, hx⟩⟩, rfl⟩)
    simpa using this

/-- **C93.** A vertex has no relative on both sides and is not its own: its ancestors, its descendants and itself are no more than all vertices. -/
theorem C93_relatives (ω ω₁ ω₂ ω₃ : Oracle) (ops : List (Op K T)) (σ σ₁ σ₂ σ₃ : St K T) (h : After ω ops σ) (k : K) (n : Nat) (ma md : List (K × T))
    (hn : Call ω₁ σ .getOrder (.count n) σ₁) (ha : Call ω₂ σ (.getAncestors k) (.entriesE (.ok ma)) σ₂)
    (hd : Call ω₃ σ (.getDescendants k) (.entriesE (.ok md)) σ₃) : ma.length + md.length + 1 ≤ n := by
  have hi := h.inv
  obtain ⟨-, -, vs, hv, hv', rfl⟩ := hn.spec hi
  obtain ⟨-, -, ha⟩ := ha.spec hi
  obtain ⟨-, -, hd⟩ := hd.spec hi
  unfold Spec.ok at ha hd
  simp only [Spec.OrErr] at ha hd
  cases he : Spec.vertexErr (abs σ.g) k with
  | some e => rw [he] at ha; cases ha
  | none =>
    rw [he] at ha hd
    obtain ⟨_, e, ha1, ha2⟩ := ha
    cases e
    obtain ⟨_, e, hd1, hd2⟩ := hd
    cases e
    have ha3 : ∀ x ∈ ma.map Prod.fst, TransGen (abs σ.g).E x k ∧ (abs σ.g).V x ≠ none := fun x hx => by
      obtain ⟨⟨y, v⟩, h1, rfl⟩ := List.mem_map.1 hx
      obtain ⟨h2, h3⟩ := (ha2 y v).1 h1
      exact ⟨h3, by rw [h2]; exact Option.some_ne_none v⟩
    have hd3 : ∀ x ∈ md.map Prod.fst, TransGen (abs σ.g).E k x ∧ (abs σ.g).V x ≠ none := fun x hx => by
      obtain ⟨⟨y, v⟩, h1, rfl⟩ := List.mem_map.1 hx
      obtain ⟨h2, h3⟩ := (hd2 y v).1 h1
      exact ⟨h3, by rw [h2]; exact Option.some_ne_none v⟩
    have hk : (abs σ.g).V k ≠ none := by
      intro hk
      unfold Spec.vertexErr at he
      simp only [hk, Option.isNone_none, if_true] at he
      split at he <;> cases he
    have hnd : (k :: (ma.map Prod.fst ++ md.map Prod.fst)).Nodup := by
      refine List.nodup_cons.2 ⟨fun h => ?_, List.nodup_append.2 ⟨ha1, hd1, fun x hx y hy e => ?_⟩⟩
      · rcases List.mem_append.1 h with h | h
        · exact hi.base.acyc k (ha3 k h).1
        · exact hi.base.acyc k (hd3 k h).1
      · subst e
        exact hi.base.acyc k ((hd3 x hy).1.trans (ha3 x hx).1)
    have := length_le_of_subset (l' := vs) hnd fun x hx => by
      refine (hv' x).2 (Option.isSome_iff_ne_none.2 ?_)
      rcases List.mem_cons.1 hx with rfl | hx
      · exact hk
      rcases List.mem_append.1 hx with h | h
      · exact (ha3 x h).2
      · exact (hd3 x h).2
    simpa using this

/-- **C93.** `ReduceTransitively` removes no vertex, adds no edge, and leaves roots and leaves alone. -/
theorem C93_reduce (ω ω₁ ω₂ ω₃ ω₄ : Oracle) (ops : List (Op K T)) (σ σ₁ σ₂ σ₃ σ₄ σ₅ : St K T) (h : After ω ops σ) (n n' m m' : Nat)
    (hc : Call ω₁ σ .reduceTransitively .unit σ₁) (hn : Call ω₂ σ .getOrder (.count n) σ₂) (hn' : Call ω₃ σ₁ .getOrder (.count n') σ₃)
    (hm : Call ω₂ σ .getSize (.count m) σ₄) (hm' : Call ω₄ σ₁ .getSize (.count m') σ₅) :
    n' = n ∧ m' ≤ m ∧ ∀ k, ((∀ x, ¬ Edge σ₁ x k) ↔ ∀ x, ¬ Edge σ x k) ∧ ((∀ x, ¬ Edge σ₁ k x) ↔ ∀ x, ¬ Edge σ k x) := by
  have hi := h.inv
  obtain ⟨hi1, ha, -⟩ := hc.spec hi
  obtain ⟨-, -, vs, hv, hv', rfl⟩ := hn.spec hi
  obtain ⟨-, -, ws, hw, hw', rfl⟩ := hn'.spec hi1
  obtain ⟨-, -, es, he, he', rfl⟩ := hm.spec hi
  obtain ⟨-, -, fs, hf, hf', rfl⟩ := hm'.spec hi1
  rw [ha] at hw' hf'
  refine ⟨le_antisymm (length_le_of_subset hw fun k hk => (hv' k).2 ((hw' k).1 hk)) (length_le_of_subset hv fun k hk => (hw' k).2 ((hv' k).1 hk)),
    length_le_of_subset hf fun e h => (he' e).2 ((hf' e).1 h).1, fun k => ?_⟩
  simp only [edge_iff hi, edge_iff hi1, ha]
  have hr := reduce_reach hi
  constructor
  · refine ⟨fun h x hx => ?_, fun h x hx => h x hx.1⟩
    obtain ⟨y, -, hy⟩ := TransGen.tail'_iff.1 ((hr x k).2 (.single hx))
    exact h y hy
  · refine ⟨fun h x hx => ?_, fun h x hx => h x hx.1⟩
    obtain ⟨y, hy, -⟩ := TransGen.head'_iff.1 ((hr k x).2 (.single hx))
    exact h y hy

/-- All bounds are reached: three vertices with all three edges, one root and one leaf; two after the reduction, where the bounds of
`C93_ends` are reached. -/
example : (run Oracle.forward (triangle ++ [.getOrder, .getSize, .getAncestors 2, .getDescendants 2, .getRoots, .getLeaves, .reduceTransitively, .getOrder,
      .getSize]) St.init).map (fun x => x.1.drop 6) =
    some [.count 3, .count 3, .entriesE (.ok [(1, 10)]), .entriesE (.ok [(3, 30)]), .entries [(1, 10)], .entries [(3, 30)], .unit, .count 3, .count 2] := by
  decide +kernel

end Verif.Dag
