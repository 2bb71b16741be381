import Verif.Props.Monotone

/-! # C92: calls can be repeated, and the calls that succeeded tell the graph -/

set_option linter.unusedSectionVars false

namespace Verif.Dag
open M Relation

variable {K T : Type} [DecidableEq K] [GoZero K] [GoZero T]

/-! ## Specification -/

/-- The result of making a call that changes the graph a second time, if `r` was its first result. -/
def Res.again : Op K T → Res K T → Res K T
  | .addVertex .., .err none => .err (some .vertexDuplicate)
  | .deleteVertex .., .err none => .err (some .vertexNotFound)
  | .addEdge .., .err none => .err (some .edgeDuplicate)
  | .deleteEdge .., .err none => .err (some .edgeNotFound)
  | _, r => r

/-- The call changes the graph and has succeeded. -/
def worked (x : Op K T × Res K T) : Bool :=
  !x.1.readOnly && match x.2 with
    | .err none | .unit => true
    | _ => false

/-- The calls that changed the graph successfully. -/
def journal (p : List (Op K T)) (rs : List (Res K T)) : List (Op K T) := ((p.zip rs).filter worked).map Prod.fst

/-! ## Proof -/

theorem Abs.ext' {a b : Abs K T} (hV : ∀ k, a.V k = b.V k) (hE : ∀ x y, a.E x y ↔ b.E x y) : a = b := by
  cases a; cases b
  congr 1
  · exact funext hV
  · exact funext fun x => funext fun y => propext (hE x y)

theorem next_next (a : Abs K T) (op : Op K T) : Spec.next (Spec.next a op) op = Spec.next a op := by
  cases op with
  | addVertex id v =>
    refine Abs.ext' (fun k => ?_) fun x y => Iff.rfl
    show (if k = id ∧ Spec.addVertexErr (Spec.next a (.addVertex id v)) id = none then some v else (Spec.next a (.addVertex id v)).V k) = _
    split
    · rename_i h
      obtain ⟨rfl, h⟩ := h
      by_cases hc : Spec.addVertexErr a k = none
      · simp [Spec.next, hc]
      · have e : (Spec.next a (.addVertex k v)).V k = a.V k := if_neg fun h => hc h.2
        unfold Spec.addVertexErr at h hc
        rw [e] at h
        exact absurd h hc
    · rfl
  | deleteVertex id =>
    refine Abs.ext' (fun k => ?_) fun x y => ?_
    · simp only [Spec.next]; split <;> simp_all
    · simp only [Spec.next]; tauto
  | addEdge s t =>
    refine Abs.ext' (fun k => rfl) fun x y => ⟨fun h => ?_, fun h => .inl h⟩
    rcases h with h | ⟨⟨h1, h2, h3⟩, rfl, rfl⟩
    · exact h
    · exfalso
      by_cases hc : Spec.CanAdd a x y
      · exact h2 (.inr ⟨hc, rfl, rfl⟩)
      · exact hc ⟨h1, fun h => h2 (.inl h), fun h => h3 (TransGen.mono (fun _ _ h => .inl h) _ _ h)⟩
  | deleteEdge s t => exact Abs.ext' (fun k => rfl) fun x y => by simp only [Spec.next]; tauto
  | reduceTransitively =>
    refine Abs.ext' (fun k => rfl) fun x y => ⟨fun h => h.1, fun h => ⟨h, fun ⟨m, h1, h2⟩ => h.2 ⟨m, h1.1, ?_⟩⟩⟩
    exact TransGen.mono (fun _ _ h => h.1) _ _ h2
  | _ => rfl

/-- A call that does not succeed changes nothing. -/
theorem next_failed {σ : St K T} (hi : Inv σ.g) {op : Op K T} {r : Res K T} (hok : Spec.ok (abs σ.g) op r) (h : worked (op, r) = false) :
    Spec.next (abs σ.g) op = abs σ.g := by
  cases op with
  | addVertex id v =>
    cases r <;> first | exact hok.elim | skip
    rename_i e
    cases e with
    | none => cases h
    | some e =>
      refine Abs.ext' (fun k => if_neg fun hc => ?_) fun x y => Iff.rfl
      exact nomatch hc.2.symm.trans hok.symm
  | deleteVertex id =>
    cases r <;> first | exact hok.elim | skip
    rename_i e
    cases e with
    | none => cases h
    | some e =>
      have hn : (abs σ.g).V id = none := by
        by_contra hn
        have := nonzero hi hn
        unfold Spec.ok at hok
        simp [Spec.vertexErr, this, hn] at hok
      refine Abs.ext' (fun k => ?_) fun x y => ⟨fun h => h.1, fun hE => ⟨hE, ?_, ?_⟩⟩
      · show (if k = id then none else _) = _
        split
        · rename_i hk; rw [hk, hn]
        · rfl
      · rintro rfl; exact (edge_ends hi hE).1 hn
      · rintro rfl; exact (edge_ends hi hE).2 hn
  | addEdge s t =>
    cases r <;> first | exact hok.elim | skip
    rename_i e
    cases e with
    | none => cases h
    | some e =>
      refine Abs.ext' (fun k => rfl) fun x y => ⟨fun h => ?_, .inl⟩
      rcases h with h | ⟨⟨h1, h2, h3⟩, -, -⟩
      · exact h
      · unfold Spec.ok at hok
        simp only [h1] at hok
        exact nomatch hok.2.2 h2 h3
  | deleteEdge s t =>
    cases r <;> first | exact hok.elim | skip
    rename_i e
    cases e with
    | none => cases h
    | some e =>
      refine Abs.ext' (fun k => rfl) fun x y => ⟨fun h => h.1, fun hE => ⟨hE, ?_⟩⟩
      rintro ⟨rfl, rfl⟩
      obtain ⟨h1, h2⟩ := edge_ends hi hE
      have he : Spec.edgeErr (abs σ.g) x y = none :=
        (edgeErr_none hi x y).2 ⟨fun e => hi.base.acyc x (.single (e ▸ hE)), Option.ne_none_iff_exists'.1 h1, Option.ne_none_iff_exists'.1 h2⟩
      unfold Spec.ok at hok
      simp only [he] at hok
      exact nomatch hok.1 hE
  | reduceTransitively => cases r <;> first | exact hok.elim | cases h
  | _ => rfl

/-- The result of a call that changes the graph is determined by the graph. -/
theorem ok_unique {a : Abs K T} {op : Op K T} (ho : op.readOnly = false) {r r' : Res K T} (h : Spec.ok a op r) (h' : Spec.ok a op r') : r = r' := by
  cases op with
  | addVertex | deleteVertex =>
    cases r <;> first | exact h.elim | skip
    cases r' <;> first | exact h'.elim | skip
    exact congrArg _ (Eq.trans h (Eq.symm h'))
  | addEdge s t =>
    cases r <;> first | exact h.elim | skip
    cases r' <;> first | exact h'.elim | skip
    unfold Spec.ok at h h'
    refine congrArg _ ?_
    revert h h'
    simp only
    cases Spec.edgeErr a s t with
    | some e => exact fun h h' => h.trans h'.symm
    | none =>
      intro h h'
      by_cases h1 : a.E s t
      · rw [h.1 h1, h'.1 h1]
      by_cases h2 : TransGen a.E t s
      · rw [h.2.1 h1 h2, h'.2.1 h1 h2]
      · rw [h.2.2 h1 h2, h'.2.2 h1 h2]
  | deleteEdge s t =>
    cases r <;> first | exact h.elim | skip
    cases r' <;> first | exact h'.elim | skip
    unfold Spec.ok at h h'
    refine congrArg _ ?_
    revert h h'
    simp only
    cases Spec.edgeErr a s t with
    | some e => exact fun h h' => h.trans h'.symm
    | none =>
      intro h h'
      by_cases h1 : a.E s t
      · rw [h.1 h1, h'.1 h1]
      · rw [h.2 h1, h'.2 h1]
  | reduceTransitively =>
    cases r <;> first | exact h.elim | skip
    cases r' <;> first | exact h'.elim | rfl
  | _ => cases ho

/-- The second result is admissible in the second graph. -/
theorem ok_again {σ : St K T} (hi : Inv σ.g) {op : Op K T} (ho : op.readOnly = false) {r : Res K T} (h : Spec.ok (abs σ.g) op r) :
    Spec.ok (Spec.next (abs σ.g) op) op (Res.again op r) := by
  by_cases hw : worked (op, r) = true
  · cases op with
    | addVertex id v =>
      cases r <;> first | exact h.elim | skip
      rename_i e
      cases e with
      | some e => cases hw
      | none =>
        have hz : id ≠ zero := by
          rintro rfl
          have h := h
          simp [Spec.ok, Spec.addVertexErr] at h
        have hn : Spec.addVertexErr (abs σ.g) id = none := h.symm
        show some Err.vertexDuplicate = Spec.addVertexErr _ _
        simp [Spec.addVertexErr, hz, Spec.next, hn]
        have : Spec.addVertexErr (abs σ.g) id = none := hn
        unfold Spec.addVertexErr at this
        simp_all
    | deleteVertex id =>
      cases r <;> first | exact h.elim | skip
      rename_i e
      cases e with
      | some e => cases hw
      | none =>
        have hz : id ≠ zero := by
          rintro rfl
          have h := h
          simp [Spec.ok, Spec.vertexErr] at h
        show some Err.vertexNotFound = Spec.vertexErr _ _
        simp [Spec.vertexErr, hz, Spec.next]
    | addEdge s t =>
      cases r <;> first | exact h.elim | skip
      rename_i e
      cases e with
      | some e => cases hw
      | none =>
        have he : Spec.edgeErr (Spec.next (abs σ.g) (.addEdge s t)) s t = Spec.edgeErr (abs σ.g) s t := rfl
        unfold Spec.ok at h
        show Spec.ok _ _ (.err (some .edgeDuplicate))
        unfold Spec.ok
        simp only at h ⊢
        rw [he]
        cases h1 : Spec.edgeErr (abs σ.g) s t with
        | some e => rw [h1] at h; cases h
        | none =>
          rw [h1] at h
          have hE : (Spec.next (abs σ.g) (.addEdge s t)).E s t := by
            by_cases h2 : (abs σ.g).E s t
            · exact .inl h2
            · exact .inr ⟨⟨h1, h2, fun h3 => nomatch h.2.1 h2 h3⟩, rfl, rfl⟩
          exact ⟨fun _ => trivial, fun h => absurd hE h, fun h => absurd hE h⟩
    | deleteEdge s t =>
      cases r <;> first | exact h.elim | skip
      rename_i e
      cases e with
      | some e => cases hw
      | none =>
        have he : Spec.edgeErr (Spec.next (abs σ.g) (.deleteEdge s t)) s t = Spec.edgeErr (abs σ.g) s t := rfl
        unfold Spec.ok at h
        show Spec.ok _ _ (.err (some .edgeNotFound))
        unfold Spec.ok
        simp only at h ⊢
        rw [he]
        cases h1 : Spec.edgeErr (abs σ.g) s t with
        | some e => rw [h1] at h; cases h
        | none => exact ⟨fun h => absurd ⟨rfl, rfl⟩ h.2, fun _ => trivial⟩
    | reduceTransitively => cases r <;> first | exact h.elim | exact h
    | _ => cases ho
  · have hw' : worked (op, r) = false := by simpa using hw
    rw [next_failed hi h hw']
    have : Res.again op r = r := by
      cases op <;> first | rfl | skip
      all_goals
        cases r <;> first | rfl | skip
        rename_i e
        cases e <;> first | rfl | cases hw'
    rw [this]
    exact h

theorem journal_cons (op : Op K T) (p : List (Op K T)) (r : Res K T) (rs : List (Res K T)) :
    journal (op :: p) (r :: rs) = if worked (op, r) then op :: journal p rs else journal p rs := by
  unfold journal
  rw [List.zip_cons_cons, List.filter_cons]
  split <;> rfl

theorem journal_spec {ω : Oracle} {p : List (Op K T)} {σ σ' : St K T} {rs : List (Res K T)} (hi : Inv σ.g) (h : run ω p σ = some (rs, σ')) :
    Inv σ'.g ∧ abs σ'.g = Spec.after (abs σ.g) (journal p rs) ∧
      ∀ rs', Spec.okAll (abs σ.g) (journal p rs) rs' → List.Forall₂ (fun op r => worked (op, r) = true) (journal p rs) rs' := by
  induction p generalizing σ rs with
  | nil =>
    cases h
    refine ⟨hi, rfl, fun rs' h => ?_⟩
    cases rs' with
    | nil => exact .nil
    | cons => exact h.elim
  | cons op p ih =>
    obtain ⟨r, rs1, σ1, hc, hr, rfl⟩ := run_cons h
    obtain ⟨hi1, ha, hok⟩ := hc.spec hi
    obtain ⟨h1, h2, h3⟩ := ih hi1 hr
    rw [journal_cons]
    split
    · rename_i hw
      rw [ha] at h2 h3
      refine ⟨h1, h2, fun rs' h => ?_⟩
      cases rs' with
      | nil => exact h.elim
      | cons r' rs' =>
        have ho : op.readOnly = false := by
          unfold worked at hw
          simpa using (Bool.and_eq_true_iff.1 hw).1
        exact .cons (ok_unique ho hok h.1 ▸ hw) (h3 _ h.2)
    · rename_i hw
      have e : abs σ1.g = abs σ.g := ha.trans (next_failed hi hok (by simpa using hw))
      rw [e] at h2 h3
      exact ⟨h1, h2, h3⟩

/-! ## C92 -/

/-- **C92.** Calling anything a second time does not change the graph any more … -/
theorem C92_retry (ω ω₁ ω₂ : Oracle) (ops : List (Op K T)) (σ σ₁ σ₂ : St K T) (h : After ω ops σ) (op : Op K T) (r r' : Res K T)
    (hc : Call ω₁ σ op r σ₁) (hc' : Call ω₂ σ₁ op r' σ₂) : SameGraph σ₁ σ₂ := by
  obtain ⟨hi1, ha, -⟩ := hc.spec h.inv
  obtain ⟨hi2, ha', -⟩ := hc'.spec hi1
  have e : abs σ₂.g = abs σ₁.g := by rw [ha', ha, next_next]
  exact ⟨fun k v => by rw [bound_iff hi1, bound_iff hi2, e], fun x y => by rw [edge_iff hi1, edge_iff hi2, e]⟩

/-- … and the second result of a call that changes the graph tells whether the first one succeeded. -/
theorem C92_result (ω ω₁ ω₂ : Oracle) (ops : List (Op K T)) (σ σ₁ σ₂ : St K T) (h : After ω ops σ) (op : Op K T) (ho : op.readOnly = false)
    (r r' : Res K T) (hc : Call ω₁ σ op r σ₁) (hc' : Call ω₂ σ₁ op r' σ₂) : r' = Res.again op r := by
  obtain ⟨hi1, ha, hok⟩ := hc.spec h.inv
  obtain ⟨-, -, hok'⟩ := hc'.spec hi1
  rw [ha] at hok'
  exact ok_unique ho hok' (ok_again h.inv ho hok)

/-- **C92.** The calls that changed the graph successfully, made again from the same graph, all succeed again and give the same graph: queries and
calls that failed can be left out. -/
theorem C92_replay (ω ω₁ ω₂ : Oracle) (ops : List (Op K T)) (σ τ : St K T) (h : After ω ops σ) (p : List (Op K T)) (rs : List (Res K T))
    (hr : run ω₁ p σ = some (rs, τ)) :
    ∃ rs' τ', run ω₂ (journal p rs) σ = some (rs', τ') ∧ SameGraph τ τ' ∧
      List.Forall₂ (fun op r => worked (op, r) = true) (journal p rs) rs' := by
  obtain ⟨h1, h2, h3⟩ := journal_spec h.inv hr
  obtain ⟨rs', τ', h4, h5, h6, h7⟩ := run_refines_from ω₂ (journal p rs) σ h.inv
  refine ⟨rs', τ', h4, ⟨fun k v => ?_, fun x y => ?_⟩, h3 rs' h7⟩
  · rw [bound_iff h1, bound_iff h5, h2, h6]
  · rw [edge_iff h1, edge_iff h5, h2, h6]

/-- A history with failing calls, repeated calls and queries, and its journal. -/
def restless : List (Op Nat Nat) :=
  [.addVertex 1 10, .addVertex 1 11, .addVertex 2 20, .addEdge 1 2, .addEdge 2 1, .getSize, .addEdge 1 2, .addVertex 3 30, .addEdge 2 3, .addEdge 1 3,
   .reduceTransitively, .deleteEdge 1 3, .deleteVertex 2, .deleteVertex 2, .deleteEdge 1 3]

example : (run Oracle.forward restless St.init).map (fun x => journal restless x.1) =
    some [.addVertex 1 10, .addVertex 2 20, .addEdge 1 2, .addVertex 3 30, .addEdge 2 3, .addEdge 1 3, .reduceTransitively, .deleteVertex 2] := by
  decide +kernel

/-- The second results after a first success. -/
example : (run Oracle.forward [.addVertex 1 10, .addVertex 1 10, .addVertex 2 20, .addEdge 1 2, .addEdge 1 2, .deleteEdge 1 2, .deleteEdge 1 2,
      .deleteVertex 1, .deleteVertex 1] (St.init : St Nat Nat)).map Prod.fst =
    some [.err none, .err (some .vertexDuplicate), .err none, .err none, .err (some .edgeDuplicate), .err none, .err (some .edgeNotFound), .err none,
      .err (some .vertexNotFound)] := by
  decide +kernel

end Verif.Dag
