import Verif.Dag.Run
import Mathlib.Data.List.Nodup

/-!
# How many loops a call runs

The state counts the `range` statements executed so far (`St.n`).  The recursive queries are amortised: a vertex pays
`1 + ` its number of edges when its answer is computed, and never again while it is remembered.
-/

set_option linter.unusedSectionVars false

namespace Verif.Dag
open M Relation

variable {K T : Type} [DecidableEq K] [GoZero K] [GoZero T]

theorem Tot.and {α : Type} {m : M K T α} {s : St K T} {P Q : α → St K T → Prop} (h : Tot m s P) (h' : Tot m s Q) :
    Tot m s (fun a s' => P a s' ∧ Q a s') := by
  obtain ⟨a, s', h1, h2⟩ := h
  exact ⟨a, s', h1, h2, h'.elim h1⟩

/-- The loops run to compute the answer for `v`, apart from those for the vertices it leads to. -/
def price (d : Dir) (g : Graph K T) (v : K) : Nat := 1 + (setAt (d.edges g) v).length

/-- What is still to be paid: the prices of all vertices whose answer is not remembered. -/
def pot (d : Dir) (g : Graph K T) : Nat :=
  (((GoMap.keys g.vertices).filter fun v => !(GoMap.has (d.cache g) v)).map (price d g)).sum

theorem sum_filter_split (f : K → Nat) (p q : K → Bool) (l : List K) (hl : l.Nodup) (id : K) (hid : id ∈ l) (hp : p id = true)
    (hq : ∀ x, q x = (p x && !(decide (x = id)))) :
    ((l.filter q).map f).sum + f id = ((l.filter p).map f).sum := by
  induction l with
  | nil => cases hid
  | cons a l ih =>
    have hn := List.nodup_cons.mp hl
    by_cases ha : a = id
    · subst ha
      have e : l.filter q = l.filter p := by
        apply List.filter_congr
        intro x hx
        have : x ≠ a := fun h => hn.1 (h ▸ hx)
        rw [hq]; simp [this]
      have hqa : q a = false := by rw [hq]; simp
      rw [List.filter_cons_of_neg (by simp [hqa]), List.filter_cons_of_pos hp, List.map_cons, List.sum_cons, e]
      omega
    · have hm : id ∈ l := (List.mem_cons.mp hid).resolve_left (Ne.symm ha)
      have := ih hn.2 hm
      have hqa : q a = p a := by rw [hq]; simp [ha]
      cases hpa : p a with
      | true =>
        rw [List.filter_cons_of_pos (by rw [hqa, hpa]), List.filter_cons_of_pos hpa, List.map_cons, List.sum_cons,
          List.map_cons, List.sum_cons]
        omega
      | false =>
        rw [List.filter_cons_of_neg (by rw [hqa, hpa]; simp), List.filter_cons_of_neg (by rw [hpa]; simp)]
        exact this

theorem pot_set (d : Dir) {g : Graph K T} (hg : GInv g) {id : K} (hv : GoMap.has g.vertices id = true)
    (hc : GoMap.has (d.cache g) id = false) (C : GSet K) :
    pot d (d.withCache g (GoMap.set (d.cache g) id C)) + price d g id = pot d g := by
  have sb := SameBut.withCache d g (GoMap.set (d.cache g) id C)
  unfold pot
  rw [sb.vertices, cache_withCache]
  have e : price d (d.withCache g (GoMap.set (d.cache g) id C)) = price d g := by
    funext v; unfold price; rw [sb.edges]
  rw [e]
  refine sum_filter_split _ _ _ _ hg.vnd id ((GoMap.mem_keys_iff_has _ _).mpr hv) (by simp [hc]) ?_
  intro x
  have := GoMap.has_set (d.cache g) id x C
  by_cases hx : x = id
  · subst hx
    rw [this.mpr (.inl rfl)]; simp
  · cases h1 : GoMap.has (d.cache g) x with
    | true => rw [this.mpr (.inr h1)]; simp
    | false =>
      have : GoMap.has (GoMap.set (d.cache g) id C) x = false := by
        cases h2 : GoMap.has (GoMap.set (d.cache g) id C) x with
        | false => rfl
        | true => rcases this.mp h2 with h | h
                  · exact absurd h hx
                  · rw [h1] at h; cases h
      rw [this]; simp [hx]

/-- The recursive queries are paid for by what they remember. -/
theorem closure_cost (ω : Oracle) (d : Dir) (fuel : Nat) (id : K) (s : St K T)
    (hg : GInv s.g) (hc : CInv d s.g) (hv : GoMap.has s.g.vertices id = true) (hf : rank d s.g id < fuel) :
    Tot (closureIDs ω d fuel id) s (fun _ s' => s'.n + pot d s'.g ≤ s.n + pot d s.g) := by
  induction fuel generalizing id s with
  | zero => omega
  | succ n ih =>
    unfold closureIDs
    refine Tot.bind (Tot.getG ?_)
    have hck := (checkVertexID_none hg id).mpr hv
    simp only [hck]
    cases hget : GoMap.get? (d.cache s.g) id with
    | some S => exact Tot.pure (Nat.le_refl _)
    | none =>
      have hnc : GoMap.has (d.cache s.g) id = false := (GoMap.has_eq_false _ _).mpr hget
      have fin : ∀ (C : GSet K) (s1 : St K T), (SameBut d s.g s1.g ∧ GoMap.has (d.cache s1.g) id = false ∧
            s1.n + pot d s1.g ≤ s.n + pot d s.g + price d s.g id) →
          Tot (do
            modG fun g => d.withCache g (GoMap.set (d.cache g) id C)
            return .ok C : M K T (Except Err (GSet K))) s1 (fun _ s' => s'.n + pot d s'.g ≤ s.n + pot d s.g) := by
        rintro C s1 ⟨k1, k2, k3⟩
        refine Tot.bind (Tot.modG ?_)
        refine Tot.pure ?_
        have := pot_set d (k1.ginv hg) (by rw [k1.vertices]; exact hv) k2 C
        have e : price d s1.g id = price d s.g id := by unfold price; rw [k1.edges]
        simp only
        omega
      cases hn : GoMap.get? (d.edges s.g) id with
      | none => exact Tot.bind (Tot.mpure (fin _ _ ⟨SameBut.refl _ _, hnc, by omega⟩))
      | some nexts =>
        have hwf := hg.dWF d id nexts hn
        have hE : ∀ c, d.E s.g id c ↔ GSet.includes nexts c = true := by
          intro c; unfold Dir.E setAt; rw [hn]; rfl
        have hpr : price d s.g id = 1 + nexts.length := by unfold price setAt; rw [hn]; rfl
        refine Tot.bind (Tot.range ?_)
        intro cs hperm
        have hmem : ∀ p ∈ cs, d.E s.g id p.1 := by
          intro p hp; rw [hperm.mem_iff, GSet.mem_iff hwf] at hp; rw [hE]; exact hp.2
        refine Tot.bind (Tot.mono (Tot.loop (Q := fun _ s1 => SameBut d s.g s1.g ∧ GoMap.has (d.cache s1.g) id = false ∧
            s1.n + pot d s1.g ≤ s.n + pot d s.g + price d s.g id) (fun pre post C s' =>
          SameBut d s.g s'.g ∧ CInv d s'.g ∧ GoMap.has (d.cache s'.g) id = false ∧
            s'.n + pot d s'.g ≤ s.n + pot d s.g + 1 + pre.length) ?_ ?_ ?_) fin)
        · exact ⟨SameBut.refl _ _, hc, hnc, by simp only [List.length_nil]; omega⟩
        · rintro pre p post C s1 hcs ⟨i1, i2, i3, i4⟩
          have hp : d.E s.g id p.1 := hmem p (by rw [hcs]; simp)
          have hg1 := i1.ginv hg
          have hv1 : GoMap.has s1.g.vertices p.1 = true := by rw [i1.vertices]; exact (hg.dEnds d _ _ hp).2
          have hf1 : rank d s1.g p.1 < n := by
            have := rank_lt_of_edge hg d hp
            have e : rank d s1.g p.1 = rank d s.g p.1 := by unfold rank; rw [i1.vertices, i1.E]
            omega
          refine Tot.bind (Tot.mono ((closure_spec ω d n p.1 s1 hg1 i2 hv1 hf1).and (ih p.1 s1 hg1 i2 hv1 hf1)) ?_)
          rintro r s2 ⟨⟨j1, j2, j3, S, rfl, j5, j6, j7, j8⟩, j9⟩
          refine Tot.bind (Tot.range ?_)
          intro ds hds
          refine Tot.pure ⟨i1.trans j1, j2, ?_, ?_⟩
          · cases h : GoMap.has (d.cache s2.g) id with
            | false => rfl
            | true =>
              exfalso
              rcases j8 id h with h | h | h
              · rw [i3] at h; cases h
              · rw [← h] at hp; exact hg.dAcyc d id (.single hp)
              · rw [i1.E] at h; exact hg.dAcyc d id (.head hp h)
          · simp only [List.length_append, List.length_singleton]
            omega
        · rintro C s' ⟨i1, i2, i3, i4⟩
          refine ⟨i1, i3, ?_⟩
          rw [hpr]
          have := hperm.length_eq
          omega

/-! ## The price of everything -/

/-- The number of edges, as `GetSize` counts them. -/
def sizeOf (g : Graph K T) : Nat := (edgeList g.outb).length

theorem edgeList_sum (os : List (K × GSet K)) : (edgeList os).length = (os.map fun e => e.2.length).sum := by
  induction os with
  | nil => rfl
  | cons p os ih =>
    unfold edgeList at ih ⊢
    rw [List.flatMap_cons, List.length_append, List.length_map, ih]
    rfl

/-- The rows of distinct vertices together have at most all entries. -/
theorem sum_rows_le (m : GoMap K (GSet K)) (l : List K) (hl : l.Nodup) :
    (l.map fun v => (setAt m v).length).sum ≤ (m.map fun e => e.2.length).sum := by
  induction m generalizing l with
  | nil =>
    have : ∀ l : List K, (l.map fun v => (setAt ([] : GoMap K (GSet K)) v).length).sum = 0 := by
      intro l
      induction l with
      | nil => rfl
      | cons a l ih => rw [List.map_cons, List.sum_cons, ih]; rfl
    rw [this]; exact Nat.zero_le _
  | cons p m ih =>
    obtain ⟨k, S⟩ := p
    have row : ∀ v, v ≠ k → setAt ((k, S) :: m) v = setAt m v := by
      intro v hv; unfold setAt; rw [GoMap.get?_cons, if_neg (Ne.symm hv)]
    have rowk : setAt ((k, S) :: m) k = S := by
      unfold setAt; rw [GoMap.get?_cons, if_pos rfl]; rfl
    have same : ∀ l : List K, k ∉ l → (l.map fun v => (setAt ((k, S) :: m) v).length) = l.map fun v => (setAt m v).length := by
      intro l hk
      apply List.map_congr_left
      intro v hv
      rw [row v (fun h => hk (h ▸ hv))]
    rw [List.map_cons, List.sum_cons]
    by_cases hk : k ∈ l
    · have hp := List.perm_cons_erase hk
      have hn : (l.erase k).Nodup := hl.erase k
      have hk' : k ∉ l.erase k := fun h => (List.Nodup.mem_erase_iff hl).mp h |>.1 rfl
      rw [(hp.map fun v => (setAt ((k, S) :: m) v).length).sum_nat, List.map_cons, List.sum_cons, rowk, same _ hk']
      have := ih _ hn
      simp only
      omega
    · rw [same l hk]
      have := ih l hl
      omega

theorem edges_sum (d : Dir) {g : Graph K T} (hg : GInv g) : ((d.edges g).map fun e => e.2.length).sum = sizeOf g := by
  unfold sizeOf
  rw [edgeList_sum]
  cases d with
  | down => rfl
  | up =>
    simp only [Dir.edges]
    rw [← edgeList_sum, ← edgeList_sum]
    have mem_in : ∀ a b, (a, b) ∈ edgeList g.inb ↔ g.E b a := by
      intro a b
      rw [← downE, ← hg.conv]
      unfold edgeList
      simp only [List.mem_flatMap, List.mem_map, Prod.mk.injEq, Prod.exists]
      unfold Dir.E setAt Dir.edges
      constructor
      · rintro ⟨k, S, h1, x, y, h2, rfl, rfl⟩
        rw [GoMap.mem_iff_get? hg.ind] at h1
        simp only [h1, Option.getD_some]
        exact ((GSet.mem_iff (hg.iwf _ _ h1) _).mp h2).2
      · intro h
        simp only at h
        cases hk : GoMap.get? g.inb a with
        | none => rw [hk] at h; simp at h
        | some S =>
          rw [hk, Option.getD_some] at h
          exact ⟨a, S, (GoMap.mem_iff_get? hg.ind _ _).mpr hk, b, b, (GSet.mem_iff (hg.iwf _ _ hk) _).mpr ⟨rfl, h⟩, rfl, rfl⟩
    have n1 : (edgeList g.inb).Nodup := nodup_edgeList hg.ind fun p hp =>
      (hg.iwf p.1 p.2 ((GoMap.mem_iff_get? hg.ind _ _).mp hp)).nodup
    have n2 : (edgeList g.outb).Nodup := nodup_edgeList hg.ond fun p hp => (outb_wf_perm hg (List.Perm.refl _) p hp).nodup
    have : ((edgeList g.inb).map Prod.swap).Perm (edgeList g.outb) := by
      rw [List.perm_ext_iff_of_nodup (List.Nodup.map (fun _ _ h => Prod.swap_inj.mp h) n1) n2]
      rintro ⟨a, b⟩
      rw [mem_edgeList hg (List.Perm.refl _), List.mem_map]
      constructor
      · rintro ⟨⟨x, y⟩, h1, h2⟩
        cases h2
        exact (mem_in x y).mp h1
      · intro h; exact ⟨(b, a), (mem_in b a).mpr h, rfl⟩
    rw [← this.length_eq, List.length_map]

theorem sum_price (d : Dir) (g : Graph K T) (l : List K) :
    (l.map (price d g)).sum = l.length + (l.map fun v => (setAt (d.edges g) v).length).sum := by
  induction l with
  | nil => rfl
  | cons a l ih => rw [List.map_cons, List.sum_cons, ih, List.map_cons, List.sum_cons, List.length_cons]; unfold price; omega

theorem pot_le (d : Dir) {g : Graph K T} (hg : GInv g) : pot d g ≤ g.vertices.length + sizeOf g := by
  unfold pot
  rw [sum_price]
  have h1 := List.length_filter_le (fun v => !(GoMap.has (d.cache g) v)) (GoMap.keys g.vertices)
  have h2 : (GoMap.keys g.vertices).length = g.vertices.length := by simp [GoMap.keys]
  have h3 := sum_rows_le (d.edges g) _ (hg.vnd.filter fun v => !(GoMap.has (d.cache g) v))
  have h4 := edges_sum d hg
  omega

/-! ## The calls -/

theorem Same.pot_le {g g' : Graph K T} (h : Same g g') (hg : GInv g') (d : Dir) : pot d g' ≤ g.vertices.length + sizeOf g := by
  have := Dag.pot_le d hg
  unfold sizeOf at *
  rw [h.v, h.o] at this
  exact this

theorem descendantsOf_cost (ω : Oracle) (id : K) (s : St K T) (hi : Inv s.g) (hv : GoMap.has s.g.vertices id = true) :
    Tot (descendantsOf ω id) s (fun _ s' => s'.n + pot .down s'.g ≤ s.n + pot .down s.g) := by
  unfold descendantsOf
  refine Tot.bind (Tot.getG (Tot.bind ?_))
  rw [getDescendantsIDs_eq]
  refine Tot.mono (closure_cost ω .down _ id s hi.base hi.down hv ?_) ?_
  · have := rank_lt_order hi.base .down hv; unfold fuelFor; omega
  · intro r s' h
    cases r <;> exact Tot.pure h

theorem ancestorsOf_cost (ω : Oracle) (id : K) (s : St K T) (hi : Inv s.g) (hv : GoMap.has s.g.vertices id = true) :
    Tot (ancestorsOf ω id) s (fun _ s' => s'.n + pot .up s'.g ≤ s.n + pot .up s.g) := by
  unfold ancestorsOf
  refine Tot.bind (Tot.getG (Tot.bind ?_))
  rw [getAncestorsIDs_eq]
  refine Tot.mono (closure_cost ω .up _ id s hi.base hi.up hv ?_) ?_
  · have := rank_lt_order hi.base .up hv; unfold fuelFor; omega
  · intro r s' h
    cases r <;> exact Tot.pure h

/-- `GetAncestors` and `GetDescendants`: one loop to copy the answer. -/
theorem getAncestors_cost (ω : Oracle) (id : K) (s : St K T) (hi : Inv s.g) :
    Tot (getAncestors ω id) s (fun _ s' => s'.n + pot .up s'.g ≤ s.n + pot .up s.g + 1) := by
  unfold getAncestors
  refine Tot.bind (Tot.getG (Tot.bind ?_))
  rw [getAncestorsIDs_eq]
  cases hck : checkVertexID s.g id with
  | some e =>
    refine Tot.mono (closure_err ω .up _ id s e hck) ?_
    rintro r s' ⟨rfl, rfl⟩
    exact Tot.pure (Nat.le_succ _)
  | none =>
    have hv := (checkVertexID_none hi.base id).mp hck
    refine Tot.mono (closure_cost ω .up _ id s hi.base hi.up hv ?_) ?_
    · have := rank_lt_order hi.base .up hv; unfold fuelFor; omega
    · intro r s' h
      cases r with
      | error e => exact Tot.pure (by omega)
      | ok S =>
        refine Tot.bind (Tot.getG (Tot.bind (Tot.bind (Tot.range fun ks _ => Tot.pure (Tot.pure ?_)))))
        simp only
        omega

theorem getDescendants_cost (ω : Oracle) (id : K) (s : St K T) (hi : Inv s.g) :
    Tot (getDescendants ω id) s (fun _ s' => s'.n + pot .down s'.g ≤ s.n + pot .down s.g + 1) := by
  unfold getDescendants
  refine Tot.bind (Tot.getG (Tot.bind ?_))
  rw [getDescendantsIDs_eq]
  cases hck : checkVertexID s.g id with
  | some e =>
    refine Tot.mono (closure_err ω .down _ id s e hck) ?_
    rintro r s' ⟨rfl, rfl⟩
    exact Tot.pure (Nat.le_succ _)
  | none =>
    have hv := (checkVertexID_none hi.base id).mp hck
    refine Tot.mono (closure_cost ω .down _ id s hi.base hi.down hv ?_) ?_
    · have := rank_lt_order hi.base .down hv; unfold fuelFor; omega
    · intro r s' h
      cases r with
      | error e => exact Tot.pure (by omega)
      | ok S =>
        refine Tot.bind (Tot.getG (Tot.bind (Tot.bind (Tot.range fun ks _ => Tot.pure (Tot.pure ?_)))))
        simp only
        omega

/-- Only vertices have rows of edges. -/
def Rows (g : Graph K T) : Prop := ∀ k, GoMap.has g.outb k = true → GoMap.has g.vertices k = true

theorem has_updAt (m : GoMap K (GSet K)) (k x : K) (f : GSet K → GSet K) :
    GoMap.has (GoMap.updAt m k f) x = GoMap.has m x := by
  unfold GoMap.has
  rw [GoMap.get?_updAt]
  by_cases h : x = k
  · subst h; cases GoMap.get? m x <;> simp
  · simp [h]

theorem has_foldl_updAt {α : Type} (k : α → K) (f : GSet K → GSet K) (xs : List α) (m : GoMap K (GSet K)) (x : K) :
    GoMap.has (xs.foldl (fun m a => GoMap.updAt m (k a) f) m) x = GoMap.has m x := by
  induction xs generalizing m with
  | nil => rfl
  | cons a xs ih => rw [List.foldl_cons, ih, has_updAt]

theorem Rows.length_le {g : Graph K T} (hg : GInv g) (h : Rows g) : g.outb.length ≤ g.vertices.length := by
  have e1 : g.outb.length = (GoMap.keys g.outb).length := by simp [GoMap.keys]
  have e2 : g.vertices.length = (GoMap.keys g.vertices).length := by simp [GoMap.keys]
  rw [e1, e2]
  refine (List.subperm_of_subset hg.ond ?_).length_le
  intro x hx
  rw [GoMap.mem_keys_iff_has] at hx ⊢
  exact h x hx

theorem Same.rows {g g' : Graph K T} (h : Same g g') (hr : Rows g) : Rows g' := by
  unfold Rows; rw [h.v, h.o]; exact hr

theorem addEdge_cost (ω : Oracle) (s t : K) (σ : St K T) (hi : Inv σ.g) (hr : Rows σ.g) :
    Tot (addEdge ω s t) σ (fun _ σ' => σ'.n ≤ σ.n + 2 * (σ.g.vertices.length + sizeOf σ.g) + 2 ∧ Rows σ'.g) := by
  unfold addEdge
  refine Tot.bind (Tot.getG ?_)
  cases hck : checkEdgeIDs σ.g s t with
  | some e => exact Tot.pure ⟨by omega, hr⟩
  | none =>
    obtain ⟨hst, hs, ht⟩ := (checkEdgeIDs_none hi.base s t).mp hck
    cases hfl : isEdgeFlag σ.g s t with
    | true => exact Tot.pure ⟨by omega, hr⟩
    | false =>
      simp only [Bool.false_eq_true, if_false]
      refine Tot.bind (Tot.mono ((descendantsOf_spec ω t σ hi ht).and (descendantsOf_cost ω t σ hi ht)) ?_)
      rintro ds0 σ1 ⟨⟨hi1, sm1, -⟩, c1⟩
      have hs1 : GoMap.has σ1.g.vertices s = true := by rw [sm1.v]; exact hs
      refine Tot.bind (Tot.mono ((ancestorsOf_spec ω s σ1 hi1 hs1).and (ancestorsOf_cost ω s σ1 hi1 hs1)) ?_)
      rintro as0 σ2 ⟨⟨hi2, sm2, -⟩, c2⟩
      have p1 := pot_le .down hi.base
      have p2 := sm1.pot_le hi1.base .up
      cases hinc : GSet.includes ds0 s with
      | true => exact Tot.pure ⟨by omega, (sm1.trans sm2).rows hr⟩
      | false =>
        simp only [Bool.false_eq_true, if_false]
        refine Tot.bind (Tot.modG (Tot.bind (Tot.modG (Tot.bind (Tot.modG (Tot.bind (Tot.modG ?_)))))))
        refine Tot.bind (Tot.range fun ds hds => Tot.bind (Tot.loopMod (Tot.bind (Tot.modG ?_))))
        refine Tot.bind (Tot.range fun as has => Tot.bind (Tot.loopMod (Tot.bind (Tot.modG (Tot.pure ⟨?_, ?_⟩)))))
        · simp only; omega
        · simp only [foldl_ancC (Prod.fst), foldl_descC (Prod.fst)]
          have hr2 := (sm1.trans sm2).rows hr
          have hs2 : GoMap.has σ2.g.vertices s = true := by rw [(sm1.trans sm2).v]; exact hs
          intro k hk
          cases h1 : GoMap.has σ2.g.outb s with
          | true =>
            simp only [h1, Bool.not_true, Bool.false_eq_true, if_false] at hk ⊢
            cases h2 : GoMap.has σ2.g.inb t <;> simp only [h2, Bool.not_true, Bool.not_false, Bool.false_eq_true, if_true, if_false, has_updAt] at hk ⊢ <;> exact hr2 k hk
          | false =>
            have key : GoMap.has (GoMap.set σ2.g.outb s []) k = true → GoMap.has σ2.g.vertices k = true := by
              intro h
              rcases (GoMap.has_set _ _ _ _).mp h with rfl | h
              · exact hs2
              · exact hr2 k h
            simp only [h1, Bool.not_false, if_true] at hk ⊢
            cases h2 : GoMap.has σ2.g.inb t <;> simp only [h2, Bool.not_true, Bool.not_false, Bool.false_eq_true, if_true, if_false, has_updAt] at hk ⊢ <;> exact key hk

theorem deleteEdge_cost (ω : Oracle) (s t : K) (σ : St K T) (hi : Inv σ.g) (hr : Rows σ.g) :
    Tot (deleteEdge ω s t) σ (fun _ σ' => σ'.n ≤ σ.n + 2 * (σ.g.vertices.length + sizeOf σ.g) + 2 ∧ Rows σ'.g) := by
  unfold deleteEdge
  refine Tot.bind (Tot.getG ?_)
  cases hck : checkEdgeIDs σ.g s t with
  | some e => exact Tot.pure ⟨by omega, hr⟩
  | none =>
    obtain ⟨hst, hs, ht⟩ := (checkEdgeIDs_none hi.base s t).mp hck
    cases hfl : isEdgeFlag σ.g s t with
    | false => exact Tot.pure ⟨by omega, hr⟩
    | true =>
      simp only [Bool.not_true, Bool.false_eq_true, if_false]
      refine Tot.bind (Tot.mono ((descendantsOf_spec ω s σ hi hs).and (descendantsOf_cost ω s σ hi hs)) ?_)
      rintro ds0 σ1 ⟨⟨hi1, sm1, -⟩, c1⟩
      have ht1 : GoMap.has σ1.g.vertices t = true := by rw [sm1.v]; exact ht
      refine Tot.bind (Tot.mono ((ancestorsOf_spec ω t σ1 hi1 ht1).and (ancestorsOf_cost ω t σ1 hi1 ht1)) ?_)
      rintro as0 σ2 ⟨⟨hi2, sm2, -⟩, c2⟩
      have p1 := pot_le .down hi.base
      have p2 := sm1.pot_le hi1.base .up
      refine Tot.bind (Tot.modG (Tot.bind (Tot.modG ?_)))
      refine Tot.bind (Tot.range fun ds hds => Tot.bind (Tot.loopMod (Tot.bind (Tot.modG ?_))))
      refine Tot.bind (Tot.range fun as has => Tot.bind (Tot.loopMod (Tot.bind (Tot.modG (Tot.pure ⟨?_, ?_⟩)))))
      · simp only; omega
      · simp only [foldl_ancC (Prod.fst), foldl_descC (Prod.fst)]
        intro k hk
        simp only [has_updAt] at hk ⊢
        exact (sm1.trans sm2).rows hr k hk

theorem unlinkParents_n (ω : Oracle) (id : K) (σ : St K T) : Tot (unlinkParents ω id) σ (fun _ σ' => σ'.n ≤ σ.n + 1) := by
  unfold unlinkParents
  refine Tot.bind (Tot.getG ?_)
  cases GoMap.has σ.g.inb id with
  | true => simp only [if_true]; exact Tot.bind (Tot.range fun ps _ => Tot.loopMod (Nat.le_refl _))
  | false => simp only [Bool.false_eq_true, if_false]; exact Tot.pure (by omega)

theorem unlinkChildren_n (ω : Oracle) (id : K) (σ : St K T) : Tot (unlinkChildren ω id) σ (fun _ σ' => σ'.n ≤ σ.n + 1) := by
  unfold unlinkChildren
  refine Tot.bind (Tot.getG ?_)
  cases GoMap.has σ.g.outb id with
  | true => simp only [if_true]; exact Tot.bind (Tot.range fun ps _ => Tot.loopMod (Nat.le_refl _))
  | false => simp only [Bool.false_eq_true, if_false]; exact Tot.pure (by omega)

theorem deleteVertex_cost (ω : Oracle) (id : K) (σ : St K T) (hi : Inv σ.g) (hr : Rows σ.g) :
    Tot (deleteVertex ω id) σ (fun _ σ' => σ'.n ≤ σ.n + 2 * (σ.g.vertices.length + sizeOf σ.g) + 4 ∧ Rows σ'.g) := by
  unfold deleteVertex
  refine Tot.bind (Tot.getG ?_)
  cases hck : checkVertexID σ.g id with
  | some e => exact Tot.pure ⟨by omega, hr⟩
  | none =>
    have hv := (checkVertexID_none hi.base id).mp hck
    refine Tot.bind (Tot.mono ((descendantsOf_spec ω id σ hi hv).and (descendantsOf_cost ω id σ hi hv)) ?_)
    rintro ds0 σ1 ⟨⟨hi1, sm1, -⟩, c1⟩
    have hv1 : GoMap.has σ1.g.vertices id = true := by rw [sm1.v]; exact hv
    refine Tot.bind (Tot.mono ((ancestorsOf_spec ω id σ1 hi1 hv1).and (ancestorsOf_cost ω id σ1 hi1 hv1)) ?_)
    rintro as0 σ2 ⟨⟨hi2, sm2, -⟩, c2⟩
    have p1 := pot_le .down hi.base
    have p2 := sm1.pot_le hi1.base .up
    refine Tot.bind (Tot.mono ((unlinkParents_spec ω id σ2 hi2.base).and (unlinkParents_n ω id σ2)) ?_)
    rintro - σ3 ⟨⟨ps, hps, hσ3⟩, c3⟩
    have howf : ∀ k S, GoMap.get? σ3.g.outb k = some S → SetWF S := by
      rw [hσ3]; exact wf_foldl_updAt (fun x : K × K => x.1) _ (fun S h => GSet.wf_delete h id) ps _ hi2.base.owf
    refine Tot.bind (Tot.mono ((unlinkChildren_spec ω id σ3 howf).and (unlinkChildren_n ω id σ3)) ?_)
    rintro - σ4 ⟨⟨cs, hcs, hσ4⟩, c4⟩
    refine Tot.bind (Tot.modG (Tot.bind (Tot.modG ?_)))
    refine Tot.bind (Tot.range fun ds hds => Tot.bind (Tot.loopMod (Tot.bind (Tot.modG ?_))))
    refine Tot.bind (Tot.range fun as has => Tot.bind (Tot.loopMod (Tot.bind (Tot.modG (Tot.bind (Tot.modG (Tot.pure ⟨?_, ?_⟩)))))))
    · simp only; omega
    · simp only [foldl_ancC (Prod.snd), foldl_descC (Prod.snd), hσ4, hσ3]
      intro k hk
      simp only [GoMap.has_del] at hk ⊢
      refine ⟨hk.1, ?_⟩
      have := hk.2
      rw [has_foldl_updAt (fun x : K × K => x.1)] at this
      exact (sm1.trans sm2).rows hr k this

/-- Draining a walker: one loop for each vertex sent. -/
theorem drain_n {E : K → K → Prop} {id : K} (hac : ¬ TransGen E id id) {g : Graph K T}
    {step : Walk K → M K T (Option (K × Walk K))} (hstep : StepOK E g step)
    (hn : ∀ w σ, σ.g = g → Tot (step w) σ (fun r σ' => σ'.n ≤ σ.n + if r.isSome then 1 else 0))
    (V : List K) (hV : ∀ a b, E a b → b ∈ V) (fuel : Nat) (em : List K) (w : Walk K) (σ : St K T)
    (hσ : σ.g = g) (h : BfsInv E id em w) (hf : V.length < fuel + em.length) :
    Tot (drain step fuel w) σ (fun l σ' => σ'.n ≤ σ.n + l.length ∧ (em ++ l).length ≤ V.length) := by
  induction fuel generalizing em w σ with
  | zero =>
    have := h.length_le V hV
    rw [List.length_append] at this
    omega
  | succ n ih =>
    unfold drain
    refine Tot.bind (Tot.mono ((hstep w σ hσ).and (hn w σ hσ)) ?_)
    rintro r σ1 ⟨⟨hg1, hr⟩, c1⟩
    cases hw : w.fifo with
    | nil =>
      rw [hw] at hr
      subst hr
      refine Tot.pure ⟨by simpa using c1, ?_⟩
      have := h.length_le V hV
      rw [List.length_append] at this
      rw [List.append_nil]; omega
    | cons top rest =>
      rw [hw] at hr
      obtain ⟨cs, hcs, rfl⟩ := hr
      have h' := h.step hac hw hcs
      refine Tot.bind (Tot.mono (ih (em ++ [top]) _ σ1 hg1 h' ?_) ?_)
      · rw [List.length_append]; simp; omega
      · rintro l σ2 ⟨c2, hl⟩
        refine Tot.pure ⟨?_, ?_⟩
        · simp only [Option.isSome_some, if_true] at c1
          simp only [List.length_cons]; omega
        · simpa [Nat.add_assoc, Nat.add_comm] using hl

theorem getOrderedDescendants_cost (ω : Oracle) (id : K) (σ : St K T) (hi : Inv σ.g) :
    Tot (getOrderedDescendants ω id) σ (fun _ σ' => σ'.n ≤ σ.n + σ.g.vertices.length + 1) := by
  unfold getOrderedDescendants
  refine Tot.bind (Tot.getG ?_)
  cases hck : checkVertexID σ.g id with
  | some e => exact Tot.pure (by omega)
  | none =>
    have n1 : Tot (walkDescendantsInit ω id) σ (fun _ σ' => σ'.n = σ.n + 1) := by
      unfold walkDescendantsInit
      exact Tot.bind (Tot.getG (Tot.bind (Tot.range fun cs _ => Tot.pure rfl)))
    refine Tot.bind (Tot.mono ((walkDescendantsInit_spec ω id σ hi.base).and n1) ?_)
    rintro w σ1 ⟨⟨h1, h2⟩, c1⟩
    refine Tot.bind (Tot.mono (drain_n (hi.base.acyc id) (walkDescendantsStep_ok ω hi.base) ?_
      (GoMap.keys σ.g.vertices) ?_ _ [] w σ1 h1 h2 ?_) ?_)
    · intro w σ' _
      unfold walkDescendantsStep
      cases w.fifo with
      | nil => exact Tot.pure (Nat.le_refl _)
      | cons top rest => exact Tot.bind (Tot.getG (Tot.bind (Tot.range fun cs _ => Tot.pure (Nat.le_refl _))))
    · intro a b h; rw [GoMap.mem_keys_iff_has]; exact (hi.base.ends a b h).2
    · simp [fuelFor, GoMap.keys]
    · rintro l σ2 ⟨h3, h4⟩
      refine Tot.pure ?_
      have e : (GoMap.keys σ.g.vertices).length = σ.g.vertices.length := by simp [GoMap.keys]
      rw [List.nil_append] at h4
      omega

theorem getOrderedAncestors_cost (ω : Oracle) (id : K) (σ : St K T) (hi : Inv σ.g) :
    Tot (getOrderedAncestors ω id) σ (fun _ σ' => σ'.n ≤ σ.n + σ.g.vertices.length + 1) := by
  unfold getOrderedAncestors
  refine Tot.bind (Tot.getG ?_)
  cases hck : checkVertexID σ.g id with
  | some e => exact Tot.pure (by omega)
  | none =>
    have n1 : Tot (walkAncestorsInit ω id) σ (fun _ σ' => σ'.n = σ.n + 1) := by
      unfold walkAncestorsInit
      exact Tot.bind (Tot.getG (Tot.bind (Tot.range fun cs _ => Tot.pure rfl)))
    have hac : ¬ TransGen (Function.swap σ.g.E) id id := by rw [transGen_swap]; exact hi.base.acyc id
    refine Tot.bind (Tot.mono ((walkAncestorsInit_spec ω id σ hi.base).and n1) ?_)
    rintro w σ1 ⟨⟨h1, h2⟩, c1⟩
    refine Tot.bind (Tot.mono (drain_n hac (walkAncestorsStep_ok ω hi.base) ?_
      (GoMap.keys σ.g.vertices) ?_ _ [] w σ1 h1 h2 ?_) ?_)
    · intro w σ' _
      unfold walkAncestorsStep
      cases w.fifo with
      | nil => exact Tot.pure (Nat.le_refl _)
      | cons top rest => exact Tot.bind (Tot.getG (Tot.bind (Tot.range fun cs _ => Tot.pure (Nat.le_refl _))))
    · intro a b h; rw [GoMap.mem_keys_iff_has]; exact (hi.base.ends b a h).1
    · simp [fuelFor, GoMap.keys]
    · rintro l σ2 ⟨h3, h4⟩
      refine Tot.pure ?_
      have e : (GoMap.keys σ.g.vertices).length = σ.g.vertices.length := by simp [GoMap.keys]
      rw [List.nil_append] at h4
      omega

/-- A loop whose body is paid for element by element. -/
theorem Tot.loop_n {α β : Type} {xs : List α} {b : β} {f : β → α → M K T β} {s : St K T} (I : St K T → Prop) (c : α → Nat)
    (h0 : I s) (hs : ∀ x ∈ xs, ∀ b s, I s → Tot (f b x) s (fun _ s' => I s' ∧ s'.n ≤ s.n + c x)) :
    Tot (M.loop xs b f) s (fun _ s' => I s' ∧ s'.n ≤ s.n + (xs.map c).sum) := by
  refine Tot.loop (fun pre _ _ s' => I s' ∧ s'.n ≤ s.n + (pre.map c).sum) ⟨h0, by simp⟩ ?_ (fun _ _ h => h)
  rintro pre x post b s' hx ⟨h1, h2⟩
  refine Tot.mono (hs x (by rw [hx]; simp) b s' h1) ?_
  rintro _ s'' ⟨h3, h4⟩
  refine ⟨h3, ?_⟩
  rw [List.map_append, List.sum_append, List.map_singleton, List.sum_singleton]
  omega

theorem setAt_delete_le (m : GoMap K (GSet K)) (k c v : K) :
    (setAt (GoMap.updAt m k fun s => GSet.delete s c) v).length ≤ (setAt m v).length := by
  unfold setAt
  rw [GoMap.get?_updAt]
  by_cases h : v = k
  · subst h
    cases GoMap.get? m v with
    | none => simp
    | some S =>
      simp only [if_true, Option.map_some, Option.getD_some]
      unfold GSet.delete GoMap.del
      exact List.length_filter_le _ S
  · simp [h]

theorem reduce_cost (ω : Oracle) (σ : St K T) (hi : Inv σ.g) (hr : Rows σ.g) :
    Tot (reduceTransitively ω) σ (fun _ σ' => σ'.n ≤ σ.n + 3 * σ.g.vertices.length + 2 * sizeOf σ.g + 3 ∧ Rows σ'.g) := by
  unfold reduceTransitively
  have n1 : Tot (getRoots ω) σ (fun _ σ' => σ'.n = σ.n + 1) := by
    unfold getRoots
    exact Tot.bind (Tot.getG (Tot.bind (Tot.range fun _ _ => Tot.pure rfl)))
  refine Tot.bind (Tot.mono ((getRoots_spec ω σ hi).and n1) ?_)
  rintro roots σ1 ⟨⟨hσ1, hrnd, hroots⟩, c1⟩
  refine Tot.bind (Tot.range fun rs hrs => ?_)
  refine Tot.bind (Tot.loop (fun _ _ _ s' => Inv s'.g ∧ Same σ.g s'.g ∧ s'.n + pot .down s'.g ≤ σ.n + 2 + pot .down σ.g) ?_ ?_ ?_)
  · exact ⟨by rw [hσ1]; exact hi, by rw [hσ1]; exact Same.refl _, by simp only [hσ1]; omega⟩
  · rintro pre r post _ s' hsplit ⟨h1, h2, h3⟩
    have hr : r ∈ roots := hrs.mem_iff.mp (by rw [hsplit]; simp)
    have hr' := (hroots r.1 r.2).mp ((GoMap.mem_iff_get? hrnd _ _).mp hr)
    have hv : GoMap.has s'.g.vertices r.1 = true := by rw [h2.v, GoMap.has_iff]; exact ⟨_, hr'.1⟩
    refine Tot.bind (Tot.mono ((descendantsOf_spec ω r.1 s' h1 hv).and (descendantsOf_cost ω r.1 s' h1 hv)) ?_)
    rintro S s'' ⟨⟨k1, k2, -⟩, k3⟩
    exact Tot.pure ⟨k1, h2.trans k2, by omega⟩
  rintro _ σ2 ⟨hi2, sm, c2⟩
  have p1 := pot_le .down hi.base
  refine Tot.bind (Tot.getG (Tot.bind (Tot.range fun vs hvs => ?_)))
  refine Tot.bind (Tot.mono (Tot.loop_n (fun s' => Rows s'.g ∧ ∀ v, (setAt s'.g.outb v).length ≤ (setAt σ.g.outb v).length)
    (fun v => 2 + (setAt σ.g.outb v.1).length) ⟨sm.rows hr, by simp [sm.o]⟩ ?_) ?_)
  · rintro v hv changed s ⟨i1, i2⟩
    refine Tot.bind (Tot.getG (Tot.bind (Tot.range fun cs hcs => ?_)))
    refine Tot.bind (Tot.mono (Tot.loop_n (fun s' => s'.g = s.g) (fun _ => 1) rfl ?_) ?_)
    · rintro c _ acc s' h
      exact Tot.bind (Tot.getG (Tot.bind (Tot.range fun ds _ => Tot.pure ⟨h, Nat.le_refl _⟩)))
    rintro cd s2 ⟨h2, c3⟩
    have hl : (cs.map fun _ => 1).sum = (setAt s.g.outb v.1).length := by
      rw [← hcs.length_eq]; simp
    have hle := i2 v.1
    refine Tot.bind (Tot.getG (Tot.bind (Tot.range fun cs2 _ => ?_)))
    refine Tot.mono (Tot.loop_n (fun s' => Rows s'.g ∧ ∀ v, (setAt s'.g.outb v).length ≤ (setAt σ.g.outb v).length)
      (fun _ => 0) ?_ ?_) ?_
    · simp only [h2]; exact ⟨i1, i2⟩
    · rintro c _ ch s3 ⟨j1, j2⟩
      cases GSet.includes cd c.1 with
      | true =>
        simp only [if_true]
        refine Tot.bind (Tot.modG (Tot.bind (Tot.modG (Tot.pure ⟨⟨?_, ?_⟩, Nat.le_refl _⟩))))
        · intro k hk; simp only [has_updAt] at hk ⊢; exact j1 k hk
        · intro v'; exact Nat.le_trans (setAt_delete_le _ _ _ _) (j2 v')
      | false =>
        simp only [Bool.false_eq_true, if_false]
        exact Tot.pure ⟨⟨j1, j2⟩, Nat.le_refl _⟩
    · rintro _ s4 ⟨k1, k2⟩
      refine ⟨k1, ?_⟩
      have : (cs2.map fun _ => 0).sum = 0 := by
        rw [List.map_const', List.sum_replicate_nat]; simp
      simp only at k2 c3
      omega
  rintro changed σ3 ⟨⟨i1, -⟩, c3⟩
  have hsum : (vs.map fun v => 2 + (setAt σ.g.outb v.1).length).sum ≤ 2 * σ.g.vertices.length + sizeOf σ.g := by
    have h1 : ∀ l : List (K × T), (l.map fun v => 2 + (setAt σ.g.outb v.1).length).sum =
        2 * l.length + ((l.map Prod.fst).map fun v => (setAt σ.g.outb v).length).sum := by
      intro l
      induction l with
      | nil => rfl
      | cons a l ih => simp only [List.map_cons, List.sum_cons, List.length_cons, ih]; omega
    rw [h1]
    have h2 : vs.length = σ.g.vertices.length := by rw [hvs.length_eq, sm.v]
    have h3 := sum_rows_le σ.g.outb (vs.map Prod.fst) (hi2.base.vnd.perm hvs)
    have h4 := edges_sum .down hi.base
    simp only [Dir.edges] at h4
    omega
  have fin : σ3.n ≤ σ.n + 3 * σ.g.vertices.length + 2 * sizeOf σ.g + 3 := by
    simp only at c3
    omega
  cases changed with
  | true => simp only [if_true]; exact Tot.modG (by exact ⟨fin, i1⟩)
  | false => simp only [Bool.false_eq_true, if_false]; exact Tot.pure ⟨fin, i1⟩

theorem string_cost (ω : Oracle) (σ : St K T) (hi : Inv σ.g) (hr : Rows σ.g) :
    Tot (stringListing ω) σ (fun _ σ' => σ'.n ≤ σ.n + σ.g.vertices.length + 3 ∧ σ'.g = σ.g) := by
  unfold stringListing
  refine Tot.bind ?_
  unfold getOrder
  refine Tot.bind (Tot.getG (Tot.pure (Tot.bind ?_)))
  unfold getSize
  refine Tot.bind (Tot.getG (Tot.bind (Tot.range fun es _ => Tot.pure ?_)))
  refine Tot.bind (Tot.getG (Tot.bind (Tot.range fun vs _ => Tot.bind (Tot.getG (Tot.bind (Tot.range fun os hos => Tot.bind ?_))))))
  refine Tot.mono (Tot.loop_n (fun s' => s'.g = σ.g) (fun _ => 1) rfl ?_) ?_
  · rintro e _ acc s' h
    exact Tot.bind (Tot.range fun cs _ => Tot.pure ⟨h, Nat.le_refl _⟩)
  · rintro _ s' ⟨h1, h2⟩
    refine Tot.pure ⟨?_, h1⟩
    have := hr.length_le hi.base
    have hl : (os.map fun _ => 1).sum = σ.g.outb.length := by rw [← hos.length_eq]; simp
    simp only at h2
    omega

/-- Every call runs a number of loops linear in the size of the graph. -/
theorem exec_cost (ω : Oracle) (op : Op K T) (σ : St K T) (hi : Inv σ.g) (hr : Rows σ.g) :
    Tot (exec ω op) σ (fun _ σ' => σ'.n ≤ σ.n + 3 * (σ.g.vertices.length + sizeOf σ.g) + 4 ∧ Rows σ'.g) := by
  have two : ∀ {α : Type} {m : M K T α} {f : α → Res K T} {k : Nat}, k ≤ 3 * (σ.g.vertices.length + sizeOf σ.g) + 4 →
      Tot m σ (fun _ σ' => σ'.n ≤ σ.n + k ∧ Rows σ'.g) → Tot (do return f (← m) : M K T (Res K T)) σ (fun _ σ' =>
        σ'.n ≤ σ.n + 3 * (σ.g.vertices.length + sizeOf σ.g) + 4 ∧ Rows σ'.g) := by
    intro α m f k hk h
    refine Tot.bind (Tot.mono h ?_)
    rintro r σ' ⟨h1, h2⟩
    exact Tot.pure ⟨by omega, h2⟩
  have pd := pot_le .down hi.base
  have pu := pot_le .up hi.base
  cases op with
  | addVertex id v =>
    refine two (k := 0) (by omega) ?_
    unfold addVertex
    cases isZero id with
    | true => exact Tot.pure ⟨Nat.le_refl _, hr⟩
    | false =>
      simp only [Bool.false_eq_true, if_false]
      refine Tot.bind (Tot.getG ?_)
      cases GoMap.has σ.g.vertices id with
      | true => exact Tot.pure ⟨Nat.le_refl _, hr⟩
      | false =>
        simp only [Bool.false_eq_true, if_false]
        refine Tot.bind (Tot.modG (Tot.pure ⟨Nat.le_refl _, ?_⟩))
        intro k hk
        exact (GoMap.has_set _ _ _ _).mpr (.inr (hr k hk))
  | getVertex id =>
    refine two (k := 0) (by omega) ?_
    unfold getVertex
    refine Tot.bind (Tot.getG ?_)
    cases checkVertexID σ.g id <;> exact Tot.pure ⟨Nat.le_refl _, hr⟩
  | deleteVertex id => exact two (k := 2 * (σ.g.vertices.length + sizeOf σ.g) + 4) (by omega) (Tot.mono (deleteVertex_cost ω id σ hi hr) fun _ _ h => ⟨by rw [← Nat.add_assoc]; exact h.1, h.2⟩)
  | addEdge s t => exact two (k := 2 * (σ.g.vertices.length + sizeOf σ.g) + 2) (by omega) (Tot.mono (addEdge_cost ω s t σ hi hr) fun _ _ h => ⟨by rw [← Nat.add_assoc]; exact h.1, h.2⟩)
  | isEdge s t =>
    refine two (k := 0) (by omega) ?_
    unfold isEdge
    exact Tot.bind (Tot.getG (Tot.pure ⟨Nat.le_refl _, hr⟩))
  | deleteEdge s t => exact two (k := 2 * (σ.g.vertices.length + sizeOf σ.g) + 2) (by omega) (Tot.mono (deleteEdge_cost ω s t σ hi hr) fun _ _ h => ⟨by rw [← Nat.add_assoc]; exact h.1, h.2⟩)
  | getOrder =>
    refine two (k := 0) (by omega) ?_
    unfold getOrder
    exact Tot.bind (Tot.getG (Tot.pure ⟨Nat.le_refl _, hr⟩))
  | getSize =>
    refine two (k := 1) (by omega) ?_
    unfold getSize
    exact Tot.bind (Tot.getG (Tot.bind (Tot.range fun _ _ => Tot.pure ⟨Nat.le_refl _, hr⟩)))
  | getLeaves =>
    refine two (k := 1) (by omega) ?_
    unfold getLeaves
    exact Tot.bind (Tot.getG (Tot.bind (Tot.range fun _ _ => Tot.pure ⟨Nat.le_refl _, hr⟩)))
  | getRoots =>
    refine two (k := 1) (by omega) ?_
    unfold getRoots
    exact Tot.bind (Tot.getG (Tot.bind (Tot.range fun _ _ => Tot.pure ⟨Nat.le_refl _, hr⟩)))
  | getVertices =>
    refine two (k := 1) (by omega) ?_
    unfold getVertices
    exact Tot.bind (Tot.getG (Tot.bind (Tot.range fun _ _ => Tot.pure ⟨Nat.le_refl _, hr⟩)))
  | getParents id =>
    refine two (k := 1) (by omega) ?_
    unfold getParents
    refine Tot.bind (Tot.getG ?_)
    cases checkVertexID σ.g id with
    | some e => exact Tot.pure ⟨by omega, hr⟩
    | none => exact Tot.bind (Tot.range fun _ _ => Tot.pure ⟨Nat.le_refl _, hr⟩)
  | getChildren id =>
    refine two (k := 1) (by omega) ?_
    unfold getChildren
    refine Tot.bind (Tot.getG ?_)
    cases checkVertexID σ.g id with
    | some e => exact Tot.pure ⟨by omega, hr⟩
    | none => exact Tot.bind (Tot.range fun _ _ => Tot.pure ⟨Nat.le_refl _, hr⟩)
  | getAncestors id =>
    refine two (k := pot .up σ.g + 1) (by omega) (Tot.mono ((getAncestors_spec ω id σ hi).and (getAncestors_cost ω id σ hi)) ?_)
    rintro _ σ' ⟨⟨-, sm, -⟩, h⟩
    exact ⟨by omega, sm.rows hr⟩
  | getOrderedAncestors id =>
    refine two (k := σ.g.vertices.length + 1) (by omega)
      (Tot.mono ((getOrderedAncestors_spec ω id σ hi).and (getOrderedAncestors_cost ω id σ hi)) ?_)
    rintro _ σ' ⟨⟨e, -⟩, h⟩
    exact ⟨h, by rw [e]; exact hr⟩
  | getDescendants id =>
    refine two (k := pot .down σ.g + 1) (by omega) (Tot.mono ((getDescendants_spec ω id σ hi).and (getDescendants_cost ω id σ hi)) ?_)
    rintro _ σ' ⟨⟨-, sm, -⟩, h⟩
    exact ⟨by omega, sm.rows hr⟩
  | getOrderedDescendants id =>
    refine two (k := σ.g.vertices.length + 1) (by omega)
      (Tot.mono ((getOrderedDescendants_spec ω id σ hi).and (getOrderedDescendants_cost ω id σ hi)) ?_)
    rintro _ σ' ⟨⟨e, -⟩, h⟩
    exact ⟨h, by rw [e]; exact hr⟩
  | reduceTransitively =>
    refine Tot.bind (Tot.mono (reduce_cost ω σ hi hr) ?_)
    rintro r σ' ⟨h1, h2⟩
    exact Tot.pure ⟨by omega, h2⟩
  | string =>
    refine Tot.bind (Tot.mono (string_cost ω σ hi hr) ?_)
    rintro r σ' ⟨h1, h2⟩
    exact Tot.pure ⟨by omega, by rw [h2]; exact hr⟩

end Verif.Dag
