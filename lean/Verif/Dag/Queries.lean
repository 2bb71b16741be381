import Verif.Dag.Ops

/-! What the read-only operations return. -/

set_option linter.unusedSectionVars false

namespace Verif.Dag
open M Relation

variable {K T : Type} [DecidableEq K] [GoZero K] [GoZero T]

theorem get?_foldl_cond {V : Type} (c : K → Bool) (l : GoMap K V) (hl : GoMap.NodupKeys l)
    (acc : GoMap K V) (k : K) (v : V) :
    GoMap.get? (l.foldl (fun r p => if c p.1 = true then GoMap.set r p.1 p.2 else r) acc) k = some v ↔
      (GoMap.get? l k = some v ∧ c k = true) ∨
      (GoMap.get? acc k = some v ∧ ¬ (GoMap.has l k = true ∧ c k = true)) := by
  induction l generalizing acc with
  | nil => simp [GoMap.has]
  | cons p l ih =>
    obtain ⟨a, b⟩ := p
    have hl' : GoMap.NodupKeys l := (List.nodup_cons.mp hl).2
    have hna : GoMap.get? l a = none := by
      rw [← GoMap.has_eq_false]
      cases h : GoMap.has l a with
      | false => rfl
      | true => exact absurd ((GoMap.mem_keys_iff_has l a).mpr h) (List.nodup_cons.mp hl).1
    rw [List.foldl_cons, ih hl', GoMap.get?_cons]
    unfold GoMap.has
    rw [GoMap.get?_cons]
    by_cases hak : a = k
    · subst hak
      cases hc : c a <;> simp [hna]
    · cases hc : c a <;> simp [hak, Ne.symm hak]

theorem nodup_foldl_cond {V : Type} (c : K → Bool) (l acc : GoMap K V) (h : GoMap.NodupKeys acc) :
    GoMap.NodupKeys (l.foldl (fun r p => if c p.1 = true then GoMap.set r p.1 p.2 else r) acc) := by
  induction l generalizing acc with
  | nil => exact h
  | cons p l ih =>
    rw [List.foldl_cons]
    apply ih
    split
    · exact h.set _ _
    · exact h

/-- Keeping the entries whose key satisfies `c`, for a step function given in any form. -/
theorem foldl_filter {V : Type} (c : K → Bool) (f : GoMap K V → K × V → GoMap K V)
    (hf : ∀ r p, f r p = if c p.1 = true then GoMap.set r p.1 p.2 else r)
    {l m : GoMap K V} (hm : GoMap.NodupKeys m) (hl : l.Perm m) :
    GoMap.NodupKeys (l.foldl f []) ∧
      ∀ k v, GoMap.get? (l.foldl f []) k = some v ↔ GoMap.get? m k = some v ∧ c k = true := by
  have : f = fun r p => if c p.1 = true then GoMap.set r p.1 p.2 else r := by
    funext r p; exact hf r p
  subst this
  refine ⟨nodup_foldl_cond c _ _ GoMap.NodupKeys.nil, fun k v => ?_⟩
  rw [get?_foldl_cond c l (hm.perm hl), GoMap.get?_perm hm hl]
  simp

theorem no_members {m : GoMap K (GSet K)} (k : K) :
    (match GoMap.get? m k with | none => true | some S => decide (S.length = 0)) = true ↔
      ∀ a, ¬ GSet.includes (setAt m k) a = true := by
  unfold setAt
  cases h : GoMap.get? m k with
  | none => simp
  | some S =>
    simp only [decide_eq_true_eq, GSet.length_eq_zero_iff, Option.getD_some, Bool.not_eq_true]

theorem getRoots_spec (ω : Oracle) (σ : St K T) (hi : Inv σ.g) :
    Tot (getRoots ω) σ (fun r σ' => σ'.g = σ.g ∧ GoMap.NodupKeys r ∧
      ∀ k v, GoMap.get? r k = some v ↔ GoMap.get? σ.g.vertices k = some v ∧ ∀ a, ¬ σ.g.E a k) := by
  unfold getRoots
  refine Tot.bind (Tot.getG (Tot.bind (Tot.range ?_)))
  intro vs hvs
  refine Tot.pure ⟨rfl, (foldl_filter (fun k => match GoMap.get? σ.g.inb k with | none => true | some S => decide (S.length = 0))
    _ ?_ hi.base.vnd hvs).1, fun k v => ((foldl_filter (fun k => match GoMap.get? σ.g.inb k with | none => true | some S => decide (S.length = 0))
    _ ?_ hi.base.vnd hvs).2 k v).trans ?_⟩
  · intro r p
    cases h : GoMap.get? σ.g.inb p.1 with
    | none => simp only [if_true]
    | some S => simp only [decide_eq_true_eq]
  · intro r p
    cases h : GoMap.get? σ.g.inb p.1 with
    | none => simp only [if_true]
    | some S => simp only [decide_eq_true_eq]
  · rw [no_members]
    exact and_congr_right (fun _ => forall_congr' (fun a => not_congr (hi.base.conv a k)))

theorem getLeaves_spec (ω : Oracle) (σ : St K T) (hi : Inv σ.g) :
    Tot (getLeaves ω) σ (fun r σ' => σ'.g = σ.g ∧ GoMap.NodupKeys r ∧
      ∀ k v, GoMap.get? r k = some v ↔ GoMap.get? σ.g.vertices k = some v ∧ ∀ a, ¬ σ.g.E k a) := by
  unfold getLeaves
  refine Tot.bind (Tot.getG (Tot.bind (Tot.range ?_)))
  intro vs hvs
  refine Tot.pure ⟨rfl, (foldl_filter (fun k => match GoMap.get? σ.g.outb k with | none => true | some S => decide (S.length = 0))
    _ ?_ hi.base.vnd hvs).1, fun k v => ((foldl_filter (fun k => match GoMap.get? σ.g.outb k with | none => true | some S => decide (S.length = 0))
    _ ?_ hi.base.vnd hvs).2 k v).trans ?_⟩
  · intro r p
    cases h : GoMap.get? σ.g.outb p.1 with
    | none => simp only [if_true]
    | some S => simp only [decide_eq_true_eq]
  · intro r p
    cases h : GoMap.get? σ.g.outb p.1 with
    | none => simp only [if_true]
    | some S => simp only [decide_eq_true_eq]
  · rw [no_members]
    rfl

theorem getVertices_spec (ω : Oracle) (σ : St K T) (hi : Inv σ.g) :
    Tot (getVertices ω) σ (fun r σ' => σ'.g = σ.g ∧ GoMap.NodupKeys r ∧
      ∀ k v, GoMap.get? r k = some v ↔ GoMap.get? σ.g.vertices k = some v) := by
  unfold getVertices
  refine Tot.bind (Tot.getG (Tot.bind (Tot.range ?_)))
  intro vs hvs
  refine Tot.pure ⟨rfl, ?_, ?_⟩
  · exact GoMap.nodupKeys_foldl_set _ _ _ _ GoMap.NodupKeys.nil
  · intro k v
    have := get?_foldl_cond (fun _ => true) vs (hi.base.vnd.perm hvs) [] k v
    simp only [if_true] at this
    rw [this, GoMap.get?_perm hi.base.vnd hvs]; simp

/-- The map built by looking up the payload of every member of a set. -/
theorem get?_lookup {S : GSet K} (wf : SetWF S) {l : List (K × K)} (hl : l.Perm S) (f : K → T) (k : K) (v : T) :
    GoMap.get? (l.foldl (fun r p => GoMap.set r p.1 (f p.1)) ([] : GoMap K T)) k = some v ↔
      GSet.includes S k = true ∧ v = f k := by
  have hnd : (l.map Prod.fst).Nodup := (wf.nodup.perm hl)
  have h := GoMap.get?_foldl_set (fun p : K × K => p.1) (fun p => f p.1) l ([] : GoMap K T) k hnd
  rw [← exists_range wf hl]
  by_cases he : ∃ p ∈ l, p.1 = k
  · obtain ⟨p, hp, rfl⟩ := he
    rw [h.1 p hp rfl]
    simp only [Option.some.injEq]
    exact ⟨fun h => ⟨⟨p, hp, rfl⟩, h.symm⟩, fun h => h.2.symm⟩
  · rw [h.2 (fun a ha hk => he ⟨a, ha, hk⟩)]
    simp only [GoMap.get?_nil, reduceCtorEq, false_iff]
    exact fun h => he h.1

theorem vertexAt_iff {g : Graph K T} {k : K} (h : GoMap.has g.vertices k = true) (v : T) :
    v = g.vertexAt k ↔ GoMap.get? g.vertices k = some v := by
  rw [GoMap.has_iff] at h
  obtain ⟨w, hw⟩ := h
  unfold Graph.vertexAt; rw [hw]; simp [eq_comm]

/-- Restated: lookups of a set all of whose members are vertices. -/
theorem get?_lookup' {g : Graph K T} {S : GSet K} (wf : SetWF S) {l : List (K × K)} (hl : l.Perm S)
    (hS : ∀ k, GSet.includes S k = true → GoMap.has g.vertices k = true) (k : K) (v : T) :
    GoMap.get? (l.foldl (fun r p => GoMap.set r p.1 (g.vertexAt p.1)) ([] : GoMap K T)) k = some v ↔
      GSet.includes S k = true ∧ GoMap.get? g.vertices k = some v := by
  rw [get?_lookup wf hl]
  exact and_congr_right (fun h => vertexAt_iff (hS k h) v)

theorem getParents_spec (ω : Oracle) (id : K) (σ : St K T) (hi : Inv σ.g) :
    Tot (getParents ω id) σ (fun r σ' => σ'.g = σ.g ∧
      (∀ e, checkVertexID σ.g id = some e → r = .error e) ∧
      (checkVertexID σ.g id = none → ∃ m, r = .ok m ∧ GoMap.NodupKeys m ∧
        ∀ k v, GoMap.get? m k = some v ↔ σ.g.E k id ∧ GoMap.get? σ.g.vertices k = some v)) := by
  unfold getParents
  refine Tot.bind (Tot.getG ?_)
  cases hck : checkVertexID σ.g id with
  | some e => exact Tot.pure ⟨rfl, fun e' h => by cases h; rfl, fun h => by cases h⟩
  | none =>
    refine Tot.bind (Tot.range ?_)
    intro ps hps
    refine Tot.pure ⟨rfl, fun e' h => by (cases h), fun _ => ⟨_, rfl, GoMap.nodupKeys_foldl_set _ _ _ _ GoMap.NodupKeys.nil, ?_⟩⟩
    intro k v
    rw [get?_lookup' (setAt_wf hi.base.iwf id) hps
      (fun k hk => (hi.base.ends k id ((hi.base.conv k id).mp hk)).1)]
    exact and_congr_left (fun _ => hi.base.conv k id)

theorem getChildren_spec (ω : Oracle) (id : K) (σ : St K T) (hi : Inv σ.g) :
    Tot (getChildren ω id) σ (fun r σ' => σ'.g = σ.g ∧
      (∀ e, checkVertexID σ.g id = some e → r = .error e) ∧
      (checkVertexID σ.g id = none → ∃ m, r = .ok m ∧ GoMap.NodupKeys m ∧
        ∀ k v, GoMap.get? m k = some v ↔ σ.g.E id k ∧ GoMap.get? σ.g.vertices k = some v)) := by
  unfold getChildren
  refine Tot.bind (Tot.getG ?_)
  cases hck : checkVertexID σ.g id with
  | some e => exact Tot.pure ⟨rfl, fun e' h => by cases h; rfl, fun h => by cases h⟩
  | none =>
    refine Tot.bind (Tot.range ?_)
    intro ps hps
    refine Tot.pure ⟨rfl, fun e' h => by (cases h), fun _ => ⟨_, rfl, GoMap.nodupKeys_foldl_set _ _ _ _ GoMap.NodupKeys.nil, ?_⟩⟩
    intro k v
    rw [get?_lookup' (setAt_wf hi.base.owf id) hps (fun k hk => (hi.base.ends id k hk).2)]
    rfl

theorem GInv.reachVertex {g : Graph K T} (h : GInv g) {a b : K} (hr : g.Reach a b) :
    GoMap.has g.vertices a = true ∧ GoMap.has g.vertices b = true := by
  obtain ⟨c, h1, _⟩ := TransGen.head'_iff.mp hr
  obtain ⟨c', _, h2⟩ := TransGen.tail'_iff.mp hr
  exact ⟨(h.ends _ _ h1).1, (h.ends _ _ h2).2⟩

theorem getDescendants_spec (ω : Oracle) (id : K) (σ : St K T) (hi : Inv σ.g) :
    Tot (getDescendants ω id) σ (fun r σ' => Inv σ'.g ∧ Same σ.g σ'.g ∧
      (∀ e, checkVertexID σ.g id = some e → r = .error e) ∧
      (checkVertexID σ.g id = none → ∃ m, r = .ok m ∧ GoMap.NodupKeys m ∧
        ∀ k v, GoMap.get? m k = some v ↔ σ.g.Reach id k ∧ GoMap.get? σ.g.vertices k = some v) ∧
      (checkVertexID σ.g id ≠ none → σ'.g = σ.g) ∧ (checkVertexID σ.g id = none → Fills .down id σ.g σ'.g)) := by
  unfold getDescendants
  refine Tot.bind (Tot.getG ?_)
  cases hck : checkVertexID σ.g id with
  | some e =>
    rw [getDescendantsIDs_eq]
    refine Tot.bind (Tot.mono (closure_err ω .down _ id σ e hck) ?_)
    rintro r σ' ⟨rfl, rfl⟩
    exact Tot.pure ⟨hi, Same.refl _, fun e' h => by cases h; rfl, fun h => by (cases h), fun _ => rfl, fun h => by cases h⟩
  | none =>
    have hv := (checkVertexID_none hi.base id).mp hck
    refine Tot.bind (Tot.mono (getDescendantsIDs_spec ω id σ hi hv) ?_)
    rintro r σ1 ⟨hi1, sm, -, -, fl, S, rfl, wf, hS⟩
    unfold loadFromCache
    refine Tot.bind (Tot.getG (Tot.bind (Tot.bind (Tot.range ?_))))
    intro ks hks
    refine Tot.pure (Tot.pure ⟨hi1, sm, fun e' h => by (cases h), fun _ => ⟨_, rfl, GoMap.nodupKeys_foldl_set _ _ _ _ GoMap.NodupKeys.nil, ?_⟩,
      fun h => absurd rfl h, fun _ => fl⟩)
    intro k v
    rw [get?_lookup' wf hks (fun k hk => by rw [sm.v]; exact (hi.base.reachVertex ((hS k).mp hk)).2), sm.v, hS]

theorem getAncestors_spec (ω : Oracle) (id : K) (σ : St K T) (hi : Inv σ.g) :
    Tot (getAncestors ω id) σ (fun r σ' => Inv σ'.g ∧ Same σ.g σ'.g ∧
      (∀ e, checkVertexID σ.g id = some e → r = .error e) ∧
      (checkVertexID σ.g id = none → ∃ m, r = .ok m ∧ GoMap.NodupKeys m ∧
        ∀ k v, GoMap.get? m k = some v ↔ σ.g.Reach k id ∧ GoMap.get? σ.g.vertices k = some v) ∧
      (checkVertexID σ.g id ≠ none → σ'.g = σ.g) ∧ (checkVertexID σ.g id = none → Fills .up id σ.g σ'.g)) := by
  unfold getAncestors
  refine Tot.bind (Tot.getG ?_)
  cases hck : checkVertexID σ.g id with
  | some e =>
    rw [getAncestorsIDs_eq]
    refine Tot.bind (Tot.mono (closure_err ω .up _ id σ e hck) ?_)
    rintro r σ' ⟨rfl, rfl⟩
    exact Tot.pure ⟨hi, Same.refl _, fun e' h => by cases h; rfl, fun h => by (cases h), fun _ => rfl, fun h => by cases h⟩
  | none =>
    have hv := (checkVertexID_none hi.base id).mp hck
    refine Tot.bind (Tot.mono (getAncestorsIDs_spec ω id σ hi hv) ?_)
    rintro r σ1 ⟨hi1, sm, fl, S, rfl, wf, hS⟩
    unfold loadFromCache
    refine Tot.bind (Tot.getG (Tot.bind (Tot.bind (Tot.range ?_))))
    intro ks hks
    refine Tot.pure (Tot.pure ⟨hi1, sm, fun e' h => by (cases h), fun _ => ⟨_, rfl, GoMap.nodupKeys_foldl_set _ _ _ _ GoMap.NodupKeys.nil, ?_⟩,
      fun h => absurd rfl h, fun _ => fl⟩)
    intro k v
    rw [get?_lookup' wf hks (fun k hk => by rw [sm.v]; exact (hi.base.reachVertex ((hS k).mp hk)).1), sm.v, hS]

/-! ### Sizes and the listing of `String` -/

/-- All edges, row by row. -/
def edgeList (os : List (K × GSet K)) : List (K × K) :=
  os.flatMap (fun e => e.2.map (fun c => (e.1, c.1)))

theorem mem_edgeList {g : Graph K T} (hg : GInv g) {os : List (K × GSet K)} (hos : os.Perm g.outb) (a b : K) :
    (a, b) ∈ edgeList os ↔ g.E a b := by
  unfold edgeList
  simp only [List.mem_flatMap, List.mem_map, Prod.mk.injEq, Prod.exists]
  unfold Graph.E setAt
  constructor
  · rintro ⟨k, S, h1, x, y, h2, rfl, rfl⟩
    rw [hos.mem_iff, GoMap.mem_iff_get? hg.ond] at h1
    rw [h1, Option.getD_some]
    exact ((GSet.mem_iff (hg.owf _ _ h1) _).mp h2).2
  · intro h
    cases hk : GoMap.get? g.outb a with
    | none => rw [hk] at h; simp at h
    | some S =>
      rw [hk, Option.getD_some] at h
      refine ⟨a, S, ?_, b, b, ?_, rfl, rfl⟩
      · rw [hos.mem_iff, GoMap.mem_iff_get? hg.ond]; exact hk
      · exact (GSet.mem_iff (hg.owf _ _ hk) _).mpr ⟨rfl, h⟩

theorem nodup_edgeList {os : List (K × GSet K)} (hnd : GoMap.NodupKeys os)
    (hwf : ∀ p ∈ os, GoMap.NodupKeys p.2) : (edgeList os).Nodup := by
  induction os with
  | nil => exact List.nodup_nil
  | cons p os ih =>
    have h1 := List.nodup_cons.mp hnd
    unfold edgeList
    rw [List.flatMap_cons, List.nodup_append]
    refine ⟨?_, ih h1.2 (fun q hq => hwf q (List.mem_cons_of_mem _ hq)), ?_⟩
    · have := hwf p List.mem_cons_self
      unfold GoMap.NodupKeys GoMap.keys at this
      rw [show p.2.map (fun c => (p.1, c.1)) = (p.2.map Prod.fst).map (fun x => (p.1, x)) by
        rw [List.map_map]; rfl]
      exact List.pairwise_map.mpr (this.imp (fun h e => h (Prod.mk.inj e).2))
    · intro x hx y hy hxy
      subst hxy
      simp only [List.mem_map, List.mem_flatMap] at hx hy
      obtain ⟨c, _, rfl⟩ := hx
      obtain ⟨q, hq, c', _, h⟩ := hy
      have := (Prod.mk.inj h).1
      exact h1.1 (by rw [← this]; exact List.mem_map_of_mem hq)

theorem length_edgeList (os : List (K × GSet K)) (n : Nat) :
    os.foldl (fun size e => size + e.2.length) n = n + (edgeList os).length := by
  induction os generalizing n with
  | nil => rfl
  | cons p os ih =>
    rw [List.foldl_cons, ih]
    unfold edgeList
    rw [List.flatMap_cons, List.length_append, List.length_map]
    omega

theorem outb_wf_perm {g : Graph K T} (hg : GInv g) {os : List (K × GSet K)} (hos : os.Perm g.outb) :
    ∀ p ∈ os, SetWF p.2 := by
  intro p hp
  have := hos.mem_iff.mp hp
  exact hg.owf p.1 p.2 ((GoMap.mem_iff_get? hg.ond _ _).mp this)

theorem getSize_spec (ω : Oracle) (σ : St K T) (hi : Inv σ.g) :
    Tot (getSize ω) σ (fun r σ' => σ'.g = σ.g ∧
      ∃ l : List (K × K), l.Nodup ∧ (∀ a b, (a, b) ∈ l ↔ σ.g.E a b) ∧ r = l.length) := by
  unfold getSize
  refine Tot.bind (Tot.getG (Tot.bind (Tot.range ?_)))
  intro os hos
  refine Tot.pure ⟨rfl, edgeList os, ?_, mem_edgeList hi.base hos, ?_⟩
  · exact nodup_edgeList (hi.base.ond.perm hos) (fun p hp => (outb_wf_perm hi.base hos p hp).nodup)
  · rw [length_edgeList]; omega

theorem getOrder_spec (σ : St K T) (hi : Inv σ.g) :
    Tot getOrder σ (fun r σ' => σ' = σ ∧
      ∃ l : List K, l.Nodup ∧ (∀ a, a ∈ l ↔ GoMap.has σ.g.vertices a = true) ∧ r = l.length) := by
  unfold getOrder
  refine Tot.bind (Tot.getG (Tot.pure ⟨rfl, GoMap.keys σ.g.vertices, hi.base.vnd, ?_, ?_⟩))
  · exact GoMap.mem_keys_iff_has _
  · simp [GoMap.keys]

theorem stringListing_spec (ω : Oracle) (σ : St K T) (hi : Inv σ.g) :
    Tot (stringListing ω) σ (fun r σ' => σ'.g = σ.g ∧
      r.vertices.Nodup ∧ (∀ a, a ∈ r.vertices ↔ GoMap.has σ.g.vertices a = true) ∧
      r.edges.Nodup ∧ (∀ a b, (a, b) ∈ r.edges ↔ σ.g.E a b) ∧
      r.order = r.vertices.length ∧ r.size = r.edges.length) := by
  unfold stringListing
  refine Tot.bind (Tot.mono (getOrder_spec σ hi) ?_)
  rintro n σ0 ⟨hσ0, lv, hlv, hmv, rfl⟩
  subst hσ0
  refine Tot.bind (Tot.mono (getSize_spec ω _ hi) ?_)
  rintro m σ1 ⟨hσ1, le, hle, hme, rfl⟩
  refine Tot.bind (Tot.getG (Tot.bind (Tot.range ?_)))
  intro vs hvs
  refine Tot.bind (Tot.getG (Tot.bind (Tot.range ?_)))
  intro os hos
  rw [hσ1] at hvs
  simp only [hσ1] at hos
  refine Tot.bind (Tot.loop (fun pre _ acc s' => s'.g = σ1.g ∧ acc.Perm (edgeList pre)) ⟨rfl, List.Perm.refl _⟩ ?_ ?_)
  · rintro pre e post acc s' _ ⟨h1, h2⟩
    refine Tot.bind (Tot.range ?_)
    intro cs hcs
    refine Tot.pure ⟨h1, ?_⟩
    unfold edgeList
    rw [List.flatMap_append, List.flatMap_cons, List.flatMap_nil, List.append_nil]
    exact h2.append (hcs.map _)
  · rintro edges s' ⟨h1, h2⟩
    have hnd : edges.Nodup := h2.nodup_iff.mpr (nodup_edgeList (hi.base.ond.perm hos)
      (fun p hp => (outb_wf_perm hi.base hos p hp).nodup))
    have hmem : ∀ a b, (a, b) ∈ edges ↔ _ := fun a b => h2.mem_iff.trans (mem_edgeList hi.base hos a b)
    have hv1 : (vs.map (·.1)).Perm (GoMap.keys σ0.g.vertices) := hvs.map _
    refine Tot.pure ⟨h1.trans hσ1, hv1.nodup_iff.mpr hi.base.vnd, ?_, hnd, hmem, ?_, ?_⟩
    · intro a; rw [hv1.mem_iff, GoMap.mem_keys_iff_has]
    · refine List.Perm.length_eq ((List.perm_ext_iff_of_nodup hlv (hv1.nodup_iff.mpr hi.base.vnd)).mpr ?_)
      intro a; rw [hmv, hv1.mem_iff, GoMap.mem_keys_iff_has]
    · refine List.Perm.length_eq ((List.perm_ext_iff_of_nodup hle hnd).mpr ?_)
      rintro ⟨a, b⟩; rw [hme, hmem]

end Verif.Dag
