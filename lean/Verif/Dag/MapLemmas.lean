import Verif.Dag.Model

/-! Helper lemmas about `GoMap`, `GSet`, and total-correctness reasoning in `M`. -/

set_option linter.unusedSectionVars false

namespace Verif.Dag
namespace GoMap
variable {K V : Type} [DecidableEq K]

@[simp] theorem get?_nil (k : K) : get? ([] : GoMap K V) k = none := rfl

theorem get?_cons (k' : K) (v : V) (m : GoMap K V) (k : K) :
    get? ((k', v) :: m) k = if k' = k then some v else get? m k := rfl

theorem get?_del (m : GoMap K V) (k k' : K) :
    get? (del m k) k' = if k' = k then none else get? m k' := by
  induction m with
  | nil => simp [del]
  | cons p m ih =>
    obtain ⟨a, b⟩ := p
    unfold del at *
    by_cases h : a = k
    · simp only [h, List.filter_cons]
      simp only [ne_eq, not_true_eq_false, decide_false, Bool.false_eq_true, if_false, ih, get?_cons]
      by_cases h' : k' = k
      · simp [h']
      · simp [h', Ne.symm h']
    · simp only [List.filter_cons, ne_eq, h, not_false_eq_true, decide_true, if_true, get?_cons, ih]
      by_cases h' : k' = k
      · subst h'; simp [h]
      · simp [h']

@[simp] theorem get?_set (m : GoMap K V) (k k' : K) (v : V) :
    get? (set m k v) k' = if k' = k then some v else get? m k' := by
  unfold set
  rw [get?_cons, get?_del]
  by_cases h : k' = k
  · simp [h]
  · simp [h, Ne.symm h]

theorem get?_updAt (m : GoMap K V) (k k' : K) (f : V → V) :
    get? (updAt m k f) k' = if k' = k then (get? m k).map f else get? m k' := by
  induction m with
  | nil => simp [updAt, get?]
  | cons p m ih =>
    obtain ⟨k1, v⟩ := p
    unfold updAt at ih ⊢
    simp only [List.map_cons]
    by_cases h1 : k1 = k
    · subst h1
      rw [if_pos rfl, get?_cons, get?_cons, get?_cons, ih]
      by_cases h2 : k1 = k'
      · subst h2; simp
      · simp [h2, Ne.symm h2]
    · rw [if_neg h1, get?_cons, get?_cons, get?_cons, ih]
      by_cases h2 : k1 = k'
      · subst h2; simp [h1]
      · simp [h1, h2]

theorem has_iff (m : GoMap K V) (k : K) : has m k = true ↔ ∃ v, get? m k = some v := by
  unfold has; exact Option.isSome_iff_exists

theorem has_eq_false (m : GoMap K V) (k : K) : has m k = false ↔ get? m k = none := by
  unfold has; simp

theorem has_del (m : GoMap K V) (k k' : K) :
    has (del m k) k' = true ↔ k' ≠ k ∧ has m k' = true := by
  unfold has; rw [get?_del]; by_cases h : k' = k <;> simp [h]

theorem has_set (m : GoMap K V) (k k' : K) (v : V) :
    has (set m k v) k' = true ↔ k' = k ∨ has m k' = true := by
  unfold has; rw [get?_set]; by_cases h : k' = k <;> simp [h]

theorem mem_keys_iff_has (m : GoMap K V) (k : K) : k ∈ keys m ↔ has m k = true := by
  induction m with
  | nil => simp [keys, has]
  | cons p m ih =>
    obtain ⟨a, b⟩ := p
    simp only [keys, List.map_cons, List.mem_cons]
    unfold has at *
    rw [get?_cons]
    by_cases h : a = k
    · simp [h]
    · simp only [h, if_false]
      rw [← ih]; simp [keys, Ne.symm h]

theorem keys_del (m : GoMap K V) (k : K) : keys (del m k) = (keys m).filter (fun x => decide (x ≠ k)) := by
  unfold keys del; rw [List.filter_map]; rfl

theorem NodupKeys.nil : NodupKeys ([] : GoMap K V) := List.nodup_nil

theorem NodupKeys.del {m : GoMap K V} (h : NodupKeys m) (k : K) : NodupKeys (del m k) := by
  unfold NodupKeys; rw [keys_del]; exact List.Nodup.sublist List.filter_sublist h

theorem NodupKeys.set {m : GoMap K V} (h : NodupKeys m) (k : K) (v : V) : NodupKeys (set m k v) := by
  unfold NodupKeys GoMap.set
  simp only [keys, List.map_cons, List.nodup_cons]
  refine ⟨?_, h.del k⟩
  show k ∉ keys (GoMap.del m k)
  rw [mem_keys_iff_has, has_del]; simp

theorem NodupKeys.updAt {m : GoMap K V} (h : NodupKeys m) (k : K) (f : V → V) :
    NodupKeys (updAt m k f) := by
  have : keys (GoMap.updAt m k f) = keys m := by
    unfold keys GoMap.updAt
    rw [List.map_map]
    apply List.map_congr_left
    intro p _
    simp only [Function.comp]
    split <;> rfl
  unfold NodupKeys
  rw [this]
  exact h

/-- In a map with unique keys, an entry is present iff lookup finds it. -/
theorem mem_iff_get? {m : GoMap K V} (h : NodupKeys m) (k : K) (v : V) :
    (k, v) ∈ m ↔ get? m k = some v := by
  induction m with
  | nil => simp
  | cons p m ih =>
    obtain ⟨a, b⟩ := p
    simp only [NodupKeys, keys, List.map_cons, List.nodup_cons] at h
    rw [get?_cons, List.mem_cons, Prod.mk.injEq]
    by_cases hk : a = k
    · subst hk
      simp only [true_and, if_true, Option.some.injEq]
      constructor
      · rintro (h' | h')
        · exact h'.symm
        · exact absurd (List.mem_map_of_mem (f := Prod.fst) h') h.1
      · intro h'; exact Or.inl h'.symm
    · simp only [Ne.symm hk, false_and, false_or, hk, if_false]
      exact ih h.2

theorem NodupKeys.perm {m m' : GoMap K V} (h : NodupKeys m) (p : m'.Perm m) : NodupKeys m' := by
  unfold NodupKeys keys
  exact (p.map Prod.fst).nodup_iff.mpr h

theorem get?_perm {m m' : GoMap K V} (h : NodupKeys m) (p : m'.Perm m) (k : K) :
    get? m' k = get? m k := by
  have h' := h.perm p
  cases hk : get? m k with
  | none =>
    cases hk' : get? m' k with
    | none => rfl
    | some v =>
      rw [← mem_iff_get? h', p.mem_iff, mem_iff_get? h, hk] at hk'; cases hk'
  | some v =>
    rw [← mem_iff_get? h, ← p.mem_iff, mem_iff_get? h'] at hk; exact hk

/-- Folding `set` over a list of entries with distinct keys. -/
theorem get?_foldl_set {α : Type} (f : α → K) (g : α → V) (l : List α) (m : GoMap K V) (k : K)
    (hf : (l.map f).Nodup) :
    (∀ a ∈ l, f a = k → get? (l.foldl (fun r a => set r (f a) (g a)) m) k = some (g a)) ∧
    ((∀ a ∈ l, f a ≠ k) → get? (l.foldl (fun r a => set r (f a) (g a)) m) k = get? m k) := by
  induction l generalizing m with
  | nil => simp
  | cons x l ih =>
    simp only [List.map_cons, List.nodup_cons] at hf
    obtain ⟨ih1, ih2⟩ := ih (set m (f x) (g x)) hf.2
    simp only [List.foldl_cons]
    constructor
    · intro a ha hak
      rcases List.mem_cons.mp ha with rfl | ha
      · rw [ih2]
        · simp [hak]
        · intro b hb hbk
          exact hf.1 (List.mem_map.mpr ⟨b, hb, by rw [hbk, hak]⟩)
      · exact ih1 a ha hak
    · intro hne
      rw [ih2 (fun a ha => hne a (List.mem_cons_of_mem _ ha))]
      have := hne x List.mem_cons_self
      simp [Ne.symm this]

theorem nodupKeys_foldl_set {α : Type} (f : α → K) (g : α → V) (l : List α) (m : GoMap K V)
    (h : NodupKeys m) : NodupKeys (l.foldl (fun r a => set r (f a) (g a)) m) := by
  induction l generalizing m with
  | nil => exact h
  | cons x l ih => exact ih _ (h.set _ _)

end GoMap

/-- A set built with `Add`/`Delete`: unique keys, every value equal to its key. -/
structure SetWF {K : Type} (s : GSet K) : Prop where
  nodup : GoMap.NodupKeys s
  diag : ∀ p ∈ s, p.2 = p.1

namespace GSet
variable {K : Type} [DecidableEq K]

theorem wf_nil : SetWF ([] : GSet K) := ⟨GoMap.NodupKeys.nil, by simp⟩

theorem wf_delete {s : GSet K} (h : SetWF s) (k : K) : SetWF (delete s k) :=
  ⟨h.nodup.del k, fun p hp => h.diag p (List.mem_filter.mp hp).1⟩

theorem wf_add {s : GSet K} (h : SetWF s) (k : K) : SetWF (add s k) := by
  refine ⟨h.nodup.set k k, fun p hp => ?_⟩
  rcases List.mem_cons.mp hp with rfl | hp
  · rfl
  · exact h.diag p (List.mem_filter.mp hp).1

@[simp] theorem includes_nil (k : K) : includes ([] : GSet K) k = false := rfl

theorem includes_add (s : GSet K) (k x : K) :
    includes (add s k) x = true ↔ x = k ∨ includes s x = true := GoMap.has_set s k x k

theorem includes_delete (s : GSet K) (k x : K) :
    includes (delete s k) x = true ↔ x ≠ k ∧ includes s x = true := GoMap.has_del s k x

theorem mem_iff {s : GSet K} (h : SetWF s) (p : K × K) :
    p ∈ s ↔ p.2 = p.1 ∧ includes s p.1 = true := by
  obtain ⟨a, b⟩ := p
  rw [GoMap.mem_iff_get? h.nodup]
  unfold includes
  rw [GoMap.has_iff]
  constructor
  · intro hg
    exact ⟨h.diag _ ((GoMap.mem_iff_get? h.nodup _ _).mpr hg), _, hg⟩
  · rintro ⟨hab, v, hv⟩
    have := h.diag _ ((GoMap.mem_iff_get? h.nodup _ _).mpr hv)
    simp only at this hv hab ⊢
    rw [hab, ← this]; rw [this] at hv ⊢; exact hv

theorem includes_foldl_add {α : Type} (f : α → K) (l : List α) (s : GSet K) (x : K) :
    includes (l.foldl (fun c a => add c (f a)) s) x = true ↔ includes s x = true ∨ ∃ a ∈ l, f a = x := by
  induction l generalizing s with
  | nil => simp
  | cons a l ih =>
    simp only [List.foldl_cons, ih, includes_add, List.mem_cons, exists_eq_or_imp]
    grind

theorem wf_foldl_add {α : Type} (f : α → K) (l : List α) {s : GSet K} (h : SetWF s) :
    SetWF (l.foldl (fun c a => add c (f a)) s) := by
  induction l generalizing s with
  | nil => exact h
  | cons a l ih => exact ih (wf_add h _)

/-- Extensional equality of sets: same length when the elements are the same. -/
theorem length_eq_zero_iff {s : GSet K} : s.length = 0 ↔ ∀ x, includes s x = false := by
  constructor
  · intro h x; rw [List.length_eq_zero_iff] at h; subst h; rfl
  · intro h
    cases s with
    | nil => rfl
    | cons p s =>
      obtain ⟨a, b⟩ := p
      have := h a
      simp [includes, GoMap.has, GoMap.get?_cons] at this

end GSet

/-! ## Total correctness -/

/-- `m` started in `s` terminates in a state and with a result satisfying `Q`. -/
def Tot {K T α : Type} (m : M K T α) (s : St K T) (Q : α → St K T → Prop) : Prop :=
  ∃ a s', m s = some (a, s') ∧ Q a s'

namespace Tot
variable {K T α β : Type}

theorem mono {m : M K T α} {s} {P Q : α → St K T → Prop} (h : Tot m s P)
    (hpq : ∀ a s', P a s' → Q a s') : Tot m s Q := by
  obtain ⟨a, s', h1, h2⟩ := h; exact ⟨a, s', h1, hpq _ _ h2⟩

theorem pure {a : α} {s : St K T} {Q} (h : Q a s) : Tot (Pure.pure a : M K T α) s Q :=
  ⟨a, s, rfl, h⟩

theorem mpure {a : α} {s : St K T} {Q} (h : Q a s) : Tot (M.pure a : M K T α) s Q :=
  ⟨a, s, rfl, h⟩

theorem bind {m : M K T α} {f : α → M K T β} {s} {Q}
    (h : Tot m s (fun a s' => Tot (f a) s' Q)) : Tot (m >>= f) s Q := by
  obtain ⟨a, s', h1, b, s'', h2, h3⟩ := h
  refine ⟨b, s'', ?_, h3⟩
  show M.bind m f s = _
  unfold M.bind; rw [h1]; exact h2

theorem mbind {m : M K T α} {f : α → M K T β} {s} {Q}
    (h : Tot m s (fun a s' => Tot (f a) s' Q)) : Tot (M.bind m f) s Q := bind h

theorem getG {s : St K T} {Q} (h : Q s.g s) : Tot M.getG s Q := ⟨_, _, rfl, h⟩

theorem modG {f : Graph K T → Graph K T} {s : St K T} {Q : Unit → St K T → Prop}
    (h : Q () { s with g := f s.g }) : Tot (M.modG f) s Q := ⟨_, _, rfl, h⟩

theorem range {V : Type} {ω : Oracle} {m : GoMap K V} {s : St K T} {Q}
    (h : ∀ l, l.Perm m → Q l { s with n := s.n + 1 }) : Tot (M.range ω m) s Q :=
  ⟨_, _, rfl, h _ (ω.isPerm _ _ _)⟩

/-- Loop rule: invariant indexed by the elements visited so far and those to come. -/
theorem loop {xs : List α} {b : β} {f : β → α → M K T β} {s : St K T} {Q}
    (I : List α → List α → β → St K T → Prop)
    (h0 : I [] xs b s)
    (hs : ∀ pre x post b s, xs = pre ++ x :: post → I pre (x :: post) b s →
      Tot (f b x) s (fun b' s' => I (pre ++ [x]) post b' s'))
    (hQ : ∀ b s, I xs [] b s → Q b s) : Tot (M.loop xs b f) s Q := by
  suffices h : ∀ ys pre b s, xs = pre ++ ys → I pre ys b s → Tot (M.loop ys b f) s Q from
    h xs [] b s rfl h0
  intro ys
  induction ys with
  | nil =>
    intro pre b s hx hI
    simp only [List.append_nil] at hx
    subst hx
    exact mpure (hQ _ _ hI)
  | cons y ys ih =>
    intro pre b s hx hI
    refine mbind ?_
    refine mono (hs pre y ys b s hx hI) ?_
    intro b' s' hI'
    exact ih (pre ++ [y]) b' s' (by simp [hx]) hI'

/-- The result of a total run is unique. -/
theorem elim {m : M K T α} {s} {Q} {a s'} (h : Tot m s Q) (he : m s = some (a, s')) : Q a s' := by
  obtain ⟨a2, s2, h1, h2⟩ := h
  rw [he] at h1; cases h1; exact h2

end Tot

end Verif.Dag
