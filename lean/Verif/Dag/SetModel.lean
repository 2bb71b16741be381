import Verif.Dag.MapLemmas

/-!
# Model of `pkg/dag/set.go`

A Go map is a reference: a `Set` variable is nil or the address of a map in a heap.  The heap makes
visible which operations allocate a new map and which modify their receiver.
-/

set_option linter.unusedSectionVars false

namespace Verif.Dag.SetModel
open Verif.Dag

variable {K : Type} [DecidableEq K]

/-- A `Set` value (`set.go:4`): nil, or a reference to a map. -/
abbrev Ref := Option Nat

/-- The heap of maps, and the number of `range` statements executed so far. -/
structure SSt (K : Type) where
  heap : List (GSet K)
  n : Nat

namespace SSt

/-- The map at an address. -/
def at' (st : SSt K) (a : Nat) : GSet K := (st.heap[a]?).getD []
/-- Overwrite the map at an address. -/
def put (st : SSt K) (a : Nat) (m : GSet K) : SSt K := { st with heap := st.heap.set a m }
/-- `make(Set[T])` -/
def alloc (st : SSt K) : Nat × SSt K := (st.heap.length, { st with heap := st.heap ++ [[]] })
/-- Reading through a reference; a nil map reads as empty. -/
def deref (st : SSt K) (s : Ref) : GSet K := match s with | none => [] | some a => st.at' a
/-- The entries in the order in which the next `range` statement visits them. -/
def range (ω : Oracle) (st : SSt K) (s : Ref) : List (K × K) × SSt K :=
  (ω.perm _ st.n (st.deref s), { st with n := st.n + 1 })

end SSt
open SSt

/-- `set.go:7-9`; assignment to an entry of a nil map panics (`none`). -/
def add (s : Ref) (v : K) (st : SSt K) : Option (SSt K) :=
  match s with
  | none => none
  | some a => some (st.put a (GoMap.set (st.at' a) v v))

/-- `set.go:12-14`; `delete` on a nil map does nothing. -/
def delete (s : Ref) (v : K) (st : SSt K) : SSt K :=
  match s with
  | none => st
  | some a => st.put a (GoMap.del (st.at' a) v)

/-- `set.go:17-21` -/
def includes (s : Ref) (v : K) (st : SSt K) : Bool := GoMap.has (st.deref s) v

/-- `res.Add(v)` for the non-nil set at address `r`. -/
def addAt (r : Nat) (v : K) (st : SSt K) : SSt K := st.put r (GoMap.set (st.at' r) v v)

/-- `set.go:24-43` -/
def intersection (ω : Oracle) (s other : Ref) (st : SSt K) : Ref × SSt K :=
  let (res, st) := st.alloc
  if s = none ∨ other = none then (some res, st) else
  let (s, other) := if (st.deref other).length < (st.deref s).length then (other, s) else (s, other)
  let (vs, st) := st.range ω s
  (some res, vs.foldl (fun st v => if includes other v.2 st then addAt res v.2 st else st) st)

/-- `set.go:91-99` -/
def copy (ω : Oracle) (s : Ref) (st : SSt K) : Ref × SSt K :=
  let (c, st) := st.alloc
  let (vs, st) := st.range ω s
  (some c, vs.foldl (fun st p => st.put c (GoMap.set (st.at' c) p.1 p.2)) st)

/-- `set.go:46-60` -/
def difference (ω : Oracle) (s other : Ref) (st : SSt K) : Ref × SSt K :=
  if other = none ∨ (st.deref other).length = 0 then copy ω s st else
  let (res, st) := st.alloc
  let (vs, st) := st.range ω s
  (some res, vs.foldl (fun st p => if !(includes other p.1 st) then addAt res p.2 st else st) st)

/-- `set.go:64-74`.  *Simplification*: the callback is a function without side effects. -/
def filter (ω : Oracle) (cb : K → Bool) (s : Ref) (st : SSt K) : Ref × SSt K :=
  let (res, st) := st.alloc
  let (vs, st) := st.range ω s
  (some res, vs.foldl (fun st v => if cb v.2 then addAt res v.2 st else st) st)

/-- `set.go:77-88`; `none` is the nil slice. -/
def list (ω : Oracle) (s : Ref) (st : SSt K) : Option (List K) × SSt K :=
  if s = none then (none, st) else
  let (vs, st) := st.range ω s
  (some (vs.foldl (fun res v => res ++ [v.2]) []), st)

/-! ### Proofs -/

/-- Everything except address `r` is as in `st`. -/
structure Frame (r : Nat) (st st' : SSt K) : Prop where
  len : st'.heap.length = st.heap.length
  same : ∀ b, b ≠ r → st'.at' b = st.at' b

theorem at'_put (st : SSt K) (a b : Nat) (m : GSet K) (h : a < st.heap.length) :
    (st.put a m).at' b = if b = a then m else st.at' b := by
  unfold at' put
  simp only [List.getElem?_set]
  by_cases hb : b = a
  · subst hb; simp [h]
  · simp [hb, Ne.symm hb]

theorem frame_refl (r : Nat) (st : SSt K) : Frame r st st := ⟨rfl, fun _ _ => rfl⟩

theorem Frame.put {r : Nat} {st st' : SSt K} (h : Frame r st st') (m : GSet K) (hr : r < st.heap.length) :
    Frame r st (st'.put r m) := by
  refine ⟨by simp [SSt.put, h.len], fun b hb => ?_⟩
  rw [at'_put _ _ _ _ (by rw [h.len]; exact hr), if_neg hb, h.same b hb]

/-- A loop that adds into `r` the entries satisfying `c0`. -/
theorem fold_into {r : Nat} (st0 : SSt K) (c : SSt K → K × K → Bool) (c0 : K × K → Bool)
    (u : GSet K → K × K → GSet K)
    (hc : ∀ st', Frame r st0 st' → ∀ v, c st' v = c0 v) (hr : r < st0.heap.length) (vs : List (K × K)) (st : SSt K)
    (hf : Frame r st0 st) :
    Frame r st0 (vs.foldl (fun st v => if c st v then st.put r (u (st.at' r) v) else st) st) ∧
    (vs.foldl (fun st v => if c st v then st.put r (u (st.at' r) v) else st) st).at' r =
      (vs.filter c0).foldl u (st.at' r) ∧
    (vs.foldl (fun st v => if c st v then st.put r (u (st.at' r) v) else st) st).n = st.n := by
  induction vs generalizing st with
  | nil => exact ⟨hf, rfl, rfl⟩
  | cons v vs ih =>
    simp only [List.foldl_cons]
    rw [hc st hf v]
    cases h0 : c0 v with
    | true =>
      simp only [if_true, List.filter_cons, h0, List.foldl_cons]
      have hf' := hf.put (u (st.at' r) v) hr
      obtain ⟨h1, h2, h3⟩ := ih (st.put r (u (st.at' r) v)) hf'
      refine ⟨h1, ?_, by rw [h3]; rfl⟩
      rw [h2, at'_put _ _ _ _ (by rw [hf.len]; exact hr), if_pos rfl]
    | false =>
      simp only [List.filter_cons, h0, Bool.false_eq_true, if_false]
      exact ih st hf

/-- `r` is a new map holding exactly the elements `P`; nothing else has changed. -/
structure Fresh (st st' : SSt K) (r : Ref) (P : K → Prop) : Prop where
  new : r = some st.heap.length
  len : st'.heap.length = st.heap.length + 1
  same : ∀ b, b < st.heap.length → st'.at' b = st.at' b
  wf : SetWF (st'.at' st.heap.length)
  mem : ∀ x, GSet.includes (st'.at' st.heap.length) x = true ↔ P x

theorem alloc_at (st : SSt K) (b : Nat) : (st.alloc.2).at' b = st.at' b := by
  unfold alloc at'
  simp only
  by_cases h : b < st.heap.length
  · rw [List.getElem?_append_left h]
  · rw [List.getElem?_append_right (Nat.le_of_not_lt h), List.getElem?_eq_none (l := st.heap) (Nat.le_of_not_lt h)]
    cases b - st.heap.length <;> simp

theorem at_beyond (st : SSt K) : st.at' st.heap.length = [] := by
  unfold at'; rw [List.getElem?_eq_none (Nat.le_refl _)]; rfl

theorem deref_alloc (st : SSt K) (s : Ref) : (st.alloc.2).deref s = st.deref s := by
  cases s with
  | none => rfl
  | some a => exact alloc_at st a

/-- A valid reference: nil or an allocated, well-formed map. -/
def Valid (st : SSt K) (s : Ref) : Prop :=
  ∀ a, s = some a → a < st.heap.length ∧ SetWF (st.at' a)

theorem Valid.wf {st : SSt K} {s : Ref} (h : Valid st s) : SetWF (st.deref s) := by
  cases s with
  | none => exact GSet.wf_nil
  | some a => exact (h a rfl).2

/-- The shape of all operations that build a new set in a loop. -/
theorem fresh_of_loop (ω : Oracle) (s : Ref) (st : SSt K) (hv : Valid st s)
    (c : SSt K → K × K → Bool) (c0 : K → Bool) (u : GSet K → K × K → GSet K)
    (hu : ∀ m p, p.2 = p.1 → u m p = GSet.add m p.1)
    (hc : ∀ st', (∀ b, b < st.heap.length → st'.at' b = st.at' b) → ∀ p, c st' p = c0 p.1 ∨ p ∉ st.deref s) :
    let st1 := st.alloc.2
    let vs := (st1.range ω s).1
    let st2 := (st1.range ω s).2
    Fresh st (vs.foldl (fun st' v => if c st' v then st'.put st.heap.length (u (st'.at' st.heap.length) v) else st') st2)
      (some st.heap.length) (fun x => GSet.includes (st.deref s) x = true ∧ c0 x = true) := by
  intro st1 vs st2
  have hvs : vs.Perm (st.deref s) := by
    have := ω.isPerm _ st1.n (st1.deref s)
    rw [deref_alloc] at this
    show (ω.perm _ st1.n (st1.deref s)).Perm _
    rw [deref_alloc]; exact this
  have wf := hv.wf
  have hst1 : st1.heap.length = st.heap.length + 1 := by simp [st1, alloc]
  have hat : ∀ b, st2.at' b = st.at' b := fun b => alloc_at st b
  -- replace the condition by one that is right everywhere
  have hcond : ∀ (l : List (K × K)) (st' : SSt K), (∀ p ∈ l, p ∈ st.deref s) →
      (∀ b, b < st.heap.length → st'.at' b = st.at' b) → st'.heap.length = st.heap.length + 1 →
      l.foldl (fun st' v => if c st' v then st'.put st.heap.length (u (st'.at' st.heap.length) v) else st') st' =
      l.foldl (fun st' v => if (fun (_ : SSt K) (v : K × K) => c0 v.1) st' v then st'.put st.heap.length (u (st'.at' st.heap.length) v) else st') st' := by
    intro l
    induction l with
    | nil => intros; rfl
    | cons p l ih =>
      intro st' hl hb hlen
      simp only [List.foldl_cons]
      have : c st' p = c0 p.1 := (hc st' hb p).resolve_right (fun h => h (hl p List.mem_cons_self))
      rw [this]
      refine ih _ (fun q hq => hl q (List.mem_cons_of_mem _ hq)) ?_ ?_
      · intro b hbl
        split
        · rw [at'_put _ _ _ _ (by omega), if_neg (by omega)]; exact hb b hbl
        · exact hb b hbl
      · split
        · simp [SSt.put, hlen]
        · exact hlen
  have hmem : ∀ p ∈ vs, p ∈ st.deref s := fun p hp => hvs.mem_iff.mp hp
  rw [hcond vs st2 hmem (fun b _ => hat b) hst1]
  obtain ⟨h1, h2, -⟩ := fold_into (r := st.heap.length) st2 (fun _ v => c0 v.1) (fun v => c0 v.1) u
    (fun _ _ _ => rfl) (by rw [show st2.heap.length = st1.heap.length from rfl, hst1]; omega) vs st2 (frame_refl _ _)
  have hu' : (vs.filter (fun v => c0 v.1)).foldl u (st2.at' st.heap.length) =
      (vs.filter (fun v => c0 v.1)).foldl (fun m p => GSet.add m p.1) [] := by
    rw [hat, at_beyond]
    have : ∀ (l : List (K × K)) m, (∀ p ∈ l, p.2 = p.1) → l.foldl u m = l.foldl (fun m p => GSet.add m p.1) m := by
      intro l
      induction l with
      | nil => intros; rfl
      | cons p l ih =>
        intro m hl
        simp only [List.foldl_cons]
        rw [hu m p (hl p List.mem_cons_self)]
        exact ih _ (fun q hq => hl q (List.mem_cons_of_mem _ hq))
    exact this _ _ (fun p hp => wf.diag p (hmem p (List.mem_filter.mp hp).1))
  rw [hu'] at h2
  refine ⟨rfl, by rw [h1.len]; exact hst1, fun b hb => ?_, ?_, ?_⟩
  · rw [h1.same b (by omega)]; exact hat b
  · rw [h2]; exact GSet.wf_foldl_add _ _ GSet.wf_nil
  · intro x
    rw [h2, GSet.includes_foldl_add]
    simp only [GSet.includes_nil, Bool.false_eq_true, false_or, List.mem_filter]
    constructor
    · rintro ⟨p, ⟨hp, hcp⟩, rfl⟩
      exact ⟨((GSet.mem_iff wf p).mp (hmem p hp)).2, hcp⟩
    · rintro ⟨hx, hcx⟩
      exact ⟨(x, x), ⟨hvs.mem_iff.mpr ((GSet.mem_iff wf (x, x)).mpr ⟨rfl, hx⟩), hcx⟩, rfl⟩

theorem fresh_empty (st : SSt K) : Fresh st st.alloc.2 (some st.heap.length) (fun _ => False) := by
  refine ⟨rfl, by simp [alloc], fun b _ => alloc_at st b, ?_, ?_⟩
  · rw [alloc_at, at_beyond]; exact GSet.wf_nil
  · intro x; rw [alloc_at, at_beyond]; simp

theorem Fresh.congr {st st' : SSt K} {r : Ref} {P Q : K → Prop} (h : Fresh st st' r P) (hpq : ∀ x, P x ↔ Q x) :
    Fresh st st' r Q := ⟨h.new, h.len, h.same, h.wf, fun x => (h.mem x).trans (hpq x)⟩

/-- Elements, seen through `Includes`. -/
def Elem (st : SSt K) (s : Ref) (x : K) : Prop := includes s x st = true

theorem includes_frame {st st' : SSt K} {s : Ref} (hv : Valid st s)
    (h : ∀ b, b < st.heap.length → st'.at' b = st.at' b) (x : K) : includes s x st' = includes s x st := by
  cases s with
  | none => rfl
  | some a => unfold includes deref; simp only; rw [h a (hv a rfl).1]

theorem copy_fresh (ω : Oracle) (s : Ref) (st : SSt K) (hv : Valid st s) :
    Fresh st (copy ω s st).2 (copy ω s st).1 (fun x => Elem st s x) := by
  have := fresh_of_loop ω s st hv (fun _ _ => true) (fun _ => true) (fun m p => GoMap.set m p.1 p.2)
    (fun m p hp => by rw [hp]; rfl) (fun _ _ _ => .inl rfl)
  simp only [if_true] at this
  exact this.congr (fun x => by simp [Elem, includes, GSet.includes])

theorem filter_fresh (ω : Oracle) (cb : K → Bool) (s : Ref) (st : SSt K) (hv : Valid st s) :
    Fresh st (filter ω cb s st).2 (filter ω cb s st).1 (fun x => Elem st s x ∧ cb x = true) := by
  have := fresh_of_loop ω s st hv (fun _ v => cb v.2) cb (fun m p => GoMap.set m p.2 p.2)
    (fun m p hp => by rw [hp]; rfl)
    (fun _ _ p => by
      by_cases hp : p ∈ st.deref s
      · left; rw [hv.wf.diag p hp]
      · right; exact hp)
  exact this

theorem difference_fresh (ω : Oracle) (s other : Ref) (st : SSt K) (hv : Valid st s) (ho : Valid st other) :
    Fresh st (difference ω s other st).2 (difference ω s other st).1
      (fun x => Elem st s x ∧ ¬ Elem st other x) := by
  unfold difference
  by_cases h : other = none ∨ (st.deref other).length = 0
  · rw [if_pos h]
    refine (copy_fresh ω s st hv).congr (fun x => ?_)
    have : ¬ Elem st other x := by
      unfold Elem includes
      rcases h with rfl | h
      · simp [deref, GoMap.has]
      · rw [List.length_eq_zero_iff] at h; rw [h]; simp [GoMap.has]
    simp [this]
  · rw [if_neg h]
    have := fresh_of_loop ω s st hv (fun st' p => !(includes other p.1 st')) (fun x => !(includes other x st))
      (fun m p => GoMap.set m p.2 p.2) (fun m p hp => by rw [hp]; rfl)
      (fun st' hs p => .inl (by rw [includes_frame ho hs]))
    exact this.congr (fun x => by simp [Elem, includes, GSet.includes])

theorem intersection_fresh (ω : Oracle) (s other : Ref) (st : SSt K) (hv : Valid st s) (ho : Valid st other) :
    Fresh st (intersection ω s other st).2 (intersection ω s other st).1
      (fun x => Elem st s x ∧ Elem st other x) := by
  unfold intersection
  simp only [deref_alloc]
  by_cases h : s = none ∨ other = none
  · rw [if_pos h]
    refine (fresh_empty st).congr (fun x => ?_)
    rcases h with rfl | rfl <;> simp [Elem, includes, deref, GoMap.has]
  · rw [if_neg h]
    by_cases hl : (st.deref other).length < (st.deref s).length
    · simp only [hl, if_true]
      have := fresh_of_loop ω other st ho (fun st' p => includes s p.2 st') (fun x => includes s x st)
        (fun m p => GoMap.set m p.2 p.2) (fun m p hp => by rw [hp]; rfl)
        (fun st' hs p => by
          by_cases hp : p ∈ st.deref other
          · left; rw [includes_frame hv hs, ho.wf.diag p hp]
          · right; exact hp)
      exact this.congr (fun x => by simp [Elem, includes, GSet.includes, and_comm])
    · simp only [hl, if_false]
      have := fresh_of_loop ω s st hv (fun st' p => includes other p.2 st') (fun x => includes other x st)
        (fun m p => GoMap.set m p.2 p.2) (fun m p hp => by rw [hp]; rfl)
        (fun st' hs p => by
          by_cases hp : p ∈ st.deref s
          · left; rw [includes_frame ho hs, hv.wf.diag p hp]
          · right; exact hp)
      exact this.congr (fun x => by simp [Elem, includes, GSet.includes])

theorem list_spec (ω : Oracle) (s : Ref) (st : SSt K) (hv : Valid st s) :
    (list ω s st).2.heap = st.heap ∧
    ((list ω s st).1 = none ↔ s = none) ∧
    ((list ω s st).1.getD []).Nodup ∧ ∀ x, x ∈ (list ω s st).1.getD [] ↔ Elem st s x := by
  unfold list
  by_cases h : s = none
  · rw [if_pos h]; subst h; simp [Elem, includes, deref, GoMap.has]
  · rw [if_neg h]
    have hfold : ∀ (l : List (K × K)) acc, l.foldl (fun res v => res ++ [v.2]) acc = acc ++ l.map Prod.snd := by
      intro l
      induction l with
      | nil => simp
      | cons p l ih => intro acc; simp [ih]
    have hp : (st.range ω s).1.Perm (st.deref s) := ω.isPerm _ _ _
    have wf := hv.wf
    simp only [hfold, List.nil_append, Option.getD_some]
    have e : (st.range ω s).1.map Prod.snd = (st.range ω s).1.map Prod.fst := by
      apply List.map_congr_left
      intro p hpm
      exact wf.diag p (hp.mem_iff.mp hpm)
    refine ⟨rfl, by simp [h], ?_, ?_⟩
    · rw [e]; exact wf.nodup.perm hp
    · intro x
      rw [e, List.mem_map]
      constructor
      · rintro ⟨p, hpm, rfl⟩
        exact ((GSet.mem_iff wf p).mp (hp.mem_iff.mp hpm)).2
      · intro hx
        exact ⟨(x, x), hp.mem_iff.mpr ((GSet.mem_iff wf (x, x)).mpr ⟨rfl, hx⟩), rfl⟩

/-! ### Programs over sets -/

/-- A call; set variables are numbered in the order of their creation. -/
inductive SOp (K : Type) where
  | make
  | nilSet
  | add (i : Nat) (v : K)
  | delete (i : Nat) (v : K)
  | intersection (i j : Nat)
  | difference (i j : Nat)
  | filter (cb : K → Bool) (i : Nat)
  | copy (i : Nat)

/-- The variables of a program and the heap. -/
structure Prog (K : Type) where
  vars : List Ref
  st : SSt K

/-- The set in variable `i` (nil if there is none). -/
def Prog.var (p : Prog K) (i : Nat) : Ref := (p.vars[i]?).getD none

/-- Bind the result to a new variable. -/
def Prog.bind (p : Prog K) (r : Ref × SSt K) : Prog K := ⟨p.vars ++ [r.1], r.2⟩

/-- One call; `none` is a panic. -/
def SOp.exec (ω : Oracle) (p : Prog K) : SOp K → Option (Prog K)
  | .make => some (p.bind (some p.st.alloc.1, p.st.alloc.2))
  | .nilSet => some (p.bind (none, p.st))
  | .add i v => (SetModel.add (p.var i) v p.st).map (fun st => ⟨p.vars, st⟩)
  | .delete i v => some ⟨p.vars, SetModel.delete (p.var i) v p.st⟩
  | .intersection i j => some (p.bind (SetModel.intersection ω (p.var i) (p.var j) p.st))
  | .difference i j => some (p.bind (SetModel.difference ω (p.var i) (p.var j) p.st))
  | .filter cb i => some (p.bind (SetModel.filter ω cb (p.var i) p.st))
  | .copy i => some (p.bind (SetModel.copy ω (p.var i) p.st))

/-- A program. -/
def runSets (ω : Oracle) : List (SOp K) → Prog K → Option (Prog K)
  | [], p => some p
  | op :: ops, p => (op.exec ω p).bind (runSets ω ops)

/-! Specification: the variables hold mathematical sets; nil is remembered. -/

/-- A mathematical set. -/
abbrev Pred (K : Type) : Type := K → Prop

/-- What the variables denote: `none` for nil, otherwise a set. -/
abbrev Den (K : Type) : Type := List (Option (Pred K))

/-- The elements of variable `i`; nil has none. -/
def Den.elem (d : Den K) (i : Nat) (x : K) : Prop := ∃ S : Pred K, d[i]? = some (some S) ∧ S x

/-- Append a set. -/
abbrev Den.push (d : Den K) (S : Pred K) : Den K := d ++ [some S]

/-- Effect of a call; `none` if it must panic. -/
def SOp.spec (d : Den K) : SOp K → Option (Den K)
  | .make => some (d.push (fun _ => False))
  | .nilSet => some (d ++ [none])
  | .add i v => match d[i]? with
    | some (some S) => some (d.set i (some (fun x => x = v ∨ S x)))
    | _ => none
  | .delete i v => match d[i]? with
    | some (some S) => some (d.set i (some (fun x => x ≠ v ∧ S x)))
    | _ => some d
  | .intersection i j => some (d.push (fun x => d.elem i x ∧ d.elem j x))
  | .difference i j => some (d.push (fun x => d.elem i x ∧ ¬ d.elem j x))
  | .filter cb i => some (d.push (fun x => d.elem i x ∧ cb x = true))
  | .copy i => some (d.push (fun x => d.elem i x))

/-- The specification of a program. -/
def specSets : List (SOp K) → Den K → Option (Den K)
  | [], d => some d
  | op :: ops, d => (op.spec d).bind (specSets ops)

/-- The variables denote what the specification says, and no two share a map. -/
structure Rep (p : Prog K) (d : Den K) : Prop where
  len : p.vars.length = d.length
  nil : ∀ i : Nat, p.vars[i]? = some none ↔ d[i]? = some none
  wf : ∀ i a : Nat, p.vars[i]? = some (some a) → a < p.st.heap.length ∧ SetWF (p.st.at' a)
  mem : ∀ (i a : Nat) (S : Pred K), p.vars[i]? = some (some a) → d[i]? = some (some S) →
    ∀ x, GSet.includes (p.st.at' a) x = true ↔ S x
  sep : ∀ i j a : Nat, p.vars[i]? = some (some a) → p.vars[j]? = some (some a) → i = j

theorem Rep.valid {p : Prog K} {d : Den K} (h : Rep p d) (i : Nat) : Valid p.st (p.var i) := by
  intro a ha
  unfold Prog.var at ha
  cases hv : p.vars[i]? with
  | none => rw [hv] at ha; cases ha
  | some r => rw [hv] at ha; cases ha; exact h.wf i a hv

theorem Rep.some_of {p : Prog K} {d : Den K} (h : Rep p d) {i a : Nat} (hv : p.vars[i]? = some (some a)) :
    ∃ S, d[i]? = some (some S) := by
  have hlt : i < p.vars.length := (List.getElem?_eq_some_iff.mp hv).1
  rw [h.len] at hlt
  cases hd : d[i]? with
  | none => rw [List.getElem?_eq_none_iff] at hd; omega
  | some o =>
    cases o with
    | none => rw [(h.nil i).mpr hd] at hv; cases hv
    | some S => exact ⟨S, rfl⟩

theorem Rep.of_some {p : Prog K} {d : Den K} (h : Rep p d) {i : Nat} {S : Pred K} (hd : d[i]? = some (some S)) :
    ∃ a, p.vars[i]? = some (some a) := by
  have hlt : i < d.length := (List.getElem?_eq_some_iff.mp hd).1
  rw [← h.len] at hlt
  cases hv : p.vars[i]? with
  | none => rw [List.getElem?_eq_none_iff] at hv; omega
  | some o =>
    cases o with
    | none => rw [(h.nil i).mp hv] at hd; cases hd
    | some a => exact ⟨a, rfl⟩

theorem Rep.elem {p : Prog K} {d : Den K} (h : Rep p d) (i : Nat) (x : K) : Elem p.st (p.var i) x ↔ d.elem i x := by
  unfold Elem includes Den.elem Prog.var
  cases hv : p.vars[i]? with
  | none =>
    have : d[i]? = none := by rw [List.getElem?_eq_none_iff] at hv ⊢; rw [← h.len]; exact hv
    simp [deref, GoMap.has, this]
  | some o =>
    cases o with
    | none => rw [(h.nil i).mp hv]; simp [deref, GoMap.has]
    | some a =>
      obtain ⟨S, hS⟩ := h.some_of hv
      have := h.mem i a S hv hS x
      rw [hS]
      simp only [Option.getD_some, deref, Option.some.injEq, exists_eq_left']
      exact this

theorem getElem?_snoc {α : Type} (l : List α) (x : α) (i : Nat) :
    (l ++ [x])[i]? = if i = l.length then some x else l[i]? := by
  by_cases h : i < l.length
  · rw [List.getElem?_append_left h, if_neg (by omega)]
  · rw [List.getElem?_append_right (by omega)]
    by_cases h2 : i = l.length
    · subst h2; simp
    · rw [if_neg h2, List.getElem?_eq_none (l := l) (by omega)]
      rw [List.getElem?_eq_none]; simp; omega

theorem Rep.bind_fresh {p : Prog K} {d : Den K} (h : Rep p d) {r : Ref} {st' : SSt K} {P Q : Pred K}
    (hf : Fresh p.st st' r P) (hpq : ∀ x, P x ↔ Q x) : Rep (p.bind (r, st')) (d ++ [some Q]) := by
  have hr := hf.new
  subst hr
  refine ⟨by simp [Prog.bind, h.len], ?_, ?_, ?_, ?_⟩
  · intro i
    show (p.vars ++ [some p.st.heap.length])[i]? = _ ↔ _
    rw [getElem?_snoc, getElem?_snoc, h.len]
    by_cases hi : i = d.length
    · simp [hi]
    · simp only [hi, if_false]; exact h.nil i
  · intro i a hv
    change (p.vars ++ [some p.st.heap.length])[i]? = _ at hv
    rw [getElem?_snoc] at hv
    show a < st'.heap.length ∧ SetWF (st'.at' a)
    by_cases hi : i = p.vars.length
    · rw [if_pos hi] at hv; cases hv
      exact ⟨by rw [hf.len]; omega, hf.wf⟩
    · rw [if_neg hi] at hv
      obtain ⟨h1, h2⟩ := h.wf i a hv
      exact ⟨by rw [hf.len]; omega, by rw [hf.same a h1]; exact h2⟩
  · intro i a S hv hd x
    change (p.vars ++ [some p.st.heap.length])[i]? = _ at hv
    rw [getElem?_snoc] at hv hd
    show GSet.includes (st'.at' a) x = true ↔ S x
    rw [← h.len] at hd
    by_cases hi : i = p.vars.length
    · rw [if_pos hi] at hv hd; cases hv; cases hd
      rw [hf.mem, hpq]
    · rw [if_neg hi] at hv hd
      rw [hf.same a (h.wf i a hv).1]
      exact h.mem i a S hv hd x
  · intro i j a hv hw
    change (p.vars ++ [some p.st.heap.length])[i]? = _ at hv
    change (p.vars ++ [some p.st.heap.length])[j]? = _ at hw
    rw [getElem?_snoc] at hv hw
    by_cases hi : i = p.vars.length <;> by_cases hj : j = p.vars.length
    · omega
    · rw [if_pos hi] at hv; rw [if_neg hj] at hw; cases hv
      have := (h.wf j _ hw).1; omega
    · rw [if_neg hi] at hv; rw [if_pos hj] at hw; cases hw
      have := (h.wf i _ hv).1; omega
    · rw [if_neg hi] at hv; rw [if_neg hj] at hw
      exact h.sep i j a hv hw

theorem Rep.put {p : Prog K} {d : Den K} (h : Rep p d) {i a : Nat} {S Q : Pred K} {m : GSet K}
    (hv : p.vars[i]? = some (some a)) (_hd : d[i]? = some (some S)) (wf : SetWF m)
    (hm : ∀ x, GSet.includes m x = true ↔ Q x) : Rep ⟨p.vars, p.st.put a m⟩ (d.set i (some Q)) := by
  have ha := (h.wf i a hv).1
  have hlt : i < d.length := by rw [← h.len]; exact (List.getElem?_eq_some_iff.mp hv).1
  refine ⟨by simp [h.len], ?_, ?_, ?_, h.sep⟩
  · intro j
    show p.vars[j]? = _ ↔ _
    rw [List.getElem?_set]
    by_cases hj : i = j
    · subst hj; simp [hv, hlt]
    · simp only [hj, if_false]; exact h.nil j
  · intro j b hb
    obtain ⟨h1, h2⟩ := h.wf j b hb
    refine ⟨by simp [SSt.put]; exact h1, ?_⟩
    show SetWF ((p.st.put a m).at' b)
    rw [at'_put _ _ _ _ ha]
    split
    · exact wf
    · exact h2
  · intro j b S' hb hd' x
    show GSet.includes ((p.st.put a m).at' b) x = true ↔ S' x
    rw [at'_put _ _ _ _ ha]
    rw [List.getElem?_set] at hd'
    by_cases hj : i = j
    · subst hj
      rw [hv] at hb; cases hb
      simp only [hlt, if_true] at hd'; cases hd'
      rw [if_pos rfl]; exact hm x
    · simp only [hj, if_false] at hd'
      have hab : b ≠ a := by rintro rfl; exact hj (h.sep i j b hv hb)
      rw [if_neg hab]
      exact h.mem j b S' hb hd' x

/-- One call refines the specification. -/
theorem exec_rep (ω : Oracle) {p : Prog K} {d : Den K} (h : Rep p d) (op : SOp K) :
    match op.spec d with
    | none => op.exec ω p = none
    | some d' => ∃ p', op.exec ω p = some p' ∧ Rep p' d' := by
  cases op with
  | make => exact ⟨_, rfl, h.bind_fresh (fresh_empty p.st) (fun _ => Iff.rfl)⟩
  | nilSet =>
    refine ⟨_, rfl, by simp [Prog.bind, h.len], ?_, ?_, ?_, ?_⟩
    · intro i
      show (p.vars ++ [none])[i]? = _ ↔ _
      rw [getElem?_snoc, getElem?_snoc, h.len]
      by_cases hi : i = d.length
      · simp [hi]
      · simp only [hi, if_false]; exact h.nil i
    · intro i a hv
      change (p.vars ++ [none])[i]? = _ at hv
      rw [getElem?_snoc] at hv
      split at hv
      · cases hv
      · exact h.wf i a hv
    · intro i a S hv hd
      change (p.vars ++ [none])[i]? = _ at hv
      rw [getElem?_snoc] at hv hd
      rw [← h.len] at hd
      split at hv
      · cases hv
      · rename_i hi; rw [if_neg hi] at hd; exact h.mem i a S hv hd
    · intro i j a hv hw
      change (p.vars ++ [none])[i]? = _ at hv
      change (p.vars ++ [none])[j]? = _ at hw
      rw [getElem?_snoc] at hv hw
      split at hv
      · cases hv
      · split at hw
        · cases hw
        · exact h.sep i j a hv hw
  | add i v =>
    simp only [SOp.spec]
    cases hd : d[i]? with
    | none =>
      have : p.vars[i]? = none := by rw [List.getElem?_eq_none_iff] at hd ⊢; rw [h.len]; exact hd
      simp [SOp.exec, Prog.var, this, SetModel.add]
    | some o =>
      cases o with
      | none => simp [SOp.exec, Prog.var, (h.nil i).mpr hd, SetModel.add]
      | some S =>
        obtain ⟨a, ha⟩ := h.of_some hd
        refine ⟨_, by simp [SOp.exec, Prog.var, ha, SetModel.add]; rfl, ?_⟩
        refine h.put ha hd (GSet.wf_add (h.wf i a ha).2 v) (fun x => ?_)
        rw [← h.mem i a S ha hd]; exact GSet.includes_add _ _ _
  | delete i v =>
    simp only [SOp.spec]
    cases hd : d[i]? with
    | none =>
      have : p.vars[i]? = none := by rw [List.getElem?_eq_none_iff] at hd ⊢; rw [h.len]; exact hd
      exact ⟨p, by simp [SOp.exec, Prog.var, this, SetModel.delete], h⟩
    | some o =>
      cases o with
      | none => exact ⟨p, by simp [SOp.exec, Prog.var, (h.nil i).mpr hd, SetModel.delete], h⟩
      | some S =>
        obtain ⟨a, ha⟩ := h.of_some hd
        refine ⟨_, by simp [SOp.exec, Prog.var, ha, SetModel.delete]; rfl, ?_⟩
        refine h.put ha hd (GSet.wf_delete (h.wf i a ha).2 v) (fun x => ?_)
        rw [← h.mem i a S ha hd]; exact GSet.includes_delete _ _ _
  | intersection i j =>
    exact ⟨_, rfl, h.bind_fresh (intersection_fresh ω _ _ p.st (h.valid i) (h.valid j))
      (fun x => and_congr (h.elem i x) (h.elem j x))⟩
  | difference i j =>
    exact ⟨_, rfl, h.bind_fresh (difference_fresh ω _ _ p.st (h.valid i) (h.valid j))
      (fun x => and_congr (h.elem i x) (not_congr (h.elem j x)))⟩
  | filter cb i =>
    exact ⟨_, rfl, h.bind_fresh (filter_fresh ω cb _ p.st (h.valid i)) (fun x => and_congr (h.elem i x) Iff.rfl)⟩
  | copy i =>
    exact ⟨_, rfl, h.bind_fresh (copy_fresh ω _ p.st (h.valid i)) (fun x => h.elem i x)⟩

theorem run_rep (ω : Oracle) (ops : List (SOp K)) {p : Prog K} {d : Den K} (h : Rep p d) :
    match specSets ops d with
    | none => runSets ω ops p = none
    | some d' => ∃ p', runSets ω ops p = some p' ∧ Rep p' d' := by
  induction ops generalizing p d with
  | nil => exact ⟨p, rfl, h⟩
  | cons op ops ih =>
    have h1 := exec_rep ω h op
    simp only [specSets, runSets]
    cases hs : op.spec d with
    | none => rw [hs] at h1; simp only [Option.bind_none]; rw [h1]; rfl
    | some d1 =>
      rw [hs] at h1
      obtain ⟨p1, he, hr⟩ := h1
      rw [he]
      exact ih hr

theorem rep_empty : Rep (⟨[], ⟨[], 0⟩⟩ : Prog K) [] := by
  refine ⟨rfl, fun i => by simp, ?_, ?_, ?_⟩ <;> intro i <;> simp

end Verif.Dag.SetModel
