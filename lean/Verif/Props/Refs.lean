import Verif.Props.AstParents
import Verif.Props.AstClone
import Verif.Props.ParseDoc

/-! # Property C86: `UpdateParentRefs` can be called again at any time -/

namespace Verif.Etx
open Node

/-- A tree without its `Parent`s. -/
def AST.forget (t : AST) : Node (.slice .rootItem) := t.items.map (fun m => { m with parent := none }) id

/-- The assignments to `Parent` that `UpdateParentRefs` makes: the address of the node and the new value (`none` is a panic). -/
def AST.writes (t : AST) : Option (List (Nat × Option Nat)) := t.visits.map fun vs => vs.map fun v => (v.2.addr, v.1)

/-- A tree after assignments to `Parent`. -/
def AST.after (ws : List (Nat × Option Nat)) (t : AST) : AST := { t with items := t.items.reparent ws }

theorem AST.update_eq (t : AST) : t.updateParentRefs = t.writes.map fun ws => t.after ws := by
  unfold AST.updateParentRefs AST.writes
  cases t.visits <;> rfl

/-! ## The walk does not look at `Parent`s -/

/-- `Node.map` for a node of any kind. -/
def AnyNode.map (f : Meta → Meta) (x : AnyNode) : AnyNode := ⟨x.1, x.2.map f id⟩

section
variable {f : Meta → Meta}

theorem opt_map {k : Kind} (x : Node (.ptr k)) : (x.map f id).opt = x.opt.map (Option.map (AnyNode.map f)) := by cases x <;> rfl
theorem elem_map {k : Kind} (x : Node (.ptr k)) : (x.map f id).elem = x.elem.map (AnyNode.map f) := by cases x <;> rfl
theorem isRef_map {k : Kind} (x : Node k) : (x.map f id).isRef = x.isRef := by cases x <;> rfl
theorem val_map {k : Kind} (x : Node k) : (x.map f id).val = x.val.map (Option.map (AnyNode.map f)) := rfl

theorem elems_map {k : Kind} (x : Node k) : (x.map f id).elems = x.elems.map (Option.map (AnyNode.map f)) := by
  induction x <;> simp only [Node.map, elems, List.map_nil, List.map_cons, elem_map, *]

theorem children_map {k : Kind} (x : Node k) : (x.map f id).children = x.children.map (Option.map (AnyNode.map f)) := by
  cases x <;> simp only [Node.map, children, isRef_map, opt_map, elems_map, val_map, List.map_append, List.map_nil] <;>
    (repeat' split) <;> rfl

theorem size_map {k : Kind} (x : Node k) : (x.map f id).size = x.size := by
  induction x <;> simp only [Node.map, Node.size, *]

theorem addr_map (hf : KeepsAddr f) (x : AnyNode) : (x.map f).addr = x.addr := by
  obtain ⟨k, x⟩ := x
  unfold AnyNode.addr AnyNode.map
  cases x <;> first | rfl | exact hf _

theorem mapM_map {α β γ δ : Type} (F : α → β) (w : β → Option γ) (w' : α → Option δ) (G : δ → γ) (h : ∀ a, w (F a) = (w' a).map G) (l : List α) :
    (l.map F).mapM w = (l.mapM w').map (List.map G) := by
  induction l with
  | nil => rfl
  | cons a l ih =>
    rw [List.map_cons, List.mapM_cons, List.mapM_cons, ih, h]
    cases w' a <;> [rfl; cases l.mapM w' <;> rfl]

theorem walk_map (hf : KeepsAddr f) (n : Nat) (p : Option Nat) (x : Option AnyNode) :
    walk n p (x.map (AnyNode.map f)) = (walk n p x).map (List.map fun v => (v.1, v.2.map f)) := by
  induction n generalizing p x with
  | zero => cases x <;> rfl
  | succ n ih =>
    cases x with
    | none => rfl
    | some x =>
      simp only [Option.map_some, walk, addr_map hf]
      rw [show (x.map f).2.children = x.2.children.map (Option.map (AnyNode.map f)) from children_map x.2,
        mapM_map _ _ _ _ (ih (some x.addr))]
      cases x.2.children.mapM (walk n (some x.addr)) with
      | none => rfl
      | some l => simp [List.map_flatten]

theorem writes_map (hf : KeepsAddr f) (t : AST) (a : Nat) : (AST.mk a (t.items.map f id)).writes = t.writes := by
  unfold AST.writes AST.visits AST.children
  simp only [elems_map, size_map]
  rw [mapM_map _ _ _ _ (walk_map hf _ none)]
  cases t.items.elems.mapM (walk t.items.size none) with
  | none => rfl
  | some l =>
    simp only [Option.map_some, Option.bind_eq_bind, Option.bind_some, Option.pure_def, ← List.map_flatten, List.map_map]
    refine congrArg some (List.map_congr_left fun v _ => ?_)
    simp only [Function.comp_apply, addr_map hf]

end

theorem AST.after_forget (t : AST) (ws : List (Nat × Option Nat)) : (t.after ws).forget = t.forget := by
  unfold AST.forget AST.after Node.reparent
  rw [Node.map_map]
  rfl

/-- **C86.** `UpdateParentRefs` changes nothing but `Parent`s. -/
theorem C86_only_parents (t t' : AST) (h : t.updateParentRefs = some t') : t'.addr = t.addr ∧ t'.forget = t.forget := by
  rw [AST.update_eq] at h
  obtain ⟨ws, -, rfl⟩ := Option.map_eq_some_iff.1 h
  exact ⟨rfl, t.after_forget ws⟩

/-- **C86.** Calling it twice is the same as calling it once. -/
theorem C86_again (t t' : AST) (h : t.updateParentRefs = some t') : t'.updateParentRefs = some t' := by
  rw [AST.update_eq] at h
  obtain ⟨ws, hw, rfl⟩ := Option.map_eq_some_iff.1 h
  have h1 : (t.after ws).writes = some ws := by
    rw [← hw]
    exact writes_map (f := fun m => { m with parent := (lastWrite ws m.addr).getD m.parent }) (fun _ => rfl) t t.addr
  rw [AST.update_eq, h1]
  refine congrArg some ?_
  unfold AST.after Node.reparent
  simp only [AST.mk.injEq, true_and]
  rw [Node.map_map]
  congr 1
  funext m
  simp only [Function.comp_apply]
  cases lastWrite ws m.addr <;> rfl

/-! ## Old `Parent`s do not matter -/

/-- The addresses of all structs. -/
def Node.structAddrs {k : Kind} (x : Node k) : List Nat := x.collect (fun m => [m.addr]) (fun _ => [])

theorem structAddrs_map {f : Meta → Meta} (hf : KeepsAddr f) {k : Kind} (x : Node k) : (x.map f id).structAddrs = x.structAddrs := by
  have hs : ∀ s : Strs, (s.map id).collect (fun _ => ([] : List Nat)) = s.collect fun _ => [] := fun s => by cases s <;> rfl
  have hv : ∀ v : Option (Nat × BigFloat), collectFloat (fun _ => ([] : List Nat)) (mapFloat id v) = collectFloat (fun _ => []) v := fun v => by
    rcases v with _ | ⟨a, v⟩ <;> rfl
  unfold Node.structAddrs
  induction x <;> simp only [Node.map, Node.collect, hf _, hs, hv, *]

theorem stored_structs {k : Kind} (x : Node k) (p : Option Nat) : ((x.stored p).map fun e => e.2.addr) = x.structAddrs := by
  have hs : ∀ s : Strs, s.collect (fun _ => ([] : List Nat)) = [] := fun s => by cases s <;> rfl
  have hv : ∀ v : Option (Nat × BigFloat), collectFloat (fun _ => ([] : List Nat)) v = [] := fun v => by
    rcases v with _ | ⟨a, v⟩ <;> rfl
  unfold Node.structAddrs Node.stored
  induction x generalizing p <;>
    simp only [Node.collect, storedBy, List.map_cons, List.map_append, List.map_nil, hs, hv, List.append_nil, List.nil_append,
      List.cons_append, List.append_assoc, if_true, *] <;> rfl

theorem map_structs (P : Nat → Bool) {f g : Meta → Meta} (hfg : ∀ m, P m.addr = true → f m = g m) {k : Kind} (x : Node k)
    (h : x.structAddrs.all P = true) : x.map f id = x.map g id := by
  unfold Node.structAddrs at h
  induction x <;> simp only [Node.map, Node.collect, List.all_append, List.all_cons, List.all_nil, Bool.and_true, Bool.and_eq_true] at * <;>
    simp_all

theorem map_same {k : Kind} (x : Node k) : x.map id id = x := by
  have hs : ∀ s : Strs, s.map id = s := fun s => by cases s <;> rfl
  have hv : ∀ v : Option (Nat × BigFloat), mapFloat id v = v := fun v => by rcases v with _ | ⟨a, v⟩ <;> rfl
  induction x <;> simp only [Node.map, hs, hv, id, *]

theorem lastWrite_some {ws : List (Nat × Option Nat)} {a : Nat} (h : a ∈ ws.map Prod.fst) : (lastWrite ws a).isSome = true := by
  unfold lastWrite
  rw [Option.isSome_map, List.find?_isSome]
  obtain ⟨w, hw, rfl⟩ := List.mem_map.1 h
  exact ⟨w, List.mem_reverse.2 hw, by simp⟩

theorem AST.writes_perm (t : AST) (h : t.Plain) :
    ∃ ws, t.writes = some ws ∧ (ws.map Prod.fst).Perm ((t.items.storedBy false none).map fun e => e.2.addr) := by
  obtain ⟨l, h1, h2⟩ := t.visits_perm h
  refine ⟨_, by rw [AST.writes, h1]; rfl, ?_⟩
  rw [List.map_map]
  exact h2.map _

/-- **C86** in full, third part: the result does not depend on the `Parent`s there were before. -/
def C86_forgets_full : Prop := ∀ t u : AST, t.IsTree → t.Plain → t.addr = u.addr → t.forget = u.forget →
  t.updateParentRefs = u.updateParentRefs

/-- The third part fails: what is inside of a `Post` keeps its `Parent`. -/
theorem C86_forgets_false : ¬ C86_forgets_full := by
  intro h
  have h1 := h Sample.postDoc (Sample.postDoc.after [(39, some 7)]) (by decide +kernel) (by decide +kernel) rfl
    (AST.after_forget _ _).symm
  have h2 : (Sample.postDoc.updateParentRefs.map fun t => t.items.parents) ≠
      ((Sample.postDoc.after [(39, some 7)]).updateParentRefs.map fun t => t.items.parents) := by decide +kernel
  exact h2 (by rw [h1])

/-- **C86**, third part, as far as it is true: for documents in which no expression has a `Post`. -/
theorem C86_forgets_partial (t u : AST) (hp : t.Plain) (hn : t.items.everywhere (fun y => y.noPost) = true) (ha : t.addr = u.addr)
    (hf : t.forget = u.forget) : t.updateParentRefs = u.updateParentRefs := by
  have hg : KeepsAddr fun m => { m with parent := none } := fun _ => rfl
  have hw : t.writes = u.writes := by
    rw [← writes_map hg t 0, ← writes_map hg u 0]
    exact congrArg (fun x => (AST.mk 0 x).writes) hf
  obtain ⟨ws, h1, h2⟩ := t.writes_perm hp
  rw [storedBy_noPost _ hn, stored_structs] at h2
  have hs : t.items.structAddrs = u.items.structAddrs := by
    rw [← structAddrs_map hg, ← structAddrs_map hg u.items]
    exact congrArg Node.structAddrs hf
  have key : ∀ x : Node (.slice .rootItem), x.structAddrs = t.items.structAddrs → x.reparent ws =
      (x.map (fun m => { m with parent := none }) id).reparent ws := by
    intro x hx
    unfold Node.reparent
    rw [Node.map_map]
    refine map_structs (fun a => (lastWrite ws a).isSome) (fun m hm => ?_) x ?_
    · obtain ⟨p, hp⟩ := Option.isSome_iff_exists.1 hm
      simp only [Function.comp_apply, hp, Option.getD_some]
    · rw [hx, List.all_eq_true]
      exact fun a ha => lastWrite_some (h2.mem_iff.2 ha)
  rw [AST.update_eq, AST.update_eq, ← hw, h1]
  refine congrArg some ?_
  unfold AST.after
  show AST.mk _ _ = AST.mk _ _
  rw [ha, key _ rfl, key _ hs.symm]
  exact congrArg (fun x => AST.mk u.addr (x.reparent ws)) hf

/-! ## On a clone -/

/-- **C86** in full, fourth part: on a clone of a document whose `Parent`s are up to date, `UpdateParentRefs` leaves the original alone. -/
def C86_clone_full : Prop := ∀ (t t' : AST) (n : Nat) (ws : List (Nat × Option Nat)), t.Plain → t.updateParentRefs = some t →
  Allocated n t.addrs → (AST.clone (some t) n).1 = some t' → t'.writes = some ws → t.after ws = t

/-- The fourth part fails: the fragments of a heredoc in the original get the heredoc of the clone as their `Parent`. -/
theorem C86_clone_false : ¬ C86_clone_full := by
  intro h
  obtain ⟨t, ht⟩ : ∃ t, Sample.heredocDoc.updateParentRefs = some t := Option.isSome_iff_exists.1 (by decide +kernel)
  have h0 : (Sample.heredocDoc.updateParentRefs.map fun t => decide (t.Plain ∧ ∀ a ∈ t.addrs, a < 23)) = some true := by decide +kernel
  have h1 : (Sample.heredocDoc.updateParentRefs.bind fun t => (AST.clone (some t) 23).1.bind fun t' => t'.writes.map fun ws =>
      decide ((t.after ws).items.parents = t.items.parents)) = some false := by decide +kernel
  simp only [ht, Option.map_some, Option.some.injEq, decide_eq_true_eq, Option.bind_some] at h0 h1
  cases hc : (AST.clone (some t) 23).1 with
  | none => rw [hc] at h1; cases h1
  | some t' =>
    simp only [hc, Option.bind_some, Option.map_eq_some_iff, decide_eq_false_iff_not] at h1
    obtain ⟨ws, hw, hne⟩ := h1
    exact hne (by rw [h t t' 23 ws h0.1 (C86_again _ _ ht) h0.2 hc hw])

theorem plain_map (f : Meta → Meta) (fa : Nat → Nat) {k : Kind} (x : Node k) :
    (x.map f fa).everywhere (fun y => y.plain) = x.everywhere (fun y => y.plain) := by
  have hr : ∀ {k : Kind} (x : Node k), (x.map f fa).isRef = x.isRef := fun x => by cases x <;> rfl
  induction x <;> simp only [Node.map, everywhere, *] <;> first | rfl | simp only [plain, hr]

/-- **C86**, fourth part, as far as it is true: of the original, only what it has in common with the clone gets a new `Parent` (the fragments
of heredocs and the types of declarations in functions, see C24). -/
theorem C86_clone_partial (t t' : AST) (n : Nat) (hp : t.Plain) (hn : Allocated n t.addrs) (h : (AST.clone (some t) n).1 = some t') :
    ∃ ws, t'.writes = some ws ∧ ∀ w ∈ ws, w.1 ∈ t.items.addrs → w.1 ∈ t.items.sharedAddrs := by
  rw [AST.clone_some] at h
  obtain rfl := Option.some.inj h
  have hp' : (AST.mk n (t.items.clone (n + 1)).1).Plain := by
    have := congrArg (fun x => x.everywhere (fun y => y.plain)) (C23_clone_equal t.items (n + 1))
    simp only [Node.erase, plain_map] at this
    exact this.trans hp
  obtain ⟨ws, h1, h2⟩ := AST.writes_perm _ hp'
  refine ⟨ws, h1, fun w hw ha => ?_⟩
  have h3 := (storedBy_addrs false _ none).subset (h2.mem_iff.1 (List.mem_map_of_mem hw))
  exact (C24_sharing_exact_partial t.items (n + 1) (fun a ha => Nat.lt_succ_of_lt (hn a (List.mem_cons_of_mem _ ha))) w.1).1 ⟨ha, h3⟩

theorem structs_sub {k : Kind} (x : Node k) : x.structAddrs ⊆ x.addrs := by
  rw [← stored_structs x none]
  exact (storedBy_addrs true x none).subset

/-- **C86**, fourth part, for documents without heredocs and typed local declarations. -/
theorem C86_clone_copied_partial (t t' : AST) (n : Nat) (hp : t.Plain) (hn : Allocated n t.addrs)
    (hc : t.items.everywhere (fun y => y.copied) = true) (h : (AST.clone (some t) n).1 = some t') :
    ∃ ws, t'.writes = some ws ∧ t.after ws = t := by
  obtain ⟨ws, h1, h2⟩ := C86_clone_partial t t' n hp hn h
  rw [sharedAddrs_copied _ hc] at h2
  refine ⟨ws, h1, ?_⟩
  have : t.items.reparent ws = t.items := by
    rw [← map_same (t.items.reparent ws)]
    conv_rhs => rw [← map_same t.items]
    unfold Node.reparent
    rw [Node.map_map]
    refine map_structs (fun a => (lastWrite ws a).isNone) (fun m hm => ?_) _ ?_
    · simp only [Option.isNone_iff_eq_none] at hm
      simp [hm]
    · rw [List.all_eq_true]
      intro a ha
      rw [lastWrite_none]
      · rfl
      · intro hw
        obtain ⟨w, hm, rfl⟩ := List.mem_map.1 hw
        exact absurd (h2 w hm (structs_sub _ ha)) (by simp)
  unfold AST.after
  rw [this]

/-! ## Where `Parent`s point -/

theorem parents_all (R : Option Nat → Bool) {f : Meta → Meta} (hf : ∀ m, R (f m).parent = true) {k : Kind} (x : Node k) :
    (x.map f id).parents.all R = true := by
  have hs : ∀ s : Strs, (s.map id).collect (fun _ => ([] : List (Option Nat))) = [] := fun s => by cases s <;> rfl
  have hv : ∀ v : Option (Nat × BigFloat), collectFloat (fun _ => ([] : List (Option Nat))) (mapFloat id v) = [] := fun v => by
    rcases v with _ | ⟨a, v⟩ <;> rfl
  unfold Node.parents
  induction x <;> simp only [Node.map, Node.collect, List.all_append, List.all_cons, List.all_nil, hf, hs, hv, Bool.and_true, *]

theorem storedBy_all (R : Option Nat → Bool) (b : Bool) {k : Kind} (x : Node k) (p : Option Nat) (hp : R p = true)
    (h : x.structAddrs.all (fun a => R (some a)) = true) : (x.storedBy b p).all (fun e => R e.1) = true := by
  unfold Node.structAddrs at h
  induction x generalizing p <;>
    simp only [Node.collect, storedBy, List.all_append, List.all_cons, List.all_nil, Bool.and_true, Bool.and_eq_true] at * <;>
    first | trivial | (simp_all only [and_self, forall_const]; done) | (cases b <;> simp_all only [and_self, forall_const, if_true, List.all_nil,
      Bool.false_eq_true, if_false])

theorem lastWrite_elim {ws : List (Nat × Option Nat)} {a : Nat} {q : Option Nat} (h : lastWrite ws a = some q) : (a, q) ∈ ws := by
  unfold lastWrite at h
  obtain ⟨w, hw, rfl⟩ := Option.map_eq_some_iff.1 h
  have h1 := List.find?_some hw
  simp only [decide_eq_true_eq] at h1
  rw [← h1]
  exact List.mem_reverse.1 (List.mem_of_find?_eq_some hw)

/-- **C86.** Afterwards, every `Parent` is nil or a node of the tree, whatever it was before (for documents in which no expression has a
`Post`). -/
theorem C86_inside_partial (t t' : AST) (hp : t.Plain) (hn : t.items.everywhere (fun y => y.noPost) = true)
    (h : t.updateParentRefs = some t') : ∀ a, some a ∈ t'.items.parents → a ∈ t.items.structAddrs := by
  obtain ⟨l, h1, h2⟩ := t.visits_perm hp
  rw [storedBy_noPost _ hn] at h2
  have hw : t.writes = some (l.map fun v => (v.2.addr, v.1)) := by rw [AST.writes, h1]; rfl
  rw [AST.update_eq, hw] at h
  cases h
  let R : Option Nat → Bool := fun q => q.all fun a => decide (a ∈ t.items.structAddrs)
  have hl : ∀ e ∈ l, R e.1 = true := by
    have := List.all_eq_true.1 (storedBy_all R true t.items none rfl (by simp [R]))
    exact fun e he => this e (h2.mem_iff.1 he)
  let ws := l.map fun v => (v.2.addr, v.1)
  have key : t.items.reparent ws = t.items.map (fun m => { m with parent := (lastWrite ws m.addr).getD none }) id := by
    unfold Node.reparent
    refine map_structs (fun a => (lastWrite ws a).isSome) (fun m hm => ?_) _ ?_
    · obtain ⟨q, hq⟩ := Option.isSome_iff_exists.1 hm
      simp only [hq, Option.getD_some]
    · rw [List.all_eq_true, ← stored_structs t.items none]
      intro a ha
      refine lastWrite_some ?_
      rw [List.map_map]
      exact (h2.map _).mem_iff.2 ha
  intro a ha
  have hall := parents_all R (f := fun m => { m with parent := (lastWrite ws m.addr).getD none }) (fun m => by
    cases e : lastWrite ws m.addr with
    | none => rfl
    | some q =>
      obtain ⟨v, hv, e'⟩ := List.mem_map.1 (lastWrite_elim e)
      have hq : v.1 = q := congrArg Prod.snd e'
      exact hq ▸ hl v hv) t.items
  rw [← key, List.all_eq_true] at hall
  simpa [R] using hall _ ha

/-- **C86** and C25: after a call on a clone, no `Parent` in the clone refers to the original, except to what they have in common. -/
theorem C86_clone_inside_partial (t t' t'' : AST) (n : Nat) (hp : t.Plain) (hn : Allocated n t.addrs)
    (ho : t.items.everywhere (fun y => y.noPost) = true) (h : (AST.clone (some t) n).1 = some t') (h' : t'.updateParentRefs = some t'') :
    ∀ a, some a ∈ t''.items.parents → a ∈ t.items.addrs → a ∈ t.items.sharedAddrs := by
  rw [AST.clone_some] at h
  obtain rfl := Option.some.inj h
  have hx := C23_clone_equal t.items (n + 1)
  have hp' : (AST.mk n (t.items.clone (n + 1)).1).Plain := by
    have := congrArg (fun x => x.everywhere (fun y => y.plain)) hx
    simp only [Node.erase, plain_map] at this
    exact this.trans hp
  have ho' : (t.items.clone (n + 1)).1.everywhere (fun y => y.noPost) = true := by
    have := congrArg (fun x => x.everywhere (fun y => y.noPost)) hx
    simp only [Node.erase, everywhere_map_noPost] at this
    exact this.trans ho
  intro a ha hb
  have h3 := structs_sub _ (C86_inside_partial _ _ hp' ho' h' a ha)
  exact (C24_sharing_exact_partial t.items (n + 1) (fun a ha => Nat.lt_succ_of_lt (hn a (List.mem_cons_of_mem _ ha))) a).1 ⟨hb, h3⟩

/-! ## Parsed documents -/

section
variable [FloatValue]

/-- **C86.** After parsing, a further call changes nothing, whichever of the entry points is used. -/
theorem C86_parsed [InvalidText] (t : AST) (h : (∃ b, parseGoString b = .ok t) ∨ (∃ b, parseBytes b = .ok t) ∨ ∃ r, parseReader r = .ok t) :
    t.updateParentRefs = some t := by
  have key : ∀ x, finish x = .ok t → t.updateParentRefs = some t := by
    intro x hx
    cases x with
    | none => cases hx
    | some items =>
      unfold finish at hx
      simp only at hx
      split at hx
      · cases hx
      · rename_i t' e
        cases hx
        exact C86_again _ _ e
  rcases h with ⟨b, h⟩ | ⟨b, h⟩ | ⟨r, h⟩ <;> exact key _ h

/-- In a parsed document with a heredoc, a call on a clone changes `Parent`s of the original. -/
theorem C86_parsed_clone_changed : (match parseString c!"x = <<E\nt\nE\n" with
    | .ok t => ((AST.clone (some t) 100).1.bind AST.writes).map fun ws =>
        decide (t.Plain ∧ ∀ a ∈ t.addrs, a < 100) && decide ((t.after ws).items.parents ≠ t.items.parents)
    | _ => none) = some true := by kernel_rfl

end

/-! ## Examples -/

/-- The call has an effect: before, no node has a `Parent`; afterwards all but the root item have one. -/
example : (Sample.number.items.parents.all Option.isNone) = true ∧
    (Sample.number.updateParentRefs.map fun t => t.items.parents.count none) = some 1 ∧ Sample.number.items.parents.length = 19 := by
  decide +kernel

/-- Wrong `Parent`s are put right. -/
example : (Sample.number.after [(5, some 17)]).items.parents ≠ Sample.number.items.parents ∧
    (Sample.number.after [(5, some 17)]).updateParentRefs = Sample.number.updateParentRefs :=
  ⟨by decide +kernel, (C86_forgets_partial Sample.number (Sample.number.after [(5, some 17)]) (by decide +kernel) (by decide +kernel) rfl (AST.after_forget _ _).symm).symm⟩

/-- A document and a clone to which `C86_clone_copied_partial` applies. -/
example : Sample.number.Plain ∧ Allocated 22 Sample.number.addrs ∧ Sample.number.items.everywhere (fun y => y.copied) = true ∧
    ((AST.clone (some Sample.number) 22).1.bind AST.writes).map List.length = some 19 := by
  unfold Allocated; decide +kernel

/-- With a heredoc, exactly one assignment hits the original. -/
example : ((AST.clone (some Sample.heredocDoc) 23).1.bind AST.writes).map (fun ws => (ws.map Prod.fst).filter (· < 23)) = some [21] := by
  decide +kernel

/-- A document with heredoc, its clone and a call on the clone: the only `Parent` that is also an object of the original would be that of
what is inside of a fragment; here there is none. -/
example : Sample.heredocDoc.Plain ∧ Sample.heredocDoc.items.everywhere (fun y => y.noPost) = true ∧
    ((AST.clone (some Sample.heredocDoc) 23).1.bind AST.updateParentRefs).map
      (fun t => (t.items.parents.filter Option.isSome).all fun q => decide (q.getD 0 ≥ 23)) = some true := by decide +kernel

end Verif.Etx
