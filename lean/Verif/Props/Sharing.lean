import Verif.Dag.HeapOps
import Verif.Props.Obs

/-!
# The maps a query returns belong to the caller (C57)

A client calls the API and keeps the maps it gets back.  Between calls it may write to any of
them.  The claim: no such write reaches the graph, no call reaches a map returned earlier, and
no two returned maps are the same map.
-/

set_option linter.unusedSectionVars false

namespace Verif.Dag
open HSt (Ok Ext Local Held Own)

section
variable {K T : Type} [DecidableEq K] [GoZero K] [GoZero T]

/-! ## Specification -/

/-- What a client does: call the API, or use the `i`-th map it has been given so far. -/
inductive Act (K T : Type) where
  | call (op : Op K T)
  /-- `maps[i][k] = v` -/
  | put (i : Nat) (k : K) (v : T)
  /-- `delete(maps[i], k)` -/
  | drop (i : Nat) (k : K)
  /-- read all of `maps[i]` -/
  | look (i : Nat)

/-- What the client sees. -/
inductive Out (K T : Type) where
  | res (r : Res K T)
  | done
  | seen (m : Option (List (K × T)))
  deriving DecidableEq

/-- The map among a call's results. -/
def Res.map? : Res K T → Option (List (K × T))
  | .entries m => some m
  | .entriesE (.ok m) => some m
  | _ => none

/-- The calls of a client. -/
def calls : List (Act K T) → List (Op K T)
  | [] => []
  | .call op :: ss => op :: calls ss
  | _ :: ss => calls ss

/-- The results of the calls. -/
def results : List (Out K T) → List (Res K T)
  | [] => []
  | .res r :: os => r :: results os
  | _ :: os => results os

/-- The value a list of entries has at a key. -/
def lookup (m : List (K × T)) (k : K) : Option T := (m.find? fun p => decide (p.1 = k)).map Prod.snd

/-- The ideal client: `a` is the graph, `ms` are the client's maps, each a partial function that
nothing but the client's own writes changes. -/
def Ideal (a : Abs K T) (ms : List (K → Option T)) : List (Act K T) → List (Out K T) → Prop
  | [], [] => True
  | .call op :: ss, .res r :: os =>
    Spec.ok a op r ∧
      Ideal (Spec.next a op) (match r.map? with | some m => ms ++ [lookup m] | none => ms) ss os
  | .put i k v :: ss, .done :: os =>
    Ideal a (ms.modify i fun f x => if x = k then some v else f x) ss os
  | .drop i k :: ss, .done :: os =>
    Ideal a (ms.modify i fun f x => if x = k then none else f x) ss os
  | .look i :: ss, .seen m :: os =>
    (match ms[i]?, m with
      | some f, some m => Spec.Exactly m (fun k v => f k = some v)
      | none, none => True
      | _, _ => False) ∧ Ideal a ms ss os
  | _, _ => False

/-! ## The client on the heap -/

/-- One API call on the heap: what it returns, and the address if that is a map. -/
def H.exec (ω : Oracle) : Op K T → H K T (Res K T × Option Nat)
  | .addVertex id v => do return (.err (← H.addVertex id v), none)
  | .getVertex id => do return (.payload (← H.getVertex id), none)
  | .deleteVertex id => do return (.err (← H.deleteVertex ω id), none)
  | .addEdge s t => do return (.err (← H.addEdge ω s t), none)
  | .isEdge s t => do return (.flag (← H.isEdge s t), none)
  | .deleteEdge s t => do return (.err (← H.deleteEdge ω s t), none)
  | .getOrder => do return (.count (← H.getOrder), none)
  | .getSize => do return (.count (← H.getSize ω), none)
  | .getLeaves => do ofMap (← H.getLeaves ω)
  | .getRoots => do ofMap (← H.getRoots ω)
  | .getVertices => do ofMap (← H.getVertices ω)
  | .getParents id => do ofMapE (← H.getParents ω id)
  | .getChildren id => do ofMapE (← H.getChildren ω id)
  | .getAncestors id => do ofMapE (← H.getAncestors ω id)
  | .getOrderedAncestors id => do return (.idsE (← H.getOrderedAncestors ω id), none)
  | .getDescendants id => do ofMapE (← H.getDescendants ω id)
  | .getOrderedDescendants id => do return (.idsE (← H.getOrderedDescendants ω id), none)
  | .reduceTransitively => do H.reduceTransitively ω; return (.unit, none)
  | .string => do
    let l ← H.stringListing ω
    return (.listing l.order l.size l.vertices l.edges, none)
where
  ofMap (r : Nat) : H K T (Res K T × Option Nat) := do
    let h ← H.get
    return (.entries (h.mapAt r), some r)
  ofMapE : Except Err Nat → H K T (Res K T × Option Nat)
    | .error e => return (.entriesE (.error e), none)
    | .ok r => do
      let h ← H.get
      return (.entriesE (.ok (h.mapAt r)), some r)

/-- One step of the client, who holds the maps at the addresses `hs`. -/
def clientStep (ω : Oracle) (hs : List Nat) : Act K T → H K T (Out K T × List Nat)
  | .call op => do
    let (r, a) ← H.exec ω op
    return (.res r, hs ++ a.toList)
  | .put i k v =>
    match hs[i]? with
    | some r => do H.setIn r k v; return (.done, hs)
    | none => return (.done, hs)
  | .drop i k =>
    match hs[i]? with
    | some r => do H.delIn r k; return (.done, hs)
    | none => return (.done, hs)
  | .look i => do
    let h ← H.get
    return (.seen (hs[i]?.map h.mapAt), hs)

/-- A client's run. -/
def client (ω : Oracle) : List (Act K T) → List Nat → HSt K T → Option (List (Out K T) × HSt K T)
  | [], _, h => some ([], h)
  | s :: ss, hs, h =>
    match clientStep ω hs s h with
    | none => none
    | some ((o, hs'), h') =>
      match client ω ss hs' h' with
      | none => none
      | some (os, h'') => some (o :: os, h'')

/-! ## Proof -/

/-- The value model's result, and the address of the map in it. -/
def ResRel (n : Nat) (a : Res K T × Option Nat) (b : Res K T) (h : HSt K T) : Prop :=
  a.1 = b ∧ match b.map?, a.2 with
    | some v, some r => Fresh n r v h
    | none, none => True
    | _, _ => False

theorem sim_plain {α : Type} {n m : Nat} {h : HSt K T} {hm : H K T α} {vm : M K T α} (f : α → Res K T)
    (hf : ∀ a, (f a).map? = none) (s : Sim n m hm vm h (fun a b _ => a = b)) :
    Sim n m (hm >>= fun a => Pure.pure (f a, none)) (vm >>= fun a => Pure.pure (f a)) h (ResRel m) := by
  refine Sim.seq s (Nat.le_refl _) (Nat.le_refl _) ?_
  rintro a _ h1 ok1 _ rfl
  exact Sim.ret ok1 ⟨rfl, by rw [hf]; trivial⟩

theorem sim_map {n m : Nat} {h : HSt K T} {hm : H K T Nat} {vm : M K T (GoMap K T)}
    (s : Sim n m hm vm h (Fresh m)) :
    Sim n m (hm >>= H.exec.ofMap) (vm >>= fun v => Pure.pure (Res.entries v)) h (ResRel m) := by
  refine Sim.seq s (Nat.le_refl _) (Nat.le_refl _) ?_
  intro r v h1 ok1 _ f
  unfold H.exec.ofMap
  refine Sim.getL ?_
  exact Sim.ret ok1 ⟨by simp only; rw [f.2.eq], f⟩

theorem sim_mapE {n m : Nat} {h : HSt K T} {hm : H K T (Except Err Nat)}
    {vm : M K T (Except Err (GoMap K T))} (s : Sim n m hm vm h (MapRel m)) :
    Sim n m (hm >>= H.exec.ofMapE) (vm >>= fun v => Pure.pure (Res.entriesE v)) h (ResRel m) := by
  refine Sim.seq s (Nat.le_refl _) (Nat.le_refl _) ?_
  rintro r v h1 ok1 _ (⟨e, rfl, rfl⟩ | ⟨r, v, rfl, rfl, f⟩)
  · exact Sim.ret ok1 ⟨rfl, trivial⟩
  · unfold H.exec.ofMapE
    refine Sim.getL ?_
    exact Sim.ret ok1 ⟨by simp only; rw [f.2.eq], f⟩

/-- Each call on the heap does what the value model's call does, and a map it returns is new. -/
theorem exec_sim (ω : Oracle) (op : Op K T) (h : HSt K T) (ok : Ok h) :
    Sim h.sets.length h.maps.length (H.exec ω op) (exec ω op) h (ResRel h.maps.length) := by
  cases op with
  | addVertex id v => exact sim_plain .err (fun _ => rfl) (addVertex_sim id v h ok)
  | getVertex id => exact sim_plain .payload (fun _ => rfl) (getVertex_sim id h ok)
  | deleteVertex id => exact sim_plain .err (fun _ => rfl) (deleteVertex_sim ω id h ok)
  | addEdge s t => exact sim_plain .err (fun _ => rfl) (addEdge_sim ω s t h ok)
  | isEdge s t => exact sim_plain .flag (fun _ => rfl) (isEdge_sim s t h ok)
  | deleteEdge s t => exact sim_plain .err (fun _ => rfl) (deleteEdge_sim ω s t h ok)
  | getOrder => exact sim_plain .count (fun _ => rfl) (getOrder_sim h ok)
  | getSize => exact sim_plain .count (fun _ => rfl) (getSize_sim ω h ok)
  | getLeaves => exact sim_map (getLeaves_sim ω h ok)
  | getRoots => exact sim_map (getRoots_sim ω h ok)
  | getVertices => exact sim_map (getVertices_sim ω h ok)
  | getParents id => exact sim_mapE (getParents_sim ω id h ok)
  | getChildren id => exact sim_mapE (getChildren_sim ω id h ok)
  | getAncestors id => exact sim_mapE (getAncestors_sim ω id h ok)
  | getDescendants id => exact sim_mapE (getDescendants_sim ω id h ok)
  | getOrderedAncestors id => exact sim_plain .idsE (fun _ => rfl) (getOrderedAncestors_sim ω id h ok)
  | getOrderedDescendants id => exact sim_plain .idsE (fun _ => rfl) (getOrderedDescendants_sim ω id h ok)
  | reduceTransitively =>
    refine Sim.seq (reduceTransitively_sim ω h ok) (Nat.le_refl _) (Nat.le_refl _) ?_
    intro _ _ h1 ok1 _ _
    exact Sim.ret ok1 ⟨rfl, trivial⟩
  | string =>
    exact sim_plain (fun l : Listing K => .listing l.order l.size l.vertices l.edges) (fun _ => rfl)
      (stringListing_sim ω h ok)

theorem lookup_eq (m : GoMap K T) : lookup m = GoMap.get? m := by
  funext k
  induction m with
  | nil => rfl
  | cons p m ih =>
    obtain ⟨a, b⟩ := p
    unfold lookup at ih ⊢
    rw [GoMap.get?_cons, List.find?_cons]
    by_cases h : a = k
    · simp [h]
    · simp [h, ih]

/-- What the client holds: each map is alone at its address. -/
structure Holds (hs : List Nat) (ms : List (GoMap K T)) (h : HSt K T) : Prop where
  own : List.Forall₂ (fun r m => Own r m h) hs ms
  nodup : hs.Nodup
  keys : ∀ m ∈ ms, GoMap.NodupKeys m

theorem Holds.lt {hs : List Nat} {ms : List (GoMap K T)} {h : HSt K T} (a : Holds hs ms h) :
    ∀ r ∈ hs, r < h.maps.length := by
  have := a.own
  intro r hr
  induction this with
  | nil => cases hr
  | cons x _ ih =>
    rcases List.mem_cons.mp hr with rfl | hr
    · exact x.lt
    · exact ih ⟨by assumption, (List.nodup_cons.mp a.nodup).2, fun m hm => a.keys m (List.mem_cons_of_mem _ hm)⟩ hr

theorem Holds.ext {hs : List Nat} {ms : List (GoMap K T)} {h h' : HSt K T} {n : Nat} (a : Holds hs ms h)
    (e : Ext n h.maps.length h h') : Holds hs ms h' :=
  ⟨a.own.imp (fun _ _ o => o.ext e o.lt), a.nodup, a.keys⟩

theorem Holds.push {hs : List Nat} {ms : List (GoMap K T)} {h : HSt K T} {r : Nat} {v : GoMap K T}
    (a : Holds hs ms h) (o : Own r v h) (hr : ∀ x ∈ hs, x ≠ r) (hv : GoMap.NodupKeys v) :
    Holds (hs ++ [r]) (ms ++ [v]) h := by
  refine ⟨List.rel_append a.own (.cons o .nil), ?_, ?_⟩
  · rw [List.nodup_append]
    refine ⟨a.nodup, List.nodup_singleton _, ?_⟩
    intro x hx y hy
    rw [List.mem_singleton.mp hy]
    exact hr x hx
  · intro m hm
    rcases List.mem_append.mp hm with hm | hm
    · exact a.keys m hm
    · rw [List.mem_singleton.mp hm]; exact hv

/-- The client writes to one of its maps. -/
theorem Holds.write {hs : List Nat} {ms : List (GoMap K T)} {h : HSt K T} (f : GoMap K T → GoMap K T)
    (hf : ∀ m, GoMap.NodupKeys m → GoMap.NodupKeys (f m)) (a : Holds hs ms h) (ok : Ok h) {i r : Nat}
    (hi : hs[i]? = some r) :
    let h' : HSt K T := { h with maps := h.maps.set r (f (h.mapAt r)) }
    Holds hs (ms.modify i f) h' ∧ Ok h' ∧ h'.abs = h.abs := by
  intro h'
  have key : ∀ (hs : List Nat) (ms : List (GoMap K T)) (i : Nat), Holds hs ms h → hs[i]? = some r →
      Holds hs (ms.modify i f) h' ∧ r < h.maps.length ∧ r ≠ h.vertices := by
    intro hs
    induction hs with
    | nil => intro ms i _ hi; cases hi
    | cons x hs ih =>
      intro ms i a hi
      obtain ⟨own, nd, ks⟩ := a
      cases own with
      | @cons _ y _ ys ox os =>
        obtain ⟨n1, n2⟩ := List.nodup_cons.mp nd
        have tail : Holds hs ys h := ⟨os, n2, fun m hm => ks m (List.mem_cons_of_mem _ hm)⟩
        have hd : ∀ (z : Nat), r < h.maps.length → h'.mapAt z = if z = r then f (h.mapAt r) else h.mapAt z :=
          fun z hr => HSt.mapAt_set h r _ hr z
        cases i with
        | zero =>
          simp only [List.getElem?_cons_zero, Option.some.injEq] at hi
          subst hi
          refine ⟨⟨.cons ⟨by simpa [h'] using ox.lt, ox.ne, ?_⟩ ?_, nd, ?_⟩, ox.lt, ox.ne⟩
          · rw [hd _ ox.lt, if_pos rfl, ox.eq]
          · have : ∀ (hs : List Nat) (ys : List (GoMap K T)), x ∉ hs →
                List.Forall₂ (fun r m => Own r m h) hs ys → List.Forall₂ (fun r m => Own r m h') hs ys := by
              intro hs ys hx hh
              induction hh with
              | nil => exact .nil
              | @cons p q _ _ o _ ih2 =>
                refine .cons ⟨by simpa [h'] using o.lt, o.ne, ?_⟩ (ih2 (fun hm => hx (List.mem_cons_of_mem _ hm)))
                rw [hd _ ox.lt, if_neg]
                · exact o.eq
                · rintro rfl; exact hx List.mem_cons_self
            exact this hs ys n1 os
          · intro m hm
            rcases List.mem_cons.mp hm with rfl | hm
            · exact hf _ (ks y List.mem_cons_self)
            · exact ks m (List.mem_cons_of_mem _ hm)
        | succ i =>
          simp only [List.getElem?_cons_succ] at hi
          obtain ⟨t, hr, hv⟩ := ih ys i tail hi
          have hxr : x ≠ r := by
            rintro rfl
            exact n1 (List.mem_of_getElem? hi)
          refine ⟨⟨.cons ⟨by simpa [h'] using ox.lt, ox.ne, ?_⟩ t.own, nd, ?_⟩, hr, hv⟩
          · rw [hd _ hr, if_neg hxr]; exact ox.eq
          · intro m hm
            rcases List.mem_cons.mp hm with rfl | hm
            · exact ks _ List.mem_cons_self
            · exact t.keys m hm
  obtain ⟨k1, hr, hv⟩ := key hs ms i a hi
  refine ⟨k1, ⟨ok.nodup, ok.lt, ok.inK, ok.outK, by simpa [h'] using ok.verts⟩, ?_⟩
  have : h'.verts = h.verts := by
    show HSt.mapAt _ h.vertices = _
    rw [HSt.mapAt_set h r _ hr, if_neg (Ne.symm hv)]; rfl
  unfold HSt.abs; rw [this]; rfl

theorem modify_map {α β : Type} (g : α → β) (f : α → α) (f' : β → β) (h : ∀ a, g (f a) = f' (g a))
    (l : List α) (i : Nat) : (l.modify i f).map g = (l.map g).modify i f' := by
  induction l generalizing i with
  | nil => cases i <;> rfl
  | cons a l ih =>
    cases i with
    | zero => simp [List.modify_zero_cons, h]
    | succ i => simp [List.modify_succ_cons, ih]

/-- A returned map has each key once. -/
theorem keys_of_ok {a : Abs K T} {op : Op K T} {r : Res K T} {m : List (K × T)} (h : Spec.ok a op r)
    (hm : r.map? = some m) : GoMap.NodupKeys m := by
  have orErr : ∀ {e : Option Err} {x : Except Err (List (K × T))} {P : K → T → Prop},
      Spec.OrErr e x (fun m => Spec.Exactly m P) → x = .ok m → GoMap.NodupKeys m := by
    intro e x P h1 h2
    subst h2
    unfold Spec.OrErr at h1
    cases e with
    | some e => cases h1
    | none => obtain ⟨y, h3, h4⟩ := h1; cases h3; exact h4.1
  cases r with
  | entries m' =>
    cases hm
    cases op <;> first | exact h.1 | exact h.elim
  | entriesE x =>
    cases x with
    | error e => cases hm
    | ok m' =>
      cases hm
      cases op <;> first | exact orErr h rfl | exact h.elim
  | _ => cases hm

/-- The client's run from a state in which it holds `ms`. -/
theorem client_ideal (ω : Oracle) (ss : List (Act K T)) (hs : List Nat) (ms : List (GoMap K T))
    (h : HSt K T) (ok : Ok h) (inv : Inv h.abs.g) (a : Holds hs ms h) :
    ∃ os h', client ω ss hs h = some (os, h') ∧
      (run ω (calls ss) h.abs = some (results os, h'.abs) ∧ Ok h') ∧
      Ideal (abs h.abs.g) (ms.map GoMap.get?) ss os := by
  induction ss generalizing hs ms h with
  | nil => exact ⟨[], h, rfl, ⟨rfl, ok⟩, trivial⟩
  | cons s ss ih =>
    cases s with
    | call op =>
      obtain ⟨rv, σ1, e1, inv1, ab1, ok1⟩ := exec_refines ω op h.abs inv
      rcases exec_sim ω op h ok with ⟨_, h2⟩ | ⟨⟨r, ad⟩, h1, b, h2, h3, okh, ex, hr, hm⟩
      · rw [e1] at h2; cases h2
      · rw [e1] at h3; cases h3
        simp only at hr; subst hr
        have a1 := a.ext ex
        have key : ∃ ms1, Holds (hs ++ ad.toList) ms1 h1 ∧
            (match r.map? with | some m => ms.map GoMap.get? ++ [lookup m] | none => ms.map GoMap.get?) =
              ms1.map GoMap.get? := by
          cases hmp : r.map? with
          | none =>
            rw [hmp] at hm
            cases ad with
            | some _ => exact hm.elim
            | none => exact ⟨ms, by simpa using a1, rfl⟩
          | some v =>
            rw [hmp] at hm
            cases ad with
            | none => exact hm.elim
            | some q =>
              refine ⟨ms ++ [v], a1.push hm.2 ?_ (keys_of_ok ok1 hmp), ?_⟩
              · rintro x hx rfl
                have := a.lt x hx
                have := hm.1
                omega
              · simp [lookup_eq]
        obtain ⟨ms1, hh, hms⟩ := key
        obtain ⟨os, h', c1, c2, c3⟩ := ih (hs ++ ad.toList) ms1 h1 okh inv1 hh
        refine ⟨.res r :: os, h', ?_, ?_, ok1, ?_⟩
        · have : clientStep ω hs (.call op) h = some ((.res r, hs ++ ad.toList), h1) := by
            unfold clientStep
            show H.bind _ _ _ = _
            unfold H.bind
            rw [h2]; rfl
          simp [client, this, c1]
        · simp [calls, results, run, e1, c2]
        · rw [hms, ← ab1]; exact c3
    | put i k v =>
      cases hi : hs[i]? with
      | none =>
        have hl : ms.map GoMap.get? = (ms.map GoMap.get?).modify i fun f x => if x = k then some v else f x := by
          rw [List.modify_eq_self]
          rw [List.length_map, ← a.own.length_eq]
          exact List.getElem?_eq_none_iff.mp hi
        obtain ⟨os, h', c1, c2, c3⟩ := ih hs ms h ok inv a
        refine ⟨.done :: os, h', ?_, c2, ?_⟩
        · have : clientStep ω hs (.put i k v) h = some ((.done, hs), h) := by
            show (match hs[i]? with | some r => _ | none => _ : H K T (Out K T × List Nat)) h = _; rw [hi]; rfl
          simp [client, this, c1]
        · show Ideal _ (List.modify _ _ _) _ _
          rw [← hl]; exact c3
      | some r =>
        obtain ⟨a1, ok1, ab⟩ := a.write (fun m => GoMap.set m k v) (fun m hm => hm.set k v) ok hi
        obtain ⟨os, h', c1, c2, c3⟩ := ih hs _ _ ok1 (by rw [ab]; exact inv) a1
        rw [ab] at c2 c3
        refine ⟨.done :: os, h', ?_, c2, ?_⟩
        · have : clientStep ω hs (.put i k v) h =
              some ((.done, hs), { h with maps := h.maps.set r (GoMap.set (h.mapAt r) k v) }) := by
            show (match hs[i]? with | some r => _ | none => _ : H K T (Out K T × List Nat)) h = _; rw [hi]; rfl
          simp only [client, this, c1]
        · show Ideal _ (List.modify _ _ _) _ _
          rw [← modify_map GoMap.get? (fun m => GoMap.set m k v)]
          · exact c3
          · intro m; funext x; exact GoMap.get?_set m k x v
    | drop i k =>
      cases hi : hs[i]? with
      | none =>
        have hl : ms.map GoMap.get? = (ms.map GoMap.get?).modify i fun f x => if x = k then none else f x := by
          rw [List.modify_eq_self]
          rw [List.length_map, ← a.own.length_eq]
          exact List.getElem?_eq_none_iff.mp hi
        obtain ⟨os, h', c1, c2, c3⟩ := ih hs ms h ok inv a
        refine ⟨.done :: os, h', ?_, c2, ?_⟩
        · have : clientStep ω hs (.drop i k) h = some ((.done, hs), h) := by
            show (match hs[i]? with | some r => _ | none => _ : H K T (Out K T × List Nat)) h = _; rw [hi]; rfl
          simp [client, this, c1]
        · show Ideal _ (List.modify _ _ _) _ _
          rw [← hl]; exact c3
      | some r =>
        obtain ⟨a1, ok1, ab⟩ := a.write (fun m => GoMap.del m k) (fun m hm => hm.del k) ok hi
        obtain ⟨os, h', c1, c2, c3⟩ := ih hs _ _ ok1 (by rw [ab]; exact inv) a1
        rw [ab] at c2 c3
        refine ⟨.done :: os, h', ?_, c2, ?_⟩
        · have : clientStep ω hs (.drop i k) h =
              some ((.done, hs), { h with maps := h.maps.set r (GoMap.del (h.mapAt r) k) }) := by
            show (match hs[i]? with | some r => _ | none => _ : H K T (Out K T × List Nat)) h = _; rw [hi]; rfl
          simp only [client, this, c1]
        · show Ideal _ (List.modify _ _ _) _ _
          rw [← modify_map GoMap.get? (fun m => GoMap.del m k)]
          · exact c3
          · intro m; funext x; exact GoMap.get?_del m k x
    | look i =>
      obtain ⟨os, h', c1, c2, c3⟩ := ih hs ms h ok inv a
      refine ⟨.seen (hs[i]?.map h.mapAt) :: os, h', ?_, c2, ?_, c3⟩
      · have : clientStep ω hs (.look i) h = some ((.seen (hs[i]?.map h.mapAt), hs), h) := rfl
        simp only [client, this, c1]
      · have hlen := a.own.length_eq
        cases hi : hs[i]? with
        | none =>
          have : (ms.map GoMap.get?)[i]? = none := by
            rw [List.getElem?_eq_none_iff, List.length_map, ← hlen]
            exact List.getElem?_eq_none_iff.mp hi
          rw [this]; trivial
        | some r =>
          obtain ⟨hlt, hri⟩ := List.getElem?_eq_some_iff.mp hi
          have hlt2 : i < ms.length := hlen ▸ hlt
          have o := (List.forall₂_iff_get.mp a.own).2 i hlt hlt2
          have : (ms.map GoMap.get?)[i]? = some (GoMap.get? ms[i]) := by
            rw [List.getElem?_map, List.getElem?_eq_getElem hlt2]; rfl
          rw [this]
          simp only [List.get_eq_getElem] at o
          rw [hri] at o
          show Spec.Exactly (h.mapAt r) _
          rw [o.eq]
          exact ⟨a.keys _ (List.getElem_mem _), fun k v => GoMap.mem_iff_get? (a.keys _ (List.getElem_mem _)) k v⟩

theorem ok_init : Ok (HSt.init : HSt K T) :=
  ⟨List.nodup_nil, fun a h => by (simp [HSt.owned, HSt.edges, HSt.cached, HSt.init] at h), GoMap.NodupKeys.nil, GoMap.NodupKeys.nil, by simp [HSt.init]⟩

/-- **C57.**  Whatever the client does with the maps it is given, and in whatever order maps are
ranged over: the run ends, every call answers as the specification says, and every map the client
reads has exactly the entries it had when it was returned, as changed by the client's own writes
to that map. -/
theorem C57_own_maps (ω : Oracle) (ss : List (Act K T)) :
    ∃ os h', client ω ss [] HSt.init = some (os, h') ∧ Ideal Spec.empty [] ss os := by
  obtain ⟨os, h', h1, _, h3⟩ := client_ideal ω ss [] [] (HSt.init : HSt K T) ok_init inv_new
    ⟨.nil, List.nodup_nil, fun m hm => by cases hm⟩
  refine ⟨os, h', h1, ?_⟩
  have : abs (HSt.init : HSt K T).abs.g = Spec.empty := abs_new
  rw [this] at h3
  exact h3

/-- **C57.**  The answers to the calls are, for the same map orders, those of the model with
values on the calls alone: what the client writes to its maps makes no difference. -/
theorem C57_calls (ω : Oracle) (ss : List (Act K T)) (os : List (Out K T)) (h' : HSt K T)
    (h : client ω ss [] HSt.init = some (os, h')) :
    run ω (calls ss) St.init = some (results os, h'.abs) := by
  obtain ⟨os2, h2, h3, h4, _⟩ := client_ideal ω ss [] [] (HSt.init : HSt K T) ok_init inv_new
    ⟨.nil, List.nodup_nil, fun m hm => by cases hm⟩
  rw [h] at h3; cases h3
  exact h4.1

/-- **C57.**  Two clients that make the same calls get the same answers, whatever else they do. -/
theorem C57_no_interference (ω : Oracle) (ss ss' : List (Act K T)) (hc : calls ss = calls ss')
    (os os' : List (Out K T)) (h h' : HSt K T) (h1 : client ω ss [] HSt.init = some (os, h))
    (h2 : client ω ss' [] HSt.init = some (os', h')) : results os = results os' := by
  have e1 := C57_calls ω ss os h h1
  have e2 := C57_calls ω ss' os' h' h2
  rw [hc, e2] at e1
  exact (Prod.mk.inj (Option.some.inj e1)).1.symm

end

/-! ### A client that tries -/

/-- Two vertices and an edge; the client empties and fills the maps it was given, and looks. -/
def vandal : List (Act Nat Nat) :=
  [.call (.addVertex 1 10), .call (.addVertex 2 20), .call (.addEdge 1 2), .call .getVertices,
   .call (.getDescendants 1), .drop 0 1, .put 0 7 70, .put 1 9 90, .call (.deleteVertex 2), .call .getVertices,
   .call (.getDescendants 1), .look 0, .look 1, .look 2, .look 3, .look 4]

example : (client Oracle.forward vandal [] HSt.init).map (·.1) = some
    [.res (.err none), .res (.err none), .res (.err none), .res (.entries [(1, 10), (2, 20)]),
     .res (.entriesE (.ok [(2, 20)])), .done, .done, .done, .res (.err none), .res (.entries [(1, 10)]),
     .res (.entriesE (.ok [])), .seen (some [(7, 70), (2, 20)]), .seen (some [(9, 90), (2, 20)]),
     .seen (some [(1, 10)]), .seen (some []), .seen none] := by decide +kernel

end Verif.Dag
