import Verif.Dag.ConcSim
import Verif.Dag.Run

/-! # Each query, next to other goroutines, returns what it returns on values -/

set_option linter.unusedSectionVars false

namespace Verif.Dag
open HSt (Ok)
open GoMap (mapV)

variable {K T : Type} [DecidableEq K] [GoZero K] [GoZero T]
variable {w : Mode} {ω : Oracle} {n : Nat} {S G : Set Nat} {h : HSt K T} {γ : Graph K T}

theorem Good.empty (g : Good w S G h γ) : Good w ∅ ∅ h γ :=
  ⟨g.ok, ⟨fun _ h => h.elim, fun _ h => h.elim⟩, g.view⟩

/-- The same value. -/
abbrev Equal {α : Type} : α → α → Set Nat → Set Nat → HSt K T → Prop := fun a b _ _ _ => a = b

theorem checkVertexID_conc {α β : Type} (id : K) {k : Option Err → Prog K T α} {vm : M K T β}
    {Q : α → β → Set Nat → Set Nat → HSt K T → Prop} (g : Good w S G h γ)
    (c : ∀ h', Good w S G h' γ → CSim w ω (k (checkVertexID γ id)) n S G h' vm γ Q) :
    CSim w ω (P.checkVertexID id >>= k) n S G h vm γ Q := by
  unfold P.checkVertexID
  unfold checkVertexID at c
  by_cases hz : isZero id = true
  · simp only [hz, if_true] at c ⊢
    exact c h g
  · simp only [hz] at c ⊢
    refine CSim.vertex g ?_
    intro h' g' _
    have := c h' g'
    unfold GoMap.has at this
    cases hx : GoMap.get? γ.vertices id with
    | none => simp only [hx] at this; exact this
    | some x => simp only [hx] at this; exact this

theorem vertexAt_conc {α β : Type} (id : K) {k : T → Prog K T α} {vm : M K T β}
    {Q : α → β → Set Nat → Set Nat → HSt K T → Prop} (g : Good w S G h γ)
    (c : ∀ h', Good w S G h' γ → Rely w S G h h' → CSim w ω (k (γ.vertexAt id)) n S G h' vm γ Q) :
    CSim w ω (P.vertexAt id >>= k) n S G h vm γ Q :=
  CSim.vertex (k := fun v => k (v.getD zero)) g c

theorem getVertex_conc (id : K) (g : Good w S G h γ) :
    CSim w ω (P.getVertex id) n S G h (getVertex id) γ Equal := by
  unfold P.getVertex getVertex
  refine CSim.getR (checkVertexID_conc id g ?_)
  intro h' g'
  cases checkVertexID γ id with
  | some e => exact CSim.ret g' (fun _ _ => rfl)
  | none =>
    refine vertexAt_conc id g' ?_
    intro h2 g2 _
    exact CSim.ret g2 (fun _ _ => rfl)

theorem isEdge_conc (s t : K) (g : Good w S G h γ) :
    CSim w ω (P.isEdge s t) n S G h (isEdge s t) γ Equal := by
  unfold P.isEdge isEdge P.checkEdgeIDs
  refine CSim.getR ?_
  unfold isEdgeIn checkEdgeIDs
  by_cases h1 : isZero s = true
  · simp only [h1, if_true]; exact CSim.ret g (fun _ _ => rfl)
  by_cases h2 : isZero t = true
  · simp only [h1, h2, if_true]; exact CSim.ret g (fun _ _ => rfl)
  by_cases h3 : s = t
  · simp only [h2, h3, if_true]; exact CSim.ret g (fun _ _ => rfl)
  simp only [h1, h2, h3, if_false]
  refine CSim.vertex g ?_
  intro h4 g4 _
  unfold GoMap.has
  cases hx : GoMap.get? γ.vertices s with
  | none => exact CSim.ret g4 (fun _ _ => rfl)
  | some x =>
    refine CSim.vertex g4 ?_
    intro h5 g5 _
    cases hy : GoMap.get? γ.vertices t with
    | none => exact CSim.ret g5 (fun _ _ => rfl)
    | some y =>
      refine CSim.look (f := .outb) g5 (Mode.sees_of rfl) ?_
      intro a h6 g6 _ ha hr _
      have ha' : GoMap.get? γ.outb s = a.map h6.deref := ha
      rw [ha']
      cases a with
      | none => exact CSim.ret g6 (fun _ _ => rfl)
      | some a =>
        refine CSim.look (f := .outb) g6 (Mode.sees_of rfl) ?_
        intro a' h7 g7 _ _ hr' _
        refine CSim.elem g7 hr' ?_
        intro h8 g8 _
        have e8 : setAt (γ.fld .outb) s = setAt γ.outb s := rfl
        rw [e8]
        cases hb : GSet.includes (setAt γ.outb s) t with
        | true => simp; exact CSim.ret g8 (fun _ _ => rfl)
        | false => simp; exact CSim.ret g8 (fun _ _ => rfl)

theorem getOrder_conc (g : Good w S G h γ) : CSim w ω P.getOrder n S G h getOrder γ Equal := by
  show CSim w ω (Prog.prim .order >>= Pure.pure) n S G h getOrder γ Equal
  refine CSim.order g ?_
  intro h' g' _
  exact CSim.getR (CSim.ret g' (fun _ _ => rfl))

theorem getSize_conc (nat : ω.Natural) (g : Good w S G h γ) :
    CSim w ω P.getSize n S G h (getSize ω) γ Equal := by
  unfold P.getSize getSize
  refine CSim.getR (CSim.rangeOuter nat g (Mode.sees_of rfl) ?_)
  intro l d h' g' hr
  rw [List.foldl_map]
  refine CSim.mono (CSim.loopFold (fun a b S _ h => a = b ∧ ∀ x ∈ l, Reads w S h (some x.2) (d x.2)) ?_ g'
    ⟨rfl, hr⟩ ?_) (fun _ _ _ _ _ q => q.1)
  · rintro a b S M h h' ⟨e, q⟩ r
    exact ⟨e, fun x hx => (q x hx).rely r⟩
  · rintro x hx a b n S M h g ⟨rfl, q⟩
    refine CSim.size g (q x hx) ?_
    intro h2 g2 r2
    exact CSim.ret g2 (fun _ r3 => ⟨rfl, fun y hy => ((q y hy).rely r2).rely r3⟩)

/-- The map `r` is the goroutine's, with entries `v`. -/
def OwnM (r : Nat) (v : GoMap K T) (G : Set Nat) (h : HSt K T) : Prop := r ∈ G ∧ h.mapAt r = v

/-- The set `r` is the goroutine's, with elements `v`. -/
def OwnS (r : Nat) (v : GSet K) (S : Set Nat) (h : HSt K T) : Prop := r ∈ S ∧ h.deref r = v

theorem OwnM.rely {r : Nat} {v : GoMap K T} {h h' : HSt K T} (o : OwnM r v G h) (y : Rely w S G h h') :
    OwnM r v G h' := ⟨o.1, (y.maps r o.1).trans o.2⟩

theorem OwnS.rely {r : Nat} {v : GSet K} {h h' : HSt K T} (o : OwnS r v S h) (y : Rely w S G h h') :
    OwnS r v S h' := ⟨o.1, (y.sets r o.1).trans o.2⟩

theorem OwnS.reads {r : Nat} {v : GSet K} {h : HSt K T} (o : OwnS r v S h) : Reads w S h (some r) v :=
  ⟨fun _ e => by cases e; exact .inl o.1, o.2⟩

/-- A map of the goroutine's with these entries. -/
abbrev NewMap : Nat → GoMap K T → Set Nat → Set Nat → HSt K T → Prop := fun r v _ G h => OwnM r v G h

/-- The same error, or a map of the goroutine's with these entries. -/
def NewMapE (a : Except Err Nat) (b : Except Err (GoMap K T)) (_ G : Set Nat) (h : HSt K T) : Prop :=
  (∃ e, a = .error e ∧ b = .error e) ∨ ∃ r v, a = .ok r ∧ b = .ok v ∧ OwnM r v G h

/-- `getLeaves` and `getRoots` on values. -/
def endsV (ω : Oracle) (f : Fld) : M K T (GoMap K T) := do
  let g ← M.getG
  let vs ← M.range ω g.vertices
  return vs.foldl (fun leaves p =>
    match GoMap.get? (g.fld f) p.1 with
    | none => GoMap.set leaves p.1 p.2
    | some targets => if targets.length = 0 then GoMap.set leaves p.1 p.2 else leaves) []

theorem ends_conc (f : Fld) (hf : f.isCache = false) (g : Good w S G h γ) :
    CSim w ω (P.ends f) n S G h (endsV ω f) γ NewMap := by
  unfold P.ends endsV
  refine CSim.getR (CSim.newMap g ?_)
  intro r _ h1 _ _ _ g1 hr
  refine CSim.rangeVerts g1 ?_
  intro l h2 g2 r2
  refine CSim.seq (vm := (Pure.pure _ : M K T (GoMap K T))) (vf := Pure.pure) g2
    (CSim.loopFold (fun _ b _ G h => OwnM r b G h) (fun _ _ _ _ _ _ o y => o.rely y) g2
      (b := []) ⟨.inr rfl, (r2.maps r (.inr rfl)).trans hr⟩ ?_) ?_
  · rintro x _ _ b n S G h g o
    refine CSim.look g (Mode.sees_of hf) ?_
    intro y h3 g3 r3 hy hrd _
    have o3 := o.rely r3
    cases y with
    | none =>
      rw [hy]
      exact CSim.put g3 o3.1 o3.2 (fun h4 _ e4 => ⟨o3.1, e4⟩)
    | some a =>
      rw [hy]
      have hrd2 : Reads w S h3 (some a) (h3.deref a) := ⟨hrd.1, rfl⟩
      refine CSim.size g3 hrd2 ?_
      intro h4 g4 r4
      have o4 := o3.rely r4
      simp only [Option.map_some]
      split
      · exact CSim.put g4 o4.1 o4.2 (fun h5 _ e5 => ⟨o4.1, e5⟩)
      · exact CSim.ret g4 (fun _ r5 => o4.rely r5)
  · intro _ b n3 S3 G3 h3 γ3 g3 o3
    exact CSim.ret g3 (fun _ r => o3.rely r)

theorem getVertices_conc (g : Good w S G h γ) :
    CSim w ω P.getVertices n S G h (getVertices ω) γ NewMap := by
  unfold P.getVertices getVertices
  refine CSim.getR (CSim.newMap g ?_)
  intro r _ h1 _ _ _ g1 hr
  refine CSim.rangeVerts g1 ?_
  intro l h2 g2 r2
  refine CSim.seq (vm := (Pure.pure _ : M K T (GoMap K T))) (vf := Pure.pure) g2
    (CSim.loopFold (fun _ b _ G h => OwnM r b G h) (fun _ _ _ _ _ _ o y => o.rely y) g2
      (b := []) ⟨.inr rfl, (r2.maps r (.inr rfl)).trans hr⟩ ?_) ?_
  · rintro x _ _ b n S G h g o
    exact CSim.put g o.1 o.2 (fun h4 _ e4 => ⟨o.1, e4⟩)
  · intro _ b n3 S3 G3 h3 γ3 g3 o3
    exact CSim.ret g3 (fun _ r => o3.rely r)

/-- Filling a map with the payloads of some keys. -/
theorem fill_conc {r : Nat} {v : GoMap K T} (l : List (K × K)) (g : Good w S G h γ) (o : OwnM r v G h) :
    CSim w ω (Prog.loop l () fun _ k => P.vertexAt k.1 >>= fun v => Prog.prim (.put r k.1 v)) n S G h
      (Pure.pure (l.foldl (fun res k => GoMap.set res k.1 (γ.vertexAt k.1)) v) : M K T (GoMap K T)) γ
      (fun _ b _ G h => OwnM r b G h) := by
  refine CSim.loopFold (fun _ b _ G h => OwnM r b G h) (fun _ _ _ _ _ _ o y => o.rely y) g o ?_
  rintro x _ _ b n S G h g o
  refine vertexAt_conc _ g ?_
  intro h2 g2 r2
  exact CSim.put g2 (o.rely r2).1 (o.rely r2).2 (fun h4 _ e4 => ⟨o.1, e4⟩)

/-- `getParents` and `getChildren` on values. -/
def neighboursV (ω : Oracle) (f : Fld) (id : K) : M K T (Except Err (GoMap K T)) := do
  let g ← M.getG
  match checkVertexID g id with
  | some e => return .error e
  | none =>
    let ps ← M.range ω (setAt (g.fld f) id)
    return .ok (ps.foldl (fun parents p => GoMap.set parents p.1 (g.vertexAt p.1)) [])

theorem neighbours_conc (f : Fld) (hf : f.isCache = false) (id : K) (g : Good w S G h γ) :
    CSim w ω (P.neighbours f id) n S G h (neighboursV ω f id) γ NewMapE := by
  unfold P.neighbours neighboursV
  refine CSim.getR (checkVertexID_conc id g ?_)
  intro h' g'
  cases checkVertexID γ id with
  | some e => exact CSim.ret g' (fun _ _ => .inl ⟨e, rfl, rfl⟩)
  | none =>
    refine CSim.newMap g' ?_
    intro r _ h1 _ _ _ g1 hr
    refine CSim.look g1 (Mode.sees_of hf) ?_
    intro x h2 g2 r2 _ hx _
    refine CSim.rangeS g2 hx ?_
    intro l h3 g3 r3
    have o3 : OwnM r [] (G ∪ {r}) h3 := ⟨.inr rfl, ((r2.trans r3).maps r (.inr rfl)).trans hr⟩
    refine CSim.seq (vm := (Pure.pure _ : M K T (GoMap K T))) (vf := fun m => Pure.pure (Except.ok m)) g3
      (fill_conc l g3 o3) ?_
    intro _ b n4 S4 G4 h4 γ4 g4 o4
    exact CSim.ret g4 (fun _ r => .inr ⟨_, _, rfl, rfl, o4.rely r⟩)

theorem Reads.newMap {x : Option Nat} {s : GSet K} {h h' : HSt K T} (a : Reads w S h x s) (h1 : h'.sets = h.sets)
    (h2 : ∀ f, h'.fld f = h.fld f) : Reads w S h' x s := by
  refine ⟨?_, ?_⟩
  · intro y e
    rcases a.1 y e with h3 | ⟨f, h3, h4⟩
    · exact .inl h3
    · exact .inr ⟨f, h3, by rw [HSt.vals_eq (h2 f)]; exact h4⟩
  · rw [← a.2]
    cases x with
    | none => rfl
    | some y => show h'.deref y = h.deref y; unfold HSt.deref; rw [h1]

theorem payloads_conc {x : Option Nat} {s : GSet K} (g : Good w S G h γ) (hx : Reads w S h x s) :
    CSim w ω (P.payloads x) n S G h (loadFromCache ω γ s) γ NewMap := by
  unfold P.payloads loadFromCache
  refine CSim.newMap g ?_
  intro r h0 h1 r0 e1 e2 g1 hr
  refine CSim.rangeS g1 ((hx.rely r0).newMap e1 e2) ?_
  intro l h3 g3 r3
  have o3 : OwnM r [] (G ∪ {r}) h3 := ⟨.inr rfl, (r3.maps r (.inr rfl)).trans hr⟩
  refine CSim.seq (vm := (Pure.pure _ : M K T (GoMap K T))) (vf := Pure.pure) g3 (fill_conc l g3 o3) ?_
  intro _ b n4 S4 G4 h4 γ4 g4 o4
  exact CSim.ret g4 (fun _ r => o4.rely r)

/-! ## Ancestors and descendants -/

/-- `getAncestorsIDs` and `getDescendantsIDs` on values. -/
def reachIDsV (ω : Oracle) (e c : Fld) : Nat → K → M K T (Except Err (GSet K))
  | 0, _ => M.diverge
  | fuel + 1, id => do
    let g ← M.getG
    match checkVertexID g id with
    | some e => return .error e
    | none =>
      match GoMap.get? (g.fld c) id with
      | some cache => return .ok cache
      | none =>
        let cache ←
          match GoMap.get? (g.fld e) id with
          | none => M.pure []
          | some parents => do
            let ps ← M.range ω parents
            M.loop ps ([] : GSet K) fun cache p => do
              let r ← reachIDsV ω e c fuel p.1
              let next : GSet K := match r with | .ok c => c | .error _ => []
              let as ← M.range ω next
              let cache := as.foldl (fun c a => GSet.add c a.2) cache
              return GSet.add cache p.1
        M.modG fun g => g.setFld c id cache
        return .ok cache

theorem reachIDsV_anc (ω : Oracle) (fuel : Nat) (id : K) :
    (reachIDsV ω .inb .anc fuel id : M K T _) = getAncestorsIDs ω fuel id := by
  induction fuel generalizing id with
  | zero => rfl
  | succ fuel ih => unfold reachIDsV getAncestorsIDs; simp only [ih]; rfl

theorem reachIDsV_desc (ω : Oracle) (fuel : Nat) (id : K) :
    (reachIDsV ω .outb .desc fuel id : M K T _) = getDescendantsIDs ω fuel id := by
  induction fuel generalizing id with
  | zero => rfl
  | succ fuel ih => unfold reachIDsV getDescendantsIDs; simp only [ih]; rfl

/-- The same error, or a set in the cache `f` with these elements. -/
def IdsC (f : Fld) (a : Except Err Nat) (b : Except Err (GSet K)) (_ _ : Set Nat) (h : HSt K T) : Prop :=
  (∃ e, a = .error e ∧ b = .error e) ∨ ∃ x s, a = .ok x ∧ b = .ok s ∧ x ∈ h.vals f ∧ h.deref x = s

/-- Adding a list of elements to a set of the goroutine's. -/
theorem addAll_conc {α : Type} {c : Nat} {s : GSet K} (f : α → K) (l : List α) (g : Good w S G h γ)
    (o : OwnS c s S h) :
    CSim w ω (Prog.loop l () fun _ a => Prog.prim (.add c (f a))) n S G h
      (Pure.pure (l.foldl (fun s a => GSet.add s (f a)) s) : M K T (GSet K)) γ
      (fun _ b S _ h => OwnS c b S h) := by
  refine CSim.loopFold (fun _ b S _ h => OwnS c b S h) (fun _ _ _ _ _ _ o y => o.rely y) g o ?_
  rintro x _ _ b n S G h g o
  exact CSim.add g o.1 o.2 (fun h4 _ e4 => ⟨o.1, e4⟩)

theorem reachIDs_conc (e c : Fld) (he : e.isCache = false) (hc : w.writes c) (fuel : Nat) (id : K) (n : Nat)
    (h : HSt K T) (γ : Graph K T) (g : Good w ∅ ∅ h γ) :
    CSim w ω (P.reachIDs e c fuel id) n ∅ ∅ h (reachIDsV ω e c fuel id) γ (IdsC c) := by
  induction fuel generalizing id n h γ with
  | zero => exact CSim.diverge
  | succ fuel ih =>
    unfold P.reachIDs reachIDsV
    refine CSim.getR (checkVertexID_conc id g ?_)
    intro h1 g1
    cases checkVertexID γ id with
    | some e => exact CSim.ret g1 (fun _ _ => .inl ⟨e, rfl, rfl⟩)
    | none =>
      refine CSim.look g1 hc.sees ?_
      intro x h2 g2 _ hx hr hxc
      rw [hx]
      cases x with
      | some y =>
        refine CSim.ret g2 (fun h3 r3 => .inr ⟨y, h2.deref y, rfl, rfl, ?_⟩)
        exact ⟨by rw [HSt.vals_eq (r3.fld c hc.sees)]; exact hxc y rfl, r3.deref c hc.sees y (hxc y rfl)⟩
      | none =>
        refine CSim.newSet g2 ?_
        intro cache h3 g3 hcache
        have tail : ∀ (s : GSet K) (n : Nat) (S G : Set Nat) (h4 : HSt K T) (γ4 : Graph K T),
            Good w S G h4 γ4 → OwnS cache s S h4 →
            CSim w ω (Prog.prim (.store c id cache) >>= fun _ => Pure.pure (.ok cache)) n S G h4
              (M.modG (fun g => g.setFld c id s) >>= fun _ => Pure.pure (.ok s)) γ4 (IdsC c) := by
          intro s n S G h4 γ4 g4 o4
          refine CSim.store g4 hc o4.1 o4.2 ?_
          intro h5 g5 h6 h7
          refine CSim.ret g5 (fun h8 r8 => .inr ⟨_, _, rfl, rfl, ?_⟩)
          exact ⟨by rw [HSt.vals_eq (r8.fld c hc.sees)]; exact h6, (r8.deref c hc.sees _ h6).trans h7⟩
        refine CSim.look g3 (Mode.sees_of he) ?_
        intro y h4 g4 r4 hy hyr _
        have o4 : OwnS cache [] (∅ ∪ {cache}) h4 := ⟨.inr rfl, (r4.sets _ (.inr rfl)).trans hcache⟩
        rw [hy]
        cases y with
        | none => exact tail [] _ _ _ h4 γ g4 o4
        | some next =>
          refine CSim.rangeS (s := h4.deref next) (vf := fun ps => M.bind (M.loop ps [] _) _) g4 ⟨hyr.1, rfl⟩ ?_
          intro l h5 g5 r5
          refine CSim.seq g5 (CSim.loop (fun _ b S _ h => OwnS cache b S h) (fun _ _ _ _ _ _ o y => o.rely y) g5
            (o4.rely r5) ?_) ?_
          · rintro p _ _ b n S G h γ g o
            refine CSim.seq g (CSim.call g (ih p.1 n h γ g.empty)) ?_
            rintro a v n6 S6 G6 h6 γ6 g6 ⟨S1, G1, rfl, rfl, hav, _, hS, _⟩
            have o6 : OwnS cache b (S1 ∪ S) h6 := ⟨.inr o.1, (hS _ o.1).trans o.2⟩
            have hread : Reads w (S1 ∪ S) h6
                (match (generalizing := false) a with | .ok s => some s | .error _ => none)
                (match (generalizing := false) v with | .ok c => c | .error _ => []) := by
              rcases hav with ⟨e, rfl, rfl⟩ | ⟨x, s, rfl, rfl, h7, h8⟩
              · exact ⟨fun _ e => (by cases e), rfl⟩
              · exact ⟨fun _ e => (by cases e; exact .inr ⟨c, hc.sees, h7⟩), h8⟩
            refine CSim.rangeS g6 hread ?_
            intro as h9 g9 r9
            refine CSim.seq (vm := (Pure.pure (as.foldl (fun c a => GSet.add c a.2) b) : M K T (GSet K)))
              (vf := fun c => Pure.pure (GSet.add c p.1)) g9 (addAll_conc Prod.snd as g9 (o6.rely r9)) ?_
            intro _ s n10 S10 G10 h10 γ10 g10 o10
            exact CSim.add g10 o10.1 o10.2 (fun h4 _ e4 => ⟨o10.1, e4⟩)
          · intro _ s n6 S6 G6 h6 γ6 g6 o6
            exact tail s _ _ _ h6 γ6 g6 o6

/-- The goroutine may ask the cache `c` about `id`: it may write to it, or there is no such vertex, or it may
read it and the set is there. -/
def Entitled (w : Mode) (γ : Graph K T) (c : Fld) (id : K) : Prop :=
  w.writes c ∨ checkVertexID γ id ≠ none ∨ (w.sees c ∧ GoMap.get? (γ.fld c) id ≠ none)

/-- Nothing has to be computed. -/
theorem reachIDs_warm (e c : Fld) (fuel : Nat) (id : K)
    (hc : checkVertexID γ id ≠ none ∨ (w.sees c ∧ GoMap.get? (γ.fld c) id ≠ none)) (g : Good w ∅ ∅ h γ) :
    CSim w ω (P.reachIDs e c fuel id) n ∅ ∅ h (reachIDsV ω e c fuel id) γ
      (fun a b S M h => w.sees c ∧ IdsC c a b S M h ∨ ∃ e, a = .error e ∧ b = .error e) := by
  cases fuel with
  | zero => exact CSim.diverge
  | succ fuel =>
    unfold P.reachIDs reachIDsV
    refine CSim.getR (checkVertexID_conc id g ?_)
    intro h1 g1
    cases hk : checkVertexID γ id with
    | some e => exact CSim.ret g1 (fun _ _ => .inr ⟨e, rfl, rfl⟩)
    | none =>
      obtain ⟨hc, hw⟩ := hc.resolve_left (fun h => h hk)
      refine CSim.look g1 hc ?_
      intro x h2 g2 _ hx hr hxc
      rw [hx]
      cases x with
      | some y =>
        refine CSim.ret g2 (fun h3 r3 => .inl ⟨hc, .inr ⟨y, h2.deref y, rfl, rfl, ?_⟩⟩)
        exact ⟨by rw [HSt.vals_eq (r3.fld c hc)]; exact hxc y rfl, r3.deref c hc y (hxc y rfl)⟩
      | none => exact absurd hx hw

/-- `getAncestors` and `getDescendants` on values. -/
def reachV (ω : Oracle) (e c : Fld) (id : K) : M K T (Except Err (GoMap K T)) := do
  let g ← M.getG
  match ← reachIDsV ω e c (fuelFor g) id with
  | .error e => return .error e
  | .ok ids =>
    let g ← M.getG
    let r ← loadFromCache ω g ids
    return .ok r

theorem reach_conc (e c : Fld) (he : e.isCache = false) (id : K)
    (hc : Entitled w γ c id) (g : Good w ∅ ∅ h γ) :
    CSim w ω (P.reach e c (fuelFor γ) id) n ∅ ∅ h (reachV ω e c id) γ NewMapE := by
  unfold P.reach reachV
  have ids : CSim w ω (P.reachIDs e c (fuelFor γ) id) n ∅ ∅ h (reachIDsV ω e c (fuelFor γ) id) γ
      (fun a b S M h => w.sees c ∧ IdsC c a b S M h ∨ ∃ e, a = .error e ∧ b = .error e) := by
    rcases hc with h1 | h1
    · exact (reachIDs_conc e c he h1 _ id n h γ g).mono (fun _ _ _ _ _ q => .inl ⟨h1.sees, q⟩)
    · exact reachIDs_warm e c _ id h1 g
  refine CSim.getR (CSim.seq g ids ?_)
  rintro a b n1 S1 G1 h1 γ1 g1 (⟨hs, ⟨e, rfl, rfl⟩ | ⟨x, s, rfl, rfl, h2, h3⟩⟩ | ⟨e, rfl, rfl⟩)
  · exact CSim.ret g1 (fun _ _ => .inl ⟨e, rfl, rfl⟩)
  · refine CSim.getR (CSim.seq g1 (payloads_conc g1 ⟨fun _ e => (by cases e; exact .inr ⟨c, hs, h2⟩), h3⟩) ?_)
    intro r v n2 S2 G2 h4 γ2 g2 o
    exact CSim.ret g2 (fun _ y => .inr ⟨r, v, rfl, rfl, o.rely y⟩)
  · exact CSim.ret g1 (fun _ _ => .inl ⟨e, rfl, rfl⟩)

/-! ## Walks -/

/-- `walkAncestorsInit` and `walkDescendantsInit` on values. -/
def walkInitV (ω : Oracle) (f : Fld) (id : K) : M K T (Walk K) := do
  let g ← M.getG
  let ps ← M.range ω (setAt (g.fld f) id)
  return ps.foldl (fun w p => ⟨w.fifo ++ [p.1], GSet.add w.visited p.1⟩) ⟨[], []⟩

/-- `walkAncestorsStep` and `walkDescendantsStep` on values. -/
def walkStepV (ω : Oracle) (f : Fld) (w : Walk K) : M K T (Option (K × Walk K)) :=
  match w.fifo with
  | [] => return none
  | top :: fifo => do
    let g ← M.getG
    let ps ← M.range ω (setAt (g.fld f) top)
    return some (top, ps.foldl (fun w p =>
      if !(GSet.includes w.visited p.1) then ⟨w.fifo ++ [p.1], GSet.add w.visited p.1⟩ else w)
      ⟨fifo, w.visited⟩)

/-- `getOrderedAncestors` and `getOrderedDescendants` on values. -/
def orderedV (ω : Oracle) (f : Fld) (id : K) : M K T (Except Err (List K)) := do
  let g ← M.getG
  match checkVertexID g id with
  | some e => return .error e
  | none =>
    let w ← walkInitV ω f id
    let l ← drain (walkStepV ω f) (fuelFor g) w
    return .ok l

theorem walkInit_conc (f : Fld) (hf : f.isCache = false) (id : K) {v : Nat} (g : Good w S G h γ) (o : OwnS v [] S h) :
    CSim w ω (P.walkInit f v id) n S G h (walkInitV ω f id) γ (fun a b S _ h => a = b.fifo ∧ OwnS v b.visited S h) := by
  unfold P.walkInit walkInitV
  refine CSim.getR (CSim.look g (Mode.sees_of hf) ?_)
  intro x h2 g2 r2 _ hx _
  refine CSim.rangeS g2 hx ?_
  intro l h3 g3 r3
  refine CSim.loopFold (fun a (b : Walk K) S _ h => a = b.fifo ∧ OwnS v b.visited S h)
    (fun _ _ _ _ _ _ o y => ⟨o.1, o.2.rely y⟩) g3 ⟨rfl, (o.rely r2).rely r3⟩ ?_
  rintro p _ a b n S G h g ⟨rfl, o⟩
  refine CSim.seq (vm := (Pure.pure () : M K T Unit)) (vf := fun _ => Pure.pure _)
    (R := fun _ _ S _ h => OwnS v (GSet.add b.visited p.1) S h) g (CSim.add g o.1 o.2 (fun _ _ e4 => ⟨o.1, e4⟩)) ?_
  intro _ _ n4 S4 G4 h4 γ4 g4 o4
  exact CSim.ret g4 (fun _ y => ⟨rfl, o4.rely y⟩)

theorem walkStep_conc (f : Fld) (hf : f.isCache = false) {v : Nat} {fifo : List K} {vis : GSet K}
    (g : Good w S G h γ) (o : OwnS v vis S h) :
    CSim w ω (P.walkStep f v fifo) n S G h (walkStepV ω f ⟨fifo, vis⟩) γ
      (fun a b S _ h => (a = none ∧ b = none) ∨
        ∃ top w, a = some (top, w.fifo) ∧ b = some (top, w) ∧ OwnS v w.visited S h) := by
  cases fifo with
  | nil => exact CSim.ret g (fun _ _ => .inl ⟨rfl, rfl⟩)
  | cons top fifo =>
    unfold P.walkStep walkStepV
    refine CSim.getR (CSim.look g (Mode.sees_of hf) ?_)
    intro x h2 g2 r2 _ hx _
    refine CSim.rangeS g2 hx ?_
    intro l h3 g3 r3
    refine CSim.seq (vm := (Pure.pure _ : M K T (Walk K))) (vf := fun w => Pure.pure (some (top, w))) g3
      (CSim.loopFold (b := (⟨fifo, vis⟩ : Walk K))
        (fun a (b : Walk K) S _ h => a = b.fifo ∧ OwnS v b.visited S h)
        (fun _ _ _ _ _ _ o y => ⟨o.1, o.2.rely y⟩) g3 ⟨rfl, (o.rely r2).rely r3⟩ ?_) ?_
    · rintro p _ a b n S G h g ⟨rfl, o⟩
      refine CSim.elem g o.reads ?_
      intro h4 g4 r4
      have o4 := o.rely r4
      cases hb : GSet.includes b.visited p.1 with
      | true => exact CSim.ret g4 (fun _ y => ⟨rfl, o4.rely y⟩)
      | false =>
        refine CSim.seq (vm := (Pure.pure () : M K T Unit)) (vf := fun _ => Pure.pure _)
          (R := fun _ _ S _ h => OwnS v (GSet.add b.visited p.1) S h) g4
          (CSim.add g4 o4.1 o4.2 (fun _ _ e4 => ⟨o4.1, e4⟩)) ?_
        intro _ _ n5 S5 G5 h5 γ5 g5 o5
        exact CSim.ret g5 (fun _ y => ⟨rfl, o5.rely y⟩)
    · rintro a b n4 S4 G4 h4 γ4 g4 ⟨rfl, o4⟩
      exact CSim.ret g4 (fun _ y => .inr ⟨top, b, rfl, rfl, o4.rely y⟩)

theorem drain_conc (f : Fld) (hf : f.isCache = false) {v : Nat} (fuel : Nat) {fifo : List K} {vis : GSet K}
    (g : Good w S G h γ) (o : OwnS v vis S h) :
    CSim w ω (P.drain (P.walkStep f v) fuel fifo) n S G h (drain (walkStepV ω f) fuel ⟨fifo, vis⟩) γ Equal := by
  induction fuel generalizing fifo vis n S G h γ with
  | zero => exact CSim.diverge
  | succ fuel ih =>
    unfold P.drain drain
    refine CSim.seq g (walkStep_conc f hf g o) ?_
    rintro a b n1 S1 G1 h1 γ1 g1 (⟨rfl, rfl⟩ | ⟨top, w, rfl, rfl, o1⟩)
    · exact CSim.ret g1 (fun _ _ => rfl)
    · refine CSim.seq g1 (ih g1 o1) ?_
      rintro l _ n2 S2 G2 h2 γ2 g2 rfl
      exact CSim.ret g2 (fun _ _ => rfl)

theorem ordered_conc (f : Fld) (hf : f.isCache = false) (id : K) (g : Good w S G h γ) :
    CSim w ω (P.ordered f (fuelFor γ) id) n S G h (orderedV ω f id) γ Equal := by
  unfold P.ordered orderedV
  refine CSim.getR (checkVertexID_conc id g ?_)
  intro h1 g1
  cases checkVertexID γ id with
  | some e => exact CSim.ret g1 (fun _ _ => rfl)
  | none =>
    refine CSim.newSet g1 ?_
    intro v h2 g2 hv
    refine CSim.seq g2 (walkInit_conc f hf id g2 ⟨.inr rfl, hv⟩) ?_
    rintro a ⟨fifo, vis⟩ n3 S3 G3 h3 γ3 g3 ⟨rfl, o3⟩
    refine CSim.seq g3 (drain_conc f hf _ g3 o3) ?_
    rintro l _ n4 S4 G4 h4 γ4 g4 rfl
    exact CSim.ret g4 (fun _ _ => rfl)

/-! ## The listing -/

theorem stringListing_conc (nat : ω.Natural) (g : Good w S G h γ) :
    CSim w ω P.stringListing n S G h (stringListing ω) γ Equal := by
  unfold P.stringListing stringListing
  refine CSim.seq g (getOrder_conc g) ?_
  rintro order _ n1 S1 G1 h1 γ1 g1 rfl
  refine CSim.seq g1 (getSize_conc nat g1) ?_
  rintro size _ n2 S2 G2 h2 γ2 g2 rfl
  refine CSim.getR (CSim.rangeVerts g2 ?_)
  intro vs h3 g3 _
  refine CSim.getR (CSim.rangeOuter nat g3 (Mode.sees_of rfl) ?_)
  intro l d h4 g4 hr
  have key : ∀ (l : List (K × Nat)) (acc : List (K × K)) (n : Nat) (S G : Set Nat) (h : HSt K T) (γ : Graph K T),
      Good w S G h γ → (∀ x ∈ l, Reads w S h (some x.2) (d x.2)) →
      CSim w ω (Prog.loop l acc fun acc e => Prog.prim (.range (some e.2)) >>= fun cs =>
          Pure.pure (acc ++ cs.map (fun c => (e.1, c.1)))) n S G h
        (M.loop (l.map fun p => (p.1, d p.2)) acc fun acc e => M.range ω e.2 >>= fun cs =>
          Pure.pure (acc ++ cs.map (fun c => (e.1, c.1)))) γ Equal := by
    intro l
    induction l with
    | nil => intro acc n S G h γ g _; exact CSim.ret g (fun _ _ => rfl)
    | cons x l ih =>
      intro acc n S G h γ g hr
      refine CSim.rangeS (k := fun cs => Prog.loop l (acc ++ cs.map (fun c => (x.1, c.1))) _)
        (vf := fun cs => M.loop _ (acc ++ cs.map (fun c => (x.1, c.1))) _) g (hr x List.mem_cons_self) ?_
      intro cs h2 g2 r2
      exact ih _ _ _ _ _ _ g2 (fun y hy => (hr y (List.mem_cons_of_mem _ hy)).rely r2)
  refine CSim.seq g4 (key l [] _ _ _ _ _ g4 hr) ?_
  rintro es _ n5 S5 G5 h5 γ5 g5 rfl
  exact CSim.ret g5 (fun _ _ => rfl)

end Verif.Dag
