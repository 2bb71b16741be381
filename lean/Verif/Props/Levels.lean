import Verif.Props.Counts
import Verif.Props.DagWalker

/-! # C94: ordered traversals go level by level and never jump -/

set_option linter.unusedSectionVars false

namespace Verif.Dag
open M Relation

variable {K T : Type} [DecidableEq K] [GoZero K] [GoZero T]

/-! ## Specification -/

/-- `y` can be reached from `x` by at least one and at most `n` steps. -/
def Near (E : K → K → Prop) (n : Nat) (x y : K) : Prop := ∃ m, 1 ≤ m ∧ m ≤ n ∧ PathLen E m x y

/-! ## Proof -/

/-- A list in which what satisfies `p` comes first. -/
theorem split_of_pairwise {p : K → Prop} {l : List K} (h : l.Pairwise fun x y => p y → p x) :
    ∃ near far, l = near ++ far ∧ (∀ x ∈ near, p x) ∧ ∀ x ∈ far, ¬ p x := by
  induction l with
  | nil => exact ⟨[], [], rfl, fun _ h => (nomatch h), fun _ h => (nomatch h)⟩
  | cons a l ih =>
    obtain ⟨h1, h2⟩ := List.pairwise_cons.1 h
    by_cases ha : p a
    · obtain ⟨near, far, rfl, h3, h4⟩ := ih h2
      exact ⟨a :: near, far, rfl, List.forall_mem_cons.2 ⟨ha, h3⟩, h4⟩
    · exact ⟨[], a :: l, rfl, fun _ h => (nomatch h), List.forall_mem_cons.2 ⟨ha, fun x hx hp => ha (h1 x hx hp)⟩⟩

theorem distIs_of_reach {E : K → K → Prop} {x y : K} (h : TransGen E x y) : DistIs E x y (lev E x y) :=
  ⟨lev_spec (pathLen_of_transGen h), fun _ hm hp => absurd (lev_le hp) (Nat.not_le.2 hm)⟩

theorem transGen_of_pathLen {E : K → K → Prop} {n : Nat} {x y : K} (h : PathLen E (n + 1) x y) : TransGen E x y := by
  induction n generalizing y with
  | zero => obtain ⟨c, rfl, h⟩ := h; exact .single h
  | succ n ih => obtain ⟨c, h1, h2⟩ := h; exact (ih h1).tail h2

theorem BfsDone.levels {E : K → K → Prop} {id : K} {l : List K} (h : BfsDone E id l) (hac : ¬ TransGen E id id) (n : Nat) :
    ∃ near far, l = near ++ far ∧ (∀ x, x ∈ near ↔ Near E n id x) ∧ ∀ x, x ∈ far ↔ TransGen E id x ∧ ¬ Near E n id x := by
  have hl : ∀ x ∈ l, 1 ≤ lev E id x := fun x hx => by
    have hx := (h.mem x).1 hx
    refine Nat.one_le_iff_ne_zero.2 fun e => hac ?_
    have := (distIs_of_reach hx).1
    rw [e] at this
    obtain rfl : id = x := this
    exact hx
  have hp : l.Pairwise fun x y => Near E n id y → Near E n id x := by
    refine h.sorted.imp_of_mem fun {x y} hx hy hxy ⟨m, h1, h2, h3⟩ => ?_
    have hx' := distIs_of_reach ((h.mem x).1 hx)
    exact ⟨_, hl x hx, le_trans (le_trans (hxy _ _ hx' (distIs_of_reach ((h.mem y).1 hy))) (lev_le h3)) h2, hx'.1⟩
  obtain ⟨near, far, rfl, h1, h2⟩ := split_of_pairwise hp
  refine ⟨near, far, rfl, fun x => ⟨h1 x, fun hx => ?_⟩, fun x => ⟨fun hx => ⟨(h.mem x).1 (List.mem_append_right _ hx), h2 x hx⟩, fun ⟨hx, hn⟩ => ?_⟩⟩
  · obtain ⟨m, h3, h4, h5⟩ := hx
    obtain ⟨m, rfl⟩ := Nat.exists_eq_succ_of_ne_zero (Nat.one_le_iff_ne_zero.1 h3)
    rcases List.mem_append.1 ((h.mem x).2 (transGen_of_pathLen h5)) with h6 | h6
    · exact h6
    · exact absurd ⟨_, h3, h4, h5⟩ (h2 x h6)
  · rcases List.mem_append.1 ((h.mem x).2 hx) with h6 | h6
    · exact absurd (h1 x h6) hn
    · exact h6

theorem BfsDone.connected {E : K → K → Prop} {id : K} {l : List K} (h : BfsDone E id l) (hac : ¬ TransGen E id id) {pre post : List K} {x : K} (hs : l = pre ++ x :: post) :
    E id x ∨ ∃ c ∈ pre, E c x := by
  have hx : x ∈ l := by rw [hs]; simp
  have hd := distIs_of_reach ((h.mem x).1 hx)
  obtain ⟨hp, hmin⟩ := hd
  cases hn : lev E id x with
  | zero =>
    rw [hn] at hp
    obtain rfl : id = x := hp
    exact absurd ((h.mem id).1 hx) hac
  | succ n =>
    rw [hn] at hp
    obtain ⟨c, h1, h2⟩ := hp
    cases n with
    | zero => obtain rfl : id = c := h1; exact .inl h2
    | succ n =>
      refine .inr ⟨c, ?_, h2⟩
      have hcl := (h.mem c).2 (transGen_of_pathLen h1)
      have hsort := h.sorted
      rw [hs] at hcl hsort
      rcases List.mem_append.1 hcl with hm | hm
      · exact hm
      · exfalso
        have hle : lev E id c ≤ n + 1 := lev_le h1
        rcases List.mem_cons.1 hm with rfl | hm
        · omega
        · have := (List.pairwise_cons.1 (List.pairwise_append.1 hsort).2.1).1 c hm _ _ (distIs_of_reach ((h.mem x).1 hx))
            (distIs_of_reach (transGen_of_pathLen h1))
          omega

/-- What the ordered calls return. -/
theorem ordered_desc {ω : Oracle} {σ σ' : St K T} (hi : Inv σ.g) {k : K} {l : List K} (hc : Call ω σ (.getOrderedDescendants k) (.idsE (.ok l)) σ') :
    BfsDone (abs σ.g).E k l := by
  obtain ⟨-, -, hok⟩ := hc.spec hi
  unfold Spec.ok at hok
  simp only [Spec.OrErr] at hok
  split at hok
  · cases hok
  · obtain ⟨_, e, hok⟩ := hok; cases e; exact hok

theorem ordered_anc {ω : Oracle} {σ σ' : St K T} (hi : Inv σ.g) {k : K} {l : List K} (hc : Call ω σ (.getOrderedAncestors k) (.idsE (.ok l)) σ') :
    BfsDone (Function.swap (abs σ.g).E) k l := by
  obtain ⟨-, -, hok⟩ := hc.spec hi
  unfold Spec.ok at hok
  simp only [Spec.OrErr] at hok
  split at hok
  · cases hok
  · obtain ⟨_, e, hok⟩ := hok; cases e; exact hok

theorem acyc_swap {σ : St K T} (hi : Inv σ.g) (k : K) : ¬ TransGen (Function.swap (abs σ.g).E) k k :=
  fun h => hi.base.acyc k (transGen_swap.1 h)

/-! ## C94 -/

/-- **C94.** The list of `GetOrderedDescendants` begins with what can be reached by at most `n` edges, for every `n`; in particular (`n = 1`) with
the children.  What follows is reached by longer paths only. -/
theorem C94_descendants (ω ω' : Oracle) (ops : List (Op K T)) (σ σ' : St K T) (h : After ω ops σ) (k : K) (l : List K)
    (hc : Call ω' σ (.getOrderedDescendants k) (.idsE (.ok l)) σ') (n : Nat) :
    ∃ near far, l = near ++ far ∧ (∀ x, x ∈ near ↔ Near (Edge σ) n k x) ∧ ∀ x, x ∈ far ↔ TransGen (Edge σ) k x ∧ ¬ Near (Edge σ) n k x := by
  have hi := h.inv
  rw [edge_eq hi]
  exact (ordered_desc hi hc).levels (hi.base.acyc k) n

/-- **C94.** The same for `GetOrderedAncestors`, along the edges backwards. -/
theorem C94_ancestors (ω ω' : Oracle) (ops : List (Op K T)) (σ σ' : St K T) (h : After ω ops σ) (k : K) (l : List K)
    (hc : Call ω' σ (.getOrderedAncestors k) (.idsE (.ok l)) σ') (n : Nat) :
    ∃ near far, l = near ++ far ∧ (∀ x, x ∈ near ↔ Near (Function.swap (Edge σ)) n k x) ∧
      ∀ x, x ∈ far ↔ TransGen (Edge σ) x k ∧ ¬ Near (Function.swap (Edge σ)) n k x := by
  have hi := h.inv
  rw [edge_eq hi]
  obtain ⟨near, far, h1, h2, h3⟩ := (ordered_anc hi hc).levels (acyc_swap hi k) n
  exact ⟨near, far, h1, h2, fun x => (h3 x).trans (and_congr_left fun _ => transGen_swap)⟩

/-- The children are what one edge reaches. -/
theorem near_one (E : K → K → Prop) (x y : K) : Near E 1 x y ↔ E x y := by
  constructor
  · rintro ⟨m, h1, h2, h3⟩
    obtain rfl : m = 1 := le_antisymm h2 h1
    obtain ⟨c, rfl, h⟩ := h3
    exact h
  · exact fun h => ⟨1, le_refl _, le_refl _, x, rfl, h⟩

/-- **C94.** The first entries are the children, as many as `GetChildren` returns. -/
theorem C94_children (ω ω₁ ω₂ : Oracle) (ops : List (Op K T)) (σ σ₁ σ₂ : St K T) (h : After ω ops σ) (k : K) (l : List K) (m : List (K × T))
    (hc : Call ω₁ σ (.getOrderedDescendants k) (.idsE (.ok l)) σ₁) (hm : Call ω₂ σ (.getChildren k) (.entriesE (.ok m)) σ₂) :
    (l.take m.length).Perm (m.map Prod.fst) := by
  have hi := h.inv
  have hb := ordered_desc hi hc
  obtain ⟨near, far, rfl, h1, -⟩ := hb.levels (hi.base.acyc k) 1
  obtain ⟨-, -, hok⟩ := hm.spec hi
  unfold Spec.ok at hok
  simp only [Spec.OrErr] at hok
  split at hok
  · cases hok
  · obtain ⟨_, e, h2, h3⟩ := hok
    cases e
    have hp : near.Perm (m.map Prod.fst) := by
      refine (List.perm_ext_iff_of_nodup (List.nodup_append.1 hb.nodup).1 h2).2 fun x => ?_
      rw [h1, near_one]
      constructor
      · intro hx
        obtain ⟨v, hv⟩ := Option.ne_none_iff_exists'.1 (edge_ends hi hx).2
        exact List.mem_map.2 ⟨(x, v), (h3 x v).2 ⟨hv, hx⟩, rfl⟩
      · intro hx
        obtain ⟨⟨y, v⟩, h4, rfl⟩ := List.mem_map.1 hx
        exact ((h3 y v).1 h4).2
    have hlen : m.length = near.length := by rw [hp.length_eq, List.length_map]
    rw [hlen, List.take_left]
    exact hp

/-- **C94.** The same for `GetOrderedAncestors` and `GetParents`. -/
theorem C94_parents (ω ω₁ ω₂ : Oracle) (ops : List (Op K T)) (σ σ₁ σ₂ : St K T) (h : After ω ops σ) (k : K) (l : List K) (m : List (K × T))
    (hc : Call ω₁ σ (.getOrderedAncestors k) (.idsE (.ok l)) σ₁) (hm : Call ω₂ σ (.getParents k) (.entriesE (.ok m)) σ₂) :
    (l.take m.length).Perm (m.map Prod.fst) := by
  have hi := h.inv
  have hb := ordered_anc hi hc
  obtain ⟨near, far, rfl, h1, -⟩ := hb.levels (acyc_swap hi k) 1
  obtain ⟨-, -, hok⟩ := hm.spec hi
  unfold Spec.ok at hok
  simp only [Spec.OrErr] at hok
  split at hok
  · cases hok
  · obtain ⟨_, e, h2, h3⟩ := hok
    cases e
    have hp : near.Perm (m.map Prod.fst) := by
      refine (List.perm_ext_iff_of_nodup (List.nodup_append.1 hb.nodup).1 h2).2 fun x => ?_
      rw [h1, near_one]
      constructor
      · intro hx
        obtain ⟨v, hv⟩ := Option.ne_none_iff_exists'.1 (edge_ends hi hx).1
        exact List.mem_map.2 ⟨(x, v), (h3 x v).2 ⟨hv, hx⟩, rfl⟩
      · intro hx
        obtain ⟨⟨y, v⟩, h4, rfl⟩ := List.mem_map.1 hx
        exact ((h3 y v).1 h4).2
    have hlen : m.length = near.length := by rw [hp.length_eq, List.length_map]
    rw [hlen, List.take_left]
    exact hp

/-- **C94.** The traversals never jump: when an entry comes, it is a child (parent) of the vertex asked for or of an entry before it. -/
theorem C94_connected (ω ω' : Oracle) (ops : List (Op K T)) (σ σ' : St K T) (h : After ω ops σ) (k : K) (l pre post : List K) (x : K)
    (hl : l = pre ++ x :: post) :
    (Call ω' σ (.getOrderedDescendants k) (.idsE (.ok l)) σ' → Edge σ k x ∨ ∃ c ∈ pre, Edge σ c x) ∧
    (Call ω' σ (.getOrderedAncestors k) (.idsE (.ok l)) σ' → Edge σ x k ∨ ∃ c ∈ pre, Edge σ x c) := by
  have hi := h.inv
  rw [edge_eq hi]
  exact ⟨fun hc => (ordered_desc hi hc).connected (hi.base.acyc k) hl, fun hc => (ordered_anc hi hc).connected (acyc_swap hi k) hl⟩

/-- **C94.** What the consumer of a walker has received, at whatever time and however it stops the walker, is whole but for its last level: before
anything that is not reached by `n` edges all that is reached by `n` edges was received.  And it never jumps. -/
theorem C94_walker (ω ω' : Oracle) (ops : List (Op K T)) (σ : St K T) (h : After ω ops σ) (w : Walker) (id : K) (ls : List (Lbl K)) (s : WSt K T)
    (hw : Walks w ω' σ id ls s) :
    (∀ n pre y post, received ls = pre ++ y :: post → ¬ Near (w.edge σ) n id y → ∀ x, Near (w.edge σ) n id x → x ∈ pre) ∧
    ∀ pre y post, received ls = pre ++ y :: post → w.edge σ id y ∨ ∃ c ∈ pre, w.edge σ c y := by
  obtain ⟨full, h1, h2, h3, ⟨rest, h4⟩, -, -⟩ := C16_walker_prefix ω ω' ops σ h w id ls s hw
  have hb : BfsDone (w.edge σ) id full := ⟨h1, h2, h3⟩
  have hac : ¬ TransGen (w.edge σ) id id := by
    cases w with
    | descendants =>
      intro hc
      have hc : TransGen (Edge σ) id id := hc
      rw [edge_eq h.inv] at hc
      exact h.inv.base.acyc id hc
    | ancestors =>
      intro hc
      refine acyc_swap h.inv id ?_
      rw [← edge_eq h.inv]
      exact hc
  refine ⟨fun n pre y post e hy x hx => ?_, fun pre y post e => ?_⟩
  · obtain ⟨near, far, h5, h6, h7⟩ := hb.levels hac n
    have hxn := (h6 x).2 hx
    have hyn : y ∉ near := fun hm => hy ((h6 y).1 hm)
    rw [h5, e, List.append_assoc] at h4
    rcases List.append_eq_append_iff.1 h4 with ⟨a, rfl, h9⟩ | ⟨a, rfl, -⟩
    · cases a with
      | nil => simpa using hxn
      | cons b a =>
        obtain ⟨rfl, -⟩ := List.cons.inj h9
        exact absurd (List.mem_append_right _ (.head _)) hyn
    · exact List.mem_append_left _ hxn
  · exact hb.connected hac (post := post ++ rest) (by rw [← h4, e, List.append_assoc]; rfl)

/-- The diamond with a vertex behind it: children first, in whatever order, then the vertex two edges away, then the one three edges away. -/
example : (run Oracle.forward (demoOps ++ [.addVertex 5 50, .addEdge 4 5, .deleteEdge 1 4, .getOrderedDescendants 1, .getChildren 1, .getOrderedAncestors 5]) St.init).map
      (fun x => x.1.drop (demoOps.length + 3)) =
    some [.idsE (.ok [3, 2, 4, 5]), .entriesE (.ok [(2, 20), (3, 30)]), .idsE (.ok [4, 3, 2, 1])] := by
  decide +kernel

/-- Vertices 1, 2, 3 in a row. -/
def chain : St Nat Nat := ((run Oracle.forward (triangle ++ [.deleteEdge 1 3]) St.init).getD ([], St.init)).2

theorem chain_after : After Oracle.forward (triangle ++ [.deleteEdge 1 3]) chain := by
  obtain ⟨rs, σ', h, _⟩ := run_refines (K := Nat) (T := Nat) Oracle.forward (triangle ++ [.deleteEdge 1 3])
  refine ⟨rs, ?_⟩
  unfold chain; rw [h]; rfl

/-- A walk along the chain, that has received both levels; another one that has received the first level only and was stopped. -/
example : (∀ ls, ls = [.tau, .tau, .tau, .recv 2, .tau, .tau, .recv 3] ∨ ls = [.tau, .tau, .tau, .recv 2, .stop] →
      ∃ s, Walks .descendants Oracle.forward chain 1 ls s) ∧
    received ([.tau, .tau, .tau, .recv 2, .tau, .tau, .recv 3] : List (Lbl Nat)) = [2, 3] := by
  refine ⟨fun ls hls => ?_, rfl⟩
  have hp : (play .descendants Oracle.forward 1 ls ⟨.start, chain, false⟩).isSome = true := by
    rcases hls with rfl | rfl <;> decide +kernel
  obtain ⟨s, hs⟩ := Option.isSome_iff_exists.mp hp
  refine ⟨s, ⟨.start, chain, false⟩, chain, ?_, play_exec _ _ _ _ _ _ hs⟩
  have : checkVertexID chain.g 1 = none := by decide +kernel
  show descendantsWalker 1 chain = _
  unfold descendantsWalker
  rw [this]

end Verif.Dag
