import Verif.Etx.Reader
import Verif.Etx.Relocate
import Verif.Etx.ParseDoc
import Verif.Etx.IndentLemmas
import Verif.Etx.LexerLemmas

/-!
# Lemmas about the entry points
-/

namespace Verif.Etx

theorem decode_utf8 (s : Str) : decode (utf8 s) = some s := by
  have h : (utf8 s).toByteArray = s.utf8Encode := rfl
  rw [decode, h, List.utf8Decode?_utf8Encode]
  rfl

/-- The file name of a position; positions that are not set have line 0 and no name. -/
def Position.named (name : Str) (p : Position) : Position := if p.line = 0 then p else { p with filename := name }

theorem lexFrom_named (name : Str) (n : Nat) (st : Stack) (pos : Position) (s : Str) (hp : pos.line ≠ 0) :
    lexFrom n st (pos.named name) s = (lexFrom n st pos s).map (List.map (Token.at (Position.named name))) := by
  induction n generalizing st pos s with
  | zero => cases s <;> rfl
  | succ n ih =>
    cases s with
    | nil => rfl
    | cons c s =>
      simp only [lexFrom]
      cases h : lexStep st (c :: s) with
      | none => rfl
      | some x =>
        obtain ⟨r, m, st'⟩ := x
        have ha : (pos.named name).advance m.txt = (pos.advance m.txt).named name := by
          have h' : (pos.advance m.txt).line ≠ 0 := by simp only [Position.advance]; omega
          rw [Position.named, if_neg hp, Position.named, if_neg h']
          rfl
        simp only [Option.bind_eq_bind, Option.bind_some, ha]
        rw [ih _ _ _ (by simp only [Position.advance]; omega)]
        cases lexFrom n st' (pos.advance m.txt) m.rest with
        | none => rfl
        | some ts =>
          simp only [Option.map_some, Option.bind_some, Option.pure_def]
          split <;> rfl

theorem parseTreeNamed_nil [FloatValue] (s : Str) : parseTreeNamed [] s = parseTree s := rfl

theorem parseTreeNamed_eq [FloatValue] (name s : Str) :
    parseTreeNamed name s = (parseTree s).map (Node.at (Position.named name)) := by
  unfold parseTreeNamed parseTree lex
  have hs : ({ Position.start with filename := name } : Position) = Position.start.named name := rfl
  have ha : (Position.start.named name).advance s = (Position.start.advance s).named name := by
    have h' : (Position.start.advance s).line ≠ 0 := by simp only [Position.advance, Position.start]; omega
    rw [Position.named, if_neg (by decide), Position.named, if_neg h']
    rfl
  simp only [Option.bind_eq_bind]
  rw [hs, lexFrom_named _ _ _ _ _ (by decide), ha]
  cases lexFrom s.length [(.root, [])] .start s with
  | none => rfl
  | some ts => exact parseTokens_at rfl _ _

/-! ## Setting the parents does not look at positions -/

theorem Meta.at_place (f : Position → Position) (m : Meta) (n : Nat) :
    (m.at f).place n = ((m.place n).1.at f, (m.place n).2) := rfl

theorem Strs.clone_map_id (s : Strs) (n : Nat) : (s.map id).clone n = ((s.clone n).1.map id, (s.clone n).2) := by
  cases s <;> rfl

theorem cloneFloat_map_id (v : Option (Nat × BigFloat)) (n : Nat) :
    cloneFloat (mapFloat id v) n = (mapFloat id (cloneFloat v n).1, (cloneFloat v n).2) := by
  rcases v with _ | ⟨a, v⟩ <;> rfl

theorem Node.place_at (f : Position → Position) {k : Kind} (x : Node k) (n : Nat) :
    (x.at f).place n = ((x.place n).1.at f, (x.place n).2) := by
  unfold Node.at
  induction x generalizing n <;>
    simp only [Node.map, Node.place, Alloc.bind_run, Alloc.pure_run, Alloc.new_run, Meta.at_place, Strs.clone_map_id,
      cloneFloat_map_id, id, *]

/-- The same node with other positions. -/
def AnyNode.at (f : Position → Position) (x : AnyNode) : AnyNode := ⟨x.1, x.2.at f⟩

namespace Node

theorem opt_at (f : Position → Position) {k : Kind} (x : Node (.ptr k)) :
    (x.at f).opt = x.opt.map (Option.map (AnyNode.at f)) := by
  cases x <;> rfl

theorem elem_at (f : Position → Position) {k : Kind} (x : Node (.ptr k)) :
    (x.at f).elem = x.elem.map (AnyNode.at f) := by
  cases x <;> rfl

theorem elems_at (f : Position → Position) {k : Kind} (x : Node k) :
    (x.at f).elems = x.elems.map (Option.map (AnyNode.at f)) := by
  have he := @elem_at f
  unfold Node.at at *
  induction x <;> simp only [Node.map, elems, List.map_cons, List.map_nil, *]

theorem val_at (f : Position → Position) {k : Kind} (x : Node k) :
    (x.at f).val = x.val.map (Option.map (AnyNode.at f)) := rfl

theorem isRef_at (f : Position → Position) {k : Kind} (x : Node k) : (x.at f).isRef = x.isRef := isRef_map _ _ _

theorem children_at (f : Position → Position) {k : Kind} (x : Node k) :
    (x.at f).children = x.children.map (Option.map (AnyNode.at f)) := by
  have h1 := @opt_at f
  have h2 := @elems_at f
  have h3 := @val_at f
  have h4 := @isRef_at f
  unfold Node.at at *
  cases x <;> simp only [Node.map, children, h1, h2, h3, h4, List.map_append, List.map_nil, apply_ite (List.map _)]

theorem size_at (f : Position → Position) {k : Kind} (x : Node k) : (x.at f).size = x.size := by
  unfold Node.at
  induction x <;> simp only [Node.map, size, *]

end Node

theorem AnyNode.addr_at (f : Position → Position) (x : AnyNode) : (x.at f).addr = x.addr := by
  obtain ⟨k, x⟩ := x
  cases x <;> rfl

theorem mapM_option_map {α β γ : Type} (g : α → β) (h : β → Option γ) (l : List α) :
    (l.map g).mapM h = l.mapM (fun a => h (g a)) := by
  induction l with
  | nil => rfl
  | cons a l ih => simp only [List.map_cons, List.mapM_cons, ih]

theorem mapM_congr_map {α β : Type} (g g' : α → Option β) (h : β → β) (l : List α) (e : ∀ a ∈ l, g' a = (g a).map h) :
    l.mapM g' = (l.mapM g).map (List.map h) := by
  induction l with
  | nil => rfl
  | cons a l ih =>
    simp only [List.mapM_cons, e a (by simp), ih (fun b hb => e b (by simp [hb]))]
    cases g a with
    | none => rfl
    | some b => cases l.mapM g <;> rfl

theorem walk_at (f : Position → Position) (n : Nat) (p : Option Nat) (x : Option AnyNode) :
    walk n p (x.map (AnyNode.at f)) = (walk n p x).map (List.map (fun e => (e.1, e.2.at f))) := by
  induction n generalizing p x with
  | zero => cases x <;> rfl
  | succ n ih =>
    cases x with
    | none => rfl
    | some x =>
      simp only [Option.map_some, walk, AnyNode.addr_at]
      have hc : (x.at f).2.children = x.2.children.map (Option.map (AnyNode.at f)) := Node.children_at f x.2
      rw [hc, mapM_option_map, mapM_congr_map _ _ _ _ (fun a _ => ih _ a)]
      cases x.2.children.mapM (walk n (some x.addr)) with
      | none => rfl
      | some l =>
        simp only [Option.map_some, Option.bind_eq_bind, Option.bind_some, Option.pure_def]
        rw [← List.map_flatten]
        rfl

/-- The same document with other positions. -/
def AST.at (f : Position → Position) (t : AST) : AST := { t with items := t.items.at f }

theorem AST.visits_at (f : Position → Position) (t : AST) :
    (t.at f).visits = t.visits.map (List.map (fun e => (e.1, e.2.at f))) := by
  unfold visits children AST.at
  simp only [Node.elems_at, Node.size_at]
  rw [mapM_option_map, mapM_congr_map _ _ _ _ (fun a _ => walk_at f _ _ a)]
  cases t.items.elems.mapM (walk t.items.size none) with
  | none => rfl
  | some l =>
    simp only [Option.map_some, Option.bind_eq_bind, Option.bind_some, Option.pure_def]
    rw [← List.map_flatten]

theorem Node.map_map (f g : Meta → Meta) (fa ga : Nat → Nat) {k : Kind} (x : Node k) :
    (x.map f fa).map g ga = x.map (g ∘ f) (ga ∘ fa) := by
  have hs : ∀ s : Strs, (s.map fa).map ga = s.map (ga ∘ fa) := fun s => by cases s <;> rfl
  have hv : ∀ v : Option (Nat × BigFloat), mapFloat ga (mapFloat fa v) = mapFloat (ga ∘ fa) v := fun v => by
    rcases v with _ | ⟨a, v⟩ <;> rfl
  induction x <;> simp only [Node.map, hs, hv, Function.comp, *]

theorem AST.updateParentRefs_at (f : Position → Position) (t : AST) :
    (t.at f).updateParentRefs = t.updateParentRefs.map (AST.at f) := by
  unfold updateParentRefs
  rw [visits_at]
  cases t.visits with
  | none => rfl
  | some vs =>
    simp only [Option.map_some, Option.bind_eq_bind, Option.bind_some, Option.pure_def, List.map_map]
    congr 1
    have : ((fun v : Option Nat × AnyNode => (v.2.addr, v.1)) ∘ fun e => (e.1, e.2.at f)) =
        fun v : Option Nat × AnyNode => (v.2.addr, v.1) := by
      funext v
      simp only [Function.comp, AnyNode.addr_at]
    rw [this]
    simp only [AST.at, AST.mk.injEq, true_and, Node.at, Node.reparent, Node.map_map]
    rfl

/-- An outcome with other positions. -/
def Outcome.map {α β : Type} (f : α → β) : Outcome α → Outcome β
  | .ok a => .ok (f a)
  | .error => .error
  | .panic => .panic

theorem finish_at (f : Position → Position) (x : Option (Node (.slice .rootItem))) :
    finish (x.map (Node.at f)) = (finish x).map (AST.at f) := by
  cases x with
  | none => rfl
  | some items =>
    simp only [Option.map_some, finish, Node.place_at]
    have := AST.updateParentRefs_at f ⟨0, (items.place 1).1⟩
    simp only [AST.at] at this
    rw [this]
    cases AST.updateParentRefs ⟨0, (items.place 1).1⟩ <;> rfl

end Verif.Etx
