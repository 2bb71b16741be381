import Verif.Etx.RunLemmas
import Verif.Etx.Yield

/-!
# What the parser captures from written tokens

Rules like those of `RunLemmas.lean` that keep track of the captures only.
-/

namespace Verif.Etx
open Gram

/-- Without addresses, positions and parents. -/
def Node.bare {k : Kind} (x : Node k) : Node k := x.map (fun _ => noPos) (fun _ => 0)

variable [FloatValue]

/-- The production matches the beginning of `s` with the captures `caps`; `r` is left over. -/
def Takes (g : Gram) (s : List Token) (caps : List Capture) (r : List Token) : Prop := ∃ txt, Ok {} g s ⟨txt, caps⟩ r

namespace Takes

theorem lit {w : Str} {t : Token} {r : List Token} (h : t.txt = w) : Takes (.lit w) (t :: r) [] r := ⟨_, Ok.lit h⟩

theorem tok {y : Sym} {t : Token} {r : List Token} (h : t.sym = y) : Takes (.tok y) (t :: r) [] r := ⟨_, Ok.tok h⟩

theorem seq {a b : Gram} {s s' r : List Token} {c c' : List Capture} (h : Takes a s c s') (h' : Takes b s' c' r) :
    Takes (.seq a b) s (c ++ c') r := by
  obtain ⟨t, h⟩ := h
  obtain ⟨t', h'⟩ := h'
  exact ⟨_, Ok.seq h h'⟩

theorem altL {a b : Gram} {s r : List Token} {c : List Capture} (h : Takes a s c r) : Takes (.alt a b) s c r := by
  obtain ⟨t, h⟩ := h
  exact ⟨_, Ok.altL h⟩

theorem altR {a b : Gram} {s r : List Token} {c : List Capture} (h : Soft {} a s) (h' : Takes b s c r) :
    Takes (.alt a b) s c r := by
  obtain ⟨t, h'⟩ := h'
  exact ⟨_, Ok.altR h h'⟩

theorem once {a : Gram} {s r : List Token} {c : List Capture} (h : Takes a s c r) : Takes (.opt a) s c r := by
  obtain ⟨t, h⟩ := h
  exact ⟨_, Ok.once h⟩

theorem skip {a : Gram} {s : List Token} (h : Soft {} a s) : Takes (.opt a) s [] s := ⟨_, Ok.skip h⟩

theorem cap {f : Field} {a : Gram} {s r : List Token} {o : Out} (h : Ok {} a s o r) :
    Takes (.cap f a) s [.toks f o.txt] r := ⟨_, Ok.cap h⟩

theorem capTok {f : Field} {y : Sym} {t : Token} {r : List Token} (h : t.sym = y) :
    Takes (.cap f (.tok y)) (t :: r) [.toks f [t.txt]] r := cap (Ok.tok h)

theorem capLit {f : Field} {w : Str} {t : Token} {r : List Token} (h : t.txt = w) :
    Takes (.cap f (.lit w)) (t :: r) [.toks f [w]] r := cap (Ok.lit h)

theorem sub {f : Field} {k : Kind} {x : Node k} {s r : List Token} (h : OkKind {} s x r) :
    Takes (.sub f k) s [.node f k x] r := ⟨_, Ok.sub h⟩

theorem nil {a : Gram} {s : List Token} (h : Soft {} a s) : Takes (.star a) s [] s := ⟨_, Ok.nil h⟩

theorem cons {a : Gram} {s s' r : List Token} {c c' : List Capture} (h : Takes a s c s') (hl : s'.length < s.length)
    (h' : Takes (.star a) s' c' r) : Takes (.star a) s (c ++ c') r := by
  obtain ⟨t, h⟩ := h
  obtain ⟨t', h'⟩ := h'
  exact ⟨_, Ok.cons h hl h'⟩

theorem plus {a : Gram} {s s' r : List Token} {c c' : List Capture} (h : Takes a s c s')
    (h' : Takes (.star a) s' c' r) : Takes (.plus a) s (c ++ c') r := by
  obtain ⟨t, h⟩ := h
  obtain ⟨t', h'⟩ := h'
  exact ⟨_, Ok.plus h h'⟩

theorem inv {a b : Gram} {s r : List Token} {c : List Capture} (h : Takes (.seq a b) s c r) :
    ∃ c1 c2 s', Takes a s c1 s' ∧ Takes b s' c2 r ∧ c = c1 ++ c2 := by
  obtain ⟨t, h⟩ := h
  unfold Ok run at h
  cases ha : run (parseKind {}) a s with
  | miss => rw [ha] at h; cases h
  | err r' => rw [ha] at h; cases h
  | ok o s' =>
    rw [ha] at h
    simp only at h
    cases hb : run (parseKind {}) b s' with
    | miss => rw [hb] at h; cases h
    | err r' => rw [hb] at h; cases h
    | ok o' r' =>
      rw [hb] at h
      simp only [Res.ok.injEq] at h
      obtain ⟨h, rfl⟩ := h
      exact ⟨o.caps, o'.caps, s', ⟨_, ha⟩, ⟨_, hb⟩, (congrArg Out.caps h).symm⟩

theorem assoc {a b g : Gram} {s r : List Token} {c : List Capture} (h : Takes (.seq (.seq a b) g) s c r) :
    Takes (.seq a (.seq b g)) s c r := by
  obtain ⟨c1, c2, s', h1, h2, rfl⟩ := h.inv
  obtain ⟨c3, c4, s'', h3, h4, rfl⟩ := h1.inv
  rw [List.append_assoc]
  exact h3.seq (h4.seq h2)

theorem eq {g : Gram} {s r : List Token} {c c' : List Capture} (h : Takes g s c r) (hc : c = c') : Takes g s c' r := hc ▸ h

end Takes

/-- A struct is read if its production matches and the fields can be set. -/
theorem OkKind.ofTakes {k : Kind} {s r : List Token} {c : List Capture} {x : Node k} (h : Takes (Gram.of k) s c r)
    (hp : posOf {} s = {}) (hb : ∀ txt, build noPos ⟨txt, c⟩ k = some x) : OkKind {} s x r := by
  obtain ⟨t, h⟩ := h
  refine .mk h ?_
  rw [hp]
  exact hb t

omit [FloatValue] in
theorem posOf_cons {t : Token} {r : List Token} (h : t.pos = {}) : posOf {} (t :: r) = {} := h

/-! ## Fields -/

namespace Capture

/-- The nodes captured into a field. -/
def nodes (c : List Capture) (f : Field) (k : Kind) : List (Node k) := Out.nodes ⟨[], c⟩ f k

/-- The tokens captured into a field. -/
def strs (c : List Capture) (f : Field) : List Str := Out.toks ⟨[], c⟩ f

end Capture

open Capture

omit [FloatValue]

@[simp] theorem Out.nodes_mk (t : List Str) (c : List Capture) (f : Field) (k : Kind) :
    Out.nodes ⟨t, c⟩ f k = Capture.nodes c f k := rfl

@[simp] theorem Out.toks_mk (t : List Str) (c : List Capture) (f : Field) : Out.toks ⟨t, c⟩ f = Capture.strs c f := rfl

@[simp] theorem nodes_nil (f : Field) (k : Kind) : Capture.nodes [] f k = [] := rfl
@[simp] theorem strs_nil (f : Field) : Capture.strs [] f = [] := rfl

@[simp] theorem nodes_append (c c' : List Capture) (f : Field) (k : Kind) :
    Capture.nodes (c ++ c') f k = Capture.nodes c f k ++ Capture.nodes c' f k := by
  simp only [Capture.nodes, Out.nodes, List.flatMap_append]

@[simp] theorem strs_append (c c' : List Capture) (f : Field) :
    Capture.strs (c ++ c') f = Capture.strs c f ++ Capture.strs c' f := by
  simp only [Capture.strs, Out.toks, List.flatMap_append]

@[simp] theorem nodes_toks (g f : Field) (l : List Str) (c : List Capture) (k : Kind) :
    Capture.nodes (.toks g l :: c) f k = Capture.nodes c f k := rfl

@[simp] theorem strs_node (g f : Field) (k : Kind) (x : Node k) (c : List Capture) :
    Capture.strs (.node g k x :: c) f = Capture.strs c f := rfl

@[simp] theorem nodes_same (f : Field) (k : Kind) (x : Node k) (c : List Capture) :
    Capture.nodes (.node f k x :: c) f k = x :: Capture.nodes c f k := by
  simp [Capture.nodes, Out.nodes]

@[simp] theorem nodes_other {g f : Field} (k' k : Kind) (x : Node k') (c : List Capture) (h : g ≠ f) :
    Capture.nodes (.node g k' x :: c) f k = Capture.nodes c f k := by
  simp only [Capture.nodes, Out.nodes, List.flatMap_cons, h, if_false]
  split <;> rfl

@[simp] theorem strs_same (f : Field) (l : List Str) (c : List Capture) :
    Capture.strs (.toks f l :: c) f = l ++ Capture.strs c f := by
  simp [Capture.strs, Out.toks]

@[simp] theorem strs_other {g f : Field} (l : List Str) (c : List Capture) (h : g ≠ f) :
    Capture.strs (.toks g l :: c) f = Capture.strs c f := by
  simp [Capture.strs, Out.toks, h]

/-- The captures of the elements of a slice. -/
def capNodes (f : Field) {k : Kind} (l : List (Node k)) : List Capture := l.map (.node f k)

@[simp] theorem nodes_capNodes (f : Field) {k : Kind} (l : List (Node k)) : Capture.nodes (capNodes f l) f k = l := by
  induction l with
  | nil => rfl
  | cons x l ih => rw [capNodes, List.map_cons, nodes_same]; exact congrArg _ ih

@[simp] theorem nodes_capNodes_other {g f : Field} {k k' : Kind} (l : List (Node k')) (h : g ≠ f) :
    Capture.nodes (capNodes g l) f k = [] := by
  induction l with
  | nil => rfl
  | cons x l ih => rw [capNodes, List.map_cons, nodes_other _ _ _ _ h]; exact ih

@[simp] theorem strs_capNodes {g f : Field} {k : Kind} (l : List (Node k)) : Capture.strs (capNodes g l) f = [] := by
  induction l with
  | nil => rfl
  | cons x l ih => exact ih

/-- The captures of a list of tokens, one by one. -/
def capStrs (f : Field) (l : List Str) : List Capture := l.map fun w => .toks f [w]

@[simp] theorem strs_capStrs (f : Field) (l : List Str) : Capture.strs (capStrs f l) f = l := by
  induction l with
  | nil => rfl
  | cons x l ih => rw [capStrs, List.map_cons, strs_same]; exact congrArg _ ih

@[simp] theorem strs_capStrs_other {g f : Field} (l : List Str) (h : g ≠ f) : Capture.strs (capStrs g l) f = [] := by
  induction l with
  | nil => rfl
  | cons x l ih => rw [capStrs, List.map_cons, strs_other _ _ h]; exact ih

@[simp] theorem nodes_capStrs {g f : Field} {k : Kind} (l : List Str) : Capture.nodes (capStrs g l) f k = [] := by
  induction l with
  | nil => rfl
  | cons x l ih => exact ih

/-- A pointer field with what was captured. -/
def ptrOf {k : Kind} : List (Node k) → Node (.ptr k)
  | [] => .nil
  | x :: _ => .ref x

/-- A slice field with what was captured. -/
def sliceOf {k : Kind} : List (Node k) → Node (.slice k)
  | [] => .nilSlice
  | l => .mkSlice 0 (Out.items l)

/-- A `[]string` field with what was captured. -/
def strsOf : List Str → Strs
  | [] => .nil
  | l => .mk 0 l

@[simp] theorem Out.ptr_mk (t : List Str) (c : List Capture) (f : Field) (k : Kind) :
    (⟨t, c⟩ : Out).ptr f (k := k) = ptrOf (Capture.nodes c f k) := rfl

@[simp] theorem Out.slice_mk (t : List Str) (c : List Capture) (f : Field) (k : Kind) :
    (⟨t, c⟩ : Out).slice f (k := k) = sliceOf (Capture.nodes c f k) := rfl

@[simp] theorem Out.struct_mk (t : List Str) (c : List Capture) (f : Field) (k : Kind) :
    (⟨t, c⟩ : Out).struct f (k := k) = (Capture.nodes c f k).head? := rfl

@[simp] theorem Out.str_mk (t : List Str) (c : List Capture) (f : Field) :
    (⟨t, c⟩ : Out).str f = (Capture.strs c f).flatten := rfl

@[simp] theorem Out.strs_mk (t : List Str) (c : List Capture) (f : Field) :
    (⟨t, c⟩ : Out).strs f = strsOf (Capture.strs c f) := rfl

@[simp] theorem Out.flag_mk (t : List Str) (c : List Capture) (f : Field) :
    (⟨t, c⟩ : Out).flag f = !(Capture.strs c f).isEmpty := rfl

end Verif.Etx
