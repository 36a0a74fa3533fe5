import Verif.Mst.Diff
import Verif.Mst.RunClean
import Verif.Mst.Canon

/-! Helper lemmas: the explicit-stack `Walker` refines a plain to-do list of tree items. -/

namespace Arroba

variable {C : Type}

open Arroba.Tree

/-- What a walker still has to visit: records and whole subtrees (with their layer). -/
inductive Item (C : Type) where
  | leaf (k : Key) (v : C)
  | node (L : Nat) (t : Tree C)

/-- The entries of a node on layer `L`. -/
def items (L : Nat) : Tree C → List (Item C)
  | nil => []
  | leaf k v r => .leaf k v :: items L r
  | sub c r => .node (L - 1) c :: items L r

def Item.leaves : Item C → List (Key × C)
  | .leaf k v => [(k, v)]
  | .node _ t => Tree.leaves t

def Item.nodes : Item C → List (Tree C)
  | .leaf _ _ => []
  | .node _ t => Tree.nodes t

/-- Number of visits an item takes. -/
def Item.size : Item C → Nat
  | .leaf _ _ => 1
  | .node _ t => (Tree.nodes t).length + (Tree.leaves t).length

def itemLeaves (xs : List (Item C)) : List (Key × C) := xs.flatMap Item.leaves
def itemNodes (xs : List (Item C)) : List (Tree C) := xs.flatMap Item.nodes
def itemSize (xs : List (Item C)) : Nat := (xs.map Item.size).sum

@[simp] theorem itemLeaves_items (L : Nat) (t : Tree C) : itemLeaves (items L t) = leaves t := by
  induction t <;> simp_all [items, itemLeaves, Item.leaves, leaves]

@[simp] theorem itemNodes_items (L : Nat) (t : Tree C) : itemNodes (items L t) = kids t := by
  induction t <;> simp_all [items, itemNodes, Item.nodes, nodes, kids]

@[simp] theorem itemSize_items (L : Nat) (t : Tree C) :
    itemSize (items L t) = (kids t).length + (leaves t).length := by
  induction t with
  | nil => rfl
  | leaf k v r ih => simp_all [items, itemSize, Item.size, leaves, kids]; omega
  | sub c r _ ih => simp_all [items, itemSize, Item.size, leaves, kids, nodes]; omega

@[simp] theorem itemLeaves_append (a b : List (Item C)) :
    itemLeaves (a ++ b) = itemLeaves a ++ itemLeaves b := by simp [itemLeaves]
@[simp] theorem itemNodes_append (a b : List (Item C)) :
    itemNodes (a ++ b) = itemNodes a ++ itemNodes b := by simp [itemNodes]
@[simp] theorem itemSize_append (a b : List (Item C)) :
    itemSize (a ++ b) = itemSize a + itemSize b := by simp [itemSize]
@[simp] theorem itemLeaves_leaf (k : Key) (v : C) (xs : List (Item C)) :
    itemLeaves (.leaf k v :: xs) = (k, v) :: itemLeaves xs := rfl
@[simp] theorem itemLeaves_node (L : Nat) (t : Tree C) (xs : List (Item C)) :
    itemLeaves (.node L t :: xs) = leaves t ++ itemLeaves xs := rfl
@[simp] theorem itemNodes_leaf (k : Key) (v : C) (xs : List (Item C)) :
    itemNodes (.leaf k v :: xs) = itemNodes xs := rfl
@[simp] theorem itemNodes_node (L : Nat) (t : Tree C) (xs : List (Item C)) :
    itemNodes (.node L t :: xs) = t :: (kids t ++ itemNodes xs) := rfl
@[simp] theorem itemSize_leaf (k : Key) (v : C) (xs : List (Item C)) :
    itemSize (.leaf k v :: xs) = itemSize xs + 1 := by simp [itemSize, Item.size]; omega
@[simp] theorem itemSize_node (L : Nat) (t : Tree C) (xs : List (Item C)) :
    itemSize (.node L t :: xs) = (kids t).length + 1 + (leaves t).length + itemSize xs := by
  simp [itemSize, Item.size, nodes]
@[simp] theorem itemLeaves_nil : itemLeaves ([] : List (Item C)) = [] := rfl
@[simp] theorem itemNodes_nil : itemNodes ([] : List (Item C)) = [] := rfl
@[simp] theorem itemSize_nil : itemSize ([] : List (Item C)) = 0 := rfl

section
variable (E : Env C) (rd : C → Option (NodeData C)) (F : Node C → Prop)

/-- The entry `e` stands for the item and, if it is a node, satisfies `F`. -/
def ReprItem : Item C → Ent C → Prop
  | .leaf k v, e => e = .leaf k v
  | .node L t, e => ∃ n, e = .tree n ∧ ReprN E rd L t n ∧ F n ∧ WF E.zeros L t ∧ ValidKeys t

/-- Items below the root are never empty nodes. -/
def NonNil : Item C → Prop
  | .leaf _ _ => True
  | .node _ t => t ≠ nil

/-- A status pointing at item `x` of a node, followed there by `ys`. -/
def FrameR (st : WalkStatus C) (x : Item C) (ys : List (Item C)) : Prop :=
  st.done = false ∧ NonNil x ∧ (∀ y ∈ ys, NonNil y) ∧
  ∃ n pre e post, st.walking = some n ∧ getEntries E rd n = .ok (pre ++ e :: post) ∧
    st.index = pre.length ∧ st.cur = some e ∧ ReprItem E rd F x e ∧
    List.Forall₂ (ReprItem E rd F) ys post

/-- A stack of suspended statuses that will resume with the items `xs`. -/
def StackR : List (WalkStatus C) → List (Item C) → Prop
  | [], xs => xs = []
  | st :: rest, xs => ∃ x ys zs, FrameR E rd F st x ys ∧ StackR rest zs ∧ xs = ys ++ zs

/-- The walker still has to visit the items `xs`, the first of which is the current one. -/
def WR (w : Walker C) (xs : List (Item C)) : Prop :=
  (w.status.done = true ∧ xs = []) ∨
  (∃ n L t, w = newWalker n ∧ xs = [.node L t] ∧ ReprItem E rd F (.node L t) (.tree n)) ∨
  (∃ x ys zs, FrameR E rd F w.status x ys ∧ StackR E rd F w.stack zs ∧ xs = x :: (ys ++ zs))

end

section
variable {E : Env C} {rd : C → Option (NodeData C)} {F : Node C → Prop}

/-- `F` passes from a node to its children. -/
def Hereditary (E : Env C) (rd : C → Option (NodeData C)) (F : Node C → Prop) : Prop :=
  ∀ n es, F n → getEntries E rd n = .ok es → ∀ m, .tree m ∈ es → F m

theorem Hereditary.fresh : Hereditary E rd Fresh := fun _ _ h he => h.getEntries he

theorem Hereditary.true : Hereditary E rd (fun _ => True) := fun _ _ _ _ _ _ => trivial

theorem items_repr {t : Tree C} : ∀ {L : Nat} {es : List (Ent C)}, ReprEs E rd L t es →
    WF E.zeros L t → ValidKeys t → (∀ m, .tree m ∈ es → F m) →
    List.Forall₂ (ReprItem E rd F) (items L t) es ∧ ∀ y ∈ items L t, NonNil y := by
  induction t with
  | nil =>
    intro L es h _ _ _
    obtain rfl := ReprEs_nil.1 h
    exact ⟨.nil, by simp [items]⟩
  | leaf k v r ih =>
    intro L es h hw hv hf
    obtain ⟨es', rfl, h'⟩ := ReprEs_leaf.1 h
    obtain ⟨h1, h2⟩ := ih h' hw.2 (fun kv hkv => hv kv (by simp [leaves, hkv]))
      (fun m hm => hf m (by simp [hm]))
    refine ⟨.cons rfl h1, ?_⟩
    intro y hy
    simp only [items, List.mem_cons] at hy
    rcases hy with rfl | hy
    · trivial
    · exact h2 y hy
  | sub c r _ ih =>
    intro L es h hw hv hf
    obtain ⟨M, rfl, hc, hwc, _, hwr⟩ := WF_sub.1 hw
    obtain ⟨m, es', rfl, hm, h'⟩ := ReprEs_sub.1 h
    obtain ⟨h1, h2⟩ := ih h' hwr (fun kv hkv => hv kv (by simp [leaves, hkv]))
      (fun m hm => hf m (by simp [hm]))
    refine ⟨.cons ⟨m, rfl, hm, hf m (by simp), hwc, fun kv hkv => hv kv (by simp [leaves, hkv])⟩
      h1, ?_⟩
    intro y hy
    simp only [items, List.mem_cons] at hy
    rcases hy with rfl | hy
    · exact hc
    · exact h2 y hy

theorem node_entries (hF : Hereditary E rd F) {L : Nat} {t : Tree C} {n : Node C} (h : ReprItem E rd F (.node L t) (.tree n)) :
    ∃ es, getEntries E rd n = .ok es ∧ List.Forall₂ (ReprItem E rd F) (items L t) es ∧
      ∀ y ∈ items L t, NonNil y := by
  obtain ⟨n', hn', hr, hf, hw, hv⟩ := h
  cases hn'
  obtain ⟨es, he, hes⟩ := getEntries_spec hr hw
  obtain ⟨h1, h2⟩ := items_repr hes hw hv (hF _ _ hf he)
  exact ⟨es, he, h1, h2⟩

theorem stepOver_frame : ∀ {stack : List (WalkStatus C)} {st : WalkStatus C} {x : Item C}
    {ys zs : List (Item C)}, FrameR E rd F st x ys → StackR E rd F stack zs →
    ∃ w', stepOver E rd stack st = .ok w' ∧ WR E rd F w' (ys ++ zs) := by
  intro stack
  induction stack with
  | nil =>
    rintro st x ys zs ⟨hd, hx, hys, n, pre, e, post, hwk, he, hi, hc, hr, hf⟩ hs
    cases hs
    unfold stepOver
    simp only [hd, hwk, Bool.false_eq_true, if_false, he, ok_bind, hi]
    cases hf with
    | nil =>
      simp only [List.length_append, List.length_cons, List.length_nil, le_refl, if_true]
      exact ⟨_, rfl, .inl ⟨rfl, rfl⟩⟩
    | @cons y e' ys post hy hys' =>
      have : ¬ (pre ++ e :: e' :: post).length ≤ pre.length + 1 := by simp
      simp only [this, if_false]
      refine ⟨_, rfl, .inr (.inr ⟨y, ys, [], ⟨rfl, hys y (by simp),
        fun z hz => hys z (by simp [hz]), n, pre ++ [e], e', post, rfl, by simpa using he,
        by simp, ?_, hy, hys'⟩, rfl, by simp⟩)⟩
      simp
  | cons s stack ih =>
    rintro st x ys zs ⟨hd, hx, hys, n, pre, e, post, hwk, he, hi, hc, hr, hf⟩ hs
    unfold stepOver
    simp only [hd, hwk, Bool.false_eq_true, if_false, he, ok_bind, hi]
    cases hf with
    | nil =>
      simp only [List.length_append, List.length_cons, List.length_nil, le_refl, if_true]
      obtain ⟨x', ys', zs', hfr, hst, rfl⟩ := hs
      simpa using ih hfr hst
    | @cons y e' ys post hy hys' =>
      have : ¬ (pre ++ e :: e' :: post).length ≤ pre.length + 1 := by simp
      simp only [this, if_false]
      refine ⟨_, rfl, .inr (.inr ⟨y, ys, zs, ⟨rfl, hys y (by simp),
        fun z hz => hys z (by simp [hz]), n, pre ++ [e], e', post, rfl, by simpa using he,
        by simp, ?_, hy, hys'⟩, hs, by simp⟩)⟩
      simp

/-- `step_over` drops the current item. -/
theorem stepOver_spec {w : Walker C} {x : Item C} {xs : List (Item C)} (h : WR E rd F w (x :: xs)) :
    ∃ w', w.stepOver E rd = .ok w' ∧ WR E rd F w' xs := by
  rcases h with ⟨_, h⟩ | ⟨n, L, t, rfl, h, _⟩ | ⟨x', ys, zs, hf, hs, h⟩
  · cases h
  · cases h
    exact ⟨⟨[], doneStatus⟩, rfl, .inl ⟨rfl, rfl⟩⟩
  · cases h
    exact stepOver_frame hf hs

/-- `step_into` replaces the current subtree by its entries. -/
theorem stepInto_spec (hF : Hereditary E rd F) {w : Walker C} {L : Nat} {t : Tree C} {xs : List (Item C)}
    (h : WR E rd F w (.node L t :: xs)) :
    ∃ w', w.stepInto E rd = .ok w' ∧ WR E rd F w' (items L t ++ xs) := by
  rcases h with ⟨_, h⟩ | ⟨n, L', t', rfl, h, hr⟩ | ⟨x', ys, zs, hf, hs, h⟩
  · cases h
  · cases h
    obtain ⟨es, he, hes, hnn⟩ := node_entries hF hr
    unfold Walker.stepInto
    simp only [newWalker, Bool.false_eq_true, if_false, atIndex, he, ok_bind]
    generalize hit : items L t = its at hes hnn
    cases hes with
    | nil =>
      refine ⟨⟨[], doneStatus⟩, by simp [startWalk], .inl ⟨rfl, by simp⟩⟩
    | @cons y e ys post hy hys =>
      refine ⟨⟨[], ⟨false, some e, some n, 0⟩⟩, by simp [startWalk], .inr (.inr ⟨y, ys, [],
        ⟨rfl, hnn y (by simp), fun z hz => hnn z (by simp [hz]), n, [], e, post, rfl, he, rfl, rfl,
          hy, hys⟩, rfl, by simp⟩)⟩
  · cases h
    have hf' := hf
    obtain ⟨hd, hx, hys, n, pre, e, post, hwk, he, hi, hc, hr, hfa⟩ := hf
    obtain ⟨m, rfl, hm⟩ := hr
    obtain ⟨es, he', hes, hnn⟩ := node_entries hF (E := E) (rd := rd) ⟨m, rfl, hm⟩
    unfold Walker.stepInto
    simp only [hd, Bool.false_eq_true, if_false, hwk, hc, atIndex, he', ok_bind]
    generalize hit : items L t = its at hes hnn
    cases hes with
    | nil => exact absurd hit (by cases t <;> simp_all [items, NonNil])
    | @cons y e ys' post' hy hys' =>
      refine ⟨⟨w.status :: w.stack, ⟨false, some e, some m, 0⟩⟩, by simp [pushWalk],
        .inr (.inr ⟨y, ys', ys ++ zs,
        ⟨rfl, hnn y (by simp), fun z hz => hnn z (by simp [hz]), m, [], e, post', rfl, he', rfl, rfl,
          hy, hys'⟩, ⟨_, _, _, hf', hs, rfl⟩, by simp⟩)⟩

/-- The current entry of the walker. -/
theorem WR.cur {w : Walker C} {x : Item C} {xs : List (Item C)} (h : WR E rd F w (x :: xs)) :
    w.status.done = false ∧ ∃ e, w.status.cur = some e ∧ ReprItem E rd F x e := by
  rcases h with ⟨_, h⟩ | ⟨n, L, t, rfl, h, hr⟩ | ⟨x', ys, zs, hf, hs, h⟩
  · cases h
  · cases h; exact ⟨rfl, _, rfl, hr⟩
  · cases h
    obtain ⟨hd, hx, hys, n, pre, e, post, hwk, he, hi, hc, hr, hf⟩ := hf
    exact ⟨hd, e, hc, hr⟩

theorem WR.done {w : Walker C} (h : WR E rd F w []) : w.status.done = true := by
  rcases h with ⟨h, _⟩ | ⟨n, L, t, rfl, h, hr⟩ | ⟨x', ys, zs, hf, hs, h⟩
  · exact h
  · cases h
  · cases h

theorem WR.layer {w : Walker C} {x : Item C} {xs : List (Item C)} (h : WR E rd F w (x :: xs)) :
    ∃ l, w.layer = .ok l := by
  rcases h with ⟨_, h⟩ | ⟨n, L, t, rfl, h, hr⟩ | ⟨x', ys, zs, hf, hs, h⟩
  · cases h
  · exact ⟨_, rfl⟩
  · obtain ⟨hd, hx, hys, n, pre, e, post, hwk, he, hi, hc, hr, hf⟩ := hf
    exact ⟨n.layer.getD 0, by simp [Walker.layer, hd, hwk]⟩

/-- `advance` on a record. -/
theorem advance_leaf {w : Walker C} {k : Key} {v : C} {xs : List (Item C)}
    (h : WR E rd F w (.leaf k v :: xs)) : ∃ w', w.advance E rd = .ok w' ∧ WR E rd F w' xs := by
  obtain ⟨hd, e, hc, rfl⟩ := h.cur
  unfold Walker.advance
  simp only [hd, hc, Bool.false_eq_true, if_false]
  exact stepOver_spec h

/-- `advance` on a subtree. -/
theorem advance_node (hF : Hereditary E rd F) {w : Walker C} {L : Nat} {t : Tree C} {xs : List (Item C)}
    (h : WR E rd F w (.node L t :: xs)) :
    ∃ w', w.advance E rd = .ok w' ∧ WR E rd F w' (items L t ++ xs) := by
  obtain ⟨hd, e, hc, n, rfl, _⟩ := h.cur
  unfold Walker.advance
  simp only [hd, hc, Bool.false_eq_true, if_false]
  exact stepInto_spec hF h

end

end Arroba
