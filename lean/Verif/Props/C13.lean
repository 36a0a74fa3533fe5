import Verif.Props.C08
import Verif.Mst.VisitProofs

/-! # C13: the walker enumerates the tree -/

namespace Arroba

variable {C : Type}

open Arroba.Tree

/-- The records among the visits. -/
def visitLeaf : Visit C → Option (Key × C)
  | .leaf k v => some (k, v)
  | .node _ => none

/-- The node CIDs among the visits. -/
def visitNode : Visit C → Option C
  | .leaf _ _ => none
  | .node c => some c

section
variable [DecidableEq C] {E : Env C} {rd : C → Option (NodeData C)} {Z fuel : Nat} {n : Node C}
  {ops : List (Op C)} {outs : List (Option Err)}

theorem preEs_leaves (H : NodeData C → C) (t : Tree C) :
    (preEs H t).filterMap visitLeaf = leaves t := by
  induction t <;> simp_all [preEs, leaves, visitLeaf, List.filterMap_cons]

theorem preEs_nodes (H : NodeData C → C) (t : Tree C) :
    (preEs H t).filterMap visitNode = (kids t).map (cidOf H) := by
  induction t <;> simp_all [preEs, kids, visitNode, List.filterMap_cons]

/-- **C13 (advance).** From a fresh walker over any reachable tree, repeated `advance` terminates;
the records visited are exactly the records of the tree in ascending order, no node CID is visited
twice, and in every healthy store that holds the root block the visits are exactly the
depth-first, left-to-right sequence of the stored tree. -/
theorem C13_walk (hinj : Function.Injective E.H) (hZ : ∀ k, E.zeros k ≤ Z) (hf : Z + 2 ≤ fuel)
    (h : Run E fuel rd n ops outs) :
    ∃ root vs, getPointer E rd fuel n = .ok root ∧ Visits E rd fuel (newWalker n) vs ∧
      ExactListing (specRun ops).1 (fun _ => True) (vs.filterMap visitLeaf) ∧
      (vs.filterMap visitNode).Nodup ∧
      ∀ rd', StoreOK E rd' → (rd' root).isSome → PreNode rd' root vs := by
  obtain ⟨_, _, L, t, hi, _⟩ := h.inv hinj hZ hf
  have hb := hi.bound
  have hw : WR E rd (fun _ => True) (newWalker n) [.node L t] :=
    .inr (.inl ⟨n, L, t, rfl, rfl, n, rfl, hi.repr, trivial, hi.wf, hi.valid⟩)
  have hv := hw.visits .true (fuel := fuel) _ (le_refl _) (by
    intro L' t' hm
    simp only [List.mem_singleton, Item.node.injEq] at hm
    omega)
  have hp : itemPre E.H [Item.node L t] = pre E.H t := by simp [itemPre, Item.pre]
  rw [hp] at hv
  refine ⟨_, _, getPointer_spec hi.repr hi.wf hi.valid (by omega), hv, ?_, ?_, ?_⟩
  · simp only [pre, List.filterMap_cons, visitLeaf, preEs_leaves]
    refine ⟨hi.sorted, fun k v => ?_⟩
    rw [mem_leaves_iff hi.sorted, hi.map]; simp
  · simp only [pre, List.filterMap_cons, visitNode, preEs_nodes]
    exact cids_nodup hinj hi.wf hi.sorted
  · intro rd' hst hsome
    exact pre_stored hi.wf (hst.stored hinj hi.wf hsome)

/-- **C13 (step_over).** At any moment of any walk (any mixture of `advance`, `step_over` and
`step_into`) that is not done, the visits still to come are those of the current entry - the
single record, or the depth-first sequence of the whole current subtree - followed by the rest;
`step_over` skips exactly the former and `advance` exactly the first of them. -/
theorem C13_step_over (hinj : Function.Injective E.H) (hZ : ∀ k, E.zeros k ≤ Z) (hf : Z + 2 ≤ fuel)
    (h : Run E fuel rd n ops outs) {w : Walker C} (hw : WalkerOf E rd n w)
    (hd : w.status.done = false) :
    ∃ e v vs rest w₁ w₂, w.status.cur = some e ∧ visitOf E rd fuel e = .ok v ∧
      Visits E rd fuel w (v :: vs ++ rest) ∧
      w.stepOver E rd = .ok w₁ ∧ Visits E rd fuel w₁ rest ∧
      w.advance E rd = .ok w₂ ∧ Visits E rd fuel w₂ (vs ++ rest) ∧
      (∀ k x, v = .leaf k x → vs = []) ∧
      (∀ c, v = .node c → ∀ rd' root, getPointer E rd fuel n = .ok root → StoreOK E rd' →
        (rd' root).isSome → PreNode rd' c (v :: vs)) := by
  obtain ⟨_, _, L, t, hi, _⟩ := h.inv hinj hZ hf
  have hb := hi.bound
  obtain ⟨xs, hwr, hx⟩ := hw.items .true (L₀ := L) (t₀ := t)
    ⟨n, rfl, hi.repr, trivial, hi.wf, hi.valid⟩
  cases xs with
  | nil => rw [hwr.done] at hd; cases hd
  | cons x xs =>
    have hl : ∀ L' t', Item.node L' t' ∈ x :: xs → L' + 1 ≤ fuel := fun L' t' hm => by
      have := (hx L' t' hm).1; omega
    have hv := hwr.visits .true (fuel := fuel) _ (le_refl _) hl
    obtain ⟨w₁, h1, h2⟩ := stepOver_spec hwr
    have hv1 := h2.visits .true (fuel := fuel) _ (le_refl _) (fun L' t' hm => hl L' t' (by simp [hm]))
    obtain ⟨_, e, hc, hre⟩ := hwr.cur
    cases x with
    | leaf k x =>
      cases hre
      obtain ⟨w₂, h3, h4⟩ := advance_leaf hwr
      have hv2 := h4.visits .true (fuel := fuel) _ (le_refl _)
        (fun L' t' hm => hl L' t' (by simp [hm]))
      exact ⟨_, .leaf k x, [], itemPre E.H xs, w₁, w₂, hc, rfl, hv, h1, hv1, h3, hv2,
        fun _ _ _ => rfl, fun c hc => by cases hc⟩
    | node M s =>
      obtain ⟨m, rfl, hm, _, hms, hvs⟩ := hre
      have hM := hl M s (by simp)
      obtain ⟨w₂, h3, h4⟩ := advance_node .true hwr
      have hv2 := h4.visits .true (fuel := fuel) _ (le_refl _) (fun L' t' hm => by
        rcases List.mem_append.1 hm with hm | hm
        · have := (items_node hm).1; omega
        · exact hl L' t' (by simp [hm]))
      rw [itemPre_append, itemPre_items] at hv2
      refine ⟨_, .node (cidOf E.H s), preEs E.H s, itemPre E.H xs, w₁, w₂, hc,
        by simp [visitOf, getPointer_spec hm hms hvs hM], hv, h1, hv1, h3, hv2,
        fun _ _ hk => (by cases hk), ?_⟩
      intro c hc rd' root hroot hst hsome
      cases hc
      rw [getPointer_spec hi.repr hi.wf hi.valid (by omega)] at hroot
      cases hroot
      have hstored := hst.stored hinj hi.wf hsome
      exact pre_stored hms (fun u hu => hstored u (nodes_trans (hx M s (by simp)).2 hu))

end

/-- Non-vacuity: stepping into the root of the example tree and over its first entry (a subtree)
leaves the walker at the record `a/d`-side of the tree, not done. -/
example : (∃ w, WalkerOf exE noBlocks (exAfter exOps) w ∧ w.status.done = false ∧
      w.stack.length = 1) ∧
    Run exE 130 noBlocks (exAfter exOps) exOps exOuts := by
  refine ⟨?_, exRun⟩
  have h : ∃ w₁, (newWalker (exAfter exOps)).advance exE noBlocks = .ok w₁ ∧
      ∃ w₂, w₁.advance exE noBlocks = .ok w₂ ∧ ∃ w₃, w₂.advance exE noBlocks = .ok w₃ ∧
        w₃.status.done = false ∧ w₃.stack.length = 1 := by
    refine ⟨_, rfl, _, rfl, _, rfl, ?_, ?_⟩ <;> decide +kernel
  obtain ⟨w₁, h1, w₂, h2, w₃, h3, h4, h5⟩ := h
  exact ⟨w₃, .advance (.advance (.advance .new h1) h2) h3, h4, h5⟩

end Arroba
