import Verif.Xrpc.Export

/-! What belongs to a repo: the specification of the export. -/

namespace Arroba.Xrpc

open Arroba.Store

variable {C R : Type} [DecidableEq C]

/-- The block `c` is part of the repo whose head commit is `head`: it is that commit, the root of its
tree, a child of a node in the tree, or a record in a node of the tree. -/
inductive Inside (w : World C R) (head : C) : C → Prop
  | head : Inside w head head
  | root {b : Block C R} {co : Commit C} (h : w.read head = some b) (hv : b.val = .commit co) :
      Inside w head co.data
  | left {c c' : C} {b : Block C R} {d : NodeData C} (hi : Inside w head c) (h : w.read c = some b)
      (hv : b.val = .node d) (hc : d.l = some c') : Inside w head c'
  | tree {c c' : C} {b : Block C R} {d : NodeData C} {e : EntryData C} (hi : Inside w head c)
      (h : w.read c = some b) (hv : b.val = .node d) (he : e ∈ d.e) (hc : e.t = some c') :
      Inside w head c'
  | record {c : C} {b : Block C R} {d : NodeData C} {e : EntryData C} (hi : Inside w head c)
      (h : w.read c = some b) (hv : b.val = .node d) (he : e ∈ d.e) : Inside w head e.v

/-- `c` is the CID of a record in a node of the repo whose sequence number is at least `start`. -/
def Recent (w : World C R) (head : C) (start : Int) (c : C) : Prop :=
  ∃ c' b d e, Inside w head c' ∧ w.read c' = some b ∧ b.val = .node d ∧ start ≤ b.seq ∧ e ∈ d.e ∧
    c = e.v

end Arroba.Xrpc
