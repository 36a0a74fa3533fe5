import Verif.Mst.Diff
import Verif.Mst.Exec

/-!
# Specification of diffs, reachability of blocks and walks, independent of the code

Everything here is stated on plain maps (`Key → Option C`) and on stored blocks (`rd`).
-/

namespace Arroba

variable {C : Type}

/-- `d` is the difference between the maps `old` and `new`, record by record. -/
structure IsDiff (old new : Key → Option C) (d : Diff C) : Prop where
  adds : ∀ k c, dictGet d.adds k = some c ↔
    ∃ v, old k = none ∧ new k = some v ∧ c = ⟨k, v, none⟩
  updates : ∀ k c, dictGet d.updates k = some c ↔
    ∃ x y, old k = some x ∧ new k = some y ∧ x ≠ y ∧ c = ⟨k, y, some x⟩
  deletes : ∀ k c, dictGet d.deletes k = some c ↔
    ∃ x, old k = some x ∧ new k = none ∧ c = ⟨k, x, none⟩
  /-- Python dicts have each key once. -/
  addKeys : (d.adds.map (·.1)).Nodup
  updateKeys : (d.updates.map (·.1)).Nodup
  deleteKeys : (d.deletes.map (·.1)).Nodup

/-- The node CIDs of the tree with root CID `root` in a block store: the root and everything a
stored node links to as a child. -/
inductive NodeCid (rd : C → Option (NodeData C)) (root : C) : C → Prop
  | root : NodeCid rd root root
  | child {c c' : C} {d : NodeData C} (h : NodeCid rd root c) (hd : rd c = some d)
      (hc : c' ∈ d.children) : NodeCid rd root c'

/-- Something a walk over a tree visits. -/
inductive Visit (C : Type) where
  | node (cid : C)
  | leaf (k : Key) (v : C)
  deriving DecidableEq

mutual
/-- `vs` is the depth-first, left-to-right sequence of the nodes and records of the tree whose
root block is stored under `c`. -/
inductive PreNode (rd : C → Option (NodeData C)) : C → List (Visit C) → Prop
  | mk {c : C} {d : NodeData C} {vl ve : List (Visit C)} (hd : rd c = some d)
      (hl : PreOpt rd d.l vl) (he : PreEs rd [] d.e ve) : PreNode rd c (.node c :: (vl ++ ve))
/-- The same for an optional link. -/
inductive PreOpt (rd : C → Option (NodeData C)) : Option C → List (Visit C) → Prop
  | none : PreOpt rd none []
  | some {c : C} {vs : List (Visit C)} (h : PreNode rd c vs) : PreOpt rd (some c) vs
/-- The same for the entries of a node after the key `last` (keys are prefix compressed). -/
inductive PreEs (rd : C → Option (NodeData C)) : Key → List (EntryData C) → List (Visit C) → Prop
  | nil {last : Key} : PreEs rd last [] []
  | cons {last : Key} {e : EntryData C} {es : List (EntryData C)} {vt vs : List (Visit C)}
      (ht : PreOpt rd e.t vt) (h : PreEs rd (last.take e.p ++ e.k) es vs) :
      PreEs rd last (e :: es) (.leaf (last.take e.p ++ e.k) e.v :: (vt ++ vs))
end

section
variable (E : Env C) (rd : C → Option (NodeData C)) (fuel : Nat)

/-- What the walker's current entry is to an observer: a record, or a node with its CID. -/
def visitOf : Ent C → Except Err (Visit C)
  | .leaf k v => .ok (.leaf k v)
  | .tree n => do
    let p ← getPointer E rd fuel n
    .ok (.node p)

/-- Calling `advance` again and again visits `vs` and then reports done. -/
inductive Visits : Walker C → List (Visit C) → Prop
  | done {w : Walker C} (h : w.status.done = true) : Visits w []
  | step {w w' : Walker C} {e : Ent C} {v : Visit C} {vs : List (Visit C)}
      (hd : w.status.done = false) (hc : w.status.cur = some e) (hv : visitOf E rd fuel e = .ok v)
      (ha : w.advance E rd = .ok w') (h : Visits w' vs) : Visits w (v :: vs)

/-- Walkers that can be obtained from a fresh one. -/
inductive WalkerOf (n : Node C) : Walker C → Prop
  | new : WalkerOf n (newWalker n)
  | advance {w w' : Walker C} (h : WalkerOf n w) (ha : w.advance E rd = .ok w') : WalkerOf n w'
  | stepOver {w w' : Walker C} (h : WalkerOf n w) (ha : w.stepOver E rd = .ok w') : WalkerOf n w'
  | stepInto {w w' : Walker C} (h : WalkerOf n w) (ha : w.stepInto E rd = .ok w') : WalkerOf n w'

end

end Arroba
