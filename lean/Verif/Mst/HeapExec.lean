import Verif.Mst.Heap
import Verif.Mst.Exec
import Mathlib.Logic.Relation

/-!
# Executions with several versions of a tree

A program keeps as many tree objects ("versions") as it likes: it makes new ones from any of them, again and again, and
reads any of them, in any order. The versions share nodes, and the methods write the caches of the nodes in place
(`Mst/Heap.lean`).
-/

namespace Arroba

variable {C : Type}

/-- `mst.add(k, v)`, `mst.update(k, v)`, `mst.delete(k)` (mst.py 287, 379, 406) on objects. -/
def hApplyOp (E : Env C) (rd : C → Option (NodeData C)) (fuel i : Nat) : Op C → HM C Nat
  | .add k v => hAdd E rd fuel i k v none
  | .update k v => hUpdate E rd fuel i k v
  | .delete k => hDelete E rd fuel i k

/-- The block store, the objects, and the versions that the program keeps: for each of them, the object and the calls that
made it (the successful ones, from `MST.create()` on). -/
structure VState (C : Type) where
  rd : C → Option (NodeData C)
  heap : Heap C
  versions : List (Nat × List (Op C))

/-- One step of a program. -/
inductive VStep [DecidableEq C] (E : Env C) (fuel : Nat) : VState C → VState C → Prop
  /-- `MST.create()` (mst.py 120-135) -/
  | create {s i h'} (hc : hCreate E s.rd fuel [] none s.heap = (.ok i, h')) :
      VStep E fuel s ⟨s.rd, h', (i, []) :: s.versions⟩
  /-- a call that makes a new version from any version -/
  | ok {s i ops op j h'} (hm : (i, ops) ∈ s.versions) (ha : hApplyOp E s.rd fuel i op s.heap = (.ok j, h')) :
      VStep E fuel s ⟨s.rd, h', (j, ops ++ [op]) :: s.versions⟩
  /-- a call that raises; it may have made objects and written caches before -/
  | fail {s i ops op e h'} (hm : (i, ops) ∈ s.versions) (ha : hApplyOp E s.rd fuel i op s.heap = (.error e, h')) :
      VStep E fuel s ⟨s.rd, h', s.versions⟩
  /-- `get` -/
  | get {s i ops k r h'} (hm : (i, ops) ∈ s.versions) (hg : hGet E s.rd fuel i k s.heap = (r, h')) :
      VStep E fuel s ⟨s.rd, h', s.versions⟩
  /-- `get_pointer` -/
  | pointer {s i ops r h'} (hm : (i, ops) ∈ s.versions) (hg : hGetPointer E s.rd fuel i s.heap = (r, h')) :
      VStep E fuel s ⟨s.rd, h', s.versions⟩
  /-- `get_layer` -/
  | layer {s i ops r h'} (hm : (i, ops) ∈ s.versions) (hg : hGetLayer E s.rd fuel i s.heap = (r, h')) :
      VStep E fuel s ⟨s.rd, h', s.versions⟩
  /-- `get_entries` of any node object there is, for instance during a walk -/
  | entries {s i r h'} (hl : i < s.heap.length) (hg : hGetEntries E s.rd i s.heap = (r, h')) :
      VStep E fuel s ⟨s.rd, h', s.versions⟩
  /-- others write blocks -/
  | store {s rd'} (hs : StoreOK E rd') (hm : ∀ c d, s.rd c = some d → rd' c = some d) :
      VStep E fuel s ⟨rd', s.heap, s.versions⟩
  /-- the blocks of `get_unstored_blocks` are written -/
  | persist {s i ops c bl h'} (hm : (i, ops) ∈ s.versions)
      (hg : hGetUnstoredBlocks E s.rd fuel i s.heap = (.ok (c, bl), h')) :
      VStep E fuel s ⟨writeBlocks s.rd bl, h', s.versions⟩
  /-- `MST.load` of the root CID of a version, when it is stored -/
  | load {s i ops c h' j h''} (hm : (i, ops) ∈ s.versions) (hg : hGetPointer E s.rd fuel i s.heap = (.ok c, h'))
      (hs : (s.rd c).isSome) (hl : hLoad c h' = (.ok j, h'')) : VStep E fuel s ⟨s.rd, h'', (j, ops) :: s.versions⟩

/-- What a program can get to from a healthy block store, without any object at first. -/
def VReach [DecidableEq C] (E : Env C) (fuel : Nat) (s : VState C) : Prop :=
  ∃ rd, StoreOK E rd ∧ Relation.ReflTransGen (VStep E fuel) ⟨rd, [], []⟩ s

end Arroba
