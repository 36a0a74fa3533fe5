import Verif.Firehose.Payload
import Verif.Mst.Invert
import Verif.Mst.Spec
import Verif.Storage.Spec
import Verif.Xrpc.ExportSpec

/-!
# A consumer of the firehose (specification for C57)

What a consumer that has only a commit's message can do with it (sync v1.1): read the nodes in the CAR file,
and undo the operations.
-/

namespace Arroba.Store

open Arroba.Tree

variable {C R : Type} [DecidableEq C]

/-- A node of the CAR file. -/
def carNodes (car : Xrpc.Car C R) (c : C) : Option (NodeData C) :=
  match car.blocks.find? (fun b => decide (b.1 = c)) with
  | some (_, .node d) => some d
  | _ => none

/-- What undoes an operation of a message. -/
def WireOp.inverse (op : WireOp C) : Option (Op C) :=
  if op.action = "create".toList then some (.delete op.path)
  else match op.prev with
    | some (some c) =>
      if op.action = "update".toList then some (.update op.path c)
      else if op.action = "delete".toList then some (.add op.path c)
      else none
    | _ => none

/-- Undoes the operations of a message, last one first. -/
def undoWire (E : Env C) (rd : C → Option (NodeData C)) (f : Nat) : List (WireOp C) → Node C → Except Err (Node C)
  | [], n => .ok n
  | op :: ops, n => do
    let n ← undoWire E rd f ops n
    match op.inverse with
    | some o => applyOp E rd f n o
    | none => .error .value

/-- Checks the operations of a message, last one first: the record is what the operation says, and it can be undone. -/
def checkWire (E : Env C) (rd : C → Option (NodeData C)) (f : Nat) : List (WireOp C) → Node C → Except Err (Node C)
  | [], n => .ok n
  | op :: ops, n => do
    let n ← checkWire E rd f ops n
    let v ← get E rd f n op.path
    if v = op.cid then
      match op.inverse with
      | some o => applyOp E rd f n o
      | none => .error .value
    else .error .value

/-- `c` is the root CID of a canonical tree (C03). -/
def CanonicalRoot (L : Lib C R) (c : C) : Prop := ∃ t : Tree C, Valid L.zeros t ∧ cidOf L.env.H t = c

/-- Applying the operations of a message to the paths and CIDs `M` gives `M'`, and each of them tells the truth about
what it replaces. -/
inductive WireTrace : (Key → Option C) → List (WireOp C) → (Key → Option C) → Prop
  | nil (M : Key → Option C) : WireTrace M [] M
  | create {M M' : Key → Option C} {path : Key} {c : C} {ops : List (WireOp C)} (h : M path = none)
      (hr : WireTrace (Function.update M path (some c)) ops M') :
      WireTrace M (⟨"create".toList, path, some c, none⟩ :: ops) M'
  | update {M M' : Key → Option C} {path : Key} {c p : C} {ops : List (WireOp C)}
      (h : M path = some p) (hne : c ≠ p) (hr : WireTrace (Function.update M path (some c)) ops M') :
      WireTrace M (⟨"update".toList, path, some c, some (some p)⟩ :: ops) M'
  | delete {M M' : Key → Option C} {path : Key} {p : C} {ops : List (WireOp C)}
      (h : M path = some p) (hr : WireTrace (Function.update M path none) ops M') :
      WireTrace M (⟨"delete".toList, path, none, some (some p)⟩ :: ops) M'

/-- After each operation but the last there are records; `M` are the CIDs before. -/
def NeverEmpty : (Key → Option C) → List (WireOp C) → Prop
  | _, [] => True
  | M, op :: ops => (ops ≠ [] → ∃ k, Function.update M op.path op.cid k ≠ none) ∧
      NeverEmpty (Function.update M op.path op.cid) ops

/-- The CIDs of the records. -/
def Lib.cids (L : Lib C R) (m : Key → Option R) : Key → Option C := fun k => (m k).map fun r => L.hash (.record r)

/-- The message `p` tells a consumer all about the stored commit `co`, whose block is `b`. -/
structure Describes (L : Lib C R) (w : World C R) (b : Block C R) (co : Commit C) (p : Payload C R) : Prop where
  repo : p.repo = co.did
  commit : p.commit = L.hash b.val
  seq : p.seq = b.seq
  rev : p.rev = co.rev
  /-- `prevData` is the root of the previous commit's tree; a first commit has none. -/
  prevData : match co.prev with
    | none => p.prevData = none
    | some q => ∃ b' co', w.read q = some b' ∧ b'.val = .commit co' ∧ p.prevData = some co'.data
  roots : p.blocks.roots = [L.hash b.val]
  nodup : (p.blocks.blocks.map (·.1)).Nodup
  /-- Everything stored with the commit is in the CAR file, including the commit itself. -/
  new : ∀ y, w.read (L.hash y.val) = some y → y.seq = b.seq → (L.hash y.val, y.val) ∈ p.blocks.blocks
  /-- So are the records of the operations. -/
  records : ∀ op ∈ p.ops, ∀ c, op.cid = some c → ∃ r, c = L.hash (.record r) ∧ (c, .record r) ∈ p.blocks.blocks
  /-- Nothing else than that and parts of the commit's tree is in it. -/
  only : ∀ c v, (c, v) ∈ p.blocks.blocks → c = L.hash v ∧ ∃ y, w.read c = some y ∧ y.val = v ∧
    (y.seq = b.seq ∨ (∃ op ∈ p.ops, op.cid = some c) ∨ Xrpc.Inside w (L.hash b.val) c)
  /-- Between the records of the previous commit and those of this one: -/
  effect : ∃ m m', (match co.prev with
      | none => m = fun _ => none
      | some q => CommitShows L w q m) ∧ CommitShows L w (L.hash b.val) m' ∧
    /- the operations are what happened, -/
    WireTrace (L.cids m) p.ops (L.cids m') ∧
    /- with the CAR file alone, each of their paths can be looked up, -/
    (∀ op ∈ p.ops, get L.env (carNodes p.blocks) L.fuel (load co.data) op.path = .ok (L.cids m' op.path)) ∧
    /- and they can be undone, giving the root of a tree with the previous records, -/
    ∃ n t₀, undoWire L.env (carNodes p.blocks) L.fuel p.ops (load co.data) = .ok n ∧
      checkWire L.env (carNodes p.blocks) L.fuel p.ops (load co.data) = .ok n ∧
      getPointer L.env (carNodes p.blocks) L.fuel n = .ok (cidOf L.env.H t₀) ∧
      Sorted t₀ ∧ dictGet (leaves t₀) = L.cids m ∧
      /- which is `prevData`, if the trees are canonical and the repo is not emptied in between. -/
      (CanonicalRoot L co.data → NeverEmpty (L.cids m) p.ops → ∀ c, p.prevData = some c → CanonicalRoot L c →
        cidOf L.env.H t₀ = c)

end Arroba.Store
