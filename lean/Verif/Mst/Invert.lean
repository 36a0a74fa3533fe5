import Verif.Storage.Model
import Verif.Mst.Exec

/-!
# Checking a commit by inverting its operations

What a consumer of the firehose does with a commit (sync v1.1, "MST operation inversion"):
it undoes the operations, last one first, in the tree whose root the commit has, with
nothing but the blocks it was sent, and compares the root it gets with the previous one.

Not part of arroba; the specification for C16. It uses the tree operations (C01-C06).
-/

namespace Arroba

open Arroba.Store

variable {C : Type}

/-- The records after an operation. -/
def Store.CommitOp.after (m : Key → Option C) (op : CommitOp C) : Key → Option C :=
  Function.update m op.path op.cid

/-- The operation says truly what it does to the records `m`. -/
def Store.CommitOp.fits (m : Key → Option C) (op : CommitOp C) : Prop :=
  match op.action with
  | .create => m op.path = none ∧ op.cid ≠ none
  | .update => m op.path = op.prevCid ∧ op.prevCid ≠ none ∧ op.cid ≠ none
  | .delete => m op.path = op.prevCid ∧ op.prevCid ≠ none ∧ op.cid = none

/-- The records after several operations. -/
def afterAll (m : Key → Option C) (ops : List (CommitOp C)) : Key → Option C :=
  ops.foldl CommitOp.after m

/-- All operations say truly what they do, one after the other. -/
def FitsAll : (Key → Option C) → List (CommitOp C) → Prop
  | _, [] => True
  | m, op :: ops => op.fits m ∧ FitsAll (op.after m) ops

/-- What undoes an operation. -/
def Store.CommitOp.inverse (op : CommitOp C) : Option (Op C) :=
  match op.action with
  | .create => some (.delete op.path)
  | .update => op.prevCid.map (.update op.path)
  | .delete => op.prevCid.map (.add op.path)

/-- Undoes the operations, last one first. -/
def undo (E : Env C) (rd : C → Option (NodeData C)) (f : Nat) : List (CommitOp C) → Node C → Except Err (Node C)
  | [], n => .ok n
  | op :: ops, n => do
    let n ← undo E rd f ops n
    match op.inverse with
    | some o => applyOp E rd f n o
    | none => .error .value

/-- How a consumer can check the operations of a commit with the blocks it was sent, last one first: the record is what the
operation says, and the operation can be undone. Not part of arroba. -/
def checkOps [DecidableEq C] (E : Env C) (B : C → Option (NodeData C)) (f : Nat) :
    List (CommitOp C) → Node C → Except Err (Node C)
  | [], n => .ok n
  | op :: ops, n => do
    let n ← checkOps E B f ops n
    let v ← get E B f n op.path
    if v = op.cid then
      match op.inverse with
      | some o => applyOp E B f n o
      | none => .error .value
    else .error .value

end Arroba
