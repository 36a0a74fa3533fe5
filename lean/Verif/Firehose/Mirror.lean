import Verif.Firehose.Payload
import Verif.Storage.Spec

/-!
# A consumer that mirrors all repos (specification for C60)

It sees nothing but the messages of the firehose, one after the other.
-/

namespace Arroba.Store

variable {C R : Type} [DecidableEq C]

/-- A record of the CAR file. -/
def carRecord (car : Xrpc.Car C R) (c : C) : Option R :=
  match car.blocks.find? (fun b => decide (b.1 = c)) with
  | some (_, .record r) => some r
  | _ => none

/-- The records of each repo that the consumer knows of. -/
abbrev Mirror (R : Type) := Did → Option (Key → Option R)

/-- Applies one operation: the record is looked up in the CAR file. -/
def mirrorOp (car : Xrpc.Car C R) (m : Key → Option R) (op : WireOp C) : Key → Option R :=
  Function.update m op.path (op.cid.bind (carRecord car))

/-- Applies one message. A commit without `prevData` starts the repo anew. Other events than commits are ignored. -/
def Mirror.next (s : Mirror R) : Message C R → Mirror R
  | .commit _ p => Function.update s p.repo (some (p.ops.foldl (mirrorOp p.blocks)
      (if p.prevData = none then fun _ => none else (s p.repo).getD fun _ => none)))
  | _ => s

/-- The mirror shows exactly the repos of the server, with exactly their records. -/
def Mirrors (L : Lib C R) (be : Backend) (w : World C R) (s : Mirror R) : Prop :=
  ∀ d, isDid d → ∀ m, s d = some m ↔ Shows L be w d m

end Arroba.Store
