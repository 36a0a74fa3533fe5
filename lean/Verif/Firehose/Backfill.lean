import Verif.Firehose.Mirror
import Verif.Props.C46

/-!
# A consumer that fetches a repo and then follows the firehose (specification for C80)

It downloads the CAR file of a repo with `getRepo`. Then it applies the messages of the firehose to its copy: it skips
those whose rev is not newer than that of the copy, and checks that the others follow the copy (sync v1.1). It sees
nothing but the CAR file and the messages.
-/

namespace Arroba.Store

variable {C R : Type} [DecidableEq C]

/-- A copy of a repo: the rev, the root of the tree, and the records. -/
structure Copy (C R : Type) where
  rev : Key
  data : C
  records : Key → Option R

/-- A commit of the CAR file. -/
def carCommit (car : Xrpc.Car C R) (c : C) : Option (Commit C) :=
  match car.blocks.find? (fun b => decide (b.1 = c)) with
  | some (_, .commit co) => some co
  | _ => none

/-- The copy that a CAR file contains. -/
def Fetched (L : Lib C R) (car : Xrpc.Car C R) (s : Copy C R) : Prop :=
  ∃ head co, car.roots = [head] ∧ carCommit car head = some co ∧ co.rev = s.rev ∧ co.data = s.data ∧
    CommitShows L car.world head s.records

/-- Applies one message to the copy of repo `d`; `none`: the message does not follow the copy. -/
def Copy.next (d : Did) (s : Copy C R) : Message C R → Option (Copy C R)
  | .commit _ p =>
    if p.repo = d ∧ s.rev < p.rev then
      if p.prevData = none then
        (carCommit p.blocks p.commit).map fun co => ⟨p.rev, co.data, p.ops.foldl (mirrorOp p.blocks) fun _ => none⟩
      else if p.prevData = some s.data then
        (carCommit p.blocks p.commit).map fun co => ⟨p.rev, co.data, p.ops.foldl (mirrorOp p.blocks) s.records⟩
      else none
    else some s
  | _ => some s

/-- The copy has the rev, the root and exactly the records of the repo `d` on the server. -/
def IsCopy (L : Lib C R) (be : Backend) (w : World C R) (d : Did) (s : Copy C R) : Prop :=
  (∃ head b co, readHead L be w d = some head ∧ w.read head = some b ∧ b.val = .commit co ∧ co.rev = s.rev ∧
    co.data = s.data) ∧ Shows L be w d s.records

/-- The copy is that of some commit of the repo `d` that is stored: it has the rev, the root and exactly the records of
that commit. -/
def OfCommit (L : Lib C R) (w : World C R) (d : Did) (s : Copy C R) : Prop :=
  ∃ c b co, w.read c = some b ∧ b.val = .commit co ∧ co.did = d ∧ co.rev = s.rev ∧ co.data = s.data ∧
    CommitShows L w c s.records

end Arroba.Store
