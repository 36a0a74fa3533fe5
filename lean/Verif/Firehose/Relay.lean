import Verif.Firehose.Backfill
import Verif.Firehose.Consumer

/-!
# A consumer that trusts nobody in between (specification for C83)

It has a copy of a repo (C80), and gets commit messages from anybody, for example from a relay that may change them. It knows
the signing key of the repo. Not part of arroba: it is what sync v1.1 tells consumers to do. It uses the tree operations
(C01-C06).
-/

namespace Arroba.Store

variable {C R : Type} [DecidableEq C]

/-- Checks a commit message against the copy of the repo `d`, and applies it; `none`: it is refused. `signed` checks the
signature. Of the message only `ops`, `commit` and `blocks` are used. -/
def Copy.verify (L : Lib C R) (signed : Commit C → Bool) (d : Did) (s : Copy C R) (p : Payload C R) : Option (Copy C R) :=
  match carCommit p.blocks p.commit with
  | none => none
  | some co =>
    if signed co = true ∧ co.did = d ∧ s.rev < co.rev ∧
        ∀ op ∈ p.ops, ∀ c ∈ op.cid, (carRecord p.blocks c).isSome = true then
      match checkWire L.env (carNodes p.blocks) L.fuel p.ops (load co.data) with
      | .error _ => none
      | .ok n =>
        match getPointer L.env (carNodes p.blocks) L.fuel n with
        | .error _ => none
        | .ok c => if c = s.data then some ⟨co.rev, co.data, p.ops.foldl (mirrorOp p.blocks) s.records⟩ else none
    else none

/-- Messages that are refused change nothing. -/
def Copy.follow (L : Lib C R) (signed : Commit C → Bool) (d : Did) (s : Copy C R) (ps : List (Payload C R)) : Copy C R :=
  ps.foldl (fun s p => (s.verify L signed d p).getD s) s

/-- What is known of messages that anybody may have sent: the CIDs of the blocks are true, since the consumer checks them, and
nobody but the server of `w` can sign commits with the key that is checked. -/
structure Unforged (L : Lib C R) (w : World C R) (signed : Commit C → Bool) (p : Payload C R) : Prop where
  cids : ∀ x ∈ p.blocks.blocks, L.hash x.2 = x.1
  signed : ∀ co, carCommit p.blocks p.commit = some co → signed co = true → ∃ c b, w.read c = some b ∧ b.val = .commit co

end Arroba.Store
