import Verif.Storage.Model
import Verif.Mst.ExecProofs

/-!
# How `import_repo` stores a repo

The part of `import_repo` that changes the storage, after its checks. The rest is in `Xrpc/Import.lean`.
-/

namespace Arroba.Store

variable {C R : Type} [DecidableEq C]

open Arroba.Tree

/-- xrpc_repo.py 211, 235-237: writing the blocks, with sequence number 0. -/
def importBlocks (did : Did) (blocks : List (C × Block C R)) (new : List (C × Val C R)) :
    List (C × Block C R) :=
  new.foldl (fun acc cv => dictSetDefault acc cv.1 ⟨cv.2, 0, none, did⟩) blocks

/-- xrpc_repo.py 228-244: writing the blocks, and creating the deactivated repo with the head `co`. -/
def importInto (L : Lib C R) (be : Backend) (w : World C R) (co : Commit C) (handle : Option Key) (key : Nat)
    (new : List (C × Val C R)) : World C R × Except Err Unit :=
  let w := { w with blocks := importBlocks co.did w.blocks new }
  let a := w.newObj ⟨Arroba.load co.data, some ⟨.commit co, 0, none, co.did⟩, handle,
    some .deactivated, key, false⟩
  createRepo L be a.2 a.1

/-- `c` is the root of a valid MST; its top may be redundant (see `C04_redundant_root`). -/
def IsTree (L : Lib C R) (c : C) : Prop :=
  ∃ l t, (l = 0 ∨ ∃ k, l ≤ L.zeros k) ∧ WF L.zeros l t ∧ Sorted t ∧ ValidKeys t ∧ cidOf L.env.H t = c

/-- The blocks of a CAR file are sound and complete: their CIDs are right; with each node there are its
children and its records; each commit has a valid tree that is there; and there are no events. -/
structure Whole (L : Lib C R) (new : List (C × Val C R)) : Prop where
  cids : ∀ x ∈ new, L.hash x.2 = x.1
  plain : ∀ x ∈ new, ∀ e, x.2 ≠ .event e
  children : ∀ c d, (c, .node d) ∈ new → ∀ c' ∈ d.children, ∃ d', (c', .node d') ∈ new
  records : ∀ c d, (c, .node d) ∈ new → ∀ e ∈ d.e, ∃ r, (e.v, .record r) ∈ new
  commits : ∀ c co, (c, .commit co) ∈ new → startsWith co.did "did:".toList = true ∧ IsTree L co.data ∧
    ∃ d, (co.data, .node d) ∈ new

/-- `co` is not a commit that this server will make: its rev is none that this server has yet to assign (these are
sequence numbers, with the clock id 0), or it isn't signed with any of the keys that this server ever has. `last` is
the sequence number that was assigned last. -/
def Alien (L : Lib C R) (last : Nat) (co : Commit C) : Prop :=
  (∀ n, last ≤ n → Tid.intToTid 0 n (some 0) ≠ .ok co.rev) ∨
  ∀ key nonce, co.sig ≠ L.sign key { co with sig := [] } nonce

/-- The commits of the CAR file that aren't stored yet are none that this server will make. -/
def Aliens (L : Lib C R) (w : World C R) (new : List (C × Val C R)) : Prop :=
  ∀ c co, (c, .commit co) ∈ new → w.read c = none → Alien L ((dictGet w.seqs subscribeRepos).getD 1 - 1) co

end Arroba.Store
