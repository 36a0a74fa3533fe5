import Verif.Storage.Model

/-!
# What it means for commits to be signed

The signature of a commit is supposed to be made over the commit without its signature (storage.py 615-624,
util.py 281-302), with the signing key of the repo.
-/

namespace Arroba.Store

variable {C R : Type} [DecidableEq C]

/-- The signature of a commit was made with a key, for some nonce. -/
def SignedBy (L : Lib C R) (key : Nat) (co : Commit C) : Prop :=
  ∃ nonce, co.sig = L.sign key { co with sig := [] } nonce

/-- A commit, and all commits before it, are stored and signed with a key; the first one has no `prev`. -/
inductive SignedChain (L : Lib C R) (blocks : List (C × Block C R)) (k : Nat) : C → Prop
  | mk {c : C} {b : Block C R} {co : Commit C} (hb : dictGet blocks c = some b) (hv : b.val = .commit co)
      (hs : SignedBy L k co) (hp : ∀ p, co.prev = some p → SignedChain L blocks k p) : SignedChain L blocks k c

/-- The same, but the chain may end with an imported commit, which was signed elsewhere. Imported blocks have the
sequence number 0. -/
inductive SignedSince (L : Lib C R) (blocks : List (C × Block C R)) (k : Nat) : C → Prop
  | own {c : C} {b : Block C R} {co : Commit C} (hb : dictGet blocks c = some b) (hv : b.val = .commit co)
      (hs : SignedBy L k co) (hp : ∀ p, co.prev = some p → SignedSince L blocks k p) : SignedSince L blocks k c
  | imported {c : C} {b : Block C R} {co : Commit C} (hb : dictGet blocks c = some b) (hv : b.val = .commit co)
      (hs : b.seq = 0) : SignedSince L blocks k c

end Arroba.Store
