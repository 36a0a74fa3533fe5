import Verif.Xrpc.Reference

/-!
# Requests to the real server

One function for all requests: it calls the handlers of `Model.lean`, `Repo.create`, and the status
methods of the storage with the repo that `load_repo` finds.
-/

namespace Arroba.Xrpc

open Arroba.Store

variable {C R : Type} [DecidableEq C]

/-- What differs from one server to the next: nonces and failures, the keys of new repos, whether there is
a callback, the time, and whether callbacks raise. -/
structure Chance where
  xs : List Luck
  key : Nat
  callback : Bool
  time : Nat
  raises : Bool

/-- The response. -/
def reply {α : Type} (f : α → Answer C R) : World C R × Except Err α → World C R × Answer C R
  | (w, .ok x) => (w, f x)
  | (w, .error e) => (w, .failed e)

/-- storage.py 256-308: the status method for the change. -/
def changeStatus (L : Lib C R) (be : Backend) (w : World C R) (r : Ref) (time : Nat) :
    Change → World C R × Except Err Unit
  | .activate => activateRepo L be w r time
  | .deactivate => deactivateRepo L be w r time
  | .tombstone => tombstoneRepo L be w r time

/-- xrpc_repo.py 45-261, xrpc_sync.py 70-87, repo.py 139-176, storage.py 256-308. `load_repo` returns None
for an unknown DID, and the status methods need a repo. -/
def serve (cfg : Config R) (out : Surroundings) (L : Lib C R) (be : Backend) (w : World C R) (x : Chance) :
    Request R → World C R × Answer C R
  | .getRecord repo collection rkey cid => reply .record (getRecord cfg L be w repo collection rkey cid)
  | .listRecords repo collection limit cursor =>
    reply .page (listRecords cfg L be w repo collection limit cursor)
  | .describeRepo repo =>
    reply (fun y => .repo y.1 y.2.1 y.2.2) (describeRepo cfg L be w repo out.sorted out.resolves)
  | .getRepoStatus did => reply .active (getRepoStatus cfg be w did)
  | .putRecord header inp => reply .written (putRecord cfg L be w header inp x.xs x.raises)
  | .createRecord header inp tid => reply .written (createRecord cfg L be w header inp tid x.xs x.raises)
  | .deleteRecord header inp => reply (fun _ => .done) (deleteRecord cfg L be w header inp x.xs x.raises)
  | .applyWrites header inp => reply .http (applyWrites cfg w header inp)
  | .uploadBlob header => reply .http (uploadBlob cfg w header)
  | .newRepo did handle =>
    reply (fun _ => .done) (repoCreate L be w did handle x.key x.callback x.time x.xs x.raises)
  | .setStatus did change =>
    match loadRepo be w did with
    | (w, .error e) => (w, .failed e)
    | (w, .ok none) => (w, .failed .attribute)
    | (w, .ok (some r)) => reply (fun _ => .done) (changeStatus L be w r x.time change)

/-- A list of requests, one after another, and the answers. Nothing fails outside of the code, and there
are sequence numbers left. -/
inductive Played (cfg : Config R) (out : Surroundings) (L : Lib C R) (be : Backend) :
    World C R → List (Request R) → List (Answer C R) → World C R → Prop
  | nil (w : World C R) : Played cfg out L be w [] [] w
  | cons {w w' : World C R} {q : Request R} {qs : List (Request R)} {as : List (Answer C R)} (x : Chance)
      (hf : Fine w x.xs) (hc : x.raises = false)
      (h : Played cfg out L be (serve cfg out L be w x q).1 qs as w') :
      Played cfg out L be w (q :: qs) ((serve cfg out L be w x q).2 :: as) w'

/-- `load_repo(d)` finds the account: the repo has this handle, this status, and these records. -/
def Holds (L : Lib C R) (be : Backend) (w : World C R) (d : Did) (a : Account R) : Prop :=
  ∃ w1 s o, loadRepo be w d = (w1, .ok (some s)) ∧ w1.heap[s]? = some o ∧ o.handle = a.handle ∧
    o.status = a.status ∧ ObjShows L w1 o a.records

/-- The storage holds exactly these accounts. -/
structure Keeping (L : Lib C R) (be : Backend) (w : World C R) (A : Accounts R) : Prop where
  did : ∀ d a, A d = some a → isDid d
  held : ∀ d a, A d = some a → Holds L be w d a
  missing : ∀ d, isDid d → A d = none → ∃ w1, loadRepo be w d = (w1, .ok none)

end Arroba.Xrpc
