import Verif.Xrpc.UniqueProofs

/-!
# Requests that fail or stop partway

Everything that `DatastoreStorage` may contain after a request, whatever goes wrong: the nonces and failures
are arbitrary, callbacks may raise, and the process may be killed between any two writes.
-/

namespace Arroba.Xrpc

open Arroba.Store

variable {C R : Type} [DecidableEq C]

/-- What a request leaves behind in the Datastore when the process is killed while it is handled, or when
its response is lost. Each of these is stored as a whole or not at all: a sequence number
(datastore_storage.py 277-290), the blocks of a commit (876-884), the head of a repo at the end of the
transaction of `_commit` (886-890), a status (708-718), a new repo (637-663), an event (868-873); so processes stop
between them. A commit whose blocks are stored, but not its head, is one whose transaction fails
(`Luck.storeFails`, `Luck.txFails`) in `serve`. -/
inductive Leaves (cfg : Config R) (out : Surroundings) (L : Lib C R) (w : World C R) (q : Request R) :
    World C R → Prop
  /-- nothing has been stored yet -/
  | idle : Leaves cfg out L w q w
  /-- it had returned, or raised -/
  | ended (x : Chance) : Leaves cfg out L w q (serve cfg out L .datastore w x q).1
  /-- a sequence number has been allocated, and not used -/
  | allocated {w' : World C R} (h : Leaves cfg out L w q w') : Leaves cfg out L w q w'.alloc.2
  /-- the status has been set, and there is no event; storage.py 256-308 -/
  | status {w1 : World C R} {r : Ref} (did : Did) (change : Change) (hq : q = .setStatus did change)
      (h : loadRepo .datastore w did = (w1, .ok (some r))) :
      Leaves cfg out L w q (setRepoStatus .datastore w1 r change.status).1
  /-- the first commit of a new repo has been stored, then some of its events, and not the repo;
  repo.py 139-176. (The events are written with the `Repo` object of the first commit.) -/
  | «object» {w' : World C R} (h : Leaves cfg out L w q w') (c : C) (handle : Option Key) (key : Nat)
      (callback : Bool) (hh : ∀ h, handle = some h → ¬ isDid h) :
      Leaves cfg out L w q (repoLoad w' c handle none key callback).1
  | event {w' : World C R} (h : Leaves cfg out L w q w') (r : Ref) (kind : EventKind C) (time : Nat)
      (hr : r < w'.heap.length) : Leaves cfg out L w q (writeEvent L .datastore w' r kind time).1

/-- What became of a request. -/
inductive Outcome (C R : Type) where
  /-- nothing failed; this is the answer -/
  | fine (a : Answer C R)
  /-- some things failed, and perhaps were retried; this is the answer -/
  | troubled (a : Answer C R)
  /-- there was no answer: the process was killed, or the response lost -/
  | killed

/-- Requests, one after another, and what became of them. -/
inductive Struggled (cfg : Config R) (out : Surroundings) (L : Lib C R) :
    World C R → List (Request R) → List (Outcome C R) → World C R → Prop
  | nil (w : World C R) : Struggled cfg out L w [] [] w
  | fine {w w' : World C R} {q : Request R} {qs : List (Request R)} {os : List (Outcome C R)}
      (x : Chance) (hf : Fine w x.xs) (hc : x.raises = false)
      (h : Struggled cfg out L (serve cfg out L .datastore w x q).1 qs os w') :
      Struggled cfg out L w (q :: qs) (.fine (serve cfg out L .datastore w x q).2 :: os) w'
  | troubled {w w' : World C R} {q : Request R} {qs : List (Request R)} {os : List (Outcome C R)}
      (x : Chance) (h : Struggled cfg out L (serve cfg out L .datastore w x q).1 qs os w') :
      Struggled cfg out L w (q :: qs) (.troubled (serve cfg out L .datastore w x q).2 :: os) w'
  | killed {w w1 w' : World C R} {q : Request R} {qs : List (Request R)} {os : List (Outcome C R)}
      (hl : Leaves cfg out L w q w1) (h : Struggled cfg out L w1 qs os w') :
      Struggled cfg out L w (q :: qs) (.killed :: os) w'

/-! ### What should become of them -/

/-- Requests that may fail: those that write. -/
def Stores : Request R → Prop
  | .putRecord _ _ | .createRecord _ _ _ | .deleteRecord _ _ | .newRepo _ _ => True
  | _ => False

/-- The reference server when requests may fail. If nothing does, it answers as always. If something does,
then an answer other than an exception still means what it always means; a request that writes may raise an
exception instead, and then nothing has been done; without an answer, it has been done completely or not at
all. -/
inductive Manages (cfg : Config R) (out : Surroundings) (L : Lib C R) (A : Accounts R) (q : Request R) :
    Outcome C R → Accounts R → Prop
  | fine {a : Answer C R} {A' : Accounts R} (h : Serves cfg out L A q a A') : Manages cfg out L A q (.fine a) A'
  | done {a : Answer C R} {A' : Accounts R} (h : Serves cfg out L A q a A') :
      Manages cfg out L A q (.troubled a) A'
  | failed (e : Err) (hq : Stores q) : Manages cfg out L A q (.troubled (.failed e)) A
  | killed : Manages cfg out L A q .killed A
  | killedDone {a : Answer C R} {A' : Accounts R} (h : Serves cfg out L A q a A') :
      Manages cfg out L A q .killed A'

/-- All requests. -/
inductive ManagesAll (cfg : Config R) (out : Surroundings) (L : Lib C R) :
    Accounts R → List (Request R) → List (Outcome C R) → Accounts R → Prop
  | nil (A : Accounts R) : ManagesAll cfg out L A [] [] A
  | cons {A A' A'' : Accounts R} {q : Request R} {qs : List (Request R)} {o : Outcome C R}
      {os : List (Outcome C R)} (h : Manages cfg out L A q o A') (h' : ManagesAll cfg out L A' qs os A'') :
      ManagesAll cfg out L A (q :: qs) (o :: os) A''

end Arroba.Xrpc
