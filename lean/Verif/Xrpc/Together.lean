import Verif.Xrpc.Survive
import Verif.Storage.Concurrent

/-!
# Requests that are served at the same time

Any number of requests, in several threads or processes, with one Datastore. A request is cut into the steps
between which others can change what is stored; its commit is cut into the steps of `Concurrent.lean`. The
functions that do the work are those of `Model.lean`.

Simplifications:
* A request that only reads, and the part of a request that reads before it writes, look at the storage at
  one moment. (In the code they read the `AtpRepo` entity first, and then blocks. Blocks are never removed, and
  what is stored under a CID never changes; cf. `C62`.) createRecord loads the repo twice, at two moments.
* Setting the status and writing its event don't fail. A commit, and `Repo.create`, may fail at any moment with any
  exception.
-/

namespace Arroba.Xrpc

open Arroba.Store

variable {C R : Type} [DecidableEq C]

/-- xrpc_repo.py 45-261, storage.py 256-308. How far a request is. -/
inductive Stage (C R : Type) where
  /-- it hasn't been made yet -/
  | idle
  /-- it has come in, and has not read anything -/
  | arrived
  /-- createRecord has checked the request and loaded the repo, xrpc_repo.py 46-51 -/
  | checked
  /-- it has loaded the repo and read the record, and is in `commit` (xrpc_repo.py 89, 157); if that
  succeeds, then this is the response -/
  | writing (job : Job R) (ans : Answer C R)
  /-- the repo whose status is to be changed has been loaded -/
  | changing
  /-- the status has been changed, and the event not been written; storage.py 271, 289, 306 -/
  | changed
  /-- `Repo.create` has the sequence number of the initial commit, repo.py 157, storage.py 513 -/
  | creating (seq : Nat)
  /-- it has signed the commit, storage.py 607-627; this is the signing key -/
  | made (key : Nat) (cd : CommitData C R)
  /-- it has asked which blocks exist already, datastore_storage.py 877-881 -/
  | asked (key : Nat) (cd : CommitData C R) (new : List (Block C R))
  /-- it has written the others, and the first `n` of three events, repo.py 159-170 -/
  | stored (key : Nat) (cd : CommitData C R) (n : Nat)
  /-- the response, or the exception -/
  | answered (ans : Answer C R)

/-- The storage with its commits, and the requests. -/
structure TState (C R : Type) where
  c : CState C R
  stage : Nat → Stage C R

/-- No request has been made. -/
def TState.init (w : World C R) : TState C R := ⟨.init w, fun _ => .idle⟩

/-- A request has come to another place. -/
def TState.to (s : TState C R) (i : Nat) (p : Stage C R) : TState C R :=
  { s with stage := Function.update s.stage i p }

/-- What happens next. -/
inductive TAct where
  /-- a request comes in -/
  | arrive (i : Nat)
  /-- createRecord, until it calls `put_record` -/
  | check (i : Nat)
  /-- a request reads -/
  | read (i : Nat)
  /-- the next step of a commit; its transaction is aborted, and will be retried; it raises an exception -/
  | step (i nonce : Nat)
  | abort (i : Nat)
  | fail (i : Nat) (e : Err)
  /-- the transaction of `_set_repo_status` -/
  | change (i : Nat)
  /-- the event of a status is written -/
  | finish (i time : Nat)
  /-- a request that has committed, or failed to, answers -/
  | reply (i : Nat)
  /-- the next step of `Repo.create`; the signing key is used when it signs, and the time when it writes an event -/
  | create (i key nonce time : Nat)

/-- xrpc_repo.py 46-51: `create_record` until it calls `put_record`. -/
def checkCreate (cfg : Config R) (w : World C R) (header : Option Key) (inp : Input R) : Stage C R :=
  let coll := if truthy inp.collection then inp.collection else inp.record.bind cfg.typ
  match validate cfg inp coll, auth cfg header, field inp.repo with
  | .error e, _, _ => .answered (.failed e)
  | .ok (), .error e, _ => .answered (.failed e)
  | .ok (), .ok (), .error e => .answered (.failed e)
  | .ok (), .ok (), .ok q =>
    match load cfg .datastore w q with
    | (_, .error e) => .answered (.failed e)
    | (_, .ok _) => .checked

/-- xrpc_repo.py 148-164: `put_record` until it calls `commit`, and what it returns afterwards. -/
def planPut (cfg : Config R) (L : Lib C R) (w : World C R) (header : Option Key) (inp : Input R) :
    Stage C R :=
  match putRead cfg L .datastore w header inp with
  | (_, .error e) => .answered (.failed e)
  | (w, .ok (r, existing)) =>
    match field inp.collection, field inp.rkey, field inp.record with
    | .ok collection, .ok rkey, .ok record =>
      match (w.heap[r]?).bind (·.did) with
      | none => .answered (.failed .assertion)
      | some did =>
        .writing ⟨did, [⟨if existing.isNone then .create else .update, collection, rkey, some record⟩]⟩
          (match AtUri.atUri did collection rkey with
            | .error e => .failed e
            | .ok uri => .written ⟨uri, L.hash (.record record)⟩)
    | .error e, _, _ => .answered (.failed e)
    | _, .error e, _ => .answered (.failed e)
    | _, _, .error e => .answered (.failed e)

/-- xrpc_repo.py 78-93: `delete_record` until it calls `commit`, if it does. -/
def planDelete (cfg : Config R) (L : Lib C R) (w : World C R) (header : Option Key) (inp : Input R) :
    Stage C R :=
  match putRead cfg L .datastore w header inp with
  | (_, .error e) => .answered (.failed e)
  | (w, .ok (r, existing)) =>
    match existing, inp.collection, inp.rkey with
    | some _, some collection, some rkey =>
      match (w.heap[r]?).bind (·.did) with
      | none => .answered (.failed .assertion)
      | some did => .writing ⟨did, [⟨.delete, collection, rkey, none⟩]⟩ .done
    | _, _, _ => .answered .done

/-- datastore_storage.py 664-680. The repo whose status is to be changed. -/
def planChange (w : World C R) (did : Did) : Stage C R :=
  match loadRepo .datastore w did with
  | (_, .error e) => .answered (.failed e)
  | (_, .ok none) => .answered (.failed .attribute)
  | (_, .ok (some _)) => .changing

/-- storage.py 256-308: the event. -/
def changeKind : Change → EventKind C
  | .activate => .account true none
  | .deactivate => .account false (some .deactivated)
  | .tombstone => .tombstone

/-- repo.py 139-157, storage.py 526-627: the initial commit of a new repo. -/
def firstCommit (L : Lib C R) (w : World C R) (did : Did) (key nonce seq : Nat) : Except Err (CommitData C R) := do
  let root ← Arroba.create L.env w.rd L.fuel [] none
  buildCommit L w.rd ⟨root, [], []⟩ key nonce seq did none

/-- repo.py 159-170: the events of a new repo. -/
def birthEvent (L : Lib C R) (handle : Option Key) (cd : CommitData C R) : Nat → EventKind C
  | 0 => .identity handle
  | 1 => .account true none
  | _ => .sync (L.hash cd.commit.val) (match cd.commit.val with
    | .commit co => co.rev
    | _ => [])

/-- datastore_storage.py 637-661 `create_repo`: the entity is put, whether or not there is one. -/
def putRow (s : CState C R) (did : Did) (row : Row C) : CState C R :=
  { s with w := { s.w with rows := dictSet s.w.rows did row }, ver := Function.update s.ver did (s.ver did + 1) }

/-- repo.py 139-176, storage.py 495-644. The next step of `Repo.create`. -/
def TState.create (L : Lib C R) (s : TState C R) (i : Nat) (did : Did) (handle : Option Key) (key nonce time : Nat) :
    Option (TState C R) :=
  match s.stage i with
  | .arrived => some ({ s with c := { s.c with w := s.c.w.alloc.2 } }.to i (.creating s.c.w.alloc.1))
  | .creating seq =>
    match firstCommit L s.c.w did key nonce seq with
    | .error e => some (s.to i (.answered (.failed e)))
    | .ok cd => some (s.to i (.made key cd))
  | .made key cd => some (s.to i (.asked key cd (missing s.c.w.blocks cd.blocks)))
  | .asked key cd new =>
    some ({ s with c := { s.c with w := { s.c.w with blocks := overwrite L s.c.w.blocks new } } }.to i
      (.stored key cd 0))
  | .stored key cd n =>
    if n < 3 then
      some ({ s with c := storeEvent L s.c did (birthEvent L handle cd n) time }.to i (.stored key cd (n + 1)))
    else some ({ s with c := putRow s.c did ⟨handle, L.hash cd.commit.val, none, key⟩ }.to i (.answered .done))
  | _ => none

/-- datastore_storage.py 886-890. The transaction around the initial commit is retried, with the same sequence
number. -/
def TState.again (s : TState C R) (i : Nat) : Option (TState C R) :=
  match s.stage i with
  | .made _ cd => some (s.to i (.creating cd.commit.seq))
  | .asked _ cd _ => some (s.to i (.creating cd.commit.seq))
  | .stored _ cd 0 => some (s.to i (.creating cd.commit.seq))
  | _ => none

/-- repo.py 139-176. `Repo.create` raises an exception. -/
def TState.gives (s : TState C R) (i : Nat) (e : Err) : Option (TState C R) :=
  match s.stage i with
  | .creating _ => some (s.to i (.answered (.failed e)))
  | .made _ _ => some (s.to i (.answered (.failed e)))
  | .asked _ _ _ => some (s.to i (.answered (.failed e)))
  | .stored _ _ _ => some (s.to i (.answered (.failed e)))
  | _ => none

/-- repo.py 139-176, xrpc_repo.py 45-261, xrpc_sync.py 70-87, storage.py 256-308. One action; none if it is not possible.
`req` has the requests. -/
def TState.act (cfg : Config R) (out : Surroundings) (L : Lib C R) (req : Nat → Request R)
    (s : TState C R) : TAct → Option (TState C R)
  | .arrive i =>
    match s.stage i with
    | .idle => some (s.to i .arrived)
    | _ => none
  | .check i =>
    match s.stage i, req i with
    | .arrived, .createRecord header inp _ => some (s.to i (checkCreate cfg s.c.w header inp))
    | _, _ => none
  | .read i =>
    match s.stage i, req i with
    | .checked, .createRecord header inp tid =>
      some (s.to i (planPut cfg L s.c.w header { inp with rkey := some (inp.rkey.getD tid) }))
    | .arrived, .createRecord _ _ _ => none
    | .arrived, .newRepo _ _ => none
    | .arrived, .putRecord header inp => some (s.to i (planPut cfg L s.c.w header inp))
    | .arrived, .deleteRecord header inp => some (s.to i (planDelete cfg L s.c.w header inp))
    | .arrived, .setStatus did _ => some (s.to i (planChange s.c.w did))
    | .arrived, q =>
      some (s.to i (.answered (serve cfg out L .datastore s.c.w ⟨[], 0, false, 0, false⟩ q).2))
    | _, _ => none
  | .step i nonce =>
    match s.stage i with
    | .writing job _ => (s.c.act L (fun _ => job) (.step i nonce)).map fun c => { s with c := c }
    | _ => none
  | .abort i =>
    match s.stage i with
    | .writing job _ => (s.c.act L (fun _ => job) (.abort i)).map fun c => { s with c := c }
    | _ => s.again i
  | .fail i e =>
    match s.stage i with
    | .writing job _ => (s.c.act L (fun _ => job) (.fail i e)).map fun c => { s with c := c }
    | _ => s.gives i e
  | .change i =>
    match s.stage i, req i with
    | .changing, .setStatus did change =>
      (setStatusRow s.c did change.status).map fun c => { s with c := c }.to i .changed
    | _, _ => none
  | .finish i time =>
    match s.stage i, req i with
    | .changed, .setStatus did change =>
      some ({ s with c := storeEvent L s.c did (changeKind change) time }.to i (.answered .done))
    | _, _ => none
  | .reply i =>
    match s.stage i, s.c.pc i with
    | .writing _ ans, .done _ => some (s.to i (.answered ans))
    | .writing _ _, .failed e => some (s.to i (.answered (.failed e)))
    | _, _ => none
  | .create i key nonce time =>
    match req i with
    | .newRepo did handle => s.create L i did handle key nonce time
    | _ => none

/-- A schedule: one action after the other. -/
def TState.run (cfg : Config R) (out : Surroundings) (L : Lib C R) (req : Nat → Request R) :
    TState C R → List TAct → Option (TState C R)
  | s, [] => some s
  | s, a :: as => (s.act cfg out L req a).bind fun s' => TState.run cfg out L req s' as

/-- The request whose action it is. -/
def TAct.of : TAct → Nat
  | .arrive i | .check i | .read i | .step i _ | .abort i | .fail i _ | .change i | .finish i _ | .reply i
  | .create i _ _ _ => i

/-- In this schedule, `i` was answered before `k` was made. -/
def Precedes (cfg : Config R) (out : Surroundings) (L : Lib C R) (req : Nat → Request R) (s : TState C R)
    (as : List TAct) (i k : Nat) : Prop :=
  ∃ as₁ as₂ s₁ a, as = as₁ ++ as₂ ∧ s.run cfg out L req as₁ = some s₁ ∧ s₁.stage i = .answered a ∧
    s₁.stage k = .idle

/-! ### What should come of them -/

/-- `q` is this DID or its handle, or a URI with one of them. -/
def Designates (cfg : Config R) (names : Did → Option Key) (q : Key) (d : Did) : Prop :=
  ∃ name, target cfg q = .ok name ∧ (d = name ∨ names d = some name)

/-- The request is to write this record. -/
def Aims (cfg : Config R) (names : Did → Option Key) : Request R → Did → Key → Prop
  | .putRecord _ inp, d, p => Designates cfg names (inp.repo.getD []) d ∧
    ∃ c k, inp.collection = some c ∧ inp.rkey = some k ∧ p = pathOf c k
  | .createRecord _ inp tid, d, p => Designates cfg names (inp.repo.getD []) d ∧
    ∃ c, inp.collection = some c ∧ p = pathOf c (inp.rkey.getD tid)
  | .deleteRecord _ inp, d, p => Designates cfg names (inp.repo.getD []) d ∧
    ∃ c k, inp.collection = some c ∧ inp.rkey = some k ∧ p = pathOf c k
  | _, _, _ => False

/-- The request is to write this record, or to make the repo anew. -/
def Touches (cfg : Config R) (names : Did → Option Key) (q : Request R) (d : Did) (p : Key) : Prop :=
  Aims cfg names q d p ∨ ∃ handle, q = .newRepo d handle

/-- The accounts have these handles. -/
def Named (names : Did → Option Key) (A : Accounts R) : Prop := ∀ d a, A d = some a → a.handle = names d

/-- A new repo gets the handle of its DID. -/
def Fits (names : Did → Option Key) : Request R → Prop
  | .newRepo did handle => handle = names did
  | _ => True

/-- The reference server, one request after the other. One that writes may fail, and then does nothing, if there
is an excuse. -/
inductive Sequential (cfg : Config R) (out : Surroundings) (L : Lib C R) (req : Nat → Request R)
    (excuse : Nat → Prop) : Accounts R → List (Nat × Answer C R) → Accounts R → Prop
  | nil (A : Accounts R) : Sequential cfg out L req excuse A [] A
  | serves {A A' A'' : Accounts R} {i : Nat} {a : Answer C R} {l : List (Nat × Answer C R)}
      (h : Serves cfg out L A (req i) a A') (h' : Sequential cfg out L req excuse A' l A'') :
      Sequential cfg out L req excuse A ((i, a) :: l) A''
  | failed {A A'' : Accounts R} {i : Nat} {l : List (Nat × Answer C R)} (e : Err) (hs : Stores (req i))
      (he : excuse i) (h' : Sequential cfg out L req excuse A l A'') :
      Sequential cfg out L req excuse A ((i, .failed e) :: l) A''

/-- Why the request `i` may have failed: its commit was made to fail; sequence numbers have run out (util.py
268-273); a request that overlaps with it has written the same record, or made the repo anew. -/
def Excused (cfg : Config R) (out : Surroundings) (L : Lib C R) (req : Nat → Request R) (names : Did → Option Key)
    (s₀ : TState C R) (as : List TAct) (s : TState C R) (order : List (Nat × Answer C R)) (i : Nat) : Prop :=
  (∃ e, .fail i e ∈ as) ∨ (∃ n, lastSeq s.c.w.seqs subscribeRepos = some n ∧ 32 ^ 11 ≤ n) ∨
  ∃ k ans d p, k ≠ i ∧ (k, ans) ∈ order ∧ (∀ e, ans ≠ .failed e) ∧ Aims cfg names (req i) d p ∧
    Touches cfg names (req k) d p ∧ ¬ Precedes cfg out L req s₀ as i k ∧ ¬ Precedes cfg out L req s₀ as k i

end Arroba.Xrpc
