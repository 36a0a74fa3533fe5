import Verif.Mst.Listing
import Verif.Util.Tid

/-!
# Model of `arroba/storage.py`, `arroba/repo.py` and the storage classes of
`arroba/datastore_storage.py`

A `World` is everything a process and its storage hold: the stored blocks, the sequence
numbers, the live `Repo` objects (a heap, since several Python references may denote the same
object), the repo tables of the two backends and the log of callback calls. Every API method is
a function from the world and its arguments to the new world and an outcome; the new world is
returned also when the method raises.

Parameters (`Lib`, trusted base): hashing, lexicon validation, encoded sizes, signing and the
cache writes of `mst.py`.

Simplifications common to all definitions:
* Decoded blocks are a disjoint union (`Val`): a record that is byte for byte an MST node, a
  commit or an event is out of scope. Records that merely carry an event's `$type`
  (`Lib.eventLike`) or exactly a commit's keys (`Lib.commitLike`) are in scope.
* `Block.time`, `Repo.created`, rotation keys, logging and PEM/Fernet encryption are left out.
* The Google Cloud Datastore is modelled by its documented contract: a get sees all earlier puts,
  and a transaction's puts are applied all at once or not at all. `@ndb.non_transactional`
  methods run outside the surrounding transaction.
-/

namespace Arroba.Store

variable {C R : Type}

abbrev Did := Key

/-- storage.py 35-42 `Action`. -/
inductive Action where
  | create | update | delete
  deriving DecidableEq, Repr

/-- storage.py 52-57 `CommitOp`. -/
structure CommitOp (C : Type) where
  action : Action
  path : Key
  cid : Option C
  prevCid : Option C
  deriving DecidableEq, Repr

/-- util.py 22-24: the inactive statuses. -/
inductive Status where
  | deactivated | deleted | tombstoned
  deriving DecidableEq, Repr

/-- storage.py 59-69: a commit object. -/
structure Commit (C : Type) where
  version : Nat
  did : Did
  rev : Key
  prev : Option C
  data : C
  sig : List Nat
  deriving DecidableEq, Repr

/-- The `type` and the keyword arguments of `write_event` (storage.py 256-308, repo.py
159-170). The CAR bytes of a `sync` event are represented by the CID of their only block. -/
inductive EventKind (C : Type) where
  | account (active : Bool) (status : Option Status)
  | identity (handle : Option Key)
  | sync (commit : C) (rev : Key)
  | tombstone
  deriving DecidableEq, Repr

/-- storage.py 473-479: an event object. -/
structure Event (C : Type) where
  kind : EventKind C
  seq : Nat
  did : Did
  time : Nat
  deriving DecidableEq, Repr

/-- storage.py 132-135. A decoded block. -/
inductive Val (C R : Type) where
  | node (d : NodeData C)
  | record (r : R)
  | commit (c : Commit C)
  | event (e : Event C)
  deriving DecidableEq

/-- storage.py 72-142 `Block` (the CID is `Lib.hash val`). -/
structure Block (C R : Type) where
  val : Val C R
  seq : Nat
  ops : Option (List (CommitOp C))
  repo : Did
  deriving DecidableEq

/-- repo.py 27-32 `Write`. -/
structure Write (R : Type) where
  action : Action
  collection : Key
  rkey : Key
  record : Option R

/-- storage.py 46-50 `CommitData`. -/
structure CommitData (C R : Type) where
  commit : Block C R
  blocks : List (C × Block C R)
  prev : Option C

/-- the imports of storage.py, repo.py and util.py. The library functions the storage code relies on. -/
structure Lib (C R : Type) where
  /-- `leading_zeros_on_hash` -/
  zeros : Key → Nat
  /-- `Block.cid`: SHA-256 of the DAG-CBOR encoding -/
  hash : Val C R → C
  /-- `server.validate(record['$type'], 'record', record)` does not raise -/
  valid : R → Bool
  /-- `len(block.encoded)` -/
  size : R → Nat
  /-- `record['$type']` starts with `com.atproto.sync.subscribeRepos#` -/
  eventLike : R → Bool
  /-- the record has exactly the keys of a commit -/
  commitLike : R → Bool
  /-- signature over an unsigned commit (`sig = []`); ECDSA is randomised by a nonce -/
  sign : Nat → Commit C → Nat → List Nat
  /-- recursion limit -/
  fuel : Nat
  /-- the in-place cache writes (`Cached`) a call leaves behind in the tree it worked on -/
  touch : (C → Option (NodeData C)) → Node C → Node C

/-- mst.py 952-977, 1078-1086. The hash environment of the MST code. -/
def Lib.env (L : Lib C R) : Env C := ⟨L.zeros, fun d => L.hash (.node d)⟩

/-- repo.py 35-98 `Repo`. `callback` says whether one is set. -/
structure RepoObj (C R : Type) where
  mst : Node C
  head : Option (Block C R)
  handle : Option Key
  status : Option Status
  key : Nat
  callback : Bool

/-- repo.py 100-103 `Repo.did`. -/
def RepoObj.did (o : RepoObj C R) : Option Did :=
  match o.head with
  | some ⟨.commit c, _, _, _⟩ => some c.did
  | _ => none

/-- datastore_storage.py 75-97 `AtpRepo` (at most one handle is ever stored). -/
structure Row (C : Type) where
  handle : Option Key
  head : C
  status : Option Status
  key : Nat
  deriving DecidableEq

/-- repo.py 49-54. Calls of `Repo.callback`. -/
inductive CbCall (C : Type) where
  | commit (cid : C) (seq : Nat)
  | event (e : Event C)
  | lost (seq : Nat)
  deriving DecidableEq

/-- repo.py 40. A reference to a `Repo` object. -/
abbrev Ref := Nat

/-- storage.py 669-686, datastore_storage.py 75-212: all state. -/
structure World (C R : Type) where
  blocks : List (C × Block C R)
  seqs : List (Key × Nat)
  heap : List (RepoObj C R)
  repos : List (Did × Ref)
  rows : List (Did × Row C)
  log : List (CbCall C)

/-- storage.py 669, datastore_storage.py 612. The two storage implementations. -/
inductive Backend where
  | memory | datastore
  deriving DecidableEq

/-- storage.py 679-686. -/
def World.empty : World C R := ⟨[], [], [], [], [], []⟩

/-! ### Sequence numbers -/

/-- storage.py 656-661 `MemorySequences.allocate`; datastore_storage.py 273-295
`DatastoreSequences.allocate` (one transaction, so atomic). -/
def allocate (s : List (Key × Nat)) (nsid : Key) : Nat × List (Key × Nat) :=
  let s := dictSetDefault s nsid 1
  let next := (dictGet s nsid).getD 1
  (next, dictSet s nsid (next + 1))

/-- storage.py 663-666 `MemorySequences.last`; datastore_storage.py 297-308. (A stored 0 would
be falsy; `allocate` never stores 0.) -/
def lastSeq (s : List (Key × Nat)) (nsid : Key) : Option Nat :=
  match dictGet s nsid with
  | some (n + 1) => some n
  | _ => none

/-- storage.py 23. -/
def subscribeRepos : Key := "com.atproto.sync.subscribeRepos".toList

/-- storage.py 516, 733-738. `self.sequences.allocate(SUBSCRIBE_REPOS_NSID)`. -/
def World.alloc (w : World C R) : Nat × World C R :=
  let r := allocate w.seqs subscribeRepos
  (r.1, { w with seqs := r.2 })

/-! ### Blocks -/

section
variable [DecidableEq C]

/-- storage.py 712-713 `MemoryStorage.read`; datastore_storage.py 732-737. -/
def World.read (w : World C R) (c : C) : Option (Block C R) := dictGet w.blocks c

/-- The node block stored under a CID, as `mst.py` reads it. -/
def nodeIn (blocks : List (C × Block C R)) (c : C) : Option (NodeData C) :=
  match dictGet blocks c with
  | some ⟨.node d, _, _, _⟩ => some d
  | _ => none

/-- storage.py 712-713. -/
def World.rd (w : World C R) : C → Option (NodeData C) := nodeIn w.blocks

/-- storage.py 741-743 `MemoryStorage.write_blocks`; datastore_storage.py 875-884 (existing
blocks are filtered out, then the new ones are put in one transaction). -/
def putBlocks (L : Lib C R) (blocks : List (C × Block C R)) (new : List (Block C R)) :
    List (C × Block C R) :=
  new.foldl (fun acc b => dictSetDefault acc (L.hash b.val) b) blocks

end

/-! ### Repo objects -/

/-- assignment to attributes of a `Repo`. -/
def World.setObj (w : World C R) (r : Ref) (o : RepoObj C R) : World C R :=
  { w with heap := w.heap.set r o }

/-- assignment to attributes of a `Repo`. -/
def World.modObj (w : World C R) (r : Ref) (f : RepoObj C R → RepoObj C R) : World C R :=
  match w.heap[r]? with
  | some o => w.setObj r (f o)
  | none => w

/-- repo.py 66-91: a new `Repo`. -/
def World.newObj (w : World C R) (o : RepoObj C R) : Ref × World C R :=
  (w.heap.length, { w with heap := w.heap ++ [o] })

/-- repo.py 46-47. -/
def World.status (w : World C R) (r : Ref) : Option Status := (w.heap[r]?).bind (·.status)

section
variable [DecidableEq C] (L : Lib C R)

/-- repo.py 191-193. The commit stored under a CID: `storage.read(cid).decoded` used as a commit. A
missing block is AttributeError, any other block KeyError. -/
def commitAt (w : World C R) (c : C) : Except Err (Block C R × Commit C) :=
  match w.read c with
  | none => .error .attribute
  | some b => match b.val with
    | .commit co => .ok (b, co)
    | _ => .error .key

/-- repo.py 178-195 `Repo.load` with a CID: a new object (no callback unless given). -/
def repoLoad (w : World C R) (c : C) (handle : Option Key) (status : Option Status) (key : Nat)
    (callback : Bool) : World C R × Except Err Ref :=
  match commitAt w c with
  | .error e => (w, .error e)
  | .ok (b, co) =>
    let r := w.newObj ⟨load co.data, some b, handle, status, key, callback⟩
    (r.2, .ok r.1)

/-- `did_or_handle in (repo.did, repo.handle)` (storage.py 695). -/
def answersTo (q : Key) (o : RepoObj C R) : Bool :=
  decide (o.did = some q) || decide (o.handle = some q)

/-- storage.py 691-696: the loop of `MemoryStorage.load_repo`. -/
def findRepo (w : World C R) (q : Key) : List (Did × Ref) → Option Ref
  | [] => none
  | (_, r) :: rest =>
    match w.heap[r]? with
    | some o => if answersTo q o then some r else findRepo w q rest
    | none => findRepo w q rest

/-- datastore_storage.py 667-668: by key, else by handle. -/
def findRow (w : World C R) (q : Key) : Option (Row C) :=
  match dictGet w.rows q with
  | some row => some row
  | none => (w.rows.find? (fun kv => decide (kv.2.handle = some q))).map (·.2)

/-- storage.py 691-696 and datastore_storage.py 664-680 `load_repo`. -/
def loadRepo (be : Backend) (w : World C R) (q : Key) : World C R × Except Err (Option Ref) :=
  if q = [] then (w, .error .assertion)
  else match be with
    | .memory => (w, .ok (findRepo w q w.repos))
    | .datastore =>
      match findRow w q with
      | none => (w, .ok none)
      | some row =>
        match repoLoad w row.head row.handle row.status row.key false with
        | (w', .ok r) => (w', .ok (some r))
        | (w', .error e) => (w', .error e)

/-- storage.py 698-699 `MemoryStorage.store_repo`; datastore_storage.py 720-730. -/
def storeRepo (be : Backend) (w : World C R) (r : Ref) : World C R × Except Err Unit :=
  match w.heap[r]? with
  | none => (w, .error .attribute)
  | some o =>
    match o.did, o.head with
    | some d, some b =>
      match be with
      | .memory => ({ w with repos := dictSet w.repos d r }, .ok ())
      | .datastore =>
        match dictGet w.rows d with
        | none => (w, .error .attribute)
        | some row =>
          ({ w with rows := dictSet w.rows d ⟨o.handle, L.hash b.val, o.status, row.key⟩ }, .ok ())
    | _, _ => (w, .error .attribute)

/-- storage.py 688-689 `MemoryStorage.create_repo`; datastore_storage.py 636-662. -/
def createRepo (be : Backend) (w : World C R) (r : Ref) : World C R × Except Err Unit :=
  match w.heap[r]? with
  | none => (w, .error .attribute)
  | some o =>
    match o.did, o.head with
    | some d, some b =>
      match be with
      | .memory => ({ w with repos := dictSet w.repos d r }, .ok ())
      | .datastore =>
        ({ w with rows := dictSet w.rows d ⟨o.handle, L.hash b.val, o.status, o.key⟩ }, .ok ())
    | _, _ => (w, .error .assertion)

/-! ### Commits -/

/-- storage.py 27, 30. -/
def maxRecordSize : Nat := 1000000
/-- storage.py 30. -/
def maxOps : Nat := 200

/-- storage.py 550-605. The local variables of the loop in `_commit`: `repo.mst`, `commit_blocks`,
`ops`. -/
structure LoopState (C R : Type) where
  mst : Node C
  blocks : List (C × Block C R)
  ops : List (CommitOp C)

/-- storage.py 550-605. Attaches the tree that `repo.mst` holds when an exception is raised. -/
def atTree {α : Type} (n : Node C) : Except Err α → Except (Node C × Err) α
  | .ok a => .ok a
  | .error e => .error (n, e)

/-- storage.py 561: `f'{write.collection}/{write.rkey}'`. -/
def Write.path (w : Write R) : Key := w.collection ++ '/' :: w.rkey

section
variable (rd : C → Option (NodeData C))

/-- storage.py 565-568. -/
def prevCidOf (n : Node C) (w : Write R) : Except Err (Option C) :=
  match w.action with
  | .create => .ok none
  | _ => do
    match ← get L.env rd L.fuel n w.path with
    | some c => .ok (some c)
    | none => .error .value

/-- storage.py 578-584: the record to be written. -/
def checkedRecord (w : Write R) : Except Err R :=
  match w.record with
  | none => .error .assertion
  | some r => do
    ensure (L.valid r = true) .value
    ensure (L.size r ≤ maxRecordSize) .value
    .ok r

/-- storage.py 559-605: one round of the loop. -/
def applyWrite (seq : Nat) (did : Did) (st : LoopState C R) (w : Write R) :
    Except (Node C × Err) (LoopState C R) := do
  let prev ← atTree st.mst (prevCidOf L rd st.mst w)
  match w.action with
  | .delete => do
    let n ← atTree st.mst (delete L.env rd L.fuel st.mst w.path)
    .ok ⟨L.touch rd n, st.blocks, st.ops ++ [⟨.delete, w.path, none, prev⟩]⟩
  | .create => do
    let r ← atTree st.mst (checkedRecord L w)
    let cid := L.hash (.record r)
    let blocks := dictSet st.blocks cid ⟨.record r, seq, none, did⟩
    let n ← atTree st.mst (add L.env rd L.fuel st.mst w.path cid none)
    .ok ⟨L.touch rd n, blocks, st.ops ++ [⟨.create, w.path, some cid, prev⟩]⟩
  | .update => do
    let r ← atTree st.mst (checkedRecord L w)
    let cid := L.hash (.record r)
    let blocks := dictSet st.blocks cid ⟨.record r, seq, none, did⟩
    let p ← atTree st.mst (getPointer L.env rd L.fuel st.mst)
    let n ← atTree st.mst (update L.env rd L.fuel st.mst w.path cid)
    let p' ← atTree n (getPointer L.env rd L.fuel n)
    .ok ⟨L.touch rd n, blocks,
      if p' = p then st.ops else st.ops ++ [⟨.update, w.path, some cid, prev⟩]⟩

/-- storage.py 558-605: the loop. -/
def applyWrites (seq : Nat) (did : Did) :
    LoopState C R → List (Write R) → Except (Node C × Err) (LoopState C R)
  | st, [] => .ok st
  | st, w :: ws => do
    let st' ← applyWrite L rd seq did st w
    applyWrites seq did st' ws

/-- storage.py 607-613: the MST blocks to be written, as `Block`s. -/
def mstBlocks (seq : Nat) (did : Did) (bl : List (C × NodeData C)) : List (C × Block C R) :=
  bl.map (fun cd => (cd.1, ⟨.node cd.2, seq, none, did⟩))

/-- storage.py 615-624: the commit object before and after signing. `int_to_tid` never uses the
runtime clock id here. -/
def signedCommit (key : Nat) (nonce : Nat) (did : Did) (seq : Nat) (prev : Option C) (data : C) :
    Except Err (Commit C) := do
  let rev ← Tid.intToTid 0 seq (some 0)
  let unsigned : Commit C := ⟨3, did, rev, prev, data, []⟩
  .ok { unsigned with sig := L.sign key unsigned nonce }

/-- storage.py 607-627: the commit block and all blocks of the commit. -/
def buildCommit (st : LoopState C R) (key nonce seq : Nat) (did : Did) (prev : Option C) :
    Except Err (CommitData C R) := do
  let u ← getUnstoredBlocks L.env rd L.fuel st.mst
  let co ← signedCommit L key nonce did seq prev u.1
  let cb : Block C R := ⟨.commit co, seq, some st.ops, did⟩
  let blocks := dictSet (dictUpdate st.blocks (mstBlocks seq did u.2)) (L.hash cb.val) cb
  .ok ⟨cb, blocks, prev⟩

end

/-- storage.py 526-645, datastore_storage.py 720-731, 877-890. Failures of the outside world during
one attempt of `_commit`, and the nonce used for signing: signing fails, `write_blocks` fails,
`store_repo` fails, the transaction is aborted and retried. The last three only concern the
Datastore. -/
structure Luck where
  nonce : Nat := 0
  signFails : Bool := false
  writeFails : Bool := false
  storeFails : Bool := false
  txFails : Bool := false

/-- storage.py 532-548: which object is committed to, its DID, and `prev`. -/
def beginCommit (be : Backend) (w : World C R) (r : Ref) (o : RepoObj C R)
    (repoDid : Option Did) : World C R × Except Err (Ref × Did × Option C) :=
  match repoDid with
  | some d =>
    match o.head with
    | none => (w, .ok (r, d, none))
    | some b =>
      match b.val with
      | .commit co =>
        if co.did = d ∧ co.prev = none then
          (w.setObj r { o with head := none }, .ok (r, d, none))
        else (w, .error .assertion)
      | _ => (w, .error .assertion)
  | none =>
    match o.did with
    | none => (w, .error .assertion)
    | some d =>
      match loadRepo be w d with
      | (w', .error e) => (w', .error e)
      | (w', .ok none) => (w', .error .attribute)
      | (w', .ok (some s)) =>
        match (w'.heap[s]?).bind (·.head) with
        | some b => (w', .ok (s, d, some (L.hash b.val)))
        | none => (w', .error .attribute)

/-- storage.py 629-644: writing the blocks, updating the stored head and the caller's object. -/
def finishCommit (be : Backend) (w : World C R) (r s : Ref) (mst : Node C) (existing : Bool)
    (cd : CommitData C R) (x : Luck) : World C R × Except Err (CommitData C R) :=
  if be = .datastore ∧ x.writeFails then (w, .error .runtime)
  else
    let w := { w with blocks := putBlocks L w.blocks (cd.blocks.map (·.2)) }
    let done (w : World C R) : World C R × Except Err (CommitData C R) :=
      (w.modObj r (fun o => { o with mst := mst, head := some cd.commit }), .ok cd)
    if existing then
      let w := w.modObj s (fun o => { o with head := some cd.commit })
      if be = .datastore ∧ x.storeFails then (w, .error .runtime)
      else match storeRepo L be w s with
        | (w, .error e) => (w, .error e)
        | (w, .ok ()) => done w
    else done w

/-- storage.py 526-644 `Storage._commit`: one attempt. -/
def commitBody (be : Backend) (w : World C R) (r : Ref) (writes : List (Write R)) (seq : Nat)
    (repoDid : Option Did) (x : Luck) : World C R × Except Err (CommitData C R) :=
  match w.heap[r]? with
  | none => (w, .error .attribute)
  | some o =>
    if seq = 0 then (w, .error .assertion)
    else if o.status ≠ none then (w, .error .inactive)
    else match beginCommit L be w r o repoDid with
      | (w, .error e) => (w, .error e)
      | (w, .ok (s, did, prev)) =>
        match w.heap[s]? with
        | none => (w, .error .attribute)
        | some so =>
          if maxOps < writes.length then (w, .error .value)
          else match applyWrites L w.rd seq did ⟨so.mst, [], []⟩ writes with
            | .error (n, e) => (w.setObj s { so with mst := n }, .error e)
            | .ok st =>
              let rd := w.rd
              let mst := L.touch rd st.mst
              let w := w.setObj s { so with mst := mst }
              if x.signFails then (w, .error .attribute)
              else match buildCommit L rd st so.key x.nonce seq did prev with
                | .error e => (w, .error e)
                | .ok cd => finishCommit L be w r s mst so.did.isSome cd x

/-- storage.py 526-645. Drops the objects allocated since `w₀`: the object that `_commit` loads is
local to it. -/
def World.collect (w w₀ : World C R) : World C R := { w with heap := w.heap.take w₀.heap.length }

/-- datastore_storage.py 886-890 `DatastoreStorage._commit`: `Storage._commit` in a transaction
that is retried when it fails to commit, or when a call of the Datastore in it has failed (ndb
retries transient errors); one `Luck` per attempt. The transaction covers the `AtpRepo` entities
only, since `read*`, `write*` and `has` are `non_transactional`. For `MemoryStorage` there is one
attempt and no transaction. -/
def commitTx (be : Backend) (r : Ref) (writes : List (Write R)) (seq : Nat)
    (repoDid : Option Did) : World C R → List Luck → World C R × Except Err (CommitData C R)
  | w, [] => (w, .error .runtime)
  | w, x :: xs =>
    match commitBody L be w r writes seq repoDid x with
    | (w', .error e) =>
      if be = .datastore ∧ x.txFails ∧ e = .runtime then
        commitTx be r writes seq repoDid { w'.collect w with rows := w.rows } xs
      else ({ w'.collect w with rows := w.rows }, .error e)
    | (w', .ok cd) =>
      if be = .datastore ∧ x.txFails then
        commitTx be r writes seq repoDid { w'.collect w with rows := w.rows } xs
      else (w'.collect w, .ok cd)

/-- storage.py 516-523: `if repo.callback`. -/
def World.logIf (w : World C R) (b : Bool) (c : CbCall C) : World C R :=
  if b then { w with log := w.log ++ [c] } else w

/-- storage.py 495-524 `Storage.commit`; `cbFails`: the callback raises when it is given the
commit. -/
def commit (be : Backend) (w : World C R) (r : Ref) (writes : List (Write R))
    (repoDid : Option Did) (xs : List Luck) (cbFails : Bool) :
    World C R × Except Err (CommitData C R) :=
  let a := w.alloc
  let seq := a.1
  let cb := ((w.heap[r]?).map (·.callback)).getD false
  match commitTx L be r writes seq repoDid a.2 xs with
  | (w, .error e) => (w.logIf cb (.lost seq), .error e)
  | (w, .ok cd) =>
    let w := w.logIf cb (.commit (L.hash cd.commit.val) seq)
    if cb && cbFails then (w.logIf cb (.lost seq), .error .runtime)
    else (w, .ok cd)

/-! ### Events, account status, creating repos -/

/-- storage.py 733-739 `MemoryStorage.write`; datastore_storage.py 154-179, 868-873. With an
explicit sequence number; the Datastore returns the stored entity. -/
def write (be : Backend) (w : World C R) (did : Did) (v : Val C R) (seq : Nat) :
    World C R × Except Err (Block C R) :=
  let b : Block C R := ⟨v, seq, none, did⟩
  match be with
  | .memory => ({ w with blocks := dictSetDefault w.blocks (L.hash v) b }, .ok b)
  | .datastore =>
    if seq = 0 then (w, .error .assertion)
    else
      let w' := { w with blocks := dictSetDefault w.blocks (L.hash v) b }
      match dictGet w'.blocks (L.hash v) with
      | none => (w', .error .attribute)     -- unreachable
      | some b' => if b'.seq ≤ seq then (w', .ok b') else (w', .error .assertion)

/-- storage.py 456-483 `Storage.write_event`. -/
def writeEvent (be : Backend) (w : World C R) (r : Ref) (kind : EventKind C) (time : Nat) :
    World C R × Except Err (Block C R) :=
  let a := w.alloc
  match w.heap[r]? with
  | none => (a.2, .error .attribute)
  | some o =>
    match o.did with
    | none => (a.2, .error .attribute)
    | some d =>
      let e : Event C := ⟨kind, a.1, d, time⟩
      match write L be a.2 d (.event e) a.1 with
      | (w, .error err) => (w, .error err)
      | (w, .ok b) => (w.logIf o.callback (.event e), .ok b)

/-- storage.py 709-710 `MemoryStorage._set_repo_status`; datastore_storage.py 707-718. -/
def setRepoStatus (be : Backend) (w : World C R) (r : Ref) (s : Option Status) :
    World C R × Except Err Unit :=
  match w.heap[r]? with
  | none => (w, .error .attribute)
  | some o =>
    let w := w.setObj r { o with status := s }
    match be with
    | .memory => (w, .ok ())
    | .datastore =>
      match o.did with
      | none => (w, .error .attribute)
      | some d =>
        match dictGet w.rows d with
        | none => (w, .error .attribute)
        | some row => ({ w with rows := dictSet w.rows d { row with status := s } }, .ok ())

/-- storage.py 256-308: set the status, then write the event. -/
def setStatusEvent (be : Backend) (w : World C R) (r : Ref) (s : Option Status)
    (kind : EventKind C) (time : Nat) : World C R × Except Err Unit :=
  match setRepoStatus be w r s with
  | (w, .error e) => (w, .error e)
  | (w, .ok ()) =>
    match writeEvent L be w r kind time with
    | (w, .error e) => (w, .error e)
    | (w, .ok _) => (w, .ok ())

/-- storage.py 256-273. -/
def deactivateRepo (be : Backend) (w : World C R) (r : Ref) (time : Nat) :=
  setStatusEvent L be w r (some .deactivated) (.account false (some .deactivated)) time

/-- storage.py 275-290. -/
def activateRepo (be : Backend) (w : World C R) (r : Ref) (time : Nat) :=
  setStatusEvent L be w r none (.account true none) time

/-- storage.py 292-308. -/
def tombstoneRepo (be : Backend) (w : World C R) (r : Ref) (time : Nat) :=
  setStatusEvent L be w r (some .tombstoned) .tombstone time

/-- repo.py 159-170: the events of a new repo. -/
def writeEvents (be : Backend) (r : Ref) (time : Nat) :
    World C R → List (EventKind C) → World C R × Except Err Unit
  | w, [] => (w, .ok ())
  | w, k :: ks =>
    match writeEvent L be w r k time with
    | (w, .error e) => (w, .error e)
    | (w, .ok _) => writeEvents be r time w ks

/-- repo.py 139-176 `Repo.create`. When it raises, the new `Repo` object is garbage
(`World.collect`). -/
def repoCreate (be : Backend) (w : World C R) (did : Did) (handle : Option Key) (key : Nat)
    (callback : Bool) (time : Nat) (xs : List Luck) (cbFails : Bool) :
    World C R × Except Err Ref :=
  match create L.env w.rd L.fuel [] none with
  | .error e => (w, .error e)
  | .ok root =>
    let a := w.newObj ⟨root, none, handle, none, key, callback⟩
    let r := a.1
    match commit L be a.2 r [] (some did) xs cbFails with
    | (w', .error e) => (w'.collect w, .error e)
    | (w', .ok cd) =>
      match cd.commit.val with
      | .commit co =>
        match writeEvents L be r time w'
            [.identity handle, .account true none, .sync (L.hash cd.commit.val) co.rev] with
        | (w', .error e) => (w'.collect w, .error e)
        | (w', .ok ()) =>
          match createRepo L be w' r with
          | (w', .error e) => (w'.collect w, .error e)
          | (w', .ok ()) => (w'.logIf callback (.commit (L.hash cd.commit.val) cd.commit.seq), .ok r)
      | _ => (w'.collect w, .error .attribute)     -- unreachable

/-! ### Reading records -/

/-- repo.py 110-122 `Repo.get_record`. -/
def getRecord (w : World C R) (o : RepoObj C R) (collection rkey : Key) :
    Except Err (Option (Val C R)) := do
  match ← get L.env w.rd L.fuel o.mst (collection ++ '/' :: rkey) with
  | none => .ok none
  | some c =>
    match w.read c with
    | none => .error .attribute
    | some b => .ok (some b.val)

/-- repo.py 133-135: one round of the loop of `get_contents`. `entry.key.split('/', 2)` must
give two parts. -/
def addContent (w : World C R) (acc : List (Key × List (Key × Val C R))) (kv : Key × C) :
    Except Err (List (Key × List (Key × Val C R))) :=
  match pySplit '/' kv.1 with
  | [collection, rkey] =>
    match w.read kv.2 with
    | none => .error .attribute
    | some b => .ok (dictSet acc collection
        (dictSet ((dictGet acc collection).getD []) rkey b.val))
  | _ => .error .value

/-- repo.py 132-137: the loop. -/
def addContents (w : World C R) :
    List (Key × List (Key × Val C R)) → List (Key × C) →
      Except Err (List (Key × List (Key × Val C R)))
  | acc, [] => .ok acc
  | acc, kv :: kvs => do
    let acc' ← addContent w acc kv
    addContents w acc' kvs

/-- repo.py 124-137 `Repo.get_contents`. -/
def getContents (w : World C R) (o : RepoObj C R) :
    Except Err (List (Key × List (Key × Val C R))) := do
  let entries ← list L.env w.rd L.fuel o.mst none none
  addContents w [] entries

end

end Arroba.Store
