import Verif.Storage.Exec

/-!
# Concurrent commits

`Model.lean` runs one API call at a time. Here any number of calls of `Storage.commit` for existing
repos run at the same time, in several threads or processes, against one Datastore; and, for
comparison, against one `MemoryStorage` in several threads of a process.

A call is cut into the steps between which other calls can change what is stored. The functions
that do the work (`applyWrites`, `buildCommit`, `allocate`) are those of `Model.lean`.

Simplifications:
* `applyWrites` and `buildCommit` each read the stored blocks at one moment, though in the code
  other calls may store blocks while they run. (Blocks are never removed, and what is stored under
  a CID never changes, so a read can only return the same block or nothing.)
* The `AtpRepo` transaction is optimistic: it commits only if the entity is still the one it read,
  otherwise it is retried or given up. Datastore may abort a transaction for any reason.
* A call may fail at any moment with any exception: this stands for `InactiveRepo`, failing RPCs,
  and transactions that have been retried too often.
* `Repo.create` and the caller's `Repo` object are left out; only what is stored matters here.
-/

namespace Arroba.Store

variable {C R : Type} [DecidableEq C]

/-- storage.py 495: the arguments of one call `commit(repo, writes)`, with `repo.did`. -/
structure Job (R : Type) where
  did : Did
  writes : List (Write R)

/-- storage.py 495-645, datastore_storage.py 875-890. How far a call of `commit` is, and its local
variables. `row` and `ver` are the `AtpRepo` entity that the transaction has read, and its
version. -/
inductive Pc (C R : Type) where
  /-- not called yet -/
  | start
  /-- has its sequence number, storage.py 513 -/
  | ready (seq : Nat)
  /-- has loaded the repo, storage.py 547-548 -/
  | loaded (seq : Nat) (row : Row C) (ver : Nat) (co : Commit C)
  /-- has applied the writes, storage.py 559-605 -/
  | applied (seq : Nat) (row : Row C) (ver : Nat) (st : LoopState C R)
  /-- has signed the commit, storage.py 607-627 -/
  | built (row : Row C) (ver : Nat) (cd : CommitData C R)
  /-- has asked which blocks exist already, datastore_storage.py 877-881 -/
  | queried (row : Row C) (ver : Nat) (cd : CommitData C R) (new : List (Block C R))
  /-- has written the others, datastore_storage.py 884 -/
  | written (row : Row C) (ver : Nat) (cd : CommitData C R)
  /-- the transaction has committed -/
  | done (cd : CommitData C R)
  /-- has raised an exception -/
  | failed (e : Err)

/-- datastore_storage.py 75-212. What is stored, the versions of the `AtpRepo` entities, where the
calls are, and which calls' transactions have committed, oldest first. -/
structure CState (C R : Type) where
  w : World C R
  ver : Did → Nat
  pc : Nat → Pc C R
  log : List (Nat × CommitData C R)

/-- storage.py 495: before any of the calls has begun. -/
def CState.init (w : World C R) : CState C R := ⟨w, fun _ => 0, fun _ => .start, []⟩

/-- storage.py 495-645. What happens next: a call takes its next step, its transaction is aborted
and will be retried, it raises an exception; or somebody changes a repo's status or writes an
event. -/
inductive Act (C : Type) where
  | step (i : Nat) (nonce : Nat)
  | abort (i : Nat)
  | fail (i : Nat) (e : Err)
  | setStatus (d : Did) (status : Option Status)
  | event (d : Did) (kind : EventKind C) (time : Nat)

/-- storage.py 495-645. A call has come to another place. -/
def CState.at (s : CState C R) (i : Nat) (p : Pc C R) : CState C R :=
  { s with pc := Function.update s.pc i p }

/-- datastore_storage.py 884: `put_multi`, which replaces what is there. -/
def overwrite (L : Lib C R) (blocks : List (C × Block C R)) (new : List (Block C R)) :
    List (C × Block C R) :=
  new.foldl (fun acc b => dictSet acc (L.hash b.val) b) blocks

/-- datastore_storage.py 877-883: the blocks that are not stored yet. -/
def missing (blocks : List (C × Block C R)) (bs : List (C × Block C R)) : List (Block C R) :=
  (bs.filter (fun cb => (dictGet blocks cb.1).isNone)).map (·.2)

/-- storage.py 495-645, datastore_storage.py 664-680, 720-731, 875-890. The next step of a call. -/
def stepCall (L : Lib C R) (job : Nat → Job R) (s : CState C R) (i nonce : Nat) :
    Option (CState C R) :=
  let d := (job i).did
  match s.pc i with
  | .start => some ({ s with w := s.w.alloc.2 }.at i (.ready s.w.alloc.1))
  | .ready seq =>
    match findRow s.w d with
    | none => some (s.at i (.failed .attribute))
    | some row =>
      match commitAt s.w row.head with
      | .error e => some (s.at i (.failed e))
      | .ok (_, co) => some (s.at i (.loaded seq row (s.ver d) co))
  | .loaded seq row ver co =>
    if maxOps < (job i).writes.length then some (s.at i (.failed .value))
    else match applyWrites L s.w.rd seq d ⟨load co.data, [], []⟩ (job i).writes with
      | .error (_, e) => some (s.at i (.failed e))
      | .ok st => some (s.at i (.applied seq row ver st))
  | .applied seq row ver st =>
    match buildCommit L s.w.rd st row.key nonce seq d (some row.head) with
    | .error e => some (s.at i (.failed e))
    | .ok cd => some (s.at i (.built row ver cd))
  | .built row ver cd => some (s.at i (.queried row ver cd (missing s.w.blocks cd.blocks)))
  | .queried row ver cd new =>
    some ({ s with w := { s.w with blocks := overwrite L s.w.blocks new } }.at i
      (.written row ver cd))
  | .written row ver cd =>
    if s.ver d = ver then
      some ({ s with
        w := { s.w with rows := dictSet s.w.rows d { row with head := L.hash cd.commit.val } }
        ver := Function.update s.ver d (ver + 1)
        log := s.log ++ [(i, cd)] }.at i (.done cd))
    else none
  | .done _ => none
  | .failed _ => none

/-- datastore_storage.py 886-890: an aborted transaction is retried with the same sequence
number. -/
def abortCall (s : CState C R) (i : Nat) : Option (CState C R) :=
  match s.pc i with
  | .loaded seq _ _ _ => some (s.at i (.ready seq))
  | .applied seq _ _ _ => some (s.at i (.ready seq))
  | .built _ _ cd => some (s.at i (.ready cd.commit.seq))
  | .queried _ _ cd _ => some (s.at i (.ready cd.commit.seq))
  | .written _ _ cd => some (s.at i (.ready cd.commit.seq))
  | _ => none

/-- storage.py 519-522. A call that has not returned raises an exception. -/
def failCall (s : CState C R) (i : Nat) (e : Err) : Option (CState C R) :=
  match s.pc i with
  | .done _ => none
  | .failed _ => none
  | _ => some (s.at i (.failed e))

/-- datastore_storage.py 705-718 `_set_repo_status`, a transaction. -/
def setStatusRow (s : CState C R) (d : Did) (status : Option Status) : Option (CState C R) :=
  match dictGet s.w.rows d with
  | none => none
  | some row => some { s with
      w := { s.w with rows := dictSet s.w.rows d { row with status := status } }
      ver := Function.update s.ver d (s.ver d + 1) }

/-- storage.py 456-484 `write_event`, datastore_storage.py 868-873. -/
def storeEvent (L : Lib C R) (s : CState C R) (d : Did) (kind : EventKind C) (time : Nat) :
    CState C R :=
  let seq := s.w.alloc.1
  let v : Val C R := .event ⟨kind, seq, d, time⟩
  { s with w := { s.w.alloc.2 with
      blocks := dictSetDefault s.w.blocks (L.hash v) ⟨v, seq, none, d⟩ } }

/-- storage.py 495-645, datastore_storage.py 705-890. One action; none if it is not possible. -/
def CState.act (L : Lib C R) (job : Nat → Job R) (s : CState C R) : Act C → Option (CState C R)
  | .step i nonce => stepCall L job s i nonce
  | .abort i => abortCall s i
  | .fail i e => failCall s i e
  | .setStatus d st => setStatusRow s d st
  | .event d k t => some (storeEvent L s d k t)

/-- storage.py 495-645, datastore_storage.py 705-890. A schedule: one action after the other. -/
def CState.run (L : Lib C R) (job : Nat → Job R) : CState C R → List (Act C) → Option (CState C R)
  | s, [] => some s
  | s, a :: as => (s.act L job a).bind (fun s' => CState.run L job s' as)

/-- datastore_storage.py 884-890. In this schedule, no call is aborted or fails once it has written its blocks. -/
def Tidy (L : Lib C R) (job : Nat → Job R) : CState C R → List (Act C) → Prop
  | _, [] => True
  | s, a :: as => (∀ i row ver cd, s.pc i = .written row ver cd → a ≠ .abort i ∧ ∀ e, a ≠ .fail i e) ∧
      ∀ s', s.act L job a = some s' → Tidy L job s' as

/-! ### Threads sharing a `MemoryStorage` -/

/-- storage.py 526-645. How far a call of `commit` is, for `MemoryStorage`; one write per commit. -/
inductive MPc (C R : Type) where
  | start
  /-- has read the head, storage.py 547-548 -/
  | begun (seq : Nat) (prev : C)
  /-- has computed the new tree from `repo.mst`, but not yet assigned it, storage.py 572, 592, 599 -/
  | computed (seq : Nat) (prev : C) (st : LoopState C R)
  /-- has assigned `repo.mst`, storage.py 572, 592, 599 -/
  | assigned (seq : Nat) (prev : C) (st : LoopState C R)
  | done (cd : CommitData C R)
  | failed (e : Err)

/-- storage.py 669-686. The storage, and where the calls are. All calls share the `Repo` object at
reference `r`, as `MemoryStorage.load_repo` returns the object itself. -/
structure MState (C R : Type) where
  w : World C R
  pc : Nat → MPc C R

/-- storage.py 495-645, 691-699, 741-743. The next step of a call: its first write is applied
to `repo.mst` as it is when the step is taken, and the blocks to be written are those of `repo.mst`
as it is at the end. -/
def stepMem (L : Lib C R) (r : Ref) (job : Nat → Job R) (s : MState C R) (i : Nat) :
    Option (MState C R) :=
  let goto (p : MPc C R) (w : World C R) : Option (MState C R) := some ⟨w, Function.update s.pc i p⟩
  match s.w.heap[r]? with
  | none => none
  | some o =>
    match s.pc i with
    | .start =>
      match o.head with
      | none => goto (.failed .attribute) s.w
      | some b => goto (.begun s.w.alloc.1 (L.hash b.val)) s.w.alloc.2
    | .begun seq prev =>
      match applyWrites L s.w.rd seq (job i).did ⟨o.mst, [], []⟩ ((job i).writes.take 1) with
      | .error (_, e) => goto (.failed e) s.w
      | .ok st => goto (.computed seq prev st) s.w
    | .computed seq prev st => goto (.assigned seq prev st) (s.w.setObj r { o with mst := st.mst })
    | .assigned seq prev st =>
      match buildCommit L s.w.rd { st with mst := o.mst } o.key 0 seq (job i).did (some prev) with
      | .error e => goto (.failed e) s.w
      | .ok cd =>
        let blocks := putBlocks L s.w.blocks (cd.blocks.map (·.2))
        goto (.done cd) ({ s.w with blocks := blocks }.setObj r { o with head := some cd.commit })
    | .done _ => none
    | .failed _ => none

/-- storage.py 495-645. A schedule of the threads. -/
def MState.run (L : Lib C R) (r : Ref) (job : Nat → Job R) :
    MState C R → List Nat → Option (MState C R)
  | s, [] => some s
  | s, i :: is => (stepMem L r job s i).bind (fun s' => MState.run L r job s' is)

end Arroba.Store
