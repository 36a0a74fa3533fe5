import Verif.Storage.Import
import Verif.Mst.ExecProofs
import Mathlib.Logic.Relation

/-!
# Executions of the storage API, and what commits are supposed to do

`Step`/`Reach`: every history of API calls, with arbitrary arguments, failures and interleaved
cache writes. `specWrite`, `opOf`: the intended effect of a write on a plain map from paths to
records, and the operation it should be reported as.
-/

namespace Arroba.Store

variable {C R : Type} [DecidableEq C]

open Arroba.Tree

/-- What the theorems assume of the library functions: perfect hashing, the layer bound `Z` (128
for SHA-256), a recursion limit above it, and that `touch` only writes caches. -/
structure Lib.OK (L : Lib C R) (Z : Nat) : Prop where
  inj : Function.Injective L.hash
  zeros : ∀ k, L.zeros k ≤ Z
  fuel : Z + 2 ≤ L.fuel
  touch : ∀ rd n, Relation.ReflTransGen (Cached L.env rd L.fuel) n (L.touch rd n)

/-- A failed `_commit` of `MemoryStorage` left the tree of every live `Repo` object as it was. -/
def NotTorn (be : Backend) (w : World C R) (res : World C R × Except Err (CommitData C R)) : Prop :=
  be = .datastore ∨ (∃ cd, res.2 = .ok cd) ∨
    ∀ (r : Nat) (o : RepoObj C R), w.heap[r]? = some o → ∃ o' : RepoObj C R,
      res.1.heap[r]? = some o' ∧ o'.mst = o.mst

/-- Which unusual executions to include. -/
structure Allow where
  /-- failed commits that leave a modified tree behind in a live `Repo` object (`MemoryStorage`) -/
  torn : Prop
  /-- calls that stop in the middle, since the Datastore fails or the process is killed: after
  `write_blocks`, or before an event is written; and transactions that are retried -/
  partway : Prop
  /-- commits through `Repo` objects without a callback -/
  silent : Prop
  /-- callbacks that raise -/
  raising : Prop
  /-- imported repos -/
  imports : Prop

/-- Every unusual execution. -/
def Allow.all : Allow := ⟨True, True, True, True, True⟩

/-- All but torn trees. -/
def Allow.untorn : Allow := ⟨False, True, True, True, True⟩

/-- Nothing goes wrong after blocks have been written, all repos have working callbacks, and none is imported. -/
def Allow.orderly : Allow := ⟨False, False, False, False, False⟩

/-- The conditions on one commit. -/
structure Allowed (L : Lib C R) (be : Backend) (al : Allow) (w : World C R) (r : Ref)
    (writes : List (Write R)) (repoDid : Option Did) (xs : List Luck) (cbFails : Bool) : Prop where
  torn : al.torn ∨ NotTorn be w (commitTx L be r writes w.alloc.1 repoDid w.alloc.2 xs)
  partway : al.partway ∨ ∀ x ∈ xs, x.storeFails = false ∧ x.txFails = false
  silent : al.silent ∨ (w.heap[r]?).map (·.callback) = some true
  raising : al.raising ∨ cbFails = false

/-- A DID and not a handle. -/
def isDid (k : Key) : Prop := startsWith k "did:".toList = true

/-- One API call (whatever its outcome), or a cache write. A process that is killed is one whose
objects are not used again; what it has stored of a call that it didn't finish is a prefix of what
the call stores: `allocate` without what it is for, `setStatus` without the event, `importBlocks`
without the repo, a commit whose transaction isn't committed (`Luck.storeFails`), a new repo whose
first commit is stored but not the repo itself (a callback that raises), then some of its events. -/
inductive Step (L : Lib C R) (be : Backend) (al : Allow) : World C R → World C R → Prop
  | create {w} (did : Did) (handle : Option Key) (key : Nat) (callback : Bool) (time : Nat)
      (xs : List Luck) (cbFails : Bool) (hd : isDid did) (hh : ∀ h, handle = some h → ¬ isDid h)
      (hp : al.partway ∨ ∀ x ∈ xs, x.storeFails = false ∧ x.txFails = false)
      (hs : al.silent ∨ callback = true) (hr : al.raising ∨ cbFails = false) :
      Step L be al w (repoCreate L be w did handle key callback time xs cbFails).1
  | commit {w} (r : Ref) (writes : List (Write R)) (xs : List Luck) (cbFails : Bool)
      (h : Allowed L be al w r writes none xs cbFails) :
      Step L be al w (commit L be w r writes none xs cbFails).1
  | setCallback {w} (r : Ref) (b : Bool) :
      Step L be al w (w.modObj r (fun o => { o with callback := b }))
  | deactivate {w} (r : Ref) (time : Nat) : Step L be al w (deactivateRepo L be w r time).1
  | activate {w} (r : Ref) (time : Nat) : Step L be al w (activateRepo L be w r time).1
  | tombstone {w} (r : Ref) (time : Nat) : Step L be al w (tombstoneRepo L be w r time).1
  | allocate {w} (hp : al.partway) : Step L be al w w.alloc.2
  | setStatus {w} (r : Ref) (s : Option Status) (hp : al.partway) :
      Step L be al w (setRepoStatus be w r s).1
  | event {w} (r : Ref) (kind : EventKind C) (time : Nat) (hr : r < w.heap.length) :
      Step L be al w (writeEvent L be w r kind time).1
  | loadRepo {w} (q : Key) : Step L be al w (loadRepo be w q).1
  | repoLoad {w} (c : C) (handle : Option Key) (status : Option Status) (key : Nat)
      (callback : Bool) (hh : ∀ h, handle = some h → ¬ isDid h) :
      Step L be al w (repoLoad w c handle status key callback).1
  | cache {w} (r : Ref) (o : RepoObj C R) (n : Node C) (ho : w.heap[r]? = some o)
      (hn : Cached L.env w.rd L.fuel o.mst n) : Step L be al w (w.setObj r { o with mst := n })
  | «import» {w} (co : Commit C) (handle : Option Key) (key : Nat) (new : List (C × Val C R)) (hi : al.imports)
      (hnew : Whole L new) (hhead : (L.hash (.commit co), .commit co) ∈ new)
      (hno : (Store.loadRepo be w co.did).2 = .ok none) (hh : ∀ h, handle = some h → ¬ isDid h)
      (ha : Aliens L w new) (hnat : ∀ b, w.read (L.hash (.commit co)) = some b → b.seq = 0) :
      Step L be al w (importInto L be w co handle key new).1
  | importBlocks {w} (did : Did) (new : List (C × Val C R)) (hi : al.imports) (hp : al.partway)
      (hnew : Whole L new) (ha : Aliens L w new) :
      Step L be al w { w with blocks := importBlocks did w.blocks new }

/-- Worlds reachable from an empty storage. -/
inductive Reach (L : Lib C R) (be : Backend) (al : Allow) : World C R → Prop
  | empty : Reach L be al .empty
  | step {w w'} (h : Reach L be al w) (h' : Step L be al w w') : Reach L be al w'

/-! ### What writes are supposed to do -/

/-- A write's record must be present, valid, and at most 1,000,000 bytes. -/
def specRecord (L : Lib C R) (w : Write R) : Except Err R :=
  match w.record with
  | none => .error .assertion
  | some r =>
    if L.valid r = false then .error .value
    else if 1000000 < L.size r then .error .value
    else .ok r

/-- The intended effect of one write on the records of a repo. -/
def specWrite (L : Lib C R) (m : Key → Option R) (w : Write R) : Except Err (Key → Option R) :=
  match w.action with
  | .create =>
    match specRecord L w with
    | .error e => .error e
    | .ok r =>
      if validKey w.path = false then .error .value
      else if m w.path ≠ none then .error .value
      else .ok (Function.update m w.path (some r))
  | .update =>
    if m w.path = none then .error .value
    else match specRecord L w with
      | .error e => .error e
      | .ok r => .ok (Function.update m w.path (some r))
  | .delete =>
    if m w.path = none then .error .value
    else .ok (Function.update m w.path none)

/-- The intended effect of a list of writes, applied in order. -/
def specWrites (L : Lib C R) : (Key → Option R) → List (Write R) → Except Err (Key → Option R)
  | m, [] => .ok m
  | m, w :: ws =>
    match specWrite L m w with
    | .error e => .error e
    | .ok m' => specWrites L m' ws

/-- The CID of a record. -/
def Lib.rcid (L : Lib C R) (r : R) : C := L.hash (.record r)

/-- The operation a write should be reported as, given the records before it; none for an update
that changes nothing. -/
def opOf (L : Lib C R) (m : Key → Option R) (w : Write R) : List (CommitOp C) :=
  match w.action with
  | .create => [⟨.create, w.path, w.record.map L.rcid, none⟩]
  | .update =>
    if (m w.path).map L.rcid = w.record.map L.rcid then []
    else [⟨.update, w.path, w.record.map L.rcid, (m w.path).map L.rcid⟩]
  | .delete => [⟨.delete, w.path, none, (m w.path).map L.rcid⟩]

/-- The operations of a list of writes. -/
def opsOf (L : Lib C R) : (Key → Option R) → List (Write R) → List (CommitOp C)
  | _, [] => []
  | m, w :: ws =>
    match specWrite L m w with
    | .error _ => []
    | .ok m' => opOf L m w ++ opsOf L m' ws

end Arroba.Store
