import Verif.Storage.Model
import Verif.Util.AtUri

/-!
# Model of `arroba/server.py` and the XRPC handlers on records and repos

A handler gets the world, the decoded input or query parameters and the request's Authorization
header. It returns the new world, also when it raises. XrpcErrors are `Err.xrpc` with their name.

Simplifications: the lexicon validation of requests and responses that lexrpc does around the handlers
is left out (the handlers are modelled for all inputs, also those that it refuses), and the round trip
of responses through DAG-JSON is the identity. A method that the storage class doesn't transact runs
in one step; `putRecord` is also given in two, since other requests may run between its two halves.
-/

namespace Arroba.Xrpc

open Arroba.Store

variable {C R : Type} [DecidableEq C]

/-- server.py, xrpc_repo.py 23-27. The environment of the server. -/
structure Config (R : Type) where
  /-- `REPO_TOKEN` -/
  token : Option Key
  /-- flask could be imported (server.py 7-10) -/
  flask : Bool
  /-- `SUPPORTED_COLLECTIONS` (xrpc_repo.py 23-25) -/
  supported : List Key
  /-- see `AtUri.urlparseAt` -/
  netlocOk : Key → Bool
  /-- the record is `{}` -/
  empty : R → Bool
  /-- `record.get('$type')` -/
  typ : R → Option Key

/-- xrpc_repo.py 30-43. A JSON string that is missing or null, or empty, is falsy. -/
def truthy : Option Key → Bool
  | some (_ :: _) => true
  | _ => false

/-- server.py 22-29 `auth`; `header` is the Authorization header. -/
def auth (cfg : Config R) (header : Option Key) : Except Err Unit :=
  if truthy cfg.token = false then .error .notImpl
  else if cfg.flask ∧ header ≠ some ("Bearer ".toList ++ cfg.token.getD []) then .error .value
  else .ok ()

/-- server.py 33-36: the DID or handle that is meant. -/
def target (cfg : Config R) (q : Key) : Except Err Key :=
  if startsWith q AtUri.scheme then
    match AtUri.parseAtUri cfg.netlocOk q with
    | .ok (host, _, _) => .ok host
    | .error e => .error e
  else .ok q

/-- server.py 32-45 `load_repo`. -/
def load (cfg : Config R) (be : Backend) (w : World C R) (q : Key) : World C R × Except Err Ref :=
  match target cfg q with
  | .error e => (w, .error e)
  | .ok name =>
    match loadRepo be w name with
    | (w, .error e) => (w, .error e)
    | (w, .ok none) => (w, .error (.xrpc "RepoNotFound"))
    | (w, .ok (some r)) =>
      match w.heap[r]? with
      | none => (w, .error .attribute)
      | some o => if o.status ≠ none then (w, .error (.xrpc "RepoDeactivated")) else (w, .ok r)

/-- xrpc_repo.py 30-190. The JSON input of the methods that write. -/
structure Input (R : Type) where
  repo : Option Key
  collection : Option Key
  rkey : Option Key
  record : Option R
  /-- `swapCommit` or `swapRecord` is given, and not falsy -/
  swap : Bool

/-- xrpc_repo.py 40-42, for one collection. -/
def unsupported (cfg : Config R) (coll : Option Key) : Prop :=
  truthy coll = true ∧ cfg.supported ≠ [] ∧ coll.getD [] ∉ cfg.supported

instance (cfg : Config R) (coll : Option Key) : Decidable (unsupported cfg coll) :=
  inferInstanceAs (Decidable (_ ∧ _ ∧ _))

/-- xrpc_repo.py 30-42 `validate`. -/
def validate (cfg : Config R) (inp : Input R) (collection : Option Key) : Except Err Unit :=
  if inp.swap then .error .value
  else if truthy inp.repo = false then .error .value
  else if unsupported cfg collection then .error .value
  else if unsupported cfg inp.collection then .error .value
  else .ok ()

/-- xrpc_repo.py 46-166. The result of a write: `uri` and `cid`. -/
structure Written (C : Type) where
  uri : Key
  cid : C
  deriving DecidableEq

/-- xrpc_repo.py 30-43. `input[...]` of a field. -/
def field {α : Type} : Option α → Except Err α
  | some a => .ok a
  | none => .error .key

/-- xrpc_repo.py 148-152: the first half of `put_record`: the repo, and the existing record. -/
def putRead (cfg : Config R) (L : Lib C R) (be : Backend) (w : World C R) (header : Option Key)
    (inp : Input R) : World C R × Except Err (Ref × Option (Val C R)) :=
  match validate cfg inp none, auth cfg header, field inp.repo with
  | .error e, _, _ => (w, .error e)
  | .ok (), .error e, _ => (w, .error e)
  | .ok (), .ok (), .error e => (w, .error e)
  | .ok (), .ok (), .ok q =>
    match load cfg be w q with
    | (w, .error e) => (w, .error e)
    | (w, .ok r) =>
      match field inp.collection, field inp.rkey, w.heap[r]? with
      | .ok collection, .ok rkey, some o =>
        match getRecord L w o collection rkey with
        | .error e => (w, .error e)
        | .ok existing => (w, .ok (r, existing))
      | .error e, _, _ => (w, .error e)
      | _, .error e, _ => (w, .error e)
      | _, _, none => (w, .error .attribute)

/-- xrpc_repo.py 154-164: the second half of `put_record`. -/
def putCommit (L : Lib C R) (be : Backend) (w : World C R) (r : Ref) (existing : Option (Val C R))
    (inp : Input R) (xs : List Luck) (cbFails : Bool) : World C R × Except Err (Written C) :=
  match field inp.collection, field inp.rkey, field inp.record with
  | .ok collection, .ok rkey, .ok record =>
    match commit L be w r
        [⟨if existing.isNone then .create else .update, collection, rkey, some record⟩]
        none xs cbFails with
    | (w, .error e) => (w, .error e)
    | (w, .ok _) =>
      match (w.heap[r]?).bind (·.did) with
      | none => (w, .error .assertion)
      | some did =>
        match AtUri.atUri did collection rkey with
        | .error e => (w, .error e)
        | .ok uri => (w, .ok ⟨uri, L.hash (.record record)⟩)
  | .error e, _, _ => (w, .error e)
  | _, .error e, _ => (w, .error e)
  | _, _, .error e => (w, .error e)

/-- xrpc_repo.py 145-164 `put_record`. -/
def putRecord (cfg : Config R) (L : Lib C R) (be : Backend) (w : World C R) (header : Option Key)
    (inp : Input R) (xs : List Luck) (cbFails : Bool) : World C R × Except Err (Written C) :=
  match putRead cfg L be w header inp with
  | (w, .error e) => (w, .error e)
  | (w, .ok (r, existing)) => putCommit L be w r existing inp xs cbFails

/-- xrpc_repo.py 45-55 `create_record`; `tid` is `next_tid()`. -/
def createRecord (cfg : Config R) (L : Lib C R) (be : Backend) (w : World C R) (header : Option Key)
    (inp : Input R) (tid : Key) (xs : List Luck) (cbFails : Bool) :
    World C R × Except Err (Written C) :=
  let coll := if truthy inp.collection then inp.collection else inp.record.bind cfg.typ
  match validate cfg inp coll, auth cfg header, field inp.repo with
  | .error e, _, _ => (w, .error e)
  | .ok (), .error e, _ => (w, .error e)
  | .ok (), .ok (), .error e => (w, .error e)
  | .ok (), .ok (), .ok q =>
    match load cfg be w q with
    | (w, .error e) => (w, .error e)
    | (w, .ok _) =>
      putRecord cfg L be w header { inp with rkey := some (inp.rkey.getD tid) } xs cbFails

/-- xrpc_repo.py 59-143. A record in a response: `uri`, `cid` and `value`. -/
structure Found (C R : Type) where
  uri : Key
  cid : C
  value : Val C R
  deriving DecidableEq

/-- `not record` (xrpc_repo.py 68). -/
def falsy (cfg : Config R) : Option (Val C R) → Bool
  | none => true
  | some (.record r) => cfg.empty r
  | some _ => false

/-- xrpc_repo.py 58-75 `get_record`. All parameters are in `input` as well (line 62); `cid` says whether
one is given. -/
def getRecord (cfg : Config R) (L : Lib C R) (be : Backend) (w : World C R)
    (repo collection rkey : Key) (cid : Bool) : World C R × Except Err (Found C R) :=
  match validate cfg ⟨some repo, some collection, some rkey, none, false⟩ none with
  | .error e => (w, .error e)
  | .ok () =>
    if cid then (w, .error .value)
    else match load cfg be w repo with
      | (w, .error e) => (w, .error e)
      | (w, .ok r) =>
        match w.heap[r]? with
        | none => (w, .error .attribute)
        | some o =>
          match Store.getRecord L w o collection rkey with
          | .error e => (w, .error e)
          | .ok record =>
            if falsy cfg record then (w, .error (.xrpc "RecordNotFound"))
            else match record, o.did with
              | some v, some did =>
                match AtUri.atUri did collection rkey with
                | .error e => (w, .error e)
                | .ok uri => (w, .ok ⟨uri, L.hash v, v⟩)
              | _, _ => (w, .error .assertion)

/-- xrpc_repo.py 78-93 `delete_record`. -/
def deleteRecord (cfg : Config R) (L : Lib C R) (be : Backend) (w : World C R) (header : Option Key)
    (inp : Input R) (xs : List Luck) (cbFails : Bool) : World C R × Except Err Unit :=
  match putRead cfg L be w header inp with
  | (w, .error e) => (w, .error e)
  | (w, .ok (r, existing)) =>
    match existing, inp.collection, inp.rkey with
    | some _, some collection, some rkey =>
      match commit L be w r [⟨.delete, collection, rkey, none⟩] none xs cbFails with
      | (w, .error e) => (w, .error e)
      | (w, .ok _) => (w, .ok ())
    | _, _, _ => (w, .ok ())

/-- xrpc_repo.py 247-252 `apply_writes`: a 501 response. -/
def applyWrites (cfg : Config R) (w : World C R) (header : Option Key) (inp : Input R) :
    World C R × Except Err Nat :=
  match validate cfg inp none, auth cfg header with
  | .error e, _ => (w, .error e)
  | .ok (), .error e => (w, .error e)
  | .ok (), .ok () => (w, .ok 501)

/-- xrpc_repo.py 255-261 `upload_blob`: `validate({})`, then as above. -/
def uploadBlob (cfg : Config R) (w : World C R) (header : Option Key) : World C R × Except Err Nat :=
  applyWrites cfg w header ⟨none, none, none, none, false⟩

/-- xrpc_repo.py 121-125: the entries of a page. -/
def pageEntries (L : Lib C R) (w : World C R) (o : RepoObj C R) (collection : Key) (limit : Nat)
    (cursor : Option Key) : Except Err (List (Key × C)) :=
  let start := if truthy cursor then cursor.getD [] else collection ++ ['/']
  (pageLazy L.env w.rd L.fuel o.mst (collection ++ ['/']) limit start).result

/-- xrpc_repo.py 126-136: one record of the page. -/
def pageRecord (L : Lib C R) (w : World C R) (did : Did) (kv : Key × C) : Except Err (Found C R) :=
  match w.read kv.2 with
  | none => .error .attribute
  | some b =>
    match pySplit '/' kv.1 with
    | [collection, rkey] => do
      let uri ← AtUri.atUri did collection rkey
      .ok ⟨uri, L.hash b.val, b.val⟩
    | _ => .error .value

/-- xrpc_repo.py 97-143. A page of `listRecords`. -/
structure Page (α : Type) where
  items : List α
  cursor : Option Key
  deriving DecidableEq

/-- xrpc_repo.py 96-142 `list_records` (without `reverse`, `rkeyStart` and `rkeyEnd`, which raise
ValueError). `limit` isn't negative. -/
def listRecords (cfg : Config R) (L : Lib C R) (be : Backend) (w : World C R)
    (repo collection : Key) (limit : Nat) (cursor : Option Key) :
    World C R × Except Err (Page (Found C R)) :=
  if cfg.supported ≠ [] ∧ collection ∉ cfg.supported then (w, .ok ⟨[], none⟩)
  else match validate cfg ⟨some repo, some collection, none, none, false⟩ none with
    | .error e => (w, .error e)
    | .ok () =>
      if collection = [] then (w, .error .value)
      else match load cfg be w repo with
        | (w, .error e) => (w, .error e)
        | (w, .ok r) =>
          match w.heap[r]? with
          | none => (w, .error .attribute)
          | some o =>
            match o.did with
            | none => (w, .error .assertion)
            | some did => (w, do
              let entries ← pageEntries L w o collection limit cursor
              let records ← entries.mapM (pageRecord L w did)
              if entries.length = limit then
                match entries.getLast? with
                | none => .error .index
                | some e => .ok ⟨records, some e.1⟩
              else .ok ⟨records, none⟩)

/-- xrpc_repo.py 167-189 `describe_repo`: the collections. The DID document is a parameter: whether it
could be resolved. -/
def describeRepo (cfg : Config R) (L : Lib C R) (be : Backend) (w : World C R) (repo : Key)
    (sorted : List Key → List Key) (resolves : Did → Bool) :
    World C R × Except Err (Did × Option Key × List Key) :=
  match validate cfg ⟨some repo, none, none, none, false⟩ none with
  | .error e => (w, .error e)
  | .ok () =>
    match load cfg be w repo with
    | (w, .error e) => (w, .error e)
    | (w, .ok r) =>
      match w.heap[r]? with
      | none => (w, .error .attribute)
      | some o =>
        match o.did with
        | none => (w, .error .attribute)
        | some did =>
          if resolves did = false then (w, .error .value)
          else if cfg.supported ≠ [] then (w, .ok (did, o.handle, sorted cfg.supported))
          else match getContents L w o with
            | .error e => (w, .error e)
            | .ok cs => (w, .ok (did, o.handle, cs.map (·.1)))

/-! ### `com.atproto.sync` -/

/-- xrpc_sync.py 70-87 `get_repo_status`: `active`. The status that is reported for an inactive repo is
always `deactivated`. -/
def getRepoStatus (cfg : Config R) (be : Backend) (w : World C R) (did : Key) :
    World C R × Except Err Bool :=
  match load cfg be w did with
  | (w, .error (.xrpc name)) =>
    if name = "RepoDeactivated" then (w, .ok false) else (w, .error (.xrpc name))
  | (w, .error e) => (w, .error e)
  | (w, .ok _) => (w, .ok true)

/-- xrpc_sync.py 189-208 `get_head` and `get_latest_commit`. -/
def getLatestCommit (cfg : Config R) (L : Lib C R) (be : Backend) (w : World C R) (did : Key) :
    World C R × Except Err (C × Key) :=
  match load cfg be w did with
  | (w, .error e) => (w, .error e)
  | (w, .ok r) =>
    match (w.heap[r]?).bind (·.head) with
    | none => (w, .error .attribute)
    | some b =>
      match b.val with
      | .commit co => (w, .ok (L.hash b.val, co.rev))
      | _ => (w, .error .key)

/-- xrpc_sync.py 46-68. A CAR file: roots and blocks. -/
structure Car (C R : Type) where
  roots : List C
  blocks : List (C × Val C R)
  deriving DecidableEq

/-- xrpc_sync.py 179-184: the loop of `get_blocks`. -/
def readBlocks (w : World C R) : List C → Except Err (List (C × Val C R))
  | [] => .ok []
  | c :: cs =>
    match w.read c with
    | none => .error (.xrpc "BlockNotFound")
    | some b => do
      let rest ← readBlocks w cs
      .ok ((c, b.val) :: rest)

/-- xrpc_sync.py 166-186 `get_blocks`; `cids` is none when one of them can't be decoded. -/
def getBlocks (cfg : Config R) (L : Lib C R) (be : Backend) (w : World C R) (did : Key)
    (cids : Option (List C)) : World C R × Except Err (Car C R) :=
  match load cfg be w did with
  | (w, .error e) => (w, .error e)
  | (w, .ok r) =>
    match cids with
    | none => (w, .error (.xrpc "BlockNotFound"))
    | some cids =>
      match readBlocks w cids, (w.heap[r]?).bind (·.head) with
      | .error e, _ => (w, .error e)
      | .ok _, none => (w, .error .attribute)
      | .ok bl, some b => (w, .ok ⟨[L.hash b.val], bl⟩)

/-- xrpc_sync.py 91-111. One repo of `listRepos`: `did`, `head`, `rev`, and `status` (none when
`active`). -/
structure Listed (C : Type) where
  did : Did
  head : C
  rev : Key
  status : Option Status
  deriving DecidableEq

/-- xrpc_sync.py 93, 104. -/
def shownStatus : Option Status → Option Status
  | some .tombstoned => some .deactivated
  | s => s

/-- storage.py 701-707. Insertion into a list sorted by DID. -/
def insertByDid {α : Type} (x : Did × α) : List (Did × α) → List (Did × α)
  | [] => [x]
  | y :: ys => if x.1 ≤ y.1 then x :: y :: ys else y :: insertByDid x ys

/-- storage.py 701-707, datastore_storage.py 683-706. Python's `sorted` (a stable sort) by DID; the
order of the Datastore's keys. -/
def sortByDid {α : Type} (l : List (Did × α)) : List (Did × α) := l.foldr insertByDid []

/-- xrpc_sync.py 96-105: a repo whose head and status are known. -/
def listed (L : Lib C R) (b : Block C R) (status : Option Status) : Except Err (Listed C) :=
  match b.val with
  | .commit co => do
    let rev ← Tid.intToTid 0 b.seq (some 0)
    .ok ⟨co.did, L.hash b.val, rev, shownStatus status⟩
  | _ => .error .key

/-- xrpc_sync.py 91-111. What `list_repos` uses of a repo object: `did`, `head` and `status`. -/
def repoEntry (w : World C R) (dr : Did × Ref) : Except Err (Did × Block C R × Option Status) :=
  match w.heap[dr.2]? with
  | some o =>
    match o.did, o.head with
    | some d, some b => .ok (d, b, o.status)
    | _, _ => .error .attribute
  | none => .error .attribute

/-- datastore_storage.py 691-697 and `list_repos`: the same for the entity of a repo. -/
def rowEntry (L : Lib C R) (w : World C R) (x : Did × Row C) : Except Err (Listed C) :=
  match w.read x.2.head with
  | none => .error .attribute
  | some b => listed L b x.2.status

/-- storage.py 701-707 `MemoryStorage.load_repos`; datastore_storage.py 682-705 (`minimal`): the repos
after a DID in DID order, as `list_repos` shows them. -/
def loadRepos (L : Lib C R) (be : Backend) (w : World C R) (limit : Nat) (after : Option Key) :
    Except Err (List (Listed C)) :=
  let later (d : Did) : Bool := if truthy after then decide (after.getD [] < d) else true
  match be with
  | .memory => do
    let repos ← w.repos.mapM (repoEntry w)
    (((sortByDid repos).dropWhile fun x => !later x.1).take limit).mapM fun x => listed L x.2.1 x.2.2
  | .datastore =>
    (((sortByDid w.rows).filter fun x => later x.1).take limit).mapM (rowEntry L w)

/-- xrpc_sync.py 90-111 `list_repos`. `limit` isn't negative. -/
def listRepos (L : Lib C R) (be : Backend) (w : World C R) (limit : Nat) (cursor : Option Key) :
    Except Err (Page (Listed C)) := do
  let repos ← loadRepos L be w limit cursor
  if repos.length = limit then
    match repos.getLast? with
    | none => .error .index
    | some r => .ok ⟨repos, some r.did⟩
  else .ok ⟨repos, none⟩

end Arroba.Xrpc
