import Verif.Blob.Model
import Verif.Xrpc.Model

/-!
# Model of the `AtpRemoteBlob` entities and of `com.atproto.sync.getBlob` and `listBlobs`

`Blob/Model.lean` has what one entity records about its content; here are its key, URL, repos and
`updated`, the table of all entities, and the queries on it.

Simplifications: keys of repos are DIDs. `put` stores whole entities, as ndb does. A query sees one state
of the table. `_MAX_KEYPART_BYTES` (1500) counts code points here and in the code; URLs with other than
ASCII characters, for which the Datastore may refuse a shorter key, are as in the code's TODO.
-/

namespace Arroba.Blob

/-- datastore_storage.py 410-433, the properties. -/
structure Entity where
  url : Option Key := none
  repos : List Key := []
  updated : Int := 0
  blob : Blob := {}
  deriving DecidableEq

/-- datastore_storage.py 398. All stored entities, by key. -/
abbrev Table := List (Key × Entity)

/-- datastore_storage.py 464-470. google.cloud.ndb `_MAX_KEYPART_BYTES`. -/
def maxKey : Nat := 1500

/-- datastore_storage.py 464-470. -/
def urlKey (url : Key) : Key := if url.length > maxKey then url.take maxKey else url

/-- datastore_storage.py 431-433, 547. `put`; `updated` is `auto_now`. -/
def put (t : Table) (now : Int) (key : Key) (e : Entity) : Table :=
  dictSet t key { e with updated := now }

/-- datastore_storage.py 475-477: `cls.get_or_insert`, and the URL. -/
def obtainEntity (t : Table) (now : Int) (url : Key) (repo : Option Key) : Table × Entity :=
  match dictGet t (urlKey url) with
  | some e => (t, { e with url := some url })
  | none =>
    (put t now (urlKey url) { repos := repo.toList },
      { url := some url, repos := repo.toList, updated := now })

/-- datastore_storage.py 478-481. -/
def addRepo (t : Table) (now : Int) (key : Key) (e : Entity) : Option Key → Table × Entity
  | none => (t, e)
  | some r =>
    if r ∈ e.repos then (t, e)
    else
      (put t now key { e with repos := e.repos ++ [r] },
        { e with repos := e.repos ++ [r], updated := now })

/-- datastore_storage.py 473-481, the transaction: the table, and the entity in memory. -/
def getOrInsert (t : Table) (now : Int) (url : Key) (repo : Option Key) : Table × Entity :=
  addRepo (obtainEntity t now url repo).1 now (urlKey url) (obtainEntity t now url repo).2 repo

/-- `self.url or self.key.id()` (datastore_storage.py 506, xrpc_sync.py 252). -/
def location (key : Key) (e : Entity) : Key :=
  if truthyStr e.url then e.url.getD [] else key

/-- datastore_storage.py 491-547 `maybe_fetch` of an entity in memory; `web` answers requests. It puts
the entity exactly if it fetches. -/
def fetchEntity (cfg : Config) (web : Key → Resp) (t : Table) (now : Int) (key : Key) (e : Entity) :
    Table × Entity × Option Exc :=
  let o := maybeFetch cfg now (web (location key e)) e.blob
  if needsFetch cfg now e.blob then
    (put t now key { e with blob := o.stored }, { e with blob := o.mem, updated := now }, o.exc)
  else (t, e, none)

/-- datastore_storage.py 483-489, after the transaction: the rest of `get_or_create`, from the entity in
memory. -/
def finish (cfg : Config) (web : Key → Resp) (mimeOk : Key → Bool) (maxSize : Option Int) (t : Table)
    (now : Int) (url : Key) (e : Entity) : Table × Entity × Option Exc :=
  if e.blob.inactive then (t, e, some .http)
  else
    let (t, e, exc) := fetchEntity cfg web t now (urlKey url) e
    match exc with
    | some x => (t, e, some x)
    | none =>
      if validate cfg mimeOk maxSize e.blob then (t, e, none) else (t, e, some .validation)

/-- datastore_storage.py 436-489 `get_or_create`, without anything in between. (`assert url`: the URL
isn't empty.) -/
def getOrCreateIn (cfg : Config) (web : Key → Resp) (mimeOk : Key → Bool) (maxSize : Option Int)
    (t : Table) (now : Int) (url : Key) (repo : Option Key) : Table × Entity × Option Exc :=
  let (t, e) := getOrInsert t now url repo
  finish cfg web mimeOk maxSize t now url e

/-- xrpc_sync.py 235-258. Why `get_blob` doesn't redirect. -/
inductive GetBlobExc where
  | notFound      -- ValueError
  | validation    -- lexrpc.ValidationError, from `maybe_fetch`
  deriving DecidableEq

/-- xrpc_sync.py 241-257 `get_blob`, on the results of its query: where it redirects to. HTTPErrors, and
errors while reading the body, are `requests.RequestException`. -/
def getBlobLoop (cfg : Config) (web : Key → Resp) (now : Int) :
    Table → List (Key × Entity) → Table × Except GetBlobExc Key
  | t, [] => (t, .error .notFound)
  | t, (key, e) :: rest =>
    if e.blob.inactive then getBlobLoop cfg web now t rest
    else match fetchEntity cfg web t now key e with
      | (t, _, some .http) => getBlobLoop cfg web now t rest
      | (t, _, some .read) => getBlobLoop cfg web now t rest
      | (t, _, some .validation) => (t, .error .validation)
      | (t, e, none) =>
        if e.blob.inactive then getBlobLoop cfg web now t rest else (t, .ok (location key e))

/-- xrpc_sync.py 241. The results of `AtpRemoteBlob.query(AtpRemoteBlob.cid ==
cid).order(-AtpRemoteBlob.updated)`; ties in any order. -/
def IsResult (t : Table) (cid : Key) (rows : List (Key × Entity)) : Prop :=
  rows.Perm (t.filter fun x => x.2.blob.cid = some cid) ∧
    rows.Pairwise fun x y => y.2.updated ≤ x.2.updated

/-- xrpc_sync.py 268-272: the query of `list_blobs`. Datastore queries without an order are in the order
of the keys. -/
def blobRows (t : Table) (did : Key) (limit : Nat) (cursor : Option Key) : List (Key × Entity) :=
  (((Xrpc.sortByDid t).filter fun x => decide (did ∈ x.2.repos)).filter fun x =>
    if Xrpc.truthy cursor then decide (cursor.getD [] < x.1) else true).take limit

/-- xrpc_sync.py 274-278. -/
def blobPage (rows : List (Key × Entity)) (limit : Nat) : Except Err (Xrpc.Page Key) :=
  let cids := (rows.filter fun x => truthyStr x.2.blob.cid).filterMap fun x => x.2.blob.cid
  if rows.length = limit then
    match rows.getLast? with
    | none => .error .index
    | some x => .ok ⟨cids, some x.1⟩
  else .ok ⟨cids, none⟩

end Arroba.Blob

namespace Arroba.Xrpc

open Arroba.Store

variable {C R : Type} [DecidableEq C]

/-- xrpc_sync.py 261-278 `list_blobs`. `limit` isn't negative. -/
def listBlobs (cfg : Config R) (be : Backend) (w : World C R) (t : Blob.Table) (did : Key)
    (since : Option Key) (limit : Nat) (cursor : Option Key) : World C R × Except Err (Page Key) :=
  if truthy since then (w, .error .value)
  else match load cfg be w did with
    | (w, .error e) => (w, .error e)
    | (w, .ok _) => (w, Blob.blobPage (Blob.blobRows t did limit cursor) limit)

end Arroba.Xrpc
