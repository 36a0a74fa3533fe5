import Verif.Storage.Model
import Verif.Cbor.Car

/-!
# Datastore entities

`AtpBlock` and `AtpRepo` (datastore_storage.py 61-213), how `Block` and `Repo` objects are converted to
them and back, and the methods of `DatastoreStorage` that write and read them. `Storage/Model.lean` has
dicts of `Block`s in their place; C77 is about what that leaves out: the names of entities, the checks
that ndb makes, and the times.

Simplified: times are counted in microseconds, without a first and last year. PEM and the encryption of
keys are given by functions. The limits of the Datastore for whole entities and transactions are left out.
-/

namespace Arroba.Entity

open Cbor Store

/-! ### CIDs as text -/

/-- RFC 4648, in lower case: the alphabet of `encode('base32')` (datastore_storage.py 206, 211). -/
def b32Alphabet : List Char := "abcdefghijklmnopqrstuvwxyz234567".toList

/-- datastore_storage.py 206. The bits of a byte, the highest first. -/
def byteBits (b : UInt8) : List Bool :=
  [b.toNat.testBit 7, b.toNat.testBit 6, b.toNat.testBit 5, b.toNat.testBit 4,
   b.toNat.testBit 3, b.toNat.testBit 2, b.toNat.testBit 1, b.toNat.testBit 0]

/-- datastore_storage.py 206. The number with these bits. -/
def bitsNat (l : List Bool) : Nat := l.foldl (fun n b => 2 * n + b.toNat) 0

/-- datastore_storage.py 206. Five bits each give a character; zeros are added at the end. -/
def b32Chars : List Bool → Key
  | a :: b :: c :: d :: e :: l => b32Alphabet.getD (bitsNat [a, b, c, d, e]) 'a' :: b32Chars l
  | [] => []
  | l => [b32Alphabet.getD (bitsNat (l ++ List.replicate (5 - l.length) false)) 'a']

/-- datastore_storage.py 206, 211, 655, 726, 736, 744, 786 (`libipld.encode_cid`), 878: `cid.encode('base32')`.
`b` is the prefix for this alphabet. -/
def cidText (c : Bytes) : Key := 'b' :: b32Chars (c.flatMap byteBits)

/-- datastore_storage.py 153. The bits that a character stands for. -/
def charBits (ch : Char) : Option (List Bool) :=
  let i := b32Alphabet.idxOf ch
  if i < 32 then some [i.testBit 4, i.testBit 3, i.testBit 2, i.testBit 1, i.testBit 0] else none

/-- datastore_storage.py 153. The bits that a text stands for. -/
def textBits : Key → Option (List Bool)
  | [] => some []
  | ch :: s =>
    match charBits ch, textBits s with
    | some a, some b => some (a ++ b)
    | _, _ => none

/-- datastore_storage.py 153. Eight bits each give a byte; fewer than five zeros may be left over. -/
def bitsBytes : List Bool → Option Bytes
  | a :: b :: c :: d :: e :: f :: g :: h :: l =>
    (bitsBytes l).map (UInt8.ofNat (bitsNat [a, b, c, d, e, f, g, h]) :: ·)
  | l => if l.length < 5 ∧ l.all (!·) then some [] else none

/-- datastore_storage.py 153, 188-189, 678: `CID.decode`. Only the base that arroba writes is modelled. -/
def textCid (s : Key) : Except Err Bytes :=
  match s with
  | 'b' :: s =>
    match (textBits s).bind bitsBytes with
    | some c => if unCid c = some (c, []) then .ok c else .error .value
    | none => .error .value
  | _ => .error .value

/-! ### Times -/

/-- storage.py 91, 112. A `datetime`: what the clock on the wall shows, in microseconds, and the offset of
the time zone, if it has one. -/
structure DateTime where
  wall : Int
  zone : Option Int
  deriving DecidableEq, Repr

/-- datastore_storage.py 208. The moment that is meant, as the time in UTC. `here` gives the offset of the
server's own time zone, which Python uses for a `datetime` without one. -/
def DateTime.moment (here : Int → Int) (t : DateTime) : Int := t.wall - t.zone.getD (here t.wall)

/-- datastore_storage.py 208, 677, firehose.py 413: `t.replace(tzinfo=timezone.utc)`. -/
def DateTime.asUtc (t : DateTime) : DateTime := ⟨t.wall, some 0⟩

/-! ### Blocks -/

/-- storage.py 98, datastore_storage.py 192, 209. `Block.repo`: None, a DID, or an ndb key (after reading). -/
inductive RepoRef where
  | none
  | did (d : Did)
  | key (d : Did)
  deriving DecidableEq, Repr

/-- storage.py 72-142 `Block`. -/
structure PyBlock where
  cid : Bytes
  encoded : Bytes
  seq : Option Nat
  ops : Option (List (CommitOp Bytes))
  time : DateTime
  repo : RepoRef
  deriving DecidableEq

/-- datastore_storage.py 61-72 `CommitOp`. -/
structure OpEntity where
  action : Key
  path : Key
  cid : Option Key
  prevCid : Option Key
  deriving DecidableEq, Repr

/-- datastore_storage.py 124-147 `AtpBlock`; `id` is the name in the entity's key. -/
structure BlockEntity where
  id : Key
  encoded : Bytes
  repo : Did
  seq : Nat
  ops : List OpEntity
  created : Int
  deriving DecidableEq

/-- datastore_storage.py 204: `op.action.name.lower()`. -/
def actionText : Action → Key
  | .create => "create".toList
  | .update => "update".toList
  | .delete => "delete".toList

/-- datastore_storage.py 187: `Action[op.action.upper()]`. -/
def textAction (s : Key) : Except Err Action :=
  if s = "create".toList then .ok .create
  else if s = "update".toList then .ok .update
  else if s = "delete".toList then .ok .delete
  else .error .key

/-- datastore_storage.py 69-72, 211: ndb refuses indexed strings and names in keys of more than 1500 bytes. -/
def fits (s : Key) : Bool := decide ((utf8 s).length ≤ 1500)

/-- datastore_storage.py 209, 211: the name in a key must not be empty, either. -/
def nameOk (s : Key) : Bool := !s.isEmpty && fits s

/-- datastore_storage.py 204-206. -/
def opEntity (op : CommitOp Bytes) : Except Err OpEntity :=
  let e : OpEntity := ⟨actionText op.action, op.path, op.cid.map cidText, op.prevCid.map cidText⟩
  if fits e.path && (e.cid.all fits && e.prevCid.all fits) then .ok e else .error .value

/-- datastore_storage.py 204-207: the list comprehension. -/
def opEntities : List (CommitOp Bytes) → Except Err (List OpEntity)
  | [] => .ok []
  | op :: ops => do
    let e ← opEntity op
    let es ← opEntities ops
    .ok (e :: es)

/-- datastore_storage.py 194-213 `from_block`, and the checks that ndb makes (`required`, lengths; 140-143),
some of them only when the entity is put. -/
def fromBlock (here : Int → Int) (b : PyBlock) : Except Err BlockEntity := do
  let ops ← opEntities (b.ops.getD [])
  let repo ← (match b.repo with
    | .none => .error .value
    | .key _ => .error .attribute
    | .did d => if nameOk d then .ok d else .error .value)
  match b.seq with
  | none => .error .value
  | some seq =>
    if nameOk (cidText b.cid) then .ok ⟨cidText b.cid, b.encoded, repo, seq, ops, b.time.moment here⟩
    else .error .value

/-- datastore_storage.py 188-189: `CID.decode(s) if s else None`. -/
def optCid : Option Key → Except Err (Option Bytes)
  | none => .ok none
  | some s => if s = [] then .ok none else (textCid s).map some

/-- datastore_storage.py 187-189. -/
def opOfEntity (e : OpEntity) : Except Err (CommitOp Bytes) := do
  let action ← textAction e.action
  let cid ← optCid e.cid
  let prev ← optCid e.prevCid
  .ok ⟨action, e.path, cid, prev⟩

/-- datastore_storage.py 187-190: the list comprehension. -/
def opsOfEntities : List OpEntity → Except Err (List (CommitOp Bytes))
  | [] => .ok []
  | e :: es => do
    let op ← opOfEntity e
    let ops ← opsOfEntities es
    .ok (op :: ops)

/-- datastore_storage.py 181-192 `to_block`. -/
def toBlock (e : BlockEntity) : Except Err PyBlock := do
  let ops ← opsOfEntities e.ops
  let cid ← textCid e.id
  .ok ⟨cid, e.encoded, some e.seq, some ops, ⟨e.created, none⟩, .key e.repo⟩

/-- The entities of kind `AtpBlock` (datastore_storage.py 124), by name. -/
abbrev Entities := List (Key × BlockEntity)

/-- datastore_storage.py 733-738 `read`. -/
def read (ds : Entities) (c : Bytes) : Except Err (Option PyBlock) :=
  match dictGet ds (cidText c) with
  | none => .ok none
  | some e => (toBlock e).map some

/-- datastore_storage.py 740-748 `read_many`. -/
def readMany (ds : Entities) : List Bytes → Except Err (List (Bytes × Option PyBlock))
  | [] => .ok []
  | c :: cs => do
    let b ← read ds c
    let bs ← readMany ds cs
    .ok (dictSet bs c b)

/-- datastore_storage.py 881-882: `[AtpBlock.from_block(b) for b in blocks if ...]`. -/
def newEntities (here : Int → Int) (ds : Entities) : List PyBlock → Except Err (List BlockEntity)
  | [] => .ok []
  | b :: bs =>
    if (dictGet ds (cidText b.cid)).isSome then newEntities here ds bs
    else do
      let e ← fromBlock here b
      let es ← newEntities here ds bs
      .ok (e :: es)

/-- datastore_storage.py 875-884 `write_blocks`. -/
def writeBlocks (here : Int → Int) (ds : Entities) (bs : List PyBlock) : Except Err Entities := do
  let new ← newEntities here ds bs
  .ok (new.foldl (fun ds e => dictSet ds e.id e) ds)

/-- datastore_storage.py 155-179 `create`, 868-873 `write`. `cid` and `encoded` are of the data, `now` is the time. -/
def create (ds : Entities) (d : Did) (cid encoded : Bytes) (seq : Nat) (now : Int) :
    Except Err (Entities × BlockEntity) := do
  if seq = 0 then .error .assertion
  else if !nameOk d || !nameOk (cidText cid) then .error .value
  else match dictGet ds (cidText cid) with
    | some e => if e.seq ≤ seq then .ok (ds, e) else .error .assertion
    | none =>
      let e : BlockEntity := ⟨cidText cid, encoded, d, seq, [], now⟩
      .ok (dictSet ds (cidText cid) e, e)

/-- firehose.py 413. The time in the message of a commit, for the block that storage has given. -/
def messageTime (b : PyBlock) : DateTime := b.time.asUtc

/-! ### Repos -/

/-- datastore_storage.py 75-98 `AtpRepo`. -/
structure RepoEntity where
  id : Did
  handles : List Key
  head : Key
  signingKey : Bytes
  rotationKey : Option Bytes
  status : Option Key
  created : Int
  deriving DecidableEq

/-- util.py 22-24. -/
def statusText : Status → Key
  | .deactivated => "deactivated".toList
  | .deleted => "deleted".toList
  | .tombstoned => "tombstoned".toList

/-- datastore_storage.py 94: the choices of `status`. -/
def textStatus (s : Key) : Except Err Status :=
  if s = "deactivated".toList then .ok .deactivated
  else if s = "deleted".toList then .ok .deleted
  else if s = "tombstoned".toList then .ok .tombstoned
  else .error .value

/-- repo.py 66-91. What `create_repo` gets, and what `load_repo` passes on to `Repo.load`. -/
structure PyRepo (K : Type) where
  did : Did
  handle : Option Key
  head : Bytes
  signingKey : K
  rotationKey : Option K
  status : Option Status

/-- datastore_storage.py 101-121, 642-653: PEM. -/
structure Pem (K : Type) where
  write : K → Bytes
  load : Bytes → Option K

/-- datastore_storage.py 641, 724: `[repo.handle] if repo.handle else []`. -/
def handlesOf : Option Key → List Key
  | some h => if h = [] then [] else [h]
  | none => []

/-- datastore_storage.py 636-662 `create_repo`: the entity. -/
def repoEntity {K : Type} (pem : Pem K) (r : PyRepo K) (now : Int) : Except Err RepoEntity :=
  if r.did = [] then .error .assertion
  else if nameOk r.did && (handlesOf r.handle).all fits then
    .ok ⟨r.did, handlesOf r.handle, cidText r.head, pem.write r.signingKey, r.rotationKey.map pem.write,
      r.status.map statusText, now⟩
  else .error .value

/-- datastore_storage.py 720-730 `store_repo`: the entity is changed. -/
def storeEntity {K : Type} (e : RepoEntity) (r : PyRepo K) : Except Err RepoEntity :=
  if (handlesOf r.handle).all fits then
    .ok { e with handles := handlesOf r.handle, status := r.status.map statusText, head := cidText r.head }
  else .error .value

/-- datastore_storage.py 94, 679. -/
def loadStatus : Option Key → Except Err (Option Status)
  | none => .ok none
  | some s => (textStatus s).map some

/-- datastore_storage.py 103-110. -/
def loadKey {K : Type} (pem : Pem K) (b : Bytes) : Except Err K :=
  match pem.load b with
  | some k => .ok k
  | none => .error .value

/-- datastore_storage.py 112-121: an empty value counts as no rotation key. -/
def loadRotation {K : Type} (pem : Pem K) : Option Bytes → Except Err (Option K)
  | none => .ok none
  | some b => if b = [] then .ok none else (loadKey pem b).map some

/-- datastore_storage.py 664-680 `load_repo`, from the entity to the arguments of `Repo.load`. -/
def loadEntity {K : Type} (pem : Pem K) (e : RepoEntity) : Except Err (PyRepo K) := do
  let head ← textCid e.head
  let status ← loadStatus e.status
  let sk ← loadKey pem e.signingKey
  let rk ← loadRotation pem e.rotationKey
  .ok ⟨e.id, e.handles.head?, head, sk, rk, status⟩

end Arroba.Entity
