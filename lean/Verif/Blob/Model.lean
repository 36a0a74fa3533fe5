import Verif.Py

/-!
# Model of `AtpRemoteBlob` (`arroba/datastore_storage.py` 398-609)

Times are integers (microseconds). The HTTP response is a parameter. Not modelled: the URL and key,
the set of repos, width and height, `as_object`'s encoding, and `server.validate_mime_type`
(lexrpc), which is the parameter `mimeOk`. The ndb context cache is not modelled: every call reads
the entity the last `put` stored.
-/

namespace Arroba.Blob

/-- The settings (datastore_storage.py 49-54). -/
structure Config where
  refetchAge : Int
  refetchTypes : List Key
  maxBytes : Int
  /-- three minutes, in milliseconds -/
  maxDurationMs : Int := 180000

/-- datastore_storage.py 410-433. The stored properties. -/
structure Blob where
  cid : Option Key := none
  size : Option Int := none
  mime : Key := "application/octet-stream".toList
  duration : Option Int := none
  lastFetched : Option Int := none
  inactive : Bool := false
  deriving DecidableEq, Repr

/-- datastore_storage.py 540-546. Reading `resp.content`: it may fail midway; otherwise the CID and
length of the content, and what MediaInfo finds: `none` if there are no video or image tracks or it
cannot parse, else the track's duration, if any. -/
inductive Body where
  | readError
  | content (cid : Key) (len : Nat) (track : Option (Option Int))

/-- datastore_storage.py 510-525. The outcome of `get_fn(url, stream=True)`. -/
inductive Resp where
  | osError
  | resp (code : Nat) (mime : Key) (contentLength : Option Int) (body : Body)

/-- datastore_storage.py 483-547, the exceptions that are raised. -/
inductive Exc where
  | http          -- requests.HTTPError
  | read          -- an exception while reading the body
  | validation    -- lexrpc.ValidationError
  deriving DecidableEq, Repr

/-- datastore_storage.py 491-547. The entity stored afterwards, the in-memory entity, and the
exception, if any. -/
structure Out where
  stored : Blob
  mem : Blob
  exc : Option Exc

/-- Python truthiness of an optional int / string. -/
def truthyInt (o : Option Int) : Bool := match o with | some n => n ≠ 0 | none => false
def truthyStr (o : Option Key) : Bool := match o with | some s => s ≠ [] | none => false

/-- datastore_storage.py 497-504: whether `maybe_fetch` goes on to fetch. -/
def needsFetch (cfg : Config) (now : Int) (b : Blob) : Bool :=
  if (truthyStr b.cid ∨ b.lastFetched.isSome) ∧
      (pySplit '/' b.mime).headD [] ∉ cfg.refetchTypes then false
  else if (match b.lastFetched with | some t => decide (t ≥ now - cfg.refetchAge) | none => false)
    then false
  else true

/-- datastore_storage.py 566-586 `generate_metadata`, as far as the duration goes: no tracks, or
no duration, leaves the old value. -/
def generateMetadata (b : Blob) : Option (Option Int) → Blob
  | some (some d) => if d ≠ 0 then { b with duration := some d } else b
  | _ => b

/-- datastore_storage.py 541-547. -/
def readBody (stored mem : Blob) : Body → Out
  | .readError => ⟨stored, mem, some .read⟩
  | .content cid len track =>
    let b := generateMetadata { mem with cid := some cid, size := some len } track
    let b := { b with inactive := false }
    ⟨b, b, none⟩

/-- datastore_storage.py 525-547. -/
def checkLength (cfg : Config) (stored : Blob) (mime : Key) (contentLength : Option Int)
    (body : Body) : Out :=
  let mem := { stored with mime := mime, size := (contentLength.map some).getD stored.size }
  if truthyInt mem.size ∧ mem.size.getD 0 > cfg.maxBytes then ⟨mem, mem, some .validation⟩
  else readBody stored mem body

/-- datastore_storage.py 491-547 `maybe_fetch`. -/
def maybeFetch (cfg : Config) (now : Int) (resp : Resp) (b : Blob) : Out :=
  if needsFetch cfg now b = false then ⟨b, b, none⟩
  else
    let b := { b with lastFetched := some now }
    match resp with
    | .osError =>
      let b := if truthyStr b.cid then b else { b with inactive := true }
      ⟨b, b, some .http⟩
    | .resp code mime contentLength body =>
      if 400 ≤ code ∧ code < 600 then
        let b := if code / 100 = 4 ∨ ¬ truthyStr b.cid then { b with inactive := true } else b
        ⟨b, b, some .http⟩
      else
        -- `not resp.ok and not self.cid`: `ok` is False exactly when raise_for_status raises
        checkLength cfg b mime contentLength body

/-- datastore_storage.py 588-609 `validate`. -/
def validate (cfg : Config) (mimeOk : Key → Bool) (maxSize : Option Int) (b : Blob) : Bool :=
  if ¬ mimeOk b.mime then false
  else if truthyInt b.size ∧ b.size.getD 0 > cfg.maxBytes then false
  else if truthyInt b.size ∧ truthyInt maxSize ∧ b.size.getD 0 > maxSize.getD 0 then false
  else if truthyInt b.duration ∧ b.duration.getD 0 > cfg.maxDurationMs then false
  else true

/-- datastore_storage.py 436-489 `get_or_create`. -/
def getOrCreate (cfg : Config) (mimeOk : Key → Bool) (maxSize : Option Int) (now : Int)
    (resp : Resp) (db : Option Blob) : Out :=
  let b := db.getD {}
  if b.inactive then ⟨b, b, some .http⟩
  else
    let o := maybeFetch cfg now resp b
    if o.exc.isSome then o
    else if validate cfg mimeOk maxSize o.mem then o
    else ⟨o.stored, o.mem, some .validation⟩

/-- datastore_storage.py 436-489. A history of `get_or_create` calls for one URL: the stored entity. -/
def history (cfg : Config) (mimeOk : Key → Bool) (maxSize : Option Int) :
    List (Int × Resp) → Option Blob → Option Blob
  | [], db => db
  | (now, r) :: rest, db =>
    history cfg mimeOk maxSize rest (some (getOrCreate cfg mimeOk maxSize now r db).stored)

end Arroba.Blob
