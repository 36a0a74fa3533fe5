import Verif.Util.AtUri

/-!
# Model of `arroba/did.py`

Dicts are association lists of JSON values. Not modelled: logging, caching (`resolve_*` are cached
for six hours), and the network, which is a parameter. Library parts are parameters gathered in
`Lib`: base58, point (de)compression, signing, hashing. Their laws are stated where they are used.
-/

namespace Arroba.Did

/-- JSON values. -/
inductive Json where
  | null
  | bool (b : Bool)
  | num (n : Int)
  | str (s : Key)
  | arr (l : List Json)
  | obj (d : List (Key × Json))
  deriving Repr

abbrev Dict := List (Key × Json)

/-- did.py 327-349. `key.curve`. -/
inductive CurveName where
  | secp256k1
  | secp256r1
  | other
  deriving DecidableEq, Repr

/-- did.py 327-374. An `ec.EllipticCurvePublicKey`. -/
structure PubKey (P : Type) where
  curve : CurveName
  point : P
  deriving DecidableEq

/-- The libraries did.py uses, and its environment variables. -/
structure Lib (P : Type) where
  /-- `public_bytes(X962, CompressedPoint)` -/
  pointBytes : CurveName → P → List Nat
  /-- `EllipticCurvePublicKey.from_encoded_point` -/
  fromPoint : CurveName → List Nat → Except Err P
  /-- base58btc without the multibase prefix -/
  b58 : List Nat → Key
  unb58 : Key → Except Err (List Nat)
  /-- base64url of the signature `util.sign` makes of a dict with the rotation key -/
  sigOf : Dict → Key
  /-- first 24 characters of lowercase base32 of SHA-256 of the DAG-CBOR encoding -/
  hash24 : Dict → Key
  plcHost : Key
  pdsHost : Key
  netlocOk : Key → Bool

/-- Python's `s.removeprefix(p)`. -/
def removePrefix (s p : Key) : Key := if startsWith s p then s.drop p.length else s

/-- `d[k]`. -/
def getItem (d : Dict) (k : Key) : Except Err Json :=
  match dictGet d k with
  | some v => .ok v
  | none => .error .key

def asStr : Json → Except Err Key
  | .str s => .ok s
  | _ => .error .attribute

def asObj : Json → Except Err Dict
  | .obj d => .ok d
  | _ => .error .attribute

def asArr : Json → Except Err (List Json)
  | .arr l => .ok l
  | _ => .error .attribute

variable {P : Type}

def didKeyPrefix : Key := "did:key:".toList

/-- `multicodec.wrap(codec, bytes)`: the unsigned varint of the codec, then the bytes
(did.py 338-348; `secp256k1-pub` is 0xe7, `p256-pub` is 0x1200). -/
def wrap : CurveName → List Nat → Except Err (List Nat)
  | .secp256k1, b => .ok (0xe7 :: 0x01 :: b)
  | .secp256r1, b => .ok (0x80 :: 0x24 :: b)
  | .other, _ => .error .value

/-- `multicodec.unwrap` and the dispatch on `codec.name` (did.py 364-371). -/
def unwrap : List Nat → Except Err (CurveName × List Nat)
  | 0xe7 :: 0x01 :: b => .ok (.secp256k1, b)
  | 0x80 :: 0x24 :: b => .ok (.secp256r1, b)
  | _ => .error .value

/-- did.py 327-349 `encode_did_key`. -/
def encodeDidKey (L : Lib P) (k : PubKey P) : Except Err Key := do
  let w ← wrap k.curve (L.pointBytes k.curve k.point)
  .ok (didKeyPrefix ++ 'z' :: L.b58 w)

/-- `multibase.decode` (did.py 363), for base58btc; other bases are not modelled. -/
def multibaseDecode (L : Lib P) : Key → Except Err (List Nat)
  | 'z' :: s => L.unb58 s
  | _ => .error .value

/-- did.py 352-373 `decode_did_key`. -/
def decodeDidKey (L : Lib P) (s : Key) : Except Err (PubKey P) := do
  let w ← multibaseDecode L (removePrefix s didKeyPrefix)
  let cd ← unwrap w
  let p ← L.fromPoint cd.1 cd.2
  .ok ⟨cd.1, p⟩

/-- did.py 388-392, the loop of `get_handle`. -/
def getHandleLoop (L : Lib P) : List Json → Except Err (Option Key)
  | [] => .ok none
  | aka :: rest => do
    let s ← asStr aka
    if startsWith s "at://".toList then do
      let r ← AtUri.parseAtUri L.netlocOk s
      if r.1 ≠ [] then .ok (some r.1) else getHandleLoop L rest
    else getHandleLoop L rest

/-- did.py 376-392 `get_handle`. -/
def getHandle (L : Lib P) (doc : Dict) : Except Err (Option Key) := do
  let akas ← match dictGet doc "alsoKnownAs".toList with
    | some v => asArr v
    | none => .ok []
  getHandleLoop L akas

/-- did.py 407-410, the loop of `get_signing_key`; `fragId` is `f'{did}#atproto'`. -/
def getSigningKeyLoop (L : Lib P) (fragId : Key) : List Json → Except Err (Option (PubKey P))
  | [] => .ok none
  | m :: rest => do
    let m ← asObj m
    match dictGet m "id".toList, dictGet m "publicKeyMultibase".toList with
    | some (.str i), some (.str (c :: s)) =>
      if i = fragId then do
        let k ← decodeDidKey L (c :: s)
        .ok (some k)
      else getSigningKeyLoop L fragId rest
    | _, _ => getSigningKeyLoop L fragId rest

/-- did.py 395-410 `get_signing_key`. (A truthy non-string `publicKeyMultibase` would raise; here
it is skipped.) -/
def getSigningKey (L : Lib P) (doc : Dict) : Except Err (Option (PubKey P)) :=
  match dictGet doc "id".toList with
  | some (.str (c :: did)) => do
    let ms ← match dictGet doc "verificationMethod".toList with
      | some v => asArr v
      | none => .ok []
    getSigningKeyLoop L ((c :: did) ++ "#atproto".toList) ms
  | _ => .ok none

/-- did.py 431-450: the document. -/
def didDoc (did key : Key) (aka ep : Json) : Dict :=
  [("@context".toList, .arr [.str "https://www.w3.org/ns/did/v1".toList,
          .str "https://w3id.org/security/multikey/v1".toList,
          .str "https://w3id.org/security/suites/secp256k1-2019/v1".toList]),
       ("id".toList, .str did),
       ("alsoKnownAs".toList, aka),
       ("verificationMethod".toList, .arr [.obj [
          ("id".toList, .str (did ++ "#atproto".toList)),
          ("type".toList, .str "Multikey".toList),
          ("controller".toList, .str did),
          ("publicKeyMultibase".toList, .str (removePrefix key didKeyPrefix))]]),
       ("service".toList, .arr [.obj [
          ("id".toList, .str "#atproto_pds".toList),
          ("type".toList, .str "AtprotoPersonalDataServer".toList),
          ("serviceEndpoint".toList, ep)]])]

/-- did.py 412-450 `plc_operation_to_did_doc`. -/
def plcOperationToDidDoc (op : Dict) : Except Err Dict := do
  ensure (op ≠ []) .assertion
  let vm ← getItem op "verificationMethods".toList
  let vm ← asObj vm
  let key ← getItem vm "atproto".toList
  let key ← asStr key
  let did ← getItem op "did".toList
  let did ← asStr did
  let aka ← getItem op "alsoKnownAs".toList
  let sv ← getItem op "services".toList
  let sv ← asObj sv
  let pds ← getItem sv "atproto_pds".toList
  let pds ← asObj pds
  let ep ← getItem pds "endpoint".toList
  .ok (didDoc did key aka ep)

/-- did.py 142-324. What a call that posts to the PLC directory did: the request it made, if any, and
its result. -/
structure Outcome (α : Type) where
  posted : Option (Key × Dict)
  result : Except Err α

def Outcome.fail {α : Type} (e : Err) : Outcome α := ⟨none, .error e⟩

/-- did.py 276-280. Whether the directory accepts a POST (otherwise `raise_for_status` raises). -/
abbrev Post := Key → Dict → Bool

/-- did.py 280-282, after the POST. -/
def afterPost (ok : Bool) (did : Key) (op : Dict) : Except Err (Key × Dict) :=
  if ok then do
    let doc ← plcOperationToDidDoc (dictSet op "did".toList (.str did))
    .ok (did, doc)
  else .error .runtime

/-- did.py 249-282 `write_plc_operation`. The result is the DID and its document. -/
def writePlcOperation (L : Lib P) (post : Post) (op : Dict) (did : Key) :
    Outcome (Key × Dict) :=
  let op := dictSet op "sig".toList (.str (L.sigOf op))
  let did := if did ≠ [] then did else "did:plc:".toList ++ L.hash24 op
  let url := "https://".toList ++ L.plcHost ++ '/' :: did
  ⟨some (url, op), afterPost (post url op) did op⟩

/-- did.py 142-206. The `also_known_as` argument. -/
inductive Aka where
  | none
  | one (s : Key)
  | many (l : List Json)

/-- did.py 219-222, 234: `list(also_known_as)`. -/
def Aka.toList : Aka → List Json
  | .none => []
  | .one s => if s = [] then [] else [.str s]
  | .many l => l

/-- did.py 142-206. The arguments of `write_plc`. Keys are the public keys; omitted ones have been
generated. -/
structure WriteArgs (P : Type) where
  did : Key := []
  handle : Option Key := none
  signingKey : PubKey P
  rotationKey : PubKey P
  newRotationKey : Option (PubKey P) := none
  pdsUrl : Key := []
  alsoKnownAs : Aka := .none
  prev : Json := .null

/-- did.py 228-242: the operation `write_plc` builds. -/
def buildOp (rotation signing handle pdsUrl : Key) (aka : List Json) (prev : Json) : Dict :=
  [("type".toList, .str "plc_operation".toList),
   ("rotationKeys".toList, .arr [.str rotation]),
   ("verificationMethods".toList, .obj [("atproto".toList, .str signing)]),
   ("alsoKnownAs".toList, .arr (.str ("at://".toList ++ handle) :: aka)),
   ("services".toList, .obj [("atproto_pds".toList, .obj [
      ("type".toList, .str "AtprotoPersonalDataServer".toList),
      ("endpoint".toList, .str pdsUrl)])]),
   ("prev".toList, prev)]

/-- did.py 188-189. -/
def requireHandle : Option Key → Except Err Key
  | some (c :: h) => .ok (c :: h)
  | _ => .error .value

/-- did.py 191-192. -/
def pdsUrlOf (L : Lib P) (pdsUrl : Key) : Key :=
  if pdsUrl ≠ [] then pdsUrl else "https://".toList ++ L.pdsHost

/-- did.py 188-242: argument checks and the operation. -/
def prepareOp (L : Lib P) (a : WriteArgs P) : Except Err Dict := do
  let handle ← requireHandle a.handle
  let url := pdsUrlOf L a.pdsUrl
  ensure (url.getLast? ≠ some '/') .assertion
  ensure (a.signingKey.curve = .secp256k1 ∧ a.rotationKey.curve = .secp256k1 ∧
      (a.newRotationKey.map (·.curve)).getD .secp256k1 = .secp256k1) .value
  let s ← encodeDidKey L a.signingKey
  let r ← encodeDidKey L (a.newRotationKey.getD a.rotationKey)
  .ok (buildOp r s handle url a.alsoKnownAs.toList a.prev)

/-- did.py 142-246 `write_plc`. -/
def writePlc (L : Lib P) (post : Post) (a : WriteArgs P) : Outcome (Key × Dict) :=
  match prepareOp L a with
  | .error e => .fail e
  | .ok op => writePlcOperation L post op a.did

/-- did.py 126-130, 310-318. An entry of the directory's audit log. -/
structure LogEntry where
  did : Key
  cid : Key
  nullified : Bool := false
  op : Dict

/-- did.py 126-130, 310-318. `log[-1]`. -/
def lastEntry (log : List LogEntry) : Except Err LogEntry :=
  match log.getLast? with
  | some e => .ok e
  | none => .error .index

/-- `l.pop(0)`: the element and the rest. -/
def popFirst (l : List Json) : Except Err (Json × List Json) :=
  match l with
  | o :: rest => .ok (o, rest)
  | [] => .error .index

/-- did.py 131-133. -/
def keepHandle (handle : Option Key) (old : Json) : Except Err Key :=
  match handle with
  | some (c :: h) => .ok (c :: h)
  | _ => do
    let o ← asStr old
    ensure (startsWith o "at://".toList) .assertion
    .ok (removePrefix o "at://".toList)

/-- did.py 123-135: the arguments `update_plc` passes on, from the audit log. -/
def updateArgs (log : List LogEntry) (did : Key) (handle : Option Key) (aka : Option Aka)
    (signingKey rotationKey : PubKey P) (newRotationKey : Option (PubKey P)) (pdsUrl : Key) :
    Except Err (WriteArgs P) := do
  let last ← lastEntry log
  let l ← getItem last.op "alsoKnownAs".toList
  let l ← asArr l
  let or ← popFirst l
  let handle ← keepHandle handle or.1
  .ok { did := did, handle := some handle, signingKey := signingKey, rotationKey := rotationKey,
        newRotationKey := newRotationKey, pdsUrl := pdsUrl, alsoKnownAs := aka.getD (.many or.2),
        prev := .str last.cid }

/-- did.py 115-139 `update_plc`. -/
def updatePlc (L : Lib P) (post : Post) (log : List LogEntry) (did : Key) (handle : Option Key)
    (aka : Option Aka) (signingKey rotationKey : PubKey P) (newRotationKey : Option (PubKey P))
    (pdsUrl : Key) : Outcome (Key × Dict) :=
  match updateArgs log did handle aka signingKey rotationKey newRotationKey pdsUrl with
  | .error e => .fail e
  | .ok a => writePlc L post a

/-- Python's `l[-k]` for `k ≥ 1`. -/
def fromEnd {α : Type} (l : List α) (k : Nat) : Except Err α :=
  match l.reverse[k - 1]? with
  | some x => .ok x
  | none => .error .index

/-- `key in rotationKeys`. -/
def hasStr (l : List Json) (s : Key) : Bool :=
  l.any (fun j => match j with | .str t => t = s | _ => false)

/-- did.py 304-322: the operation `rollback_plc` submits. -/
def rollbackOp (L : Lib P) (log : List LogEntry) (did : Key) (rotationKey : PubKey P)
    (num : Nat) : Except Err Dict := do
  ensure (did ≠ []) .assertion
  ensure (num + 1 ≤ log.length) .assertion
  let rk ← encodeDidKey L rotationKey
  let head ← fromEnd log 1
  let rks ← getItem head.op "rotationKeys".toList
  let rks ← asArr rks
  ensure (hasStr rks rk) .assertion
  let target ← fromEnd log (num + 1)
  ensure (target.did = did) .assertion
  .ok (dictErase (dictSet target.op "prev".toList (.str head.cid)) "sig".toList)

/-- did.py 285-324 `rollback_plc`. It discards the result and returns None. -/
def rollbackPlc (L : Lib P) (post : Post) (log : List LogEntry) (did : Key)
    (rotationKey : PubKey P) (num : Nat) : Outcome Unit :=
  match rollbackOp L log did rotationKey num with
  | .error e => .fail e
  | .ok op =>
    let o := writePlcOperation L post op did
    ⟨o.posted, o.result.map fun _ => ()⟩

/-! ### Resolution -/

/-- The value of a hexadecimal digit. -/
def hexVal (c : Char) : Option Nat :=
  if '0' ≤ c ∧ c ≤ '9' then some (c.toNat - 48)
  else if 'a' ≤ c ∧ c ≤ 'f' then some (c.toNat - 87)
  else if 'A' ≤ c ∧ c ≤ 'F' then some (c.toNat - 55)
  else none

/-- `urllib.parse.unquote_to_bytes` on an ASCII string: valid `%xx` escapes become bytes, any
other `%` is kept. -/
def unquoteToBytes : Key → List Nat
  | '%' :: a :: b :: rest =>
    match hexVal a, hexVal b with
    | some x, some y => (x * 16 + y) :: unquoteToBytes rest
    | _, _ => 37 :: unquoteToBytes (a :: b :: rest)
  | c :: rest => c.toNat :: unquoteToBytes rest
  | [] => []

/-- `urllib.parse.unquote` on an ASCII string; `utf8` is `bytes.decode('utf-8', 'replace')`. -/
def unquote (utf8 : List Nat → Key) (s : Key) : Key :=
  if '%' ∈ s then utf8 (unquoteToBytes s) else s

/-- did.py 50-66. The `did` argument of `resolve`: a `str`, or something falsy, or another value. -/
inductive DidArg where
  | str (s : Key)
  | none

/-- did.py 455-484. What a resolver does first. -/
inductive Fetch where
  | get (url : Key)
  | raises (e : Err)
  deriving DecidableEq, Repr

/-- did.py 75-102 `resolve_plc`. -/
def resolvePlc (plcHost : Key) : DidArg → Fetch
  | .none => .raises .value
  | .str did =>
    if startsWith did "did:plc:".toList then .get ("https://".toList ++ plcHost ++ '/' :: did)
    else .raises .value

/-- did.py 475-478. -/
def webPath (rest : Key) : Key :=
  if ':' ∈ rest then rest.map (fun c => if c = ':' then '/' else c)
  else rest ++ "/.well-known".toList

/-- did.py 455-482 `resolve_web`. -/
def resolveWeb (utf8 : List Nat → Key) : DidArg → Fetch
  | .none => .raises .value
  | .str did =>
    if startsWith did "did:web:".toList then
      .get ("https://".toList ++ unquote utf8 (webPath (removePrefix did "did:web:".toList)) ++ "/did.json".toList)
    else .raises .value

/-- did.py 50-70 `resolve`. -/
def resolve (plcHost : Key) (utf8 : List Nat → Key) : DidArg → Fetch
  | .none => .raises .value
  | .str did =>
    if did ≠ [] then
      if startsWith did "did:plc:".toList then resolvePlc plcHost (.str did)
      else if startsWith did "did:web:".toList then resolveWeb utf8 (.str did)
      else .raises .value
    else .raises .value

end Arroba.Did
