import Verif.Py

/-! # DAG-CBOR

`dag_cbor.encode` and `dag_cbor.decode`, on which `Block.encoded`, `Block.decoded`, `Block.cid`
(storage.py 118-135), `dag_cbor_cid` (util.py 67-78), `sign` and `verify_sig` (util.py 299, 358)
rest. The package is not part of the repository. What is modelled is the DAG-CBOR format
(https://ipld.io/specs/codecs/dag-cbor/spec/) that the package implements, and that it is strict: it
refuses what the format excludes, both when it writes and when it reads.

Simplifications: a float is its 64 bits; a CID is its bytes; the checks that make `encode` raise come
before the output and not in the course of it; Unicode normalisation is not done (the default). -/

namespace Arroba.Cbor

abbrev Bytes := List UInt8

/-- storage.py 72-135. A Python value that `dag_cbor.encode` knows; a `dict` is the list of its
entries in the order of insertion. -/
inductive Ipld where
  | null
  | bool (b : Bool)
  | int (i : Int)
  | float (bits : Nat)
  | bytes (b : Bytes)
  | text (s : Key)
  | link (cid : Bytes)
  | list (xs : List Ipld)
  | map (ps : List (Key × Ipld))

/-- storage.py 128. `str.encode('utf-8')`. -/
def utf8 (s : Key) : Bytes := s.flatMap String.utf8EncodeChar

/-- storage.py 134. `bytes.decode('utf-8')`. -/
def unUtf8 (b : Bytes) : Option Key := b.toByteArray.utf8Decode?.map Array.toList

/-- storage.py 128. `int.to_bytes(k, 'big')` for `n < 256 ^ k`. -/
def be : Nat → Nat → Bytes
  | 0, _ => []
  | k + 1, n => UInt8.ofNat (n / 256 ^ k) :: be k n

/-- storage.py 134. `int.from_bytes(b, 'big')`. -/
def unBe (b : Bytes) : Nat := b.foldl (fun a x => a * 256 + x.toNat) 0

/-- storage.py 128. The head of a data item: major type and argument, the argument in the smallest
form. -/
def head (major n : Nat) : Bytes :=
  if n < 24 then [UInt8.ofNat (major * 32 + n)]
  else if n < 2 ^ 8 then UInt8.ofNat (major * 32 + 24) :: be 1 n
  else if n < 2 ^ 16 then UInt8.ofNat (major * 32 + 25) :: be 2 n
  else if n < 2 ^ 32 then UInt8.ofNat (major * 32 + 26) :: be 4 n
  else UInt8.ofNat (major * 32 + 27) :: be 8 n

/-- storage.py 128. The order of map keys: shorter keys first, then byte by byte. -/
def keyLe (a b : Key) : Bool :=
  (utf8 a).length < (utf8 b).length ||
    ((utf8 a).length == (utf8 b).length && decide ((utf8 a).map UInt8.toNat ≤ (utf8 b).map UInt8.toNat))

/-- storage.py 128. One step of sorting by key. -/
def insertKey {α : Type} (p : Key × α) : List (Key × α) → List (Key × α)
  | [] => [p]
  | q :: qs => if keyLe p.1 q.1 then p :: q :: qs else q :: insertKey p qs

/-- storage.py 128. Entries sorted by key. -/
def sortKeys {α : Type} (ps : List (Key × α)) : List (Key × α) := ps.foldr insertKey []

mutual
/-- storage.py 128. The bytes of a value. -/
def Ipld.enc : Ipld → Bytes
  | .null => [0xf6]
  | .bool false => [0xf4]
  | .bool true => [0xf5]
  | .int i => if 0 ≤ i then head 0 i.toNat else head 1 (-1 - i).toNat
  | .float bits => 0xfb :: be 8 bits
  | .bytes b => head 2 b.length ++ b
  | .text s => head 3 (utf8 s).length ++ utf8 s
  | .link cid => head 6 42 ++ (head 2 (cid.length + 1) ++ 0 :: cid)
  | .list xs => head 4 xs.length ++ (encItems xs).flatten
  | .map ps => head 5 ps.length ++
      ((sortKeys (encEntries ps)).flatMap fun p => head 3 (utf8 p.1).length ++ utf8 p.1 ++ p.2)
/-- storage.py 128. The items of a list. -/
def encItems : List Ipld → List Bytes
  | [] => []
  | x :: xs => x.enc :: encItems xs
/-- storage.py 128. The entries of a dict, with the bytes of their values. -/
def encEntries : List (Key × Ipld) → List (Key × Bytes)
  | [] => []
  | (k, v) :: ps => (k, v.enc) :: encEntries ps
end

mutual
/-- storage.py 128. `dag_cbor.encode` does not raise: integers fit into 64 bits and a sign, floats are
finite, lengths fit into 64 bits. (The keys of a dict are distinct.) -/
def Ipld.ok : Ipld → Bool
  | .int i => -2 ^ 64 ≤ i && i < 2 ^ 64
  | .float bits => bits < 2 ^ 64 && bits / 2 ^ 52 % 2 ^ 11 != 2047
  | .bytes b => b.length < 2 ^ 64
  | .text s => (utf8 s).length < 2 ^ 64
  | .link cid => cid.length + 1 < 2 ^ 64
  | .list xs => xs.length < 2 ^ 64 && okItems xs
  | .map ps => ps.length < 2 ^ 64 && decide (ps.map Prod.fst).Nodup && okEntries ps
  | _ => true
/-- storage.py 128. The items of a list. -/
def okItems : List Ipld → Bool
  | [] => true
  | x :: xs => x.ok && okItems xs
/-- storage.py 128. The entries of a dict. -/
def okEntries : List (Key × Ipld) → Bool
  | [] => true
  | (k, v) :: ps => decide ((utf8 k).length < 2 ^ 64) && v.ok && okEntries ps
end

/-- storage.py 128, util.py 76. `dag_cbor.encode`. -/
def encode (v : Ipld) : Except Err Bytes :=
  if v.ok then .ok v.enc else .error .value

/-- storage.py 134. Reads a head: major type, additional information, argument, and what follows. An
argument that is not in its smallest form is refused. -/
def unHead : Bytes → Option (Nat × Nat × Nat × Bytes)
  | [] => none
  | b :: bs =>
    let major := b.toNat / 32
    let info := b.toNat % 32
    let arg (k least : Nat) : Option (Nat × Nat × Nat × Bytes) :=
      if bs.length < k then none
      else
        let n := unBe (bs.take k)
        if n < least && major != 7 then none else some (major, info, n, bs.drop k)
    if info < 24 then some (major, info, info, bs)
    else if info = 24 then arg 1 24
    else if info = 25 then arg 2 (2 ^ 8)
    else if info = 26 then arg 4 (2 ^ 16)
    else if info = 27 then arg 8 (2 ^ 32)
    else none

/-- storage.py 134. Reads `n` things. -/
def unMany {α : Type} (d : Bytes → Option (α × Bytes)) : Nat → Bytes → Option (List α × Bytes)
  | 0, bs => some ([], bs)
  | n + 1, bs =>
    match d bs with
    | none => none
    | some (x, bs) =>
      match unMany d n bs with
      | none => none
      | some (xs, bs) => some (x :: xs, bs)

/-- storage.py 134. Reads the text of a string or key. -/
def unText (n : Nat) (bs : Bytes) : Option (Key × Bytes) :=
  if bs.length < n then none
  else match unUtf8 (bs.take n) with
    | none => none
    | some s => some (s, bs.drop n)

/-- storage.py 134. Reads an entry of a map. -/
def unEntry {α : Type} (d : Bytes → Option (α × Bytes)) (bs : Bytes) : Option ((Key × α) × Bytes) :=
  match unHead bs with
  | some (3, _, n, bs) =>
    match unText n bs with
    | none => none
    | some (k, bs) =>
      match d bs with
      | none => none
      | some (v, bs) => some ((k, v), bs)
  | _ => none

/-- storage.py 134. The keys are in order, and no key comes twice. -/
def ordered : List Key → Bool
  | [] => true
  | [_] => true
  | a :: b :: ks => keyLe a b && decide (a ≠ b) && ordered (b :: ks)

/-- storage.py 134. Reads one value; the first argument bounds the depth. -/
def Ipld.dec : Nat → Bytes → Option (Ipld × Bytes)
  | 0, _ => none
  | f + 1, bs =>
    match unHead bs with
    | none => none
    | some (major, info, n, bs) =>
      match major with
      | 0 => some (.int n, bs)
      | 1 => some (.int (-1 - n), bs)
      | 2 => if bs.length < n then none else some (.bytes (bs.take n), bs.drop n)
      | 3 => match unText n bs with
        | none => none
        | some (s, bs) => some (.text s, bs)
      | 4 => match unMany (Ipld.dec f) n bs with
        | none => none
        | some (xs, bs) => some (.list xs, bs)
      | 5 => match unMany (unEntry (Ipld.dec f)) n bs with
        | none => none
        | some (ps, bs) => if ordered (ps.map Prod.fst) then some (.map ps, bs) else none
      | 6 =>
        if n = 42 then
          match unHead bs with
          | some (2, _, m, bs) =>
            if bs.length < m then none
            else match bs.take m with
              | 0 :: cid => some (.link cid, bs.drop m)
              | _ => none
          | _ => none
        else none
      | _ =>
        if info = 20 then some (.bool false, bs)
        else if info = 21 then some (.bool true, bs)
        else if info = 22 then some (.null, bs)
        else if info = 27 then
          if n / 2 ^ 52 % 2 ^ 11 = 2047 then none else some (.float n, bs)
        else none

/-- storage.py 134. `dag_cbor.decode`: one value, and nothing after it. -/
def decode (bs : Bytes) : Option Ipld :=
  match Ipld.dec (bs.length + 1) bs with
  | some (v, []) => some v
  | _ => none

end Arroba.Cbor
