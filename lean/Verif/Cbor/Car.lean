import Verif.Cbor.SameProofs

/-! # CAR files

`carbox.write_car` and `carbox.read_car` (repo.py 168, firehose.py 397, xrpc_sync.py 67, 186, 230,
xrpc_repo.py 200). The package is not part of the repository; modelled is the CARv1 format
(https://ipld.io/specs/transport/car/carv1/) for CIDs of version 1. `read_car` also checks, by
default, that the data of each block have its CID; that is left out here. -/

namespace Arroba.Cbor

/-- repo.py 168. An unsigned LEB128 integer; the first argument bounds the number of bytes. -/
def varintUpTo : Nat → Nat → Bytes
  | 0, n => [UInt8.ofNat n]
  | f + 1, n => if n < 128 then [UInt8.ofNat n] else UInt8.ofNat (n % 128 + 128) :: varintUpTo f (n / 128)

/-- repo.py 168. An unsigned LEB128 integer. -/
def varint (n : Nat) : Bytes := varintUpTo n n

/-- xrpc_repo.py 200. Reads one. -/
def unVarint : Bytes → Option (Nat × Bytes)
  | [] => none
  | b :: bs =>
    if b.toNat < 128 then some (b.toNat, bs)
    else match unVarint bs with
      | none => none
      | some (n, bs) => some (b.toNat - 128 + 128 * n, bs)

/-- util.py 78, storage.py 121-122. The bytes of a CID of version 1. -/
def cidV1 (codec hash : Nat) (digest : Bytes) : Bytes :=
  varint 1 ++ varint codec ++ varint hash ++ varint digest.length ++ digest

/-- xrpc_repo.py 200. Splits off a CID. -/
def unCid (bs : Bytes) : Option (Bytes × Bytes) :=
  match unVarint bs with
  | some (1, b1) =>
    match unVarint b1 with
    | none => none
    | some (_, b2) =>
      match unVarint b2 with
      | none => none
      | some (_, b3) =>
        match unVarint b3 with
        | none => none
        | some (n, b4) =>
          if b4.length < n then none
          else some (bs.take (bs.length - b4.length + n), b4.drop n)
  | _ => none

/-- repo.py 168. One block: length, CID, data. -/
def carBlock (b : Bytes × Bytes) : Bytes := varint (b.1.length + b.2.length) ++ b.1 ++ b.2

/-- repo.py 168. The header. -/
def carHeader (roots : List Bytes) : Ipld :=
  .map [("version".toList, .int 1), ("roots".toList, .list (roots.map .link))]

/-- repo.py 168, xrpc_sync.py 67. `write_car`. -/
def writeCar (roots : List Bytes) (blocks : List (Bytes × Bytes)) : Except Err Bytes :=
  match encode (carHeader roots) with
  | .error e => .error e
  | .ok h => .ok (varint h.length ++ h ++ blocks.flatMap carBlock)

/-- xrpc_repo.py 200. The blocks up to the end; the first argument bounds their number. -/
def readBlocks : Nat → Bytes → Option (List (Bytes × Bytes))
  | 0, _ => none
  | f + 1, bs =>
    if bs = [] then some []
    else match unVarint bs with
      | none => none
      | some (n, bs) =>
        if bs.length < n then none
        else match unCid (bs.take n) with
          | none => none
          | some b =>
            match readBlocks f (bs.drop n) with
            | none => none
            | some l => some (b :: l)

/-- xrpc_repo.py 200. The CIDs in a list of links. -/
def linksOf : List Ipld → Option (List Bytes)
  | [] => some []
  | .link c :: xs => (linksOf xs).map (c :: ·)
  | _ => none

/-- xrpc_repo.py 200. The roots that a header names. -/
def rootsOf : Ipld → Option (List Bytes)
  | .map ps =>
    match dictGet ps "version".toList, dictGet ps "roots".toList with
    | some (.int 1), some (.list xs) => linksOf xs
    | _, _ => none
  | _ => none

/-- xrpc_repo.py 200. `read_car`. -/
def readCar (bs : Bytes) : Option (List Bytes × List (Bytes × Bytes)) :=
  match unVarint bs with
  | none => none
  | some (n, bs) =>
    if bs.length < n then none
    else match decode (bs.take n) with
      | none => none
      | some v =>
        match rootsOf v, readBlocks (bs.length + 1) (bs.drop n) with
        | some roots, some blocks => some (roots, blocks)
        | _, _ => none

/-! ### Reading undoes writing -/

theorem unVarint_upTo : ∀ (f n : Nat), n ≤ f → ∀ rest : Bytes,
    unVarint (varintUpTo f n ++ rest) = some (n, rest)
  | 0, n, h, rest => by
    obtain rfl : n = 0 := by omega
    rfl
  | f + 1, n, h, rest => by
    unfold varintUpTo
    split_ifs with h
    · simp [unVarint, Nat.mod_eq_of_lt (show n < 256 by omega), h]
    · have h1 : (n % 128 + 128) % 256 = n % 128 + 128 := by omega
      rw [List.cons_append, unVarint, UInt8.toNat_ofNat', h1, if_neg (by omega),
        unVarint_upTo f (n / 128) (by omega)]
      simp; omega

theorem unVarint_varint (n : Nat) (rest : Bytes) : unVarint (varint n ++ rest) = some (n, rest) :=
  unVarint_upTo n n (le_refl n) rest

theorem unCid_cidV1 (codec hash : Nat) (digest rest : Bytes) :
    unCid (cidV1 codec hash digest ++ rest) = some (cidV1 codec hash digest, rest) := by
  unfold unCid cidV1
  simp only [List.append_assoc, unVarint_varint]
  have e : varint 1 ++ (varint codec ++ (varint hash ++ (varint digest.length ++ (digest ++ rest))))
      = (varint 1 ++ (varint codec ++ (varint hash ++ (varint digest.length ++ digest)))) ++ rest := by
    simp
  rw [if_neg (by simp), List.drop_left, e, List.take_left' (by simp; omega)]

/-- A CID of version 1. -/
def IsCid (c : Bytes) : Prop := ∃ codec hash digest, c = cidV1 codec hash digest

theorem IsCid.unCid {c : Bytes} (h : IsCid c) (rest : Bytes) : Cbor.unCid (c ++ rest) = some (c, rest) := by
  obtain ⟨codec, hash, digest, rfl⟩ := h
  exact unCid_cidV1 codec hash digest rest

theorem varint_pos (n : Nat) : 0 < (varint n).length := by
  unfold varint varintUpTo; split <;> (try split_ifs) <;> simp

theorem readBlocks_flatMap : ∀ (blocks : List (Bytes × Bytes)), (∀ b ∈ blocks, IsCid b.1) → ∀ f,
    (blocks.flatMap carBlock).length < f → readBlocks f (blocks.flatMap carBlock) = some blocks
  | [], _, f, hf => by obtain _ | f := f; · omega
                       simp [readBlocks]
  | b :: bl, h, f, hf => by
    obtain _ | f := f
    · omega
    have hv := varint_pos (b.1.length + b.2.length)
    rw [List.flatMap_cons] at hf ⊢
    have hne : carBlock b ++ bl.flatMap carBlock ≠ [] := by
      intro hc
      have := congrArg List.length hc
      simp [carBlock] at this
      rw [this.1] at hv
      simp at hv
    rw [readBlocks, if_neg hne]
    have hl : b.1.length + b.2.length = (b.1 ++ b.2).length := by simp
    simp only [carBlock, List.append_assoc, unVarint_varint]
    rw [← List.append_assoc, hl, List.take_left, List.drop_left, (h b (by simp)).unCid,
      if_neg (by simp)]
    have := readBlocks_flatMap bl (fun c hc => h c (by simp [hc])) f (by
      rw [List.length_append] at hf
      simp only [carBlock, List.length_append] at hf
      omega)
    simp only [this]

theorem linksOf_map : ∀ roots : List Bytes, linksOf (roots.map .link) = some roots
  | [] => rfl
  | r :: rs => by simp [linksOf, linksOf_map rs]

theorem normItems_links (roots : List Bytes) : normItems (roots.map .link) = roots.map .link := by
  rw [normItems_eq, List.map_map]; rfl

theorem rootsOf_header (roots : List Bytes) : rootsOf (carHeader roots).norm = some roots := by
  have : (carHeader roots).norm = .map [("roots".toList, .list (roots.map .link)),
      ("version".toList, .int 1)] := by
    unfold carHeader
    simp only [Ipld.norm, normEntries, normItems_links, Ipld.map.injEq]
    rw [show sortKeys [("version".toList, Ipld.int 1), ("roots".toList, .list (roots.map .link))]
      = insertKey ("version".toList, Ipld.int 1) [("roots".toList, .list (roots.map .link))] from rfl]
    have hk : ¬ keyLe "version".toList "roots".toList = true := by decide +kernel
    rw [insertKey, if_neg hk]; rfl
  rw [this, rootsOf]
  exact linksOf_map roots

/-- Reading a CAR file gives the roots and blocks it was written from. -/
theorem readCar_writeCar {roots : List Bytes} {blocks : List (Bytes × Bytes)} {bs : Bytes}
    (hc : ∀ b ∈ blocks, IsCid b.1) (h : writeCar roots blocks = .ok bs) :
    readCar bs = some (roots, blocks) := by
  unfold writeCar encode at h
  split at h
  · cases h
  · rename_i hd hh
    split_ifs at hh with ho
    cases hh
    cases h
    rw [readCar, List.append_assoc, unVarint_varint]
    simp only [List.length_append, List.take_left, List.drop_left, decode_enc ho, rootsOf_header]
    rw [if_neg (by omega), readBlocks_flatMap blocks hc _ (by omega)]

end Arroba.Cbor
