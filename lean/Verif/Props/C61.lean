import Verif.Cbor.Blocks
import Verif.Sha256

/-! # C61: bytes, CIDs and signatures identify content -/

namespace Arroba.Cbor

open Store

/-! ### Values -/

/-- Two values have the same bytes exactly if they have the same content: the order in which the keys of
a dict were inserted, at any depth, makes no difference, and nothing else is lost. -/
theorem C61_same_bytes (v w : Ipld) (b : Bytes) (h : encode v = .ok b) :
    encode w = .ok b ↔ Same v w :=
  encode_same h

/-- What was encoded can be decoded, to the same content. -/
theorem C61_round_trip (v : Ipld) (b : Bytes) (h : encode v = .ok b) :
    ∃ w, decode b = some w ∧ Same v w :=
  decode_encode h

/-- A block that was made from bytes keeps its bytes and its CID when it is decoded and encoded again. -/
theorem C61_canonical (b : Bytes) (v : Ipld) (h : decode b = some v) : encode v = .ok b :=
  encode_decode h

/-- Equal CIDs mean the same content, or a collision of the hash function. -/
theorem C61_cid (sha : Bytes → Bytes) (v w : Ipld) (c : Bytes) (hv : cidOf sha v = .ok c)
    (hw : cidOf sha w = .ok c) : Same v w ∨ ∃ a b, a ≠ b ∧ sha a = sha b := by
  unfold cidOf at hv hw
  split at hv
  · cases hv
  · rename_i a ha
    split at hw
    · cases hw
    · rename_i b hb
      injection hv with hv
      injection hw with hw
      have hs := cidV1_inj (hv.trans hw.symm)
      by_cases hab : a = b
      · subst hab
        exact .inl ((encode_same ha).1 hb)
      · exact .inr ⟨a, b, hab, hs⟩

/-- The same content has the same CID, or is refused in the same way. -/
theorem C61_same_cid (sha : Bytes → Bytes) (v w : Ipld) (h : Same v w) : cidOf sha v = cidOf sha w := by
  have : encode v = encode w := by
    unfold encode
    rw [← h.ok]
    split_ifs with ho
    · rw [h.enc ho]
    · rfl
  unfold cidOf
  rw [this]

/-! ### What arroba stores -/

/-- mst.py 1089-1118, util.py 301, repo.py 166. What arroba makes sure of, and what CIDs and signatures
are: node keys are ASCII, signatures are bytes, the CID in a `sync` event is a CID. -/
def Plain {R : Type} : Val Bytes R → Prop
  | .node d => ∀ e ∈ d.e, Ascii e.k
  | .record _ => True
  | .commit c => ∀ x ∈ c.sig, x < 256
  | .event e => ∀ c rev, e.kind = .sync c rev → IsCid c ∧ c.length + 1 < 2 ^ 64

/-- storage.py 583, server.py 27. A record is a dict with a `$type`, which is not that of an event. -/
def Typed (v : Ipld) : Prop :=
  ∃ ps t, v = .map ps ∧ dictGet ps "$type".toList = some (.text t) ∧ ¬ eventPrefix <+: t

theorem mem_of_get {ps : List (Key × Ipld)} {k : Key} {v : Ipld} (h : dictGet ps k = some v) :
    k ∈ ps.map Prod.fst :=
  List.mem_map.2 ⟨(k, v), dictGet_mem h, rfl⟩

theorem typed_node {v : Ipld} (h : Typed v) (d : NodeData Bytes) : ¬ Same v (nodeObj d) := by
  obtain ⟨ps, t, rfl, ht, _⟩ := h
  intro hs
  have := (hs.keys "$type".toList).1 (mem_of_get ht)
  simp only [List.map_cons, List.map_nil] at this
  exact absurd this (by decide +kernel)

theorem typed_commit {v : Ipld} (h : Typed v) (c : Commit Bytes) : ¬ Same v (commitObj c) := by
  obtain ⟨ps, t, rfl, ht, _⟩ := h
  intro hs
  have := (hs.keys "$type".toList).1 (mem_of_get ht)
  simp only [unsignedObj, List.map_cons, List.map_nil, List.cons_append, List.nil_append] at this
  exact absurd this (by decide +kernel)

theorem event_type {iso : Nat → Key} {car : Bytes → Bytes} {e : Event Bytes} {v : Ipld}
    (h : Same (eventObj iso car e) v) : ∃ ps, v = .map ps ∧
      dictGet ps "$type".toList = some (.text (eventPrefix ++ kindName e.kind)) := by
  cases h with
  | @map _ _ qs hs hp =>
    have hm := Same.map hs hp
    obtain ⟨w, hw, hs⟩ := hm.get (event_nodup iso car e) (k := "$type".toList) rfl
    cases hs
    exact ⟨_, rfl, hw⟩

/-- Two different blocks never have the same CID, whatever they are (MST nodes, records, commits or
events), unless the hash function collides. So the storage model's injective `Lib.hash` stands for just
this: SHA-256 does not collide. -/
theorem C61_blocks {R : Type} (sha : Bytes → Bytes) (iso : Nat → Key) (hiso : Function.Injective iso)
    (data : Bytes → Bytes) (rec : R → Ipld) (htyped : ∀ r, Typed (rec r))
    (hrec : ∀ r s, Same (rec r) (rec s) → r = s) (v w : Val Bytes R) (hv : Plain v) (hw : Plain w)
    (c : Bytes) (cv : cidOf sha (valObj iso (syncCar data) rec v) = .ok c)
    (cw : cidOf sha (valObj iso (syncCar data) rec w) = .ok c) :
    v = w ∨ ∃ a b, a ≠ b ∧ sha a = sha b := by
  rcases C61_cid sha _ _ c cv cw with h | h
  · rcases C61_cid sha _ _ c cw cv with h' | h'
    · refine .inl ?_
      have hnc : ∀ (d : NodeData Bytes) (c : Commit Bytes), ¬ Same (nodeObj d) (commitObj c) := by
        intro d c hs
        have := (hs.keys "l".toList).1 (by simp)
        simp only [unsignedObj, List.map_cons, List.map_nil, List.cons_append, List.nil_append] at this
        exact absurd this (by decide +kernel)
      have hne : ∀ (d : NodeData Bytes) (e : Event Bytes), ¬ Same (eventObj iso (syncCar data) e) (nodeObj d) := by
        intro d e hs
        have := (hs.keys "$type".toList).1 (by simp)
        simp only [List.map_cons, List.map_nil] at this
        exact absurd this (by decide +kernel)
      have hce : ∀ (c : Commit Bytes) (e : Event Bytes), ¬ Same (eventObj iso (syncCar data) e) (commitObj c) := by
        intro c e hs
        have := (hs.keys "$type".toList).1 (by simp)
        simp only [unsignedObj, List.map_cons, List.map_nil, List.cons_append, List.nil_append] at this
        exact absurd this (by decide +kernel)
      have hre : ∀ (r : R) (e : Event Bytes), ¬ Same (eventObj iso (syncCar data) e) (rec r) := by
        intro r e hs
        obtain ⟨ps, hp, hg⟩ := event_type hs
        obtain ⟨qs, t, hq, ht, hn⟩ := htyped r
        rw [hp] at hq
        cases hq
        rw [hg] at ht
        cases ht
        exact hn (List.prefix_append _ _)
      cases v with
      | node d => cases w with
        | node d' => rw [nodeObj_inj hv hw h]
        | record r => exact absurd h' (typed_node (htyped r) d)
        | commit c => exact absurd h (hnc d c)
        | event e => exact absurd h' (hne d e)
      | record r => cases w with
        | node d' => exact absurd h (typed_node (htyped r) d')
        | record s => rw [hrec r s h]
        | commit c => exact absurd h (typed_commit (htyped r) c)
        | event e => exact absurd h' (hre r e)
      | commit c => cases w with
        | node d => exact absurd h' (hnc d c)
        | record r => exact absurd h' (typed_commit (htyped r) c)
        | commit c' => rw [commitObj_inj hv hw h]
        | event e => exact absurd h' (hce c e)
      | event e => cases w with
        | node d => exact absurd h (hne d e)
        | record r => exact absurd h (hre r e)
        | commit c => exact absurd h (hce c e)
        | event e' =>
          rw [eventObj_inj hiso (fun c c' r r' ha hb hc =>
            syncCar_inj (hv c r ha).1 (hw c' r' hb).1 (hv c r ha).2 (hw c' r' hb).2 hc) h]
    · exact .inr h'
  · exact .inr h

/-- A signature covers the whole commit: what is signed determines the repo, the revision, the tree, the
previous commit and the version. -/
theorem C61_signed (a b : Commit Bytes) (s : Bytes) (ha : signedBytes a = .ok s)
    (hb : signedBytes b = .ok s) :
    a.did = b.did ∧ a.rev = b.rev ∧ a.data = b.data ∧ a.prev = b.prev ∧ a.version = b.version := by
  have := unsigned_inj ((encode_same ha).1 hb)
  rw [Commit.mk.injEq] at this
  exact ⟨this.2.1, this.2.2.1, this.2.2.2.2.1, this.2.2.2.1, this.1⟩

/-- An export is read back as it was written: the same roots, and the same blocks in the same order. -/
theorem C61_car (roots : List Bytes) (blocks : List (Bytes × Bytes)) (bs : Bytes)
    (hc : ∀ b ∈ blocks, IsCid b.1) (h : writeCar roots blocks = .ok bs) :
    readCar bs = some (roots, blocks) :=
  readCar_writeCar hc h

/-! ### What is refused -/

/-- Integers that need more than 64 bits cannot be stored, at any depth. -/
theorem C61_refuses_integer (i : Int) (h : i < -2 ^ 64 ∨ 2 ^ 64 ≤ i) (ks : List Key) :
    encode (ks.foldr (fun k v => .map [(k, v)]) (.int i)) = .error .value := by
  have : (ks.foldr (fun k v => Ipld.map [(k, v)]) (.int i)).ok = false := by
    induction ks with
    | nil =>
      rw [List.foldr_nil, Ipld.ok, Bool.and_eq_false_iff, decide_eq_false_iff_not,
        decide_eq_false_iff_not]
      omega
    | cons k ks ih => simp [Ipld.ok, okEntries, ih]
  rw [encode, this]; rfl

/-! ### Examples -/

/-- A record, in two orders of insertion. -/
def exRec (swap : Bool) : Ipld :=
  let a := ("$type".toList, Ipld.text "app.bsky.feed.post".toList)
  let b := ("text".toList, Ipld.text "héllo".toList)
  let c := ("embed".toList, Ipld.map (if swap then [("n".toList, .int (-7)), ("ok".toList, .bool true)]
    else [("ok".toList, .bool true), ("n".toList, .int (-7))]))
  .map (if swap then [c, b, a] else [a, b, c])

-- the premises of `C61_same_bytes`, `C61_round_trip` and `C61_canonical`: both are accepted, with the
-- same bytes
example : ∃ b, encode (exRec false) = .ok b ∧ encode (exRec true) = .ok b ∧ b.length = 52 := by
  refine ⟨(exRec false).enc, ?_, ?_, ?_⟩ <;> decide +kernel
example : Same (exRec false) (exRec true) := by
  have h : encode (exRec false) = .ok (exRec false).enc := by decide +kernel
  exact (C61_same_bytes _ _ _ h).1 (by decide +kernel)

-- the bytes of the empty tree, as other implementations have them
example : encode (nodeObj ⟨none, []⟩) = .ok [0xa2, 0x61, 0x65, 0x80, 0x61, 0x6c, 0xf6] := by
  decide +kernel

-- and with SHA-256 its CID, `bafyreie5737gdxlw5i64vzichcalba3z2v5n6icifvx5xytvske7mr3hpm`
example : cidOf (fun b => (Sha256.sha256 (b.map UInt8.toNat)).map UInt8.ofNat) (nodeObj ⟨none, []⟩)
    = .ok ([1, 0x71, 0x12, 0x20] ++ [157, 254, 254, 97, 221, 118, 234, 61, 202, 229, 2, 56, 128, 176,
      131, 121, 213, 122, 223, 32, 72, 45, 111, 219, 226, 117, 146, 137, 246, 71, 103, 123]) := by
  decide +kernel

/-- A hash function for the examples. -/
def exSha (b : Bytes) : Bytes := b.drop (b.length - 32)

/-- A commit. -/
def exCommit : Commit Bytes :=
  ⟨3, "did:web:alice.com".toList, "3jzfcijpj2z2a".toList, none, cidV1 0x71 0x12 (List.replicate 32 7),
    [1, 2, 3]⟩

example : Plain (R := Nat) (.commit exCommit) := by unfold Plain; decide +kernel
example : ∃ c, cidOf exSha (commitObj exCommit) = .ok c ∧ c.length = 36 := by
  refine ⟨cidV1 0x71 0x12 (exSha (commitObj exCommit).enc), ?_, ?_⟩ <;> decide +kernel
example : ∃ s, signedBytes exCommit = .ok s ∧ s.length = 102 := by
  refine ⟨(Ipld.map (unsignedObj exCommit)).enc, ?_, ?_⟩ <;> decide +kernel

-- the premises of `C61_blocks` about records
example : Typed (exRec false) := by
  refine ⟨_, "app.bsky.feed.post".toList, rfl, rfl, by decide +kernel⟩

-- a CAR file
example : ∃ bs, writeCar [exCommit.data] [(exCommit.data, [1, 2, 3])] = .ok bs ∧ bs.length = 99 := by
  refine ⟨_, rfl, ?_⟩
  decide +kernel
example : IsCid exCommit.data := ⟨_, _, _, rfl⟩

end Arroba.Cbor
