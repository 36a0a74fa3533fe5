import Verif.Cbor.Car
import Verif.Storage.TableProofs

/-! # The objects that arroba stores, as `dag_cbor` sees them -/

namespace Arroba.Cbor

open Store

/-- mst.py 1051, storage.py 619. A CID or `None`. -/
def optLink : Option Bytes → Ipld
  | none => .null
  | some c => .link c

/-- mst.py 1056 `.encode('ascii')` (mst.py 1089-1118 `ensure_valid_key` has made sure of that). -/
def ascii (k : Key) : Bytes := k.map fun c => UInt8.ofNat c.toNat

/-- mst.py 1054-1059. `Entry(...)._asdict()`. -/
def entryObj (e : EntryData Bytes) : Ipld :=
  .map [("p".toList, .int e.p), ("k".toList, .bytes (ascii e.k)), ("v".toList, .link e.v),
    ("t".toList, optLink e.t)]

/-- mst.py 1037-1062, 1086. `serialize_node_data(entries)._asdict()`. -/
def nodeObj (d : NodeData Bytes) : Ipld :=
  .map [("l".toList, optLink d.l), ("e".toList, .list (d.e.map entryObj))]

/-- storage.py 614-621. What is signed. -/
def unsignedObj (c : Commit Bytes) : List (Key × Ipld) :=
  [("did".toList, .text c.did), ("version".toList, .int c.version), ("rev".toList, .text c.rev),
    ("prev".toList, optLink c.prev), ("data".toList, .link c.data)]

/-- storage.py 614-622, util.py 301. The signature is put last. -/
def commitObj (c : Commit Bytes) : Ipld :=
  .map (unsignedObj c ++ [("sig".toList, .bytes (c.sig.map UInt8.ofNat))])

/-- util.py 22-24. -/
def statusText : Status → Key
  | .deactivated => "deactivated".toList
  | .deleted => "deleted".toList
  | .tombstoned => "tombstoned".toList

/-- storage.py 474. -/
def kindName : EventKind Bytes → Key
  | .account .. => "account".toList
  | .identity .. => "identity".toList
  | .sync .. => "sync".toList
  | .tombstone => "tombstone".toList

/-- storage.py 478, repo.py 159-170, storage.py 272, 290, 308. The keyword arguments. `car` makes the
CAR file for the `blocks` of a `sync` event. -/
def kindArgs (car : Bytes → Bytes) : EventKind Bytes → List (Key × Ipld)
  | .account active none => [("active".toList, .bool active)]
  | .account active (some s) => [("active".toList, .bool active), ("status".toList, .text (statusText s))]
  | .identity none => [("handle".toList, .null)]
  | .identity (some h) => [("handle".toList, .text h)]
  | .sync c rev => [("blocks".toList, .bytes (car c)), ("rev".toList, .text rev)]
  | .tombstone => []

/-- storage.py 23, 474. -/
def eventPrefix : Key := "com.atproto.sync.subscribeRepos#".toList

/-- storage.py 473-479. `iso` writes a time. -/
def eventObj (iso : Nat → Key) (car : Bytes → Bytes) (e : Event Bytes) : Ipld :=
  .map ([("$type".toList, .text (eventPrefix ++ kindName e.kind)), ("seq".toList, .int e.seq),
    ("did".toList, .text e.did), ("time".toList, .text (iso e.time))] ++ kindArgs car e.kind)

/-- repo.py 166-168. The CAR file of a `sync` event; `data` has the bytes of the commit. -/
def syncCar (data : Bytes → Bytes) (c : Bytes) : Bytes :=
  match writeCar [c] [(c, data c)] with
  | .ok b => b
  | .error _ => []

/-- storage.py 128, 586, 622, 473-479, mst.py 1086. What is encoded for a block. `rec` gives the dict of
a record. -/
def valObj {R : Type} (iso : Nat → Key) (car : Bytes → Bytes) (rec : R → Ipld) : Val Bytes R → Ipld
  | .node d => nodeObj d
  | .record r => rec r
  | .commit c => commitObj c
  | .event e => eventObj iso car e

/-- util.py 67-78 `dag_cbor_cid`, storage.py 118-123 `Block.cid`: version 1, codec `dag-cbor` (0x71),
hash `sha2-256` (0x12). -/
def cidOf (sha : Bytes → Bytes) (v : Ipld) : Except Err Bytes :=
  match encode v with
  | .error e => .error e
  | .ok b => .ok (cidV1 0x71 0x12 (sha b))

/-- util.py 299, 351-358. What `sign` signs, and what `verify_sig` verifies a signature against: the
commit without `sig`. -/
def signedBytes (c : Commit Bytes) : Except Err Bytes := encode (.map (unsignedObj c))

/-! ### Comparing dicts -/

theorem SameEntries.keys : ∀ {ps qs}, SameEntries ps qs → ps.map Prod.fst = qs.map Prod.fst :=
  fun h => h.ok.1

theorem SameEntries.get : ∀ {ps qs}, SameEntries ps qs → ∀ {k v}, dictGet ps k = some v →
    ∃ w, dictGet qs k = some w ∧ Same v w
  | _, _, .nil, _, _, h => by cases h
  | _, _, .cons (k := k') hv hs, k, v, h => by
    simp only [dictGet] at h ⊢
    split_ifs at h ⊢ with hk
    · cases h; exact ⟨_, rfl, hv⟩
    · exact SameEntries.get hs h

theorem dictGet_perm {ps qs : List (Key × Ipld)} (h : ps.Perm qs) (hn : (ps.map Prod.fst).Nodup)
    (k : Key) : dictGet ps k = dictGet qs k := by
  have hn' : (qs.map Prod.fst).Nodup := (h.map _).nodup_iff.1 hn
  cases hp : dictGet ps k with
  | some v => exact (dictGet_of_mem hn' (h.mem_iff.1 (dictGet_mem hp))).symm
  | none =>
    cases hq : dictGet qs k with
    | none => rfl
    | some v => rw [dictGet_of_mem hn (h.mem_iff.2 (dictGet_mem hq))] at hp; cases hp

/-- Dicts with the same content: the same keys, and the same content under each of them. -/
theorem Same.get {ps qs : List (Key × Ipld)} (h : Same (.map ps) (.map qs))
    (hn : (ps.map Prod.fst).Nodup) {k : Key} {v : Ipld} (hv : dictGet ps k = some v) :
    ∃ w, dictGet qs k = some w ∧ Same v w := by
  cases h with
  | map hs hp =>
    obtain ⟨w, hw, hvw⟩ := hs.get hv
    exact ⟨w, by rw [← dictGet_perm hp (hs.keys ▸ hn)]; exact hw, hvw⟩

theorem Same.keys {ps qs : List (Key × Ipld)} (h : Same (.map ps) (.map qs)) (k : Key) :
    k ∈ ps.map Prod.fst ↔ k ∈ qs.map Prod.fst := by
  cases h with
  | map hs hp => rw [hs.keys]; exact (hp.map _).mem_iff

theorem Same.length {ps qs : List (Key × Ipld)} (h : Same (.map ps) (.map qs)) :
    ps.length = qs.length := by
  cases h with
  | map hs hp => rw [← hp.length_eq]; simpa using congrArg List.length hs.keys

theorem Same.int_inj {a b : Int} (h : Same (.int a) (.int b)) : a = b := by cases h; rfl
theorem Same.bytes_inj {a b : Bytes} (h : Same (.bytes a) (.bytes b)) : a = b := by cases h; rfl
theorem Same.text_inj {a b : Key} (h : Same (.text a) (.text b)) : a = b := by cases h; rfl
theorem Same.link_inj {a b : Bytes} (h : Same (.link a) (.link b)) : a = b := by cases h; rfl
theorem Same.bool_inj {a b : Bool} (h : Same (.bool a) (.bool b)) : a = b := by cases h; rfl
theorem Same.list_inj {a b : List Ipld} (h : Same (.list a) (.list b)) : SameItems a b := by
  cases h; assumption

theorem optLink_inj {a b : Option Bytes} (h : Same (optLink a) (optLink b)) : a = b := by
  cases a <;> cases b <;> simp only [optLink] at h <;> cases h <;> rfl

theorem nodup_of_ok {ps : List (Key × Ipld)} (h : (Ipld.map ps).ok = true) :
    (ps.map Prod.fst).Nodup := by
  simp only [Ipld.ok, Bool.and_eq_true, decide_eq_true_eq] at h
  exact h.1.2

/-- Keys are ASCII. -/
def Ascii (k : Key) : Prop := ∀ c ∈ k, c.toNat < 128

theorem ascii_inj : ∀ {k l : Key}, Ascii k → Ascii l → ascii k = ascii l → k = l
  | [], [], _, _, _ => rfl
  | [], _ :: _, _, _, h => by simp [ascii] at h
  | _ :: _, [], _, _, h => by simp [ascii] at h
  | c :: k, d :: l, hk, hl, h => by
    simp only [ascii, List.map_cons, List.cons.injEq] at h
    have hc := hk c (by simp)
    have hd := hl d (by simp)
    have h1 := congrArg UInt8.toNat h.1
    rw [UInt8.toNat_ofNat', UInt8.toNat_ofNat', Nat.mod_eq_of_lt (by omega), Nat.mod_eq_of_lt (by omega)]
      at h1
    rw [Char.toNat_inj.1 h1, ascii_inj (fun x hx => hk x (by simp [hx])) (fun x hx => hl x (by simp [hx])) h.2]

theorem entry_nodup (a : EntryData Bytes) :
    (([("p".toList, .int a.p), ("k".toList, .bytes (ascii a.k)), ("v".toList, .link a.v),
    ("t".toList, optLink a.t)] : List (Key × Ipld)).map Prod.fst).Nodup := by
  simp only [List.map_cons, List.map_nil]; decide +kernel

theorem entryObj_inj {a b : EntryData Bytes} (ha : Ascii a.k) (hb : Ascii b.k)
    (h : Same (entryObj a) (entryObj b)) : a = b := by
  have hn := entry_nodup a
  obtain ⟨w1, e1, s1⟩ := h.get hn (k := "p".toList) rfl
  obtain ⟨w2, e2, s2⟩ := h.get hn (k := "k".toList) rfl
  obtain ⟨w3, e3, s3⟩ := h.get hn (k := "v".toList) rfl
  obtain ⟨w4, e4, s4⟩ := h.get hn (k := "t".toList) rfl
  cases e1; cases e2; cases e3; cases e4
  have h1 := Int.ofNat_inj.1 s1.int_inj
  have h2 := ascii_inj ha hb s2.bytes_inj
  have h3 := s3.link_inj
  have h4 := optLink_inj s4
  cases a; cases b
  rw [EntryData.mk.injEq]
  exact ⟨h1, h2, h3, h4⟩

theorem entries_inj : ∀ {a b : List (EntryData Bytes)}, (∀ e ∈ a, Ascii e.k) → (∀ e ∈ b, Ascii e.k) →
    SameItems (a.map entryObj) (b.map entryObj) → a = b
  | [], [], _, _, _ => rfl
  | [], _ :: _, _, _, h => by cases h
  | _ :: _, [], _, _, h => by cases h
  | x :: a, y :: b, ha, hb, h => by
    cases h with
    | cons h hs =>
      rw [entryObj_inj (ha x (by simp)) (hb y (by simp)) h,
        entries_inj (fun e he => ha e (by simp [he])) (fun e he => hb e (by simp [he])) hs]

theorem node_nodup (a : NodeData Bytes) :
    (([("l".toList, optLink a.l), ("e".toList, .list (a.e.map entryObj))] :
    List (Key × Ipld)).map Prod.fst).Nodup := by
  simp only [List.map_cons, List.map_nil]; decide +kernel

theorem nodeObj_inj {a b : NodeData Bytes} (ha : ∀ e ∈ a.e, Ascii e.k) (hb : ∀ e ∈ b.e, Ascii e.k)
    (h : Same (nodeObj a) (nodeObj b)) : a = b := by
  have hn := node_nodup a
  obtain ⟨w1, e1, s1⟩ := h.get hn (k := "l".toList) rfl
  obtain ⟨w2, e2, s2⟩ := h.get hn (k := "e".toList) rfl
  cases e1; cases e2
  have h1 := optLink_inj s1
  have h2 := entries_inj ha hb s2.list_inj
  cases a; cases b
  rw [NodeData.mk.injEq]
  exact ⟨h1, h2⟩

theorem unsigned_nodup (c : Commit Bytes) : ((unsignedObj c).map Prod.fst).Nodup := by
  simp only [unsignedObj, List.map_cons, List.map_nil]; decide +kernel

theorem unsigned_inj {a b : Commit Bytes} (h : Same (.map (unsignedObj a)) (.map (unsignedObj b))) :
    { a with sig := [] } = { b with sig := [] } := by
  have hn := unsigned_nodup a
  obtain ⟨w1, e1, s1⟩ := h.get hn (k := "did".toList) rfl
  obtain ⟨w2, e2, s2⟩ := h.get hn (k := "version".toList) rfl
  obtain ⟨w3, e3, s3⟩ := h.get hn (k := "rev".toList) rfl
  obtain ⟨w4, e4, s4⟩ := h.get hn (k := "prev".toList) rfl
  obtain ⟨w5, e5, s5⟩ := h.get hn (k := "data".toList) rfl
  cases e1; cases e2; cases e3; cases e4; cases e5
  have e1 := s1.text_inj
  have e2 := s2.int_inj
  have e3 := s3.text_inj
  have e4 := optLink_inj s4
  have e5 := s5.link_inj
  rw [Commit.mk.injEq]
  exact ⟨Int.ofNat_inj.1 e2, e1, e3, e4, e5, rfl⟩

theorem sig_inj : ∀ {a b : List Nat}, (∀ x ∈ a, x < 256) → (∀ x ∈ b, x < 256) →
    a.map UInt8.ofNat = b.map UInt8.ofNat → a = b
  | [], [], _, _, _ => rfl
  | [], _ :: _, _, _, h => by simp at h
  | _ :: _, [], _, _, h => by simp at h
  | x :: a, y :: b, ha, hb, h => by
    simp only [List.map_cons, List.cons.injEq] at h
    have h1 := congrArg UInt8.toNat h.1
    rw [UInt8.toNat_ofNat', UInt8.toNat_ofNat', Nat.mod_eq_of_lt (ha x (by simp)),
      Nat.mod_eq_of_lt (hb y (by simp))] at h1
    rw [h1, sig_inj (fun z hz => ha z (by simp [hz])) (fun z hz => hb z (by simp [hz])) h.2]

theorem commit_nodup (c : Commit Bytes) :
    ((unsignedObj c ++ [("sig".toList, Ipld.bytes (c.sig.map UInt8.ofNat))]).map Prod.fst).Nodup := by
  simp only [unsignedObj, List.map_cons, List.map_nil, List.cons_append, List.nil_append]
  decide +kernel

theorem commitObj_inj {a b : Commit Bytes} (ha : ∀ x ∈ a.sig, x < 256) (hb : ∀ x ∈ b.sig, x < 256)
    (h : Same (commitObj a) (commitObj b)) : a = b := by
  have hn := commit_nodup a
  obtain ⟨w1, e1, s1⟩ := h.get hn (k := "did".toList) rfl
  obtain ⟨w2, e2, s2⟩ := h.get hn (k := "version".toList) rfl
  obtain ⟨w3, e3, s3⟩ := h.get hn (k := "rev".toList) rfl
  obtain ⟨w4, e4, s4⟩ := h.get hn (k := "prev".toList) rfl
  obtain ⟨w5, e5, s5⟩ := h.get hn (k := "data".toList) rfl
  obtain ⟨w6, e6, s6⟩ := h.get hn (k := "sig".toList) rfl
  cases e1; cases e2; cases e3; cases e4; cases e5; cases e6
  have e1 := s1.text_inj
  have e2 := s2.int_inj
  have e3 := s3.text_inj
  have e4 := optLink_inj s4
  have e5 := s5.link_inj
  have e6 := s6.bytes_inj
  cases a; cases b
  rw [Commit.mk.injEq]
  exact ⟨Int.ofNat_inj.1 e2, e1, e3, e4, e5, sig_inj ha hb e6⟩

/-- Which kind of event. -/
def kindNo : EventKind Bytes → Nat
  | .account .. => 7
  | .identity .. => 8
  | .sync .. => 4
  | .tombstone => 9

theorem kindName_length (a : EventKind Bytes) : (kindName a).length = kindNo a := by
  have h1 : "account".toList.length = 7 := by decide +kernel
  have h2 : "identity".toList.length = 8 := by decide +kernel
  have h3 : "sync".toList.length = 4 := by decide +kernel
  have h4 : "tombstone".toList.length = 9 := by decide +kernel
  cases a
  exacts [h1, h2, h3, h4]

theorem statusText_inj {a b : Status} (h : statusText a = statusText b) : a = b := by
  have h1 : "deactivated".toList ≠ "deleted".toList := by decide +kernel
  have h2 : "deactivated".toList ≠ "tombstoned".toList := by decide +kernel
  have h3 : "deleted".toList ≠ "tombstoned".toList := by decide +kernel
  cases a <;> cases b
  exacts [rfl, absurd h h1, absurd h h2, absurd h.symm h1, rfl, absurd h h3, absurd h.symm h2,
    absurd h.symm h3, rfl]

theorem event_nodup (iso : Nat → Key) (car : Bytes → Bytes) (e : Event Bytes) :
    (([("$type".toList, Ipld.text (eventPrefix ++ kindName e.kind)), ("seq".toList, .int e.seq),
    ("did".toList, .text e.did), ("time".toList, .text (iso e.time))] ++ kindArgs car e.kind).map
      Prod.fst).Nodup := by
  obtain ⟨kind, seq, did, time⟩ := e
  rcases kind with ⟨a, _ | s⟩ | ⟨_ | h⟩ | ⟨c, rev⟩ | _ <;>
    simp only [kindArgs, List.map_cons, List.map_nil, List.cons_append, List.nil_append] <;>
    decide +kernel

theorem eventObj_inj {iso : Nat → Key} {car : Bytes → Bytes} (hi : Function.Injective iso)
    {a b : Event Bytes} (hc : ∀ c c' r r', a.kind = .sync c r → b.kind = .sync c' r' →
      car c = car c' → c = c')
    (h : Same (eventObj iso car a) (eventObj iso car b)) : a = b := by
  have hn := event_nodup iso car a
  obtain ⟨w1, e1, s1⟩ := h.get hn (k := "$type".toList) rfl
  obtain ⟨w2, e2, s2⟩ := h.get hn (k := "seq".toList) rfl
  obtain ⟨w3, e3, s3⟩ := h.get hn (k := "did".toList) rfl
  obtain ⟨w4, e4, s4⟩ := h.get hn (k := "time".toList) rfl
  cases e1; cases e2; cases e3; cases e4
  have e1 := List.append_cancel_left s1.text_inj
  have e2 := s2.int_inj
  have e3 := s3.text_inj
  have e4 := s4.text_inj
  have ek : a.kind = b.kind := by
    obtain ⟨ka, sa, da, ta⟩ := a
    obtain ⟨kb, sb, db, tb⟩ := b
    have hk : kindNo ka = kindNo kb := by
      rw [← kindName_length, ← kindName_length]; exact congrArg List.length e1
    have hlen := h.length
    rcases ka with ⟨aa, _ | as⟩ | ⟨_ | ah⟩ | ⟨ac, ar⟩ | _ <;>
      rcases kb with ⟨ba, _ | bs⟩ | ⟨_ | bh⟩ | ⟨bc, br⟩ | _ <;> try exact absurd hk (by simp only [kindNo]; decide)
    · obtain ⟨w, e, s⟩ := h.get hn (k := "active".toList) rfl
      cases e
      rw [s.bool_inj]
    · simp [kindArgs] at hlen
    · simp [kindArgs] at hlen
    · obtain ⟨w, e, s⟩ := h.get hn (k := "active".toList) rfl
      obtain ⟨w', e', s'⟩ := h.get hn (k := "status".toList) rfl
      cases e; cases e'
      rw [s.bool_inj, statusText_inj s'.text_inj]
    · rfl
    · obtain ⟨w, e, s⟩ := h.get hn (k := "handle".toList) rfl
      cases e; cases s
    · obtain ⟨w, e, s⟩ := h.get hn (k := "handle".toList) rfl
      cases e; cases s
    · obtain ⟨w, e, s⟩ := h.get hn (k := "handle".toList) rfl
      cases e
      rw [s.text_inj]
    · obtain ⟨w, e, s⟩ := h.get hn (k := "blocks".toList) rfl
      obtain ⟨w', e', s'⟩ := h.get hn (k := "rev".toList) rfl
      cases e; cases e'
      rw [hc _ _ _ _ rfl rfl s.bytes_inj, s'.text_inj]
    · rfl
  cases a; cases b
  rw [Event.mk.injEq]
  exact ⟨ek, Int.ofNat_inj.1 e2, e3, hi e4⟩

theorem syncCar_inj {data : Bytes → Bytes} {c c' : Bytes} (h : IsCid c) (h' : IsCid c')
    (hl : c.length + 1 < 2 ^ 64) (hl' : c'.length + 1 < 2 ^ 64)
    (he : syncCar data c = syncCar data c') : c = c' := by
  have hok : ∀ c : Bytes, c.length + 1 < 2 ^ 64 → ∃ b, writeCar [c] [(c, data c)] = .ok b := by
    intro c hc
    have : (carHeader [c]).ok = true := by
      have h1 : (utf8 "version".toList).length < 2 ^ 64 := by decide +kernel
      have h2 : (utf8 "roots".toList).length < 2 ^ 64 := by decide +kernel
      have h3 : ["version".toList, "roots".toList].Nodup := by decide +kernel
      simp only [carHeader, Ipld.ok, okEntries, okItems, List.map_cons, List.map_nil, List.length_cons, List.length_nil, h1, h2, h3, hc]
      simp
    exact ⟨_, by rw [writeCar, encode, if_pos this]⟩
  obtain ⟨b, hb⟩ := hok c hl
  obtain ⟨b', hb'⟩ := hok c' hl'
  rw [syncCar, syncCar, hb, hb'] at he
  subst he
  have r := readCar_writeCar (by simpa using h) hb
  rw [readCar_writeCar (by simpa using h') hb'] at r
  simp only [Option.some.injEq, Prod.mk.injEq, List.cons.injEq] at r
  exact r.1.1.symm

theorem cidV1_inj {codec hash : Nat} {d d' : Bytes} (h : cidV1 codec hash d = cidV1 codec hash d') :
    d = d' := by
  simp only [cidV1, List.append_assoc, List.append_cancel_left_eq] at h
  have h1 := unVarint_varint d.length d
  rw [h, unVarint_varint] at h1
  exact (Prod.mk.inj (Option.some.inj h1)).2.symm

end Arroba.Cbor
