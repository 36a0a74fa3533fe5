import Verif.Datastore.EntityProofs
import Verif.Props.C27

/-! # C77: the Datastore gives back what was stored, and messages have the right time -/

namespace Arroba.Entity

open Cbor Store

/-! ### Names -/

/-- **C77 (names).** The text of a CID, which is the name of its entity, is decoded to the same CID, and
different CIDs never have the same name. -/
theorem C77_names :
    (∀ c, IsCid c → textCid (cidText c) = .ok c) ∧ Function.Injective cidText :=
  ⟨fun _ h => textCid_cidText h, fun _ _ h => cidText_inj h⟩

/-! ### Blocks -/

/-- **C77 (block).** What `from_block` makes of a block is read back by `to_block` with the same CID, bytes and
sequence number and the same operations in the same order (none, if it had none), and with the moment at which it was
made. -/
theorem C77_block {here : Int → Int} {b : PyBlock} {e : BlockEntity} (hc : BlockCids b)
    (h : fromBlock here b = .ok e) :
    ∃ b', toBlock e = .ok b' ∧ b'.cid = b.cid ∧ b'.encoded = b.encoded ∧ b'.seq = b.seq ∧
      b'.ops = some (b.ops.getD []) ∧ b'.time = ⟨b.time.moment here, none⟩ ∧
      ∃ d, b.repo = .did d ∧ b'.repo = .key d := by
  obtain ⟨d, _, _, hd, _⟩ := fromBlock_ok h
  exact ⟨b.stored here d, toBlock_fromBlock hc hd h, rfl, rfl, rfl, rfl, rfl, d, hd, rfl⟩

/-- **C77 (write).** After `write_blocks` has returned, `read` gives for each CID the block that was there before,
whatever was written; for a CID that was not there, what was written for it, or else nothing. -/
theorem C77_write {here : Int → Int} {ds ds' : Entities} {bs : List PyBlock} (hc : ∀ b ∈ bs, BlockCids b)
    (h : writeBlocks here ds bs = .ok ds') (c : Bytes) :
    (∀ b, read ds c = .ok (some b) → read ds' c = .ok (some b)) ∧
    (read ds c = .ok none → (∀ b ∈ bs, b.cid ≠ c) → read ds' c = .ok none) ∧
    (read ds c = .ok none → ∀ b ∈ bs, b.cid = c → (∀ b' ∈ bs, b'.cid = c → b' = b) →
      ∃ d, b.repo = .did d ∧ read ds' c = .ok (some (b.stored here d))) := by
  unfold writeBlocks at h
  cases hn : newEntities here ds bs with
  | error x => rw [hn] at h; cases h
  | ok es =>
    rw [hn] at h
    have h' : es.foldl (fun ds e => dictSet ds e.id e) ds = ds' := Except.ok.inj h
    subst h'
    have hids := newEntities_ids hn
    have hname : ∀ e ∈ es, ∀ b, fromBlock here b = .ok e → e.id = cidText b.cid := by
      intro e _ b hb
      obtain ⟨_, _, _, _, _, _, _, _, rfl⟩ := fromBlock_ok hb
      rfl
    have hnone : read ds c = .ok none → dictGet ds (cidText c) = none := by
      intro hr
      unfold read at hr
      cases hg : dictGet ds (cidText c) with
      | none => rfl
      | some e =>
        rw [hg] at hr
        cases ht : toBlock e <;> simp [ht, Except.map] at hr
    refine ⟨?_, ?_, ?_⟩
    · intro b hb
      unfold read at hb ⊢
      rw [dictGet_put]
      · exact hb
      · intro e he hk
        obtain ⟨b', _, h1, h2⟩ := hids e he
        rw [hname e he b' h1] at hk
        rw [← hk, h2] at hb
        cases hb
    · intro hr hno
      unfold read
      rw [dictGet_put, hnone hr]
      intro e he hk
      obtain ⟨b', hb', h1, h2⟩ := hids e he
      rw [hname e he b' h1] at hk
      exact hno b' hb' (cidText_inj hk)
    · intro hr b hb hbc huniq
      have hg := hnone hr
      obtain ⟨e, he, hfe⟩ := newEntities_has hn b hb (by rw [hbc]; exact hg)
      obtain ⟨d, _, _, hd, _⟩ := fromBlock_ok hfe
      refine ⟨d, hd, ?_⟩
      unfold read
      rw [dictGet_put_mem (x := e) ⟨e, he, by rw [hname e he b hfe, hbc]⟩]
      · simp only [toBlock_fromBlock (hc b hb) hd hfe]
        rfl
      · intro e' he' hk
        obtain ⟨b', hb', h1, _⟩ := hids e' he'
        rw [hname e' he' b' h1] at hk
        have := huniq b' hb' (cidText_inj hk)
        subst this
        rw [h1] at hfe
        exact Except.ok.inj hfe

/-- **C77 (create).** `AtpBlock.create`, which is used by `Storage.write`, returns the block, and leaves one that is there as
it was. What is read afterwards has the sequence number of the first time. -/
theorem C77_create {ds ds' : Entities} {d : Did} {cid encoded : Bytes} {seq : Nat} {now : Int} {e : BlockEntity}
    (hc : IsCid cid) (h : create ds d cid encoded seq now = .ok (ds', e)) :
    read ds' cid = (toBlock e).map some ∧ e.seq ≤ seq ∧ (∀ c, c ≠ cid → read ds' c = read ds c) ∧
    (∀ b, read ds cid = .ok (some b) → ds' = ds) ∧
    (read ds cid = .ok none → toBlock e = .ok ⟨cid, encoded, some seq, some [], ⟨now, none⟩, .key d⟩) := by
  unfold create at h
  split at h
  · cases h
  split at h
  · cases h
  split at h
  · rename_i e' hg
    split at h
    · rename_i hle
      cases h
      refine ⟨?_, hle, fun _ _ => rfl, fun _ _ => rfl, ?_⟩
      · unfold read; rw [hg]
      · intro hr
        unfold read at hr
        rw [hg] at hr
        cases ht : toBlock e <;> simp [ht, Except.map] at hr
    · cases h
  · rename_i hg
    cases h
    refine ⟨?_, le_refl _, ?_, ?_, ?_⟩
    · unfold read; rw [dictGet_dictSet, if_pos rfl]
    · intro c hne
      unfold read
      rw [dictGet_dictSet, if_neg (fun hk => hne (cidText_inj hk))]
    · intro b hb
      unfold read at hb
      rw [hg] at hb
      cases hb
    · intro _
      unfold toBlock
      rw [textCid_cidText hc]
      rfl

/-! ### What commits write -/

/-- storage.py 584-627. The `Block` object for a block of the storage model: `enc` is its encoding. -/
def pyBlock {R : Type} (L : Lib Bytes R) (enc : Val Bytes R → Bytes) (t : DateTime) (b : Store.Block Bytes R) :
    PyBlock := ⟨L.hash b.val, enc b.val, some b.seq, b.ops, t, .did b.repo⟩

theorem opsOf_fits {R : Type} {L : Lib Bytes R} (hcid : ∀ v, ∃ digest, digest.length = 32 ∧
    L.hash v = cidV1 0x71 0x12 digest) : ∀ {writes : List (Write R)} {m : Key → Option R},
    (∀ k, m k ≠ none → KeyGrammar k) → ∀ op ∈ opsOf L m writes, OpFits op ∧ OpCids op := by
  have hlen : ∀ v, (L.hash v).length ≤ 187 := by
    intro v
    obtain ⟨digest, h1, h2⟩ := hcid v
    rw [h2]
    simp only [cidV1, List.length_append, h1]
    decide +kernel
  have hc : ∀ r : R, (L.rcid r).length ≤ 187 ∧ IsCid (L.rcid r) := by
    intro r
    obtain ⟨digest, _, h2⟩ := hcid (.record r)
    exact ⟨hlen _, ⟨_, _, digest, h2⟩⟩
  have hopt : ∀ o : Option R, (∀ c ∈ o.map L.rcid, c.length ≤ 187) ∧ ∀ c ∈ o.map L.rcid, IsCid c := by
    intro o
    cases o with
    | none => exact ⟨by simp, by simp⟩
    | some r =>
      refine ⟨fun c h => ?_, fun c h => ?_⟩
      · simp only [Option.map_some, Option.mem_def, Option.some.injEq] at h; rw [← h]; exact (hc r).1
      · simp only [Option.map_some, Option.mem_def, Option.some.injEq] at h; rw [← h]; exact (hc r).2
  intro writes
  induction writes with
  | nil => intro m _ op ho; cases ho
  | cons x xs ih =>
    intro m hm op ho
    unfold opsOf at ho
    cases h1 : specWrite L m x with
    | error e => rw [h1] at ho; cases ho
    | ok m1 =>
      rw [h1] at ho
      have hg : KeyGrammar x.path ∧ ∀ k, m1 k ≠ none → KeyGrammar k := by
        unfold specWrite at h1
        have upd : ∀ (v : Option R), KeyGrammar x.path →
            ∀ k, Function.update m x.path v k ≠ none → KeyGrammar k := by
          intro v hx k hk
          by_cases hkx : k = x.path
          · subst hkx; exact hx
          · rw [Function.update_of_ne hkx] at hk; exact hm k hk
        split at h1
        · split at h1
          · cases h1
          · split at h1
            · cases h1
            · rename_i hv
              split at h1
              · cases h1
              · cases h1
                have hx := (validKey_iff x.path).1 (by simpa using hv)
                exact ⟨hx, upd _ hx⟩
        · split at h1
          · cases h1
          · rename_i hn
            split at h1
            · cases h1
            · cases h1
              exact ⟨hm _ hn, upd _ (hm _ hn)⟩
        · split at h1
          · cases h1
          · rename_i hn
            cases h1
            exact ⟨hm _ hn, upd _ (hm _ hn)⟩
      rcases List.mem_append.1 ho with ho | ho
      · unfold opOf at ho
        have none_ok : (∀ c ∈ (none : Option Bytes), c.length ≤ 187) ∧ ∀ c ∈ (none : Option Bytes), IsCid c :=
          ⟨by simp, by simp⟩
        split at ho
        · rw [List.mem_singleton.1 ho]
          exact ⟨⟨hg.1, (hopt _).1, none_ok.1⟩, (hopt _).2, none_ok.2⟩
        · split at ho
          · cases ho
          · rw [List.mem_singleton.1 ho]
            exact ⟨⟨hg.1, (hopt _).1, (hopt _).1⟩, (hopt _).2, (hopt _).2⟩
        · rw [List.mem_singleton.1 ho]
          exact ⟨⟨hg.1, none_ok.1, (hopt _).1⟩, none_ok.2, (hopt _).2⟩
      · exact ih hg.2 op ho

/-- **C77 (commits).** No block of a commit is refused: in every reachable state, whatever is written, the checks of ndb
accept every block of a successful commit, and each of them is read back with its CID, bytes, sequence number and
operations, and the moment at which it was made. -/
theorem C77_commit {R : Type} {L : Lib Bytes R} {Z : Nat} {al : Allow} {w w' : World Bytes R} (hL : L.OK Z)
    (hcid : ∀ v, ∃ digest, digest.length = 32 ∧ L.hash v = cidV1 0x71 0x12 digest)
    (hr : Reach L .datastore al w) {r : Ref} {o : RepoObj Bytes R} {d : Did} (ho : w.heap[r]? = some o)
    (hd : o.did = some d) (hn : nameOk d = true) {m : Key → Option R} (hm : Shows L .datastore w d m)
    {writes : List (Write R)} {xs : List Luck} {cbFails : Bool} {cd : CommitData Bytes R}
    (hok : commit L .datastore w r writes none xs cbFails = (w', .ok cd))
    (here : Int → Int) (enc : Val Bytes R → Bytes) (t : DateTime) :
    ∀ cb ∈ cd.blocks, ∃ e, fromBlock here (pyBlock L enc t cb.2) = .ok e ∧
      toBlock e = .ok ⟨cb.1, enc cb.2.val, some cb.2.seq, some (cb.2.ops.getD []),
        ⟨t.moment here, none⟩, .key d⟩ := by
  have hdr := hr.datastore
  have hnt : ¬ ({ al with torn := False } : Allow).torn := fun h => h
  obtain ⟨m', _, hops, _⟩ := (C27_datastore hL hr).1 r o d ho hd m hm writes xs cbFails w' cd hok
  have hpaths : ∀ k, m k ≠ none → KeyGrammar k := by
    obtain ⟨_, _, _, _, _, hs⟩ := hm
    exact hs.paths
  have hlen : ∀ v, (L.hash v).length ≤ 187 ∧ IsCid (L.hash v) := by
    intro v
    obtain ⟨digest, h1, h2⟩ := hcid v
    refine ⟨?_, ⟨_, _, digest, h2⟩⟩
    rw [h2]
    simp only [cidV1, List.length_append, h1]
    decide +kernel
  have hmem : ∀ cb ∈ cd.blocks, cb.1 = L.hash cb.2.val ∧ cb.2.repo = d ∧
      (cb.2.ops = none ∨ cb.2.ops = some (opsOf L m writes)) := by
    obtain ⟨hw, hl⟩ := hdr.inv hL (fun h => h)
    rcases commit_cases hL (be := .datastore) hw r writes xs cbFails with
      ⟨e, w1', w1, wk, h1, _⟩ | ⟨w1', w1, wk, x, did, m0, m1, s, n, cd', co, h1, h2, h3, h4, h5, h6, _⟩
    · rw [hok] at h1; cases h1
    · rw [hok] at h1
      obtain ⟨rfl, h1'⟩ := Prod.mk.inj h1
      have hcd : cd' = cd := by
        split at h1' <;> simp only [Except.ok.injEq, reduceCtorEq] at h1'
        exact h1'.symm
      subst hcd
      obtain ⟨wl, so, b, g1, g2, g3, g4, g5, g6, hb, _⟩ := h6.stored
      obtain ⟨co', b', o', k1, _, k2, _⟩ := C25_commit hL hr ho hd hok
      rw [hb.commit] at k1
      cases k1
      have hdd : did = d := hb.codid.symm.trans k2
      subst hdd
      intro cb hcb
      obtain ⟨i1, _, i3, i4⟩ := hb.members cb hcb
      refine ⟨i1, i3, ?_⟩
      rcases i4 with ⟨_, _, i⟩ | ⟨_, _, i⟩ | i
      · exact .inl i
      · exact .inl i
      · rw [i]; exact .inr hops
  intro cb hcb
  obtain ⟨h1, h2, h3⟩ := hmem cb hcb
  have hfit : ∀ op ∈ cb.2.ops.getD [], OpFits op ∧ OpCids op := by
    rcases h3 with h | h
    · rw [h]; intro op hop; cases hop
    · rw [h]; exact opsOf_fits hcid hpaths
  have hrep : (pyBlock L enc t cb.2).repo = .did d := by rw [← h2]; rfl
  obtain ⟨e, he⟩ := fromBlock_accepts (here := here) (b := pyBlock L enc t cb.2) hrep hn rfl
    (hlen _).1 (fun op hop => (hfit op hop).1)
  refine ⟨e, he, ?_⟩
  rw [toBlock_fromBlock ⟨(hlen _).2, fun op hop => (hfit op hop).2⟩ hrep he, h1]
  rfl

/-! ### Times -/

/-- **C77 (time).** The time in the message of a commit that was read from the Datastore is in UTC, and it is the moment at
which the commit was made, in whatever time zone that was given. So subtracting it from the time that it is now
gives the delay. -/
theorem C77_time {here : Int → Int} {b b' : PyBlock} {e : BlockEntity} (hc : BlockCids b)
    (h : fromBlock here b = .ok e) (hb : toBlock e = .ok b') :
    (messageTime b').zone = some 0 ∧ ∀ here', (messageTime b').moment here' = b.time.moment here := by
  obtain ⟨b'', h1, _, _, _, _, h2, _⟩ := C77_block hc h
  rw [hb] at h1
  cases h1
  refine ⟨rfl, fun here' => ?_⟩
  simp only [messageTime, DateTime.asUtc, h2, DateTime.moment]
  simp

/-- `MemoryStorage` keeps the `Block` itself. The time in the message is right if it was given in UTC, as it is if arroba makes
the block. -/
theorem C77_memory_time_partial {here here' : Int → Int} {b : PyBlock} (h : b.time.zone = some 0) :
    (messageTime b).moment here' = b.time.moment here := by
  simp [messageTime, DateTime.asUtc, DateTime.moment, h]

/-- **C77 (false for other time zones).** `process_event` does not convert the time, but replaces the time zone. So for a block with
a time in another time zone, the message that is made from `MemoryStorage` is off by the difference. -/
theorem C77_memory_time_false : ∃ b : PyBlock, ∀ here here',
    (messageTime b).moment here' ≠ b.time.moment here :=
  ⟨⟨[], [], none, none, ⟨0, some 3600000000⟩, .none⟩, by
    intro here here'; simp [messageTime, DateTime.asUtc, DateTime.moment]⟩

/-! ### Copying blocks -/

/-- **C77 (false for blocks that were read).** A block that was read can't be written: its `repo` is an ndb key, and `from_block` takes it for a
DID. So blocks can't be copied from one Datastore to another by `read` and `write_blocks`. -/
theorem C77_copy_false {here : Int → Int} {b b' : PyBlock} {e : BlockEntity} (hc : BlockCids b)
    (h : fromBlock here b = .ok e) (hb : toBlock e = .ok b') : fromBlock here b' = .error .attribute := by
  obtain ⟨d, seq, ops, hd, _, hs, hops, _⟩ := fromBlock_ok h
  rw [toBlock_fromBlock hc hd h] at hb
  cases hb
  unfold fromBlock
  simp only [PyBlock.stored, Option.getD_some, hops]
  rfl

/-! ### Repos -/

/-- **C77 (repo).** What `create_repo` stores is what `load_repo` loads: DID, handle, head, status and keys. An empty handle is
the same as none. After `store_repo`, the handle, head and status are the new ones, and the keys are the same. -/
theorem C77_repo {K : Type} {pem : Pem K} (hp : ∀ k, pem.load (pem.write k) = some k) (hne : ∀ k, pem.write k ≠ [])
    {r : PyRepo K} {now : Int} {e : RepoEntity} (hc : IsCid r.head) (h : repoEntity pem r now = .ok e) :
    loadEntity pem e = .ok { r with handle := r.handle.filter (· ≠ []) } ∧
    ∀ (r' : PyRepo K) e', r'.did = r.did → IsCid r'.head → storeEntity e r' = .ok e' →
      loadEntity pem e' = .ok ⟨r.did, r'.handle.filter (· ≠ []), r'.head, r.signingKey, r.rotationKey, r'.status⟩ := by
  unfold repoEntity at h
  split at h
  · cases h
  split at h
  · cases h
    have hst : ∀ s : Option Status, loadStatus (s.map statusText) = .ok s := by
      intro s
      cases s with
      | none => rfl
      | some s => simp only [Option.map_some, loadStatus, textStatus_statusText]; rfl
    have hrk : ∀ k : Option K, loadRotation pem (k.map pem.write) = .ok k := by
      intro k
      cases k with
      | none => rfl
      | some k => simp only [Option.map_some, loadRotation, if_neg (hne k), loadKey, hp]; rfl
    have hh : ∀ o : Option Key, (handlesOf o).head? = o.filter (· ≠ []) := by
      intro o
      cases o with
      | none => rfl
      | some x => by_cases hx : x = [] <;> simp [handlesOf, hx, Option.filter]
    refine ⟨?_, ?_⟩
    · unfold loadEntity
      simp only [textCid_cidText hc, hst, hrk, loadKey, hp, hh]
      rfl
    · intro r' e' hd' hc' h'
      unfold storeEntity at h'
      split at h'
      · cases h'
        unfold loadEntity
        simp only [textCid_cidText hc', hst, hrk, loadKey, hp, hh, ← hd']
        rfl
      · cases h'
  · cases h

/-! ### Examples -/

/-- The CID of a block whose SHA-256 is all zeros. -/
def exCid : Bytes := cidV1 0x71 0x12 (List.replicate 32 0)

/-- Its text, and a text that is not one of a CID. -/
example : cidText exCid = "bafyreiaaaaaaaaaaaaaaaaaaaaaaaaaaaaaaaaaaaaaaaaaaaaaaaaaaaa".toList ∧
    textCid (cidText exCid) = .ok exCid ∧ textCid "bafyre1".toList = .error .value := by decide +kernel

/-- A commit block with two operations, made at 1 am in a time zone one hour ahead. -/
def exStored : PyBlock :=
  ⟨exCid, [1, 2, 3], some 7, some [⟨.create, "coll/a".toList, some exCid, none⟩,
    ⟨.delete, "coll/b".toList, none, some exCid⟩], ⟨3600000000, some 3600000000⟩, .did "did:web:x".toList⟩

/-- It is written and read back. -/
example : (match writeBlocks (fun _ => 0) [] [exStored] with
    | .ok ds => (match Entity.read ds exCid with
      | .ok (some b) => decide (b.ops = exStored.ops ∧ b.seq = some 7 ∧ messageTime b = ⟨0, some 0⟩)
      | _ => false)
    | .error _ => false) = true := by decide +kernel

end Arroba.Entity
