import Verif.Xrpc.LoadProofs
import Verif.Xrpc.Export
import Verif.Xrpc.SyncRecord
import Verif.Blob.Table
import Verif.Xrpc.Example
import Verif.Storage.TableProofs

/-!
# C52: repo visibility

`Answers be w q d st` (LoadProofs.lean): the storage has a repo with the DID `d` and the status `st`
whose DID or handle is `q`. `target` reads the host of an `at://` URI.
-/

namespace Arroba.Xrpc

open Arroba.Store

variable {C R : Type} [DecidableEq C] {L : Lib C R} {Z : Nat} {be : Backend} {al : Allow}
  {w : World C R} {cfg : Config R}

/-- The collection is one of those that are supported, or all are. -/
def Supported (cfg : Config R) (collection : Key) : Prop :=
  cfg.supported = [] ∨ collection ∈ cfg.supported

theorem Supported.not {collection : Key} (h : Supported cfg collection) :
    ¬ unsupported cfg (some collection) := fun hu => h.elim hu.2.1 hu.2.2

/-- Every read method raises `e` for the repo `q`, without changing anything: getRecord, listRecords and
describeRepo of `com.atproto.repo` for all parameters that they accept (with an unsupported collection,
the first raises ValueError and the second answers with no records); getBlocks, getHead and
getLatestCommit of `com.atproto.sync`. -/
structure Refused (cfg : Config R) (L : Lib C R) (be : Backend) (w : World C R) (q : Key) (e : Err) :
    Prop where
  getRecord : ∀ collection rkey, Supported cfg collection →
    ∃ w', Loaded w w' ∧ getRecord cfg L be w q collection rkey false = (w', .error e)
  listRecords : ∀ collection limit cursor, Supported cfg collection → collection ≠ [] →
    ∃ w', Loaded w w' ∧ listRecords cfg L be w q collection limit cursor = (w', .error e)
  describeRepo : ∀ sorted resolves,
    ∃ w', Loaded w w' ∧ describeRepo cfg L be w q sorted resolves = (w', .error e)
  getBlocks : ∀ cids, ∃ w', Loaded w w' ∧ getBlocks cfg L be w q cids = (w', .error e)
  getLatestCommit : ∃ w', Loaded w w' ∧ getLatestCommit cfg L be w q = (w', .error e)
  getRepo : ∀ ord g since, ∃ w', Loaded w w' ∧ getRepo cfg L be ord g w q since = (w', .error e)
  syncGetRecord : ∀ collection rkey,
    ∃ w', Loaded w w' ∧ syncGetRecord cfg L be w q collection rkey = (w', .error e)
  listBlobs : ∀ blobs limit cursor,
    ∃ w', Loaded w w' ∧ listBlobs cfg be w blobs q none limit cursor = (w', .error e)

theorem Refused.of_load {q : Key} {e : Err} {w' : World C R} (hq : q ≠ []) (hl : Loaded w w')
    (h : load cfg be w q = (w', .error e)) : Refused cfg L be w q e := by
  have ht : truthy (some q) = true := by
    cases q with
    | nil => exact absurd rfl hq
    | cons => rfl
  have hun : ¬ unsupported cfg none := fun h => by cases h.1
  have hv : ∀ collection rkey, Supported cfg collection →
      validate cfg ⟨some q, some collection, rkey, none, false⟩ none = .ok () := by
    intro collection rkey hc
    unfold validate
    simp only [ht]
    rw [if_neg (by simp), if_neg (by simp), if_neg hun, if_neg hc.not]
  refine ⟨?_, ?_, ?_, ?_, ?_, ?_, ?_, ?_⟩
  · intro collection rkey hc
    refine ⟨w', hl, ?_⟩
    unfold Xrpc.getRecord
    rw [hv collection _ hc]
    dsimp only
    rw [h]
    rfl
  · intro collection limit cursor hc hne
    refine ⟨w', hl, ?_⟩
    unfold Xrpc.listRecords
    rw [if_neg (fun hu => hc.elim hu.1 hu.2), hv collection _ hc]
    dsimp only
    rw [if_neg hne, h]
  · intro sorted resolves
    refine ⟨w', hl, ?_⟩
    unfold Xrpc.describeRepo validate
    simp only [ht]
    rw [if_neg (by simp), if_neg (by simp), if_neg hun, if_neg hun]
    dsimp only
    rw [h]
  · intro cids
    refine ⟨w', hl, ?_⟩
    unfold Xrpc.getBlocks
    rw [h]
  · refine ⟨w', hl, ?_⟩
    unfold Xrpc.getLatestCommit
    rw [h]
  · intro ord g since
    refine ⟨w', hl, ?_⟩
    unfold Xrpc.getRepo
    rw [h]
  · intro collection rkey
    refine ⟨w', hl, ?_⟩
    unfold Xrpc.syncGetRecord
    rw [h]
  · intro blobs limit cursor
    refine ⟨w', hl, ?_⟩
    unfold Xrpc.listBlobs
    rw [if_neg (by simp [truthy]), h]

/-- A repo that isn't known by that name: RepoNotFound, from getRepoStatus as well. -/
theorem C52_unknown (hL : L.OK Z) (hr : Reach L be al w) {q name : Key}
    (hq : target cfg q = .ok name) (hn : name ≠ []) (hqn : q ≠ [])
    (h : ∀ d st, ¬ Answers be w name d st) :
    Refused cfg L be w q (.xrpc "RepoNotFound") ∧
      getRepoStatus cfg be w q = (w, .error (.xrpc "RepoNotFound")) := by
  rcases load_spec (cfg := cfg) (hr.plain hL).1.core hq hn with ⟨h1, _⟩ | ⟨d, st, _, _, _, h1, _⟩
  · refine ⟨.of_load hqn (.refl w) h1, ?_⟩
    unfold getRepoStatus
    rw [h1]
    rfl
  · exact absurd h1 (h d st)

/-- A repo that is inactive: RepoDeactivated. -/
theorem C52_inactive (hL : L.OK Z) (hr : Reach L be al w) {q name : Key}
    (hq : target cfg q = .ok name) (hn : name ≠ []) (hqn : q ≠ [])
    (h1 : ∃ d st, Answers be w name d st) (h2 : ∀ d st, Answers be w name d st → st ≠ none) :
    Refused cfg L be w q (.xrpc "RepoDeactivated") ∧
      ∃ w', Loaded w w' ∧ getRepoStatus cfg be w q = (w', .ok false) := by
  rcases load_spec (cfg := cfg) (hr.plain hL).1.core hq hn with
    ⟨_, h3⟩ | ⟨d, st, w', r, o, g1, _, g2, g3, g4, g5, g6⟩
  · obtain ⟨d, st, h1⟩ := h1
    exact absurd h1 (h3 d st)
  · rw [if_neg (h2 d st g1)] at g6
    refine ⟨.of_load hqn g5 g6, w', g5, ?_⟩
    unfold getRepoStatus
    rw [g6]
    rfl

/-- A repo that is active is loaded: the methods go on with it, and getRepoStatus says so. -/
theorem C52_active (hL : L.OK Z) (hr : Reach L be al w) {q name : Key}
    (hq : target cfg q = .ok name) (hn : name ≠ [])
    (h1 : ∃ d st, Answers be w name d st) (h2 : ∀ d st, Answers be w name d st → st = none) :
    ∃ w' r o d, load cfg be w q = (w', .ok r) ∧ w'.heap[r]? = some o ∧ o.did = some d ∧
      Answers be w name d none ∧ Loaded w w' ∧ getRepoStatus cfg be w q = (w', .ok true) := by
  rcases load_spec (cfg := cfg) (hr.plain hL).1.core hq hn with
    ⟨_, h3⟩ | ⟨d, st, w', r, o, g1, _, g2, g3, g4, g5, g6⟩
  · obtain ⟨d, st, h1⟩ := h1
    exact absurd h1 (h3 d st)
  · have := h2 d st g1
    subst this
    rw [if_pos rfl] at g6
    refine ⟨w', r, o, d, g6, g2, g3, g1, g5, ?_⟩
    unfold getRepoStatus
    rw [g6]

/-- For a DID there is one repo at most, so one of the three cases applies; its status is `statusOf`,
what the last `deactivate_repo`, `activate_repo` or `tombstone_repo` set (C31). -/
theorem C52_did (hL : L.OK Z) (hr : Reach L be al w) {d : Did} (hd : isDid d) :
    (∀ d' st, ¬ Answers be w d d' st) ∨ ∀ d' st, Answers be w d d' st ↔ d' = d ∧ st = statusOf be w d := by
  have hw := (hr.plain hL).1.core
  cases be with
  | memory =>
    have key : ∀ d' st, Answers .memory w d d' st → d' = d := by
      rintro d' st ⟨r, o, h1, h2, h3, h4 | h4⟩
      · exact h4
      · obtain ⟨_, o', ho', hd'⟩ := hw.repos d' r h1
        rw [h2] at ho'
        cases ho'
        exact absurd hd ((hw.heap r o h2).handle d h4)
    cases hg : dictGet w.repos d with
    | none =>
      left
      intro d' st ha
      have := key d' st ha
      subst this
      obtain ⟨r, o, h1, _⟩ := ha
      exact dictGet_eq_none.mp hg _ h1 rfl
    | some r =>
      right
      obtain ⟨_, o, ho, hod⟩ := hw.repos d r (dictGet_mem hg)
      have hs : statusOf .memory w d = o.status := by
        unfold statusOf World.status
        rw [hg]
        simp [ho]
      intro d' st
      constructor
      · intro ha
        have := key d' st ha
        subst this
        refine ⟨rfl, ?_⟩
        obtain ⟨r', o', h1, h2, h3, _⟩ := ha
        have : dictGet w.repos d' = some r' := dictGet_of_mem hr.tables.repos h1
        rw [hg] at this
        cases this
        rw [ho] at h2
        cases h2
        rw [hs, h3]
      · rintro ⟨rfl, rfl⟩
        exact ⟨r, o, dictGet_mem hg, ho, hs.symm, .inl rfl⟩
  | datastore =>
    have key : ∀ d' st, Answers .datastore w d d' st → d' = d := by
      rintro d' st ⟨row, h1, h2, h3 | h3⟩
      · exact h3
      · exact absurd hd ((hw.rows d' row h1).1 d h3)
    cases hg : dictGet w.rows d with
    | none =>
      left
      intro d' st ha
      have := key d' st ha
      subst this
      obtain ⟨r, h1, _⟩ := ha
      exact dictGet_eq_none.mp hg _ h1 rfl
    | some row =>
      right
      have hs : statusOf .datastore w d = row.status := by
        unfold statusOf
        rw [hg]
        rfl
      intro d' st
      constructor
      · intro ha
        have := key d' st ha
        subst this
        refine ⟨rfl, ?_⟩
        obtain ⟨row', h1, h2, _⟩ := ha
        have : dictGet w.rows d' = some row' := dictGet_of_mem hr.tables.rows h1
        rw [hg] at this
        cases this
        rw [hs, h2]
      · rintro ⟨rfl, rfl⟩
        exact ⟨row, dictGet_mem hg, hs.symm, .inl rfl⟩

/-! ### Examples -/

/-- Alice is active under her DID, her handle and in an `at://` URI; then deactivated; someone unknown. -/
example (be : Backend) : let q := ["did:plc:alice", "alice.com", "at://alice.com/coll/a", "bob.com"].map (·.toList)
    q.map (fun q => (getRepoStatus exCfg be (exW1 be) q).2) =
      [.ok true, .ok true, .ok true, .error (.xrpc "RepoNotFound")] ∧
    q.map (fun q => (getRepoStatus exCfg be (exInactive be) q).2) =
      [.ok false, .ok false, .ok false, .error (.xrpc "RepoNotFound")] ∧
    q.map (fun q => (getLatestCommit exCfg exL be (exInactive be) q).2.toBool) = [false, false, false, false] := by
  cases be <;> decide +kernel

/-- The hypotheses of C52_inactive. -/
example (be : Backend) : target exCfg "at://alice.com/coll/a".toList = .ok exHandle ∧
    Answers be (exInactive be) exHandle exDid (some .deactivated) := by
  refine ⟨by decide +kernel, ?_⟩
  cases be with
  | memory =>
    have h : dictGet (exInactive .memory).repos exDid = some 0 := by decide +kernel
    have h2 : ((exInactive .memory).heap[0]?).map (fun o => (o.status, o.handle)) =
      some (some .deactivated, some exHandle) := by decide +kernel
    obtain ⟨o, ho, h2⟩ := Option.map_eq_some_iff.mp h2
    obtain ⟨h3, h4⟩ := Prod.mk.inj h2
    exact ⟨0, o, dictGet_mem h, ho, h3, .inr h4⟩
  | datastore =>
    have h : (dictGet (exInactive .datastore).rows exDid).map (fun o => (o.status, o.handle)) =
      some (some .deactivated, some exHandle) := by decide +kernel
    obtain ⟨row, hr, h2⟩ := Option.map_eq_some_iff.mp h
    obtain ⟨h3, h4⟩ := Prod.mk.inj h2
    exact ⟨row, dictGet_mem hr, h3, .inr h4⟩

/-- Nothing keeps a handle from being another repo's DID (it is left out of `Reach`). Then
`MemoryStorage.load_repo` may find the wrong repo; `DatastoreStorage.load_repo` doesn't. -/
theorem C52_hijack_false :
    let w (be : Backend) : ExWorld :=
      (repoCreate exL be (repoCreate exL be .empty exDid2 (some exDid) 8 true 100 lucky false).1
        exDid none 7 true 100 lucky false).1
    let found (be : Backend) : Option Did :=
      match load exCfg be (w be) exDid with
      | (w, .ok r) => (w.heap[r]?).bind (·.did)
      | _ => none
    found .memory = some exDid2 ∧ found .datastore = some exDid := by
  decide +kernel

end Arroba.Xrpc
