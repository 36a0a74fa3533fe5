import Verif.Xrpc.UniqueProofs

/-!
# C68: the server is a table of accounts

`Serves` (`Xrpc/Reference.lean`) is a reference server whose whole state is a table: DID to handle, status and
records. The real server, with either storage, gives its answers, including the exceptions, to every list
of requests, as long as nothing outside of the code fails and sequence numbers are left. When no handle is
given to two DIDs the answers don't depend on the storage, nonces, keys, and times.
-/

namespace Arroba.Xrpc

open Arroba.Store

variable {C R : Type} [DecidableEq C] {L : Lib C R} {Z : Nat} {be be' : Backend}
  {w w' : World C R} {cfg : Config R} {A : Accounts R} {out : Surroundings}

/-- The reference server answers a list of requests. -/
inductive ServesAll (cfg : Config R) (out : Surroundings) (L : Lib C R) :
    Accounts R → List (Request R) → List (Answer C R) → Accounts R → Prop
  | nil (A : Accounts R) : ServesAll cfg out L A [] [] A
  | cons {A A' A'' : Accounts R} {q : Request R} {qs : List (Request R)} {a : Answer C R}
      {as : List (Answer C R)} (h : Serves cfg out L A q a A') (h' : ServesAll cfg out L A' qs as A'') :
      ServesAll cfg out L A (q :: qs) (a :: as) A''

/-- One request: the answer is one of the reference server's, and afterwards the storage holds the accounts
that it has then. -/
theorem C68_request (hL : L.OK Z) (hr : Reach L be .untorn w) (hk : Keeping L be w A)
    (hf : cfg.flask = true) {req : Request R} (hs : Proper req) (x : Chance) (hx : Fine w x.xs)
    (hc : x.raises = false) : ∃ A', Serves cfg out L A req (serve cfg out L be w x req).2 A' ∧
      Keeping L be (serve cfg out L be w x req).1 A' ∧ Reach L be .untorn (serve cfg out L be w x req).1 :=
  refines_all hL hr hk hf hs x hx hc

/-- An empty storage holds no accounts. -/
theorem C68_empty : Keeping L be .empty (fun _ => none) := by
  refine ⟨(fun _ _ h => nomatch h), (fun _ _ h => nomatch h), fun d hd _ => ⟨.empty, ?_⟩⟩
  unfold loadRepo
  rw [if_neg (isDid_ne_nil hd)]
  cases be <;> rfl

/-- All requests to a server, from an empty storage on, are answered as the reference server does. -/
theorem C68_history (hL : L.OK Z) (hf : cfg.flask = true) {qs : List (Request R)}
    {as : List (Answer C R)} (hs : ∀ q ∈ qs, Proper q) (h : Played cfg out L be .empty qs as w') :
    ∃ A, ServesAll cfg out L (fun _ => none) qs as A ∧ Keeping L be w' A := by
  have key : ∀ {w : World C R} {A : Accounts R}, Reach L be .untorn w → Keeping L be w A →
      Played cfg out L be w qs as w' → ∃ A', ServesAll cfg out L A qs as A' ∧ Keeping L be w' A' := by
    clear h
    intro w A hr hk h
    induction h generalizing A with
    | nil w => exact ⟨A, .nil A, hk⟩
    | @cons w w' q qs as x hx hc h ih =>
      obtain ⟨A1, h1, h2, h3⟩ := C68_request hL hr hk hf (out := out) (hs q List.mem_cons_self) x hx hc
      obtain ⟨A2, h4, h5⟩ := ih (fun q hq => hs q (.tail _ hq)) h3 h2
      exact ⟨A2, .cons h1 h4, h5⟩
  exact key .empty C68_empty h

/-- The reference server has only one answer to each request, and one table afterwards, if every handle is
only given to one DID. -/
theorem C68_unique {owner : Key → Did} {qs : List (Request R)} {as as' : List (Answer C R)}
    {A' A'' : Accounts R} (hs : ∀ q ∈ qs, Proper q) (ho : ∀ q ∈ qs, Owned owner q)
    (h : ServesAll cfg out L (fun _ => none) qs as A') (h' : ServesAll cfg out L (fun _ => none) qs as' A'') :
    as = as' ∧ A' = A'' := by
  have key : ∀ {A : Accounts R} {qs : List (Request R)} {as as' : List (Answer C R)}, Tidy owner A →
      (∀ q ∈ qs, Proper q) → (∀ q ∈ qs, Owned owner q) → ServesAll cfg out L A qs as A' →
      ServesAll cfg out L A qs as' A'' → as = as' ∧ A' = A'' := by
    clear h h'
    intro A qs as as' hA hs ho h h'
    induction h generalizing as' with
    | nil A => cases h'; exact ⟨rfl, rfl⟩
    | @cons A A1 A2 q qs a as h1 h2 ih =>
      cases h' with
      | @cons _ A1' _ _ _ a' as' h1' h2' =>
        obtain ⟨rfl, rfl⟩ := serves_unique hA h1 h1'
        obtain ⟨rfl, e⟩ := ih (serves_tidy hA (hs q List.mem_cons_self) (ho q List.mem_cons_self) h1)
          (fun q hq => hs q (.tail _ hq)) (fun q hq => ho q (.tail _ hq)) h2'
        exact ⟨rfl, e⟩
  exact key (fun _ _ h => by cases h) hs ho h h'

/-- Two servers, with any storages, nonces, signing keys, callbacks and times, give the same answers to the
same requests. -/
theorem C68_same (hL : L.OK Z) (hf : cfg.flask = true) {owner : Key → Did} {qs : List (Request R)}
    {as as' : List (Answer C R)} (hs : ∀ q ∈ qs, Proper q) (ho : ∀ q ∈ qs, Owned owner q)
    (h : Played cfg out L be .empty qs as w) (h' : Played cfg out L be' .empty qs as' w') : as = as' := by
  obtain ⟨A, h1, _⟩ := C68_history hL hf hs h
  obtain ⟨A', h2, _⟩ := C68_history hL hf hs h'
  exact (C68_unique hs ho h1 h2).1

/-! ### Examples -/

/-- All requests, with the same luck each. -/
def play (be : Backend) (out : Surroundings) (x : Chance) :
    ExWorld → List (Request Nat) → ExWorld × List (Answer SC Nat)
  | w, [] => (w, [])
  | w, q :: qs =>
    let s := serve exCfg out exL be w x q
    let t := play be out x s.1 qs
    (t.1, s.2 :: t.2)

/-- There are sequence numbers left all along. -/
def plenty (be : Backend) (out : Surroundings) (x : Chance) : ExWorld → List (Request Nat) → Bool
  | _, [] => true
  | w, q :: qs => decide (w.alloc.1 < 32 ^ 11) && plenty be out x (serve exCfg out exL be w x q).1 qs

theorem play_played {be : Backend} {out : Surroundings} {x : Chance} (hx : x.xs = lucky)
    (hc : x.raises = false) :
    ∀ {qs : List (Request Nat)} {w : ExWorld}, plenty be out x w qs = true →
      Played exCfg out exL be w qs (play be out x w qs).2 (play be out x w qs).1
  | [], w, _ => .nil w
  | q :: qs, w, h => by
    unfold plenty at h
    rw [Bool.and_eq_true, decide_eq_true_eq] at h
    refine .cons (q := q) x ⟨by rw [hx]; decide, ?_, h.1⟩ hc (play_played hx hc h.2)
    rw [hx]
    intro y hy
    cases List.mem_singleton.mp hy
    exact ⟨rfl, rfl, rfl, rfl⟩

def exSurroundings : Surroundings := ⟨fun _ => true, id⟩

def exChance (key time : Nat) (callback : Bool) : Chance := ⟨lucky, key, callback, time, false⟩

def exInput (repo rkey : Key) (r : Nat) : Input Nat :=
  ⟨some repo, some "coll".toList, some rkey, some r, false⟩

/-- Two accounts, records, pages, a refused request, and a deactivation. -/
def exRequests : List (Request Nat) :=
  [.newRepo exDid (some exHandle), .newRepo exDid2 none,
    .putRecord exHeader (exInput exHandle "b".toList 5),
    .createRecord exHeader ⟨some exDid, some "coll".toList, none, some 6, false⟩ "t".toList,
    .putRecord none (exInput exDid "x".toList 7), .putRecord exHeader (exInput exDid "?".toList 7),
    .getRecord exHandle "coll".toList "t".toList false, .listRecords exDid "coll".toList 1 none,
    .deleteRecord exHeader (exInput exDid "b".toList 0), .describeRepo exHandle,
    .getRecord exDid "coll".toList "b".toList false,
    .setStatus exDid .deactivate, .getRepoStatus exDid, .getRecord exHandle "coll".toList "t".toList false,
    .getRecord "nobody.com".toList "coll".toList "t".toList false, .getRepoStatus exDid2]

def exAnswers : List (Answer SC Nat) :=
  [.done, .done, .written ⟨"at://did:plc:alice/coll/b".toList, .record 5⟩,
    .written ⟨"at://did:plc:alice/coll/t".toList, .record 6⟩, .failed .value, .failed .value,
    .record ⟨"at://did:plc:alice/coll/t".toList, .record 6, .record 6⟩,
    .page ⟨[⟨"at://did:plc:alice/coll/b".toList, .record 5, .record 5⟩], some "coll/b".toList⟩,
    .done, .repo exDid (some exHandle) ["coll".toList], .failed (.xrpc "RecordNotFound"),
    .done, .active false, .failed (.xrpc "RepoDeactivated"), .failed (.xrpc "RepoNotFound"), .active true]

/-- The hypotheses of `C68_same` can be met, by servers that differ in everything. -/
example : (∀ q ∈ exRequests, Proper q) ∧ (∀ q ∈ exRequests, Owned (fun _ => exDid) q) ∧
    (∃ w, Played exCfg exSurroundings exL .memory .empty exRequests exAnswers w) ∧
    ∃ w, Played exCfg exSurroundings exL .datastore .empty exRequests exAnswers w := by
  refine ⟨?_, ?_, ?_, ?_⟩
  · intro q hq
    simp only [exRequests, List.mem_cons, List.not_mem_nil, or_false] at hq
    rcases hq with rfl | rfl | rfl | rfl | rfl | rfl | rfl | rfl | rfl | rfl | rfl | rfl | rfl | rfl | rfl | rfl
    · refine ⟨by unfold isDid; decide +kernel, fun h hh => ?_⟩
      cases hh
      exact ⟨by unfold isDid; decide +kernel, by decide +kernel⟩
    · exact ⟨by unfold isDid; decide +kernel, fun h hh => by cases hh⟩
    all_goals first | trivial | (show isDid exDid; unfold isDid; decide +kernel)
  · intro q hq
    simp only [exRequests, List.mem_cons, List.not_mem_nil, or_false] at hq
    rcases hq with rfl | rfl | rfl | rfl | rfl | rfl | rfl | rfl | rfl | rfl | rfl | rfl | rfl | rfl | rfl | rfl
    · exact fun h hh => rfl
    · exact fun h hh => by cases hh
    all_goals trivial
  · have := play_played (be := .memory) (out := exSurroundings) (x := exChance 7 100 true) rfl rfl (qs := exRequests)
      (w := .empty) (by decide +kernel)
    exact ⟨_, (show (play .memory exSurroundings (exChance 7 100 true) .empty exRequests).2 = exAnswers by
      decide +kernel) ▸ this⟩
  · have := play_played (be := .datastore) (out := exSurroundings) (x := exChance 9 300 false) rfl rfl (qs := exRequests)
      (w := .empty) (by decide +kernel)
    exact ⟨_, (show (play .datastore exSurroundings (exChance 9 300 false) .empty exRequests).2 = exAnswers by
      decide +kernel) ▸ this⟩

/-! ### What isn't the same -/

/-- The record of the higher layer is written and deleted. -/
def exEmptied : List (Request Nat) :=
  [.newRepo exDid (some exHandle), .putRecord exHeader (exInput exDid "b".toList 5),
    .deleteRecord exHeader (exInput exDid "b".toList 0), .putRecord exHeader (exInput exDid "a".toList 6)]

/-- It isn't so for the commits: after the same requests, with the same keys, nonces and times, and with the
same records in the end, the heads of the two storages have different CIDs. (`MemoryStorage` goes on with
the tree that the deletion left, the Datastore loads it again, and they aren't the same once it is empty;
see C03.) -/
theorem C68_head_false : (play .memory exSurroundings (exChance 7 100 true) .empty exEmptied).2 =
      (play .datastore exSurroundings (exChance 7 100 true) .empty exEmptied).2 ∧
    (getLatestCommit exCfg exL .memory (play .memory exSurroundings (exChance 7 100 true) .empty exEmptied).1 exDid).2 ≠
    (getLatestCommit exCfg exL .datastore
      (play .datastore exSurroundings (exChance 7 100 true) .empty exEmptied).1 exDid).2 := by
  constructor <;> decide +kernel

end Arroba.Xrpc
