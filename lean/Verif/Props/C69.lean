import Verif.Xrpc.AgainProofs
import Verif.Props.C68

/-!
# C69: requests are done completely or not at all, whatever fails

With the Datastore: nonces, signatures, writes, transactions, and callbacks may fail and be retried in any
way, and the process may be killed between any two writes, any number of times. The real server still
answers like the reference server of C68, if requests without an answer are ones that it may have done or
not, and requests that write may raise an exception, and then haven't been done (`Manages`,
`Xrpc/Survive.lean`).
-/

namespace Arroba.Xrpc

open Arroba.Store

variable {C R : Type} [DecidableEq C] {L : Lib C R} {Z : Nat}
  {w w' : World C R} {cfg : Config R} {A : Accounts R} {out : Surroundings}

/-- An answer, whatever fails: it is the right one, and the request has been done; or the request is one
that writes, the answer is an exception, and nothing has been done. -/
theorem C69_answer (hL : L.OK Z) (hr : Reach L .datastore .untorn w) (hk : Keeping L .datastore w A)
    (hf : cfg.flask = true) {q : Request R} (hs : Proper q) (x : Chance) :
    ∃ A', Manages cfg out L A q (.troubled (serve cfg out L .datastore w x q).2) A' ∧
      Keeping L .datastore (serve cfg out L .datastore w x q).1 A' ∧
      Reach L .datastore .untorn (serve cfg out L .datastore w x q).1 :=
  copes_all hL hr hk hf hs x

/-- What is acknowledged is stored. -/
theorem C69_acknowledged (hL : L.OK Z) (hr : Reach L .datastore .untorn w) (hk : Keeping L .datastore w A)
    (hf : cfg.flask = true) {q : Request R} (hs : Proper q) (x : Chance)
    (hok : ∀ e, (serve cfg out L .datastore w x q).2 ≠ .failed e) :
    ∃ A', Serves cfg out L A q (serve cfg out L .datastore w x q).2 A' ∧
      Keeping L .datastore (serve cfg out L .datastore w x q).1 A' := by
  obtain ⟨A', h1, h2, _⟩ := C69_answer (out := out) hL hr hk hf hs x
  refine ⟨A', ?_, h2⟩
  generalize (serve cfg out L .datastore w x q).2 = ans at h1 hok
  cases h1 with
  | done h => exact h
  | failed e _ => exact absurd rfl (hok e)

/-- The process is killed at any time. -/
theorem C69_killed (hL : L.OK Z) (hr : Reach L .datastore .untorn w) (hk : Keeping L .datastore w A)
    (hf : cfg.flask = true) {q : Request R} (hs : Proper q) (hl : Leaves cfg out L w q w') :
    ∃ A', (A' = A ∨ ∃ a, Serves cfg out L A q a A') ∧ Keeping L .datastore w' A' ∧
      Reach L .datastore .untorn w' := by
  obtain ⟨A', h1, h2, h3⟩ := leaves_all hL hr hk hf hs hl
  refine ⟨A', ?_, h2, h3⟩
  cases h1 with
  | killed => exact .inl rfl
  | killedDone h => exact .inr ⟨_, h⟩

/-- All requests to a server, from an empty storage on, with anything going wrong in between. -/
theorem C69_history (hL : L.OK Z) (hf : cfg.flask = true) {qs : List (Request R)} {os : List (Outcome C R)}
    (hs : ∀ q ∈ qs, Proper q) (h : Struggled cfg out L .empty qs os w') :
    ∃ A, ManagesAll cfg out L (fun _ => none) qs os A ∧ Keeping L .datastore w' A := by
  have key : ∀ {w : World C R} {A : Accounts R}, Reach L .datastore .untorn w → Keeping L .datastore w A →
      Struggled cfg out L w qs os w' → ∃ A', ManagesAll cfg out L A qs os A' ∧ Keeping L .datastore w' A' := by
    clear h
    intro w A hr hk h
    induction h generalizing A with
    | nil w => exact ⟨A, .nil A, hk⟩
    | @fine w w' q qs os x hx hc h ih =>
      obtain ⟨A1, h1, h2, h3⟩ := C68_request hL hr hk hf (out := out) (hs q List.mem_cons_self) x hx hc
      obtain ⟨A2, h4, h5⟩ := ih (fun q hq => hs q (.tail _ hq)) h3 h2
      exact ⟨A2, .cons (.fine h1) h4, h5⟩
    | @troubled w w' q qs os x h ih =>
      obtain ⟨A1, h1, h2, h3⟩ := C69_answer hL hr hk hf (out := out) (hs q List.mem_cons_self) x
      obtain ⟨A2, h4, h5⟩ := ih (fun q hq => hs q (.tail _ hq)) h3 h2
      exact ⟨A2, .cons h1 h4, h5⟩
    | @killed w w1 w' q qs os hl h ih =>
      obtain ⟨A1, h1, h2, h3⟩ := leaves_all hL hr hk hf (hs q List.mem_cons_self) hl
      obtain ⟨A2, h4, h5⟩ := ih (fun q hq => hs q (.tail _ hq)) h3 h2
      exact ⟨A2, .cons h1 h4, h5⟩
  exact key .empty C68_empty h

/-- Repeating a request until it is answered is the same as making it once, if every handle belongs to
one DID. -/
theorem C69_again {owner : Key → Did} {q : Request R} {o : Outcome C R} {b : Answer C R}
    {A' A'' : Accounts R} (hA : Tidy owner A) (hs : Proper q) (ho : Owned owner q)
    (h : Manages cfg out L A q o A') (h' : Serves cfg out L A' q b A'') : ∃ a, Serves cfg out L A q a A'' := by
  have key : ∀ {a : Answer C R}, Serves cfg out L A q a A' → ∃ a, Serves cfg out L A q a A'' := by
    intro a h
    obtain ⟨c, hc⟩ := serves_again h
    obtain ⟨-, rfl⟩ := serves_unique (serves_tidy hA hs ho h) hc h'
    exact ⟨a, h⟩
  cases h with
  | fine h => exact key h
  | done h => exact key h
  | failed e _ => exact ⟨b, h'⟩
  | killed => exact ⟨b, h'⟩
  | killedDone h => exact key h

/-- The same, of the real server: the process is killed while a request is handled, and when it is made
again nothing fails. The storage has then what it would have if the request had been made once. -/
theorem C69_repeat {owner : Key → Did} (hL : L.OK Z) (hr : Reach L .datastore .untorn w)
    (hk : Keeping L .datastore w A) (hA : Tidy owner A) (hf : cfg.flask = true) {q : Request R}
    (hs : Proper q) (ho : Owned owner q) (hl : Leaves cfg out L w q w') (x : Chance) (hx : Fine w' x.xs)
    (hc : x.raises = false) :
    ∃ a A', Serves cfg out L A q a A' ∧ Keeping L .datastore (serve cfg out L .datastore w' x q).1 A' := by
  obtain ⟨A1, h1, h2, h3⟩ := leaves_all hL hr hk hf hs hl
  obtain ⟨A2, h4, h5, _⟩ := C68_request hL h3 h2 hf (out := out) hs x hx hc
  obtain ⟨a, ha⟩ := C69_again hA hs ho h1 h4
  exact ⟨a, A2, ha, h5⟩

/-- The event for a change of the status. -/
def Change.kind : Change → EventKind C
  | .activate => .account true none
  | .deactivate => .account false (some .deactivated)
  | .tombstone => .tombstone

/-- A change of the status that is answered has an event in the log, with the newest sequence number,
even if the status was stored before by a process that didn't get to write its event. -/
theorem C69_event (hL : L.OK Z) (hr : Reach L .datastore .untorn w) {did : Did} (hd : isDid did)
    {change : Change} (x : Chance)
    (hok : (serve cfg out L .datastore w x (.setStatus did change)).2 = .done) :
    ∃ b, (serve cfg out L .datastore w x (.setStatus did change)).1.read (L.hash b.val) = some b ∧
      b.val = .event ⟨change.kind, w.alloc.1, did, x.time⟩ ∧ b.seq = w.alloc.1 ∧ b.repo = did ∧
      ∀ c b', w.read c = some b' → b'.seq < b.seq := by
  have hwok := (hr.inv hL (fun h => h)).1
  rcases load_entry hL hr hd with ⟨_, h2⟩ | ⟨w1, s, o, h1, h2, h3, h4, h5⟩
  · unfold serve at hok
    dsimp only at hok
    rw [h2] at hok
    cases hok
  · have hr1 : Reach L .datastore .untorn w1 := by
      have := Step.loadRepo (L := L) (be := .datastore) (al := .untorn) (w := w) did
      rw [h2] at this
      exact .step hr this
    obtain ⟨hw1, hl1⟩ := hr1.inv hL (fun h => h)
    have hseq : w1.alloc.1 = w.alloc.1 := by unfold World.alloc; rw [h5.seqs]
    have key : ∀ st kind, (reply (fun _ => Answer.done) (setStatusEvent L .datastore w1 s st kind x.time) :
          World C R × Answer C R).2 = .done →
        ∃ b, (reply (fun _ => Answer.done) (setStatusEvent L .datastore w1 s st kind x.time) :
          World C R × Answer C R).1.read (L.hash b.val) = some b ∧
        b.val = .event ⟨kind, w.alloc.1, did, x.time⟩ ∧ b.seq = w.alloc.1 ∧ b.repo = did ∧
        ∀ c b', w.read c = some b' → b'.seq < b.seq := by
      intro st kind hk
      have hw2 := (setRepoStatus_ok (be := .datastore) hw1 hl1 s st).1
      obtain ⟨_, k2, _⟩ := setRepoStatus_keeps .datastore w1 s st
      have hse : (setRepoStatus .datastore w1 s st).1.alloc.1 = w1.alloc.1 := by
        unfold World.alloc
        rw [(setRepoStatus_still _ _ _ _).2]
      obtain ⟨e, j1, j2, j3, j4⟩ := event_spec hL .datastore hw2 (k2 o h3) h4 kind x.time
      unfold setStatusEvent at hk ⊢
      cases hs : setRepoStatus .datastore w1 s st with
      | mk w2 res =>
        rw [hs] at hk j1 j2 j3 j4 hse hw2
        cases res with
        | error e => cases hk
        | ok u =>
          dsimp only at hk j1 j2 j3 j4 hse hw2 ⊢
          have hlast := hw2.alloc.2.1
          refine ⟨⟨.event e, w2.last + 1, none, did⟩, ?_, ?_, ?_, rfl, ?_⟩
          · rw [j3]
            show dictGet (World.blocks (World.logIf _ _ _)) _ = _
            rw [logIf_blocks]
            show dictGet (putBlocks L w2.blocks _) _ = _
            rw [← putBlocks_one, dictGet_dictSetDefault, j2]
            exact if_pos rfl
          · show Val.event e = _
            rw [j1, ← hlast, hse, hseq]
          · show w2.last + 1 = _
            rw [← hlast, hse, hseq]
          · intro c b' hb'
            show _ < w2.last + 1
            rw [← hlast, hse, hseq, hwok.alloc.2.1]
            exact hwok.alloc.2.2.2 c b' hb'
    unfold serve at hok ⊢
    dsimp only at hok ⊢
    rw [h2] at hok ⊢
    dsimp only at hok ⊢
    cases change with
    | activate => exact key _ _ hok
    | deactivate => exact key _ _ hok
    | tombstone => exact key _ _ hok

/-! ### Examples -/

/-- Nothing fails. -/
def exFine : Chance := ⟨lucky, 7, true, 100, false⟩

/-- The blocks of the commit are stored, and its transaction is lost. -/
def exTrouble : Chance := ⟨[{ storeFails := true }], 7, true, 100, false⟩

/-- The callback raises. -/
def exRaise : Chance := ⟨lucky, 7, true, 100, true⟩

abbrev exServe (w : ExWorld) (x : Chance) (q : Request Nat) : ExWorld × Answer SC Nat :=
  serve exCfg exSurroundings exL .datastore w x q

def exS1 : ExWorld := (exServe .empty exFine (.newRepo exDid (some exHandle))).1

def exPutReq (rkey : Key) (r : Nat) : Request Nat := .putRecord exHeader (exInput exHandle rkey r)

/-- Killed with the blocks of the commit stored. -/
def exS2 : ExWorld := (exServe exS1 exTrouble (exPutReq "a".toList 1)).1

/-- The transaction is lost, and retried. -/
def exRetry : Chance := ⟨[{ txFails := true }, {}], 7, true, 100, false⟩

def exS2b : ExWorld := (exServe exS2 exRetry (exPutReq "b".toList 2)).1

/-- The callback raises. -/
def exS3 : ExWorld := (exServe exS2b exRaise (.newRepo exDid2 none)).1

def exS4 : ExWorld := (exServe exS3 exFine (exPutReq "a".toList 3)).1

/-- The handle of the repo with which its status is changed. -/
def exS5 : ExWorld := (loadRepo .datastore exS4 exDid).1

/-- The number of the `Repo` object. -/
def loadedRef : World C R × Except Err (Option Ref) → Option Ref
  | (_, .ok r) => r
  | _ => none

/-- Killed before the event. -/
def exS6 : ExWorld := (setRepoStatus .datastore exS5 ((loadedRef (loadRepo .datastore exS4 exDid)).getD 0)
  (some .deactivated)).1

/-- After the other requests. -/
def exS7 : ExWorld :=
  (exServe (exServe (exServe (exServe exS6 exFine (.getRepoStatus exDid)).1 exFine
    (.setStatus exDid .activate)).1 exFine (.getRecord exHandle "coll".toList "a".toList false)).1 exFine
    (.getRecord exHandle "coll".toList "b".toList false)).1

def exQs : List (Request Nat) :=
  [.newRepo exDid (some exHandle), exPutReq "a".toList 1, exPutReq "b".toList 2, .newRepo exDid2 none, exPutReq "a".toList 3,
    .setStatus exDid .deactivate, .getRepoStatus exDid, .setStatus exDid .activate,
    .getRecord exHandle "coll".toList "a".toList false, .getRecord exHandle "coll".toList "b".toList false]

def exOs : List (Outcome SC Nat) :=
  [.fine .done, .killed, .troubled (.written ⟨"at://did:plc:alice/coll/b".toList, .record 2⟩),
    .troubled (.failed .runtime),
    .fine (.written ⟨"at://did:plc:alice/coll/a".toList, .record 3⟩), .killed, .fine (.active false), .fine .done,
    .fine (.record ⟨"at://did:plc:alice/coll/a".toList, .record 3, .record 3⟩),
    .fine (.record ⟨"at://did:plc:alice/coll/b".toList, .record 2, .record 2⟩)]

theorem exFine_fine {w : ExWorld} (h : w.alloc.1 < 32 ^ 11) : Fine w exFine.xs :=
  ⟨by decide, by intro y hy; cases List.mem_singleton.mp hy; exact ⟨rfl, rfl, rfl, rfl⟩, h⟩

/-- The hypotheses of `C69_history` can be met: the first write is lost, the second is retried, a
repo isn't created since its callback raises, the status is stored without an event. -/
example : Struggled exCfg exSurroundings exL .empty exQs exOs exS7 := by
  have fine : ∀ {w w' : ExWorld} {q : Request Nat} {qs : List (Request Nat)} {a : Answer SC Nat}
      {os : List (Outcome SC Nat)}, w.alloc.1 < 32 ^ 11 → (exServe w exFine q).2 = a →
      Struggled exCfg exSurroundings exL (exServe w exFine q).1 qs os w' →
      Struggled exCfg exSurroundings exL w (q :: qs) (.fine a :: os) w' :=
    fun h1 h2 h3 => h2 ▸ .fine exFine (exFine_fine h1) rfl h3
  have troubled : ∀ {w w' : ExWorld} {q : Request Nat} {qs : List (Request Nat)} {a : Answer SC Nat}
      {os : List (Outcome SC Nat)} (x : Chance), (exServe w x q).2 = a →
      Struggled exCfg exSurroundings exL (exServe w x q).1 qs os w' →
      Struggled exCfg exSurroundings exL w (q :: qs) (.troubled a :: os) w' :=
    fun x h2 h3 => h2 ▸ .troubled x h3
  have hload : loadRepo .datastore exS4 exDid =
      (exS5, .ok (some ((loadedRef (loadRepo .datastore exS4 exDid)).getD 0))) := by
    have : (loadRepo .datastore exS4 exDid).2 =
        .ok (some ((loadedRef (loadRepo .datastore exS4 exDid)).getD 0)) := by decide +kernel
    rw [← this]
    rfl
  refine fine (by decide +kernel) (by decide +kernel) (.killed (w1 := exS2) (.ended exTrouble) ?_)
  have h2 : (exServe exS2 exRetry (exPutReq "b".toList 2)).2 =
      .written ⟨"at://did:plc:alice/coll/b".toList, .record 2⟩ := by decide +kernel
  have h3 : (exServe exS2b exRaise (.newRepo exDid2 none)).2 = .failed .runtime := by decide +kernel
  refine troubled exRetry h2 (troubled exRaise h3 ?_)
  refine fine (by decide +kernel) (by decide +kernel) (.killed (w1 := exS6) ?_ ?_)
  · exact .status exDid .deactivate rfl hload
  exact fine (by decide +kernel) (by decide +kernel) (fine (by decide +kernel) (by decide +kernel)
    (fine (by decide +kernel) (by decide +kernel) (fine (by decide +kernel) (by decide +kernel) (.nil _))))

/-! ### What isn't so -/

/-- The process is killed before it writes the event: clients are told that the account is inactive, and
there is nothing about it in the log, until the status is set again. -/
theorem C69_event_false : Leaves exCfg exSurroundings exL exS4 (.setStatus exDid .deactivate) exS6 ∧
    (exServe exS6 exFine (.getRepoStatus exDid)).2 = .active false ∧ exS6.blocks = exS4.blocks := by
  refine ⟨.status exDid .deactivate rfl ?_, by decide +kernel, by decide +kernel⟩
  have : (loadRepo .datastore exS4 exDid).2 =
      .ok (some ((loadedRef (loadRepo .datastore exS4 exDid)).getD 0)) := by decide +kernel
  rw [← this]
  rfl

/-- `createRecord` without an rkey isn't the same request the second time, since another one is generated:
the response is lost, the client repeats the request, and the repo has the record twice. -/
theorem C69_create_false :
    Leaves exCfg exSurroundings exL exS1
      (.createRecord exHeader ⟨some exDid, some "coll".toList, none, some 6, false⟩ "t".toList)
      (exServe exS1 exFine
        (.createRecord exHeader ⟨some exDid, some "coll".toList, none, some 6, false⟩ "t".toList)).1 ∧
    (exServe (exServe (exServe exS1 exFine
        (.createRecord exHeader ⟨some exDid, some "coll".toList, none, some 6, false⟩ "t".toList)).1 exFine
        (.createRecord exHeader ⟨some exDid, some "coll".toList, none, some 6, false⟩ "u".toList)).1 exFine
        (.listRecords exDid "coll".toList 9 none)).2 =
      .page ⟨[⟨"at://did:plc:alice/coll/t".toList, .record 6, .record 6⟩,
        ⟨"at://did:plc:alice/coll/u".toList, .record 6, .record 6⟩], none⟩ :=
  ⟨.ended exFine, by decide +kernel⟩

end Arroba.Xrpc
