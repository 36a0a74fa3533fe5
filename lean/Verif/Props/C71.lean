import Verif.Xrpc.Start
import Verif.Props.C70

/-!
# C71: restarting the server loses nothing

However often the server (`app.py`) is started, killed while it starts, or stopped by an exception, and whatever
requests it serves, with anything going wrong, in between, one after another:

* `C71_history`: all of it is as it would be with a table of accounts, in which a start makes an account without
  records if the server has none, and does nothing otherwise (`Lives`, `Xrpc/Start.lean`).
* `C71_restart`: starts of a server that has a repo leave the Datastore exactly as it was, log and sequence numbers
  included; they succeed, and find the repo.
* `C71_forever`: once there is a repo, there always is one.
* `C71_first`: whatever became of the starts before, when a start succeeds that had no repo, then there is one without
  records; and one start where nothing fails is enough.

`C71_race_false`: of two processes that are started at the same time, the second to finish makes the repo anew, after
requests that were served by the first have been answered. Records that were written are lost.
-/

namespace Arroba.Xrpc

open Arroba.Store

variable {C R : Type} [DecidableEq C] {L : Lib C R} {Z : Nat}
  {w w' : World C R} {cfg : Config R} {A : Accounts R} {out : Surroundings} {home : Home}

/-- `REPO_DID` is a DID, and `REPO_HANDLE` isn't. -/
def Home.OK (home : Home) : Prop := isDid home.did ∧ ¬ isDid home.handle ∧ home.handle ≠ []

theorem Home.OK.proper (h : home.OK) : Proper (Request.newRepo (R := R) home.did (some home.handle)) :=
  ⟨h.1, fun _ he => by cases he; exact h.2⟩

/-- What loading finds. -/
theorem start_loads (hL : L.OK Z) (hr : Reach L .datastore .untorn w) (hk : Keeping L .datastore w A)
    (hh : home.OK) :
    (A home.did = none ∧ loadRepo .datastore w home.did = (w, .ok none)) ∨
    ∃ a w1 s, A home.did = some a ∧ loadRepo .datastore w home.did = (w1, .ok (some s)) ∧ Loaded w w1 ∧
      Reach L .datastore .untorn w1 ∧ Keeping L .datastore w1 A := by
  have hent := ((keeping_iff hL hr).1 hk).1 home.did
  rcases load_entry hL hr hh.1 with ⟨h1, h2⟩ | ⟨w1, s, o, h1, h2, h3, h4, h5⟩
  · rw [h1] at hent
    refine .inl ⟨?_, h2⟩
    cases ha : A home.did with
    | none => rfl
    | some a => rw [ha] at hent; cases hent
  · have hr1 : Reach L .datastore .untorn w1 := by
      have := Step.loadRepo (L := L) (be := .datastore) (al := .untorn) (w := w) home.did
      rw [h2] at this
      exact .step hr this
    cases ha : A home.did with
    | none => rw [ha, h1] at hent; cases hent
    | some a =>
      refine .inr ⟨a, w1, s, rfl, h2, h5, hr1, keeping_quiet hL hr hk hr1 h5.rows ?_⟩
      rw [h5.blocks]
      exact .refl _

/-- One start, whatever fails. -/
theorem C71_start (hL : L.OK Z) (hr : Reach L .datastore .untorn w) (hk : Keeping L .datastore w A)
    (hf : cfg.flask = true) (hh : home.OK) (x : Chance) :
    ∃ A', Begins home A (.troubled (start cfg out L home w x).2) A' ∧
      Keeping L .datastore (start cfg out L home w x).1 A' ∧ Reach L .datastore .untorn (start cfg out L home w x).1 := by
  rcases start_loads hL hr hk hh with ⟨h1, h2⟩ | ⟨a, w1, s, h1, h2, _, h3, h4⟩
  · have e : start cfg out L home w x = serve cfg out L .datastore w x (.newRepo home.did (some home.handle)) := by
      unfold start
      rw [h2]
    rw [e]
    obtain ⟨A', g1, g2, g3⟩ := C69_answer (out := out) hL hr hk hf hh.proper x
    refine ⟨A', ?_, g2, g3⟩
    generalize (serve cfg out L .datastore w x (.newRepo home.did (some home.handle))).2 = ans at g1
    cases g1 with
    | done h => obtain ⟨rfl, rfl⟩ := h; exact .firstTroubled h1
    | failed e _ => exact .failed h1 e
  · have e : start cfg out L home w x = (w1, .done) := by unfold start; rw [h2]
    rw [e]
    exact ⟨A, .againTroubled h1, h4, h3⟩

/-- One start, and nothing fails. -/
theorem C71_starts (hL : L.OK Z) (hr : Reach L .datastore .untorn w) (hk : Keeping L .datastore w A)
    (hf : cfg.flask = true) (hh : home.OK) (x : Chance) (hx : Fine w x.xs) (hc : x.raises = false) :
    ∃ A', Begins home A (.fine (start cfg out L home w x).2) A' ∧
      Keeping L .datastore (start cfg out L home w x).1 A' ∧ Reach L .datastore .untorn (start cfg out L home w x).1 := by
  rcases start_loads hL hr hk hh with ⟨h1, h2⟩ | ⟨a, w1, s, h1, h2, _, h3, h4⟩
  · have e : start cfg out L home w x = serve cfg out L .datastore w x (.newRepo home.did (some home.handle)) := by
      unfold start
      rw [h2]
    rw [e]
    obtain ⟨A', g1, g2, g3⟩ := C68_request (out := out) hL hr hk hf hh.proper x hx hc
    refine ⟨A', ?_, g2, g3⟩
    rw [g1.1, g1.2]
    exact .first h1
  · have e : start cfg out L home w x = (w1, .done) := by unfold start; rw [h2]
    rw [e]
    exact ⟨A, .again h1, h4, h3⟩

/-- The process is killed while it starts. -/
theorem C71_killed (hL : L.OK Z) (hr : Reach L .datastore .untorn w) (hk : Keeping L .datastore w A)
    (hf : cfg.flask = true) (hh : home.OK) (hl : StartLeaves cfg out L home w w') :
    ∃ A', Begins (C := C) home A .killed A' ∧ Keeping L .datastore w' A' ∧ Reach L .datastore .untorn w' := by
  cases hl with
  | idle => exact ⟨A, .killed, hk, hr⟩
  | loading h =>
    rcases start_loads hL hr hk hh with ⟨h1, h2⟩ | ⟨a, w1, s, h1, h2, _, h3, h4⟩ <;> rw [h] at h2 <;> cases h2
    · exact ⟨A, .killed, hk, hr⟩
    · exact ⟨A, .killed, h4, h3⟩
  | making h hl =>
    rcases start_loads hL hr hk hh with ⟨h1, h2⟩ | ⟨a, w1, s, h1, h2, _, h3, h4⟩ <;> rw [h] at h2 <;> cases h2
    obtain ⟨A', g1, g2, g3⟩ := C69_killed hL hr hk hf hh.proper hl
    refine ⟨A', ?_, g2, g3⟩
    rcases g1 with rfl | ⟨_, -, rfl⟩
    · exact .killed
    · exact .killedFirst h1

/-- All starts and requests, with anything going wrong. -/
theorem C71_history (hL : L.OK Z) (hf : cfg.flask = true) (hh : home.OK) {l : List (Occasion R)}
    {os : List (Outcome C R)} (hs : ∀ q, .request q ∈ l → Proper q) (hr : Reach L .datastore .untorn w)
    (hk : Keeping L .datastore w A) (h : Lived cfg out L home w l os w') :
    ∃ A', Lives cfg out L home A l os A' ∧ Keeping L .datastore w' A' ∧ Reach L .datastore .untorn w' := by
  induction h generalizing A with
  | nil w => exact ⟨A, .nil A, hk, hr⟩
  | @request w w1 w' q o l os h h' ih =>
    have hq := hs q List.mem_cons_self
    have : ∃ A1, Manages cfg out L A q o A1 ∧ Keeping L .datastore w1 A1 ∧ Reach L .datastore .untorn w1 := by
      cases h with
      | fine x hx hc h =>
        cases h
        obtain ⟨A1, h1, h2, h3⟩ := C68_request hL hr hk hf (out := out) hq x hx hc
        exact ⟨A1, .fine h1, h2, h3⟩
      | troubled x h => cases h; exact C69_answer hL hr hk hf hq x
      | killed hl h => cases h; exact leaves_all hL hr hk hf hq hl
    obtain ⟨A1, h1, h2, h3⟩ := this
    obtain ⟨A2, h4, h5⟩ := ih (fun q hq => hs q (.tail _ hq)) h3 h2
    exact ⟨A2, .request h1 h4, h5⟩
  | fine x hx hc h' ih =>
    obtain ⟨A1, h1, h2, h3⟩ := C71_starts (cfg := cfg) (out := out) hL hr hk hf hh x hx hc
    obtain ⟨A2, h4, h5⟩ := ih (fun q hq => hs q (.tail _ hq)) h3 h2
    exact ⟨A2, .start h1 h4, h5⟩
  | troubled x h' ih =>
    obtain ⟨A1, h1, h2, h3⟩ := C71_start (cfg := cfg) (out := out) hL hr hk hf hh x
    obtain ⟨A2, h4, h5⟩ := ih (fun q hq => hs q (.tail _ hq)) h3 h2
    exact ⟨A2, .start h1 h4, h5⟩
  | killed hl h' ih =>
    obtain ⟨A1, h1, h2, h3⟩ := C71_killed hL hr hk hf hh hl
    obtain ⟨A2, h4, h5⟩ := ih (fun q hq => hs q (.tail _ hq)) h3 h2
    exact ⟨A2, .start h1 h4, h5⟩

/-- Any number of starts of a server that has a repo. -/
theorem C71_restart (hL : L.OK Z) (hh : home.OK) {n : Nat} {os : List (Outcome C R)}
    (hr : Reach L .datastore .untorn w) (hk : Keeping L .datastore w A) {a : Account R} (ha : A home.did = some a)
    (h : Lived cfg out L home w (List.replicate n .start) os w') :
    w'.rows = w.rows ∧ w'.blocks = w.blocks ∧ w'.seqs = w.seqs ∧ Keeping L .datastore w' A ∧
      Reach L .datastore .untorn w' ∧ ∀ o ∈ os, o = .fine .done ∨ o = .troubled .done ∨ o = .killed := by
  have key : ∀ {w w1 : World C R} {os : List (Outcome C R)} {o : Outcome C R}, Loaded w w1 →
      (o = .fine .done ∨ o = .troubled .done ∨ o = .killed) →
      w'.rows = w1.rows ∧ w'.blocks = w1.blocks ∧ w'.seqs = w1.seqs ∧ Keeping L .datastore w' A ∧
        Reach L .datastore .untorn w' ∧ (∀ o ∈ os, o = .fine .done ∨ o = .troubled .done ∨ o = .killed) →
      w'.rows = w.rows ∧ w'.blocks = w.blocks ∧ w'.seqs = w.seqs ∧ Keeping L .datastore w' A ∧
        Reach L .datastore .untorn w' ∧ ∀ o' ∈ o :: os, o' = .fine .done ∨ o' = .troubled .done ∨ o' = .killed := by
    rintro w w1 os o hl ho ⟨h1, h2, h3, h4, h5, h6⟩
    refine ⟨h1.trans hl.rows, h2.trans hl.blocks, h3.trans hl.seqs, h4, h5, fun o' ho' => ?_⟩
    rcases List.mem_cons.1 ho' with rfl | ho'
    · exact ho
    · exact h6 o' ho'
  induction n generalizing w os with
  | zero =>
    cases h
    exact ⟨rfl, rfl, rfl, hk, hr, fun _ h => (nomatch h)⟩
  | succ n ih =>
    rcases start_loads hL hr hk hh with ⟨h1, -⟩ | ⟨_, w1, s, -, h2, hl, h3, h4⟩
    · rw [ha] at h1; cases h1
    have e : ∀ x, start cfg out L home w x = (w1, .done) := by intro x; unfold start; rw [h2]
    rw [List.replicate_succ] at h
    cases h with
    | fine x hx hc h =>
      rw [e] at h ⊢
      exact key hl (.inl rfl) (ih h3 h4 h)
    | troubled x h =>
      rw [e] at h ⊢
      exact key hl (.inr (.inl rfl)) (ih h3 h4 h)
    | killed hl' h =>
      cases hl' with
      | idle => exact key (.refl w) (.inr (.inr rfl)) (ih hr hk h)
      | loading g =>
        rw [h2] at g
        cases g
        exact key hl (.inr (.inr rfl)) (ih h3 h4 h)
      | making g _ => rw [h2] at g; cases g

theorem serves_stays {q : Request R} {ans : Answer C R} {A' : Accounts R} (h : Serves cfg out L A q ans A') {d : Did}
    (hd : A d ≠ none) : A' d ≠ none := by
  have upd : ∀ (d' : Did) (a : Account R), Function.update A d' (some a) d ≠ none := by
    intro d' a
    rw [Function.update_apply]
    split
    · exact nofun
    · exact hd
  have put : ∀ {header : Option Key} {inp : Input R}, ServesPut cfg L A header inp ans A' → A' d ≠ none := by
    intro header inp h
    unfold ServesPut at h
    split at h
    · obtain ⟨_, rfl⟩ := h; exact hd
    split at h
    · obtain ⟨_, rfl⟩ := h; exact hd
    obtain ⟨res, h1, h2⟩ := h
    split at h2
    · obtain ⟨_, rfl⟩ := h2; exact hd
    · split at h2
      · obtain ⟨_, rfl⟩ := h2; exact upd _ _
      · obtain ⟨_, rfl⟩ := h2; exact hd
    · obtain ⟨_, rfl⟩ := h2; exact hd
  cases q with
  | putRecord header inp => exact put h
  | createRecord header inp tid =>
    unfold Serves at h
    dsimp only at h
    by_cases hm : Malformed cfg inp
        (if inp.collection.getD [] ≠ [] then inp.collection else inp.record.bind cfg.typ)
    · rw [if_pos hm] at h
      obtain ⟨_, rfl⟩ := h; exact hd
    · rw [if_neg hm] at h
      exact put h
  | deleteRecord header inp =>
    unfold Serves at h
    dsimp only at h
    split at h
    · obtain ⟨_, rfl⟩ := h; exact hd
    split at h
    · obtain ⟨_, rfl⟩ := h; exact hd
    obtain ⟨res, h1, h2⟩ := h
    split at h2
    · obtain ⟨_, rfl⟩ := h2; exact hd
    · obtain ⟨_, rfl⟩ := h2; exact upd _ _
    · obtain ⟨_, rfl⟩ := h2; exact hd
  | newRepo did handle => obtain ⟨_, rfl⟩ := h; exact upd _ _
  | setStatus did change =>
    unfold Serves at h
    dsimp only at h
    split at h
    · obtain ⟨_, rfl⟩ := h; exact hd
    · obtain ⟨_, rfl⟩ := h; exact upd _ _
  | _ => obtain ⟨rfl, _⟩ := h; exact hd

/-- Once the server has a repo it has one for ever, whatever happens: no later start makes one. -/
theorem C71_forever {l : List (Occasion R)} {os : List (Outcome C R)} {A' : Accounts R}
    (h : Lives cfg out L home A l os A') (ha : A home.did ≠ none) : A' home.did ≠ none := by
  induction h with
  | nil => exact ha
  | start h _ ih =>
    refine ih ?_
    cases h with
    | again | againTroubled | failed | killed => exact ha
    | first hn | firstTroubled hn | killedFirst hn => exact absurd hn ha
  | request h _ ih =>
    refine ih ?_
    cases h with
    | fine h | done h | killedDone h => exact serves_stays h ha
    | failed | killed => exact ha

/-- Starts of a server that had no repo. -/
theorem Lives.starts (ha : A home.did = none) {n : Nat} {os : List (Outcome C R)} {A' : Accounts R}
    (h : Lives cfg out L home A (List.replicate n .start) os A') :
    A' = A ∨ A' = Function.update A home.did (some (fresh home)) := by
  have key : ∀ {n : Nat} {os : List (Outcome C R)} {A₁ : Accounts R},
      (A₁ = A ∨ A₁ = Function.update A home.did (some (fresh home))) →
      Lives cfg out L home A₁ (List.replicate n .start) os A' →
      A' = A ∨ A' = Function.update A home.did (some (fresh home)) := by
    intro n
    induction n with
    | zero => intro os A₁ h1 h; cases h; exact h1
    | succ n ih =>
      intro os A₁ h1 h
      rw [List.replicate_succ] at h
      cases h with
      | @start _ A₂ _ o _ os h h' =>
        refine ih ?_ h'
        have hno : A₁ home.did = none → A₁ = A := by
          intro hn
          rcases h1 with h1 | h1
          · exact h1
          · rw [h1, Function.update_self] at hn; cases hn
        cases h with
        | again | againTroubled | failed | killed => exact h1
        | first hn | firstTroubled hn | killedFirst hn => rw [hno hn]; exact .inr rfl
  exact key (.inl rfl) h

/-- Whatever became of the starts before, one that succeeds leaves a repo without records; and it does if
nothing fails. -/
theorem C71_first (hL : L.OK Z) (hf : cfg.flask = true) (hh : home.OK) {n : Nat} {os : List (Outcome C R)}
    (hr : Reach L .datastore .untorn w) (hk : Keeping L .datastore w A) (ha : A home.did = none)
    (h : Lived cfg out L home w (List.replicate n .start) os w') (x : Chance) :
    ((start cfg out L home w' x).2 = .done → Keeping L .datastore (start cfg out L home w' x).1
      (Function.update A home.did (some (fresh home)))) ∧
    (Fine w' x.xs → x.raises = false → (start cfg out L home w' x).2 = .done) := by
  obtain ⟨A1, h1, h2, h3⟩ := C71_history (cfg := cfg) (out := out) hL hf hh (l := List.replicate n .start)
    (fun q hq => nomatch List.eq_of_mem_replicate hq) hr hk h
  have h4 := h1.starts ha
  refine ⟨fun hd => ?_, fun hx hc => ?_⟩
  · obtain ⟨A2, g1, g2, -⟩ := C71_start (cfg := cfg) (out := out) hL h3 h2 hf hh x
    rw [hd] at g1
    have : A2 = Function.update A home.did (some (fresh home)) := by
      cases g1 with
      | againTroubled hs =>
        rcases h4 with rfl | h4
        · rw [ha] at hs; cases hs
        · exact h4
      | firstTroubled hn =>
        rcases h4 with rfl | rfl
        · rfl
        · rw [Function.update_self] at hn; cases hn
    rwa [this] at g2
  · obtain ⟨A2, g1, -⟩ := C71_starts (cfg := cfg) (out := out) hL h3 h2 hf hh x hx hc
    generalize (start cfg out L home w' x).2 = ans at g1
    cases g1 <;> rfl

/-! ### Examples -/

def exServer : Home := ⟨exDid, exHandle⟩

theorem exServer_ok : exServer.OK :=
  ⟨by unfold isDid; decide +kernel, by unfold isDid; decide +kernel, by decide +kernel⟩

abbrev exStart (w : ExWorld) (x : Chance) : ExWorld × Answer SC Nat := start exCfg exSurroundings exL exServer w x

/-- The process can't write. -/
def exStuck : Chance := ⟨[{ writeFails := true }], 7, true, 100, false⟩

/-- The first start fails, the second succeeds; a record is written; the
third start finds it. -/
example :
    let w1 := (exStart .empty exStuck).1
    let w2 := exStart w1 exFine
    let w3 := exServe w2.1 exFine (exPutReq "a".toList 1)
    let w4 := exStart w3.1 exFine
    (w1.rows.length, w2.2, w4.2, (exServe w4.1 exFine (.listRecords exDid "coll".toList 9 none)).2) =
      (0, .done, .done,
        .page ⟨[⟨"at://did:plc:alice/coll/a".toList, .record 1, .record 1⟩], none⟩) := by decide +kernel

/-- The hypotheses of the theorems can be met. -/
example : ∃ (w' : ExWorld) (A : Accounts Nat) (a : Account Nat), Lived exCfg exSurroundings exL exServer exS1
    [.start, .start] [.killed, .fine .done] w' ∧ Reach exL .datastore .untorn exS1 ∧ Keeping exL .datastore exS1 A ∧
    A exServer.did = some a := by
  obtain ⟨A, hk, hr, hn⟩ := exS1_keeps
  have h : (exStart exS1 exFine).2 = .done := by decide +kernel
  have hl : Lived exCfg exSurroundings exL exServer exS1 [.start, .start] [.killed, .fine (exStart exS1 exFine).2]
      (exStart exS1 exFine).1 := .killed .idle (.fine exFine (exFine_fine (by decide +kernel)) rfl (.nil _))
  rw [h] at hl
  rcases start_loads exL_ok hr hk exServer_ok with ⟨_, h2⟩ | ⟨a, w1, s, h1, _⟩
  · have : (match (loadRepo .datastore exS1 exServer.did).2 with
      | .ok none => true
      | _ => false) = false := by decide +kernel
    rw [h2] at this
    cases this
  · exact ⟨_, A, a, hl, hr, hk, h1⟩

/-! ### What isn't so -/

/-- Requests 0 and 1 are starts without a repo; 2 puts a record; the others list the records. -/
def exReqsRace : Nat → Request Nat
  | 0 => .newRepo exDid (some exHandle)
  | 1 => .newRepo exDid (some exHandle)
  | 2 => exPutReq "a".toList 1
  | _ => .listRecords exDid "coll".toList 9 none

abbrev exRace (as : List TAct) : Option (TState SC Nat) :=
  (TState.init .empty).run exCfg exSurroundings exL exReqsRace as

/-- Both processes have loaded the repo. -/
def exRace₁ : List TAct := [.arrive 0, .arrive 1]

def exRace₂ : List TAct :=
  exRace₁ ++ creates 0 8 ++ [.arrive 2, .read 2] ++ tsteps 2 7 ++ [.reply 2] ++ creates 1 8 ++ [.arrive 3, .read 3]

def noRepo (w : ExWorld) : Bool := match loadRepo .datastore w exDid with
  | (_, .ok none) => true
  | _ => false

/-- Two processes are started at the same time, and find no repo. Both succeed. After the first one has, a record
is written; after the second one has, it is gone. In no order of the two starts and the requests, where starts
do nothing if there is a repo, would it be. -/
theorem C71_race_false : ∃ s₁ s₂ a₂ a₃, exRace exRace₁ = some s₁ ∧ noRepo s₁.c.w = true ∧ exRace exRace₂ = some s₂ ∧
    s₂.stage 0 = .answered .done ∧ s₂.stage 1 = .answered .done ∧ s₂.stage 2 = .answered (.written a₂) ∧
    s₂.stage 3 = .answered a₃ ∧
    let put : Occasion Nat := .request (exReqsRace 2)
    let list : Occasion Nat := .request (exReqsRace 3)
    let no (l : List (Occasion Nat)) (as : List (Answer SC Nat)) : Prop := ∀ A',
      ¬ Lives exCfg exSurroundings exL exServer (fun _ => none) l (as.map .fine) A'
    no [.start, .start, put, list] [.done, .done, .written a₂, a₃] ∧
    no [.start, put, .start, list] [.done, .written a₂, .done, a₃] ∧
    no [.start, put, list, .start] [.done, .written a₂, a₃, .done] := by
  have e : ((exRace exRace₁).bind fun s₁ => (exRace exRace₂).map fun s₂ =>
      (noRepo s₁.c.w, [0, 1, 2, 3].map fun i => answerOf (s₂.stage i))) =
    some (true, [some .done, some .done, some (.written ⟨"at://did:plc:alice/coll/a".toList, .record 1⟩),
      some (.page ⟨[], none⟩)]) := by decide +kernel
  obtain ⟨s₁, h1, e⟩ := Option.bind_eq_some_iff.1 e
  obtain ⟨s₂, h2, e⟩ := Option.map_eq_some_iff.1 e
  simp only [List.map_cons, List.map_nil, Prod.mk.injEq, List.cons.injEq, and_true] at e
  have bad : ∀ A' , ¬ ServesAll exCfg exSurroundings exL (fun _ => none)
      [.newRepo exDid (some exHandle), exReqsRace 2, exReqsRace 3]
      [.done, .written ⟨"at://did:plc:alice/coll/a".toList, .record 1⟩, .page ⟨[], none⟩] A' := by
    intro A'
    refine not_served ?_ ?_ (by decide +kernel) (by decide +kernel)
    all_goals
      intro q hq
      simp only [List.mem_cons, List.not_mem_nil, or_false] at hq
      rcases hq with rfl | rfl | rfl
    all_goals first | exact exNew_proper | trivial | (intro h hh; rfl)
  have first : ∀ {A' : Accounts Nat}, Begins (C := SC) exServer (fun _ => none) (.fine .done) A' →
      Serves exCfg exSurroundings exL (fun _ => none) (.newRepo exDid (some exHandle)) (.done : Answer SC Nat) A' ∧
        A' exDid ≠ none := by
    intro A' h
    cases h with
    | again h => cases h
    | first h => exact ⟨⟨rfl, rfl⟩, by rw [show exDid = exServer.did from rfl, Function.update_self]; simp⟩
  have again : ∀ {A A' : Accounts Nat}, A exDid ≠ none → Begins (C := SC) exServer A (.fine .done) A' → A' = A := by
    intro A A' hn h
    cases h with
    | again h => rfl
    | first h => exact absurd h hn
  refine ⟨s₁, s₂, _, _, h1, e.1, h2, answerOf_some e.2.1, answerOf_some e.2.2.1, answerOf_some e.2.2.2.1,
    answerOf_some e.2.2.2.2, fun A' h => ?_, fun A' h => ?_, fun A' h => ?_⟩
  · cases h with | start b1 h =>
    cases h with | start b2 h =>
    cases h with | request m1 h =>
    cases h with | request m2 h =>
    cases h
    cases m1 with | fine m1 =>
    cases m2 with | fine m2 =>
    obtain ⟨g1, g2⟩ := first b1
    cases again g2 b2
    exact bad _ (.cons g1 (.cons m1 (.cons m2 (.nil _))))
  · cases h with | start b1 h =>
    cases h with | request m1 h =>
    cases h with | start b2 h =>
    cases h with | request m2 h =>
    cases h
    cases m1 with | fine m1 =>
    cases m2 with | fine m2 =>
    obtain ⟨g1, g2⟩ := first b1
    cases again (serves_stays m1 g2) b2
    exact bad _ (.cons g1 (.cons m1 (.cons m2 (.nil _))))
  · cases h with | start b1 h =>
    cases h with | request m1 h =>
    cases h with | request m2 h =>
    cases h with | start b2 h =>
    cases h
    cases m1 with | fine m1 =>
    cases m2 with | fine m2 =>
    obtain ⟨g1, g2⟩ := first b1
    exact bad _ (.cons g1 (.cons m1 (.cons m2 (.nil _))))

end Arroba.Xrpc
