import Verif.Firehose.WakeGapProofs
import Verif.Xrpc.QuietProofs
import Verif.Props.C68

/-! # C78: New events are on the firehose within a bounded time -/

namespace Arroba.Fire

variable {cfg : Cfg} {gc : Bool} {p : Pace} {T T₁ T₀ : Timed}

/-- **C78 (bound).** Take any moment `T₀` at which an event is in the log that has not been emitted: it is the newest,
and all numbers between the last event emitted and it are in the log or known to be lost. Unless the collector's thread
raises an exception, the event is emitted within the time of two passes, one sleep, one timeout of the waiting, and
four switches of threads, whether or not `send_events` is called, and whatever else is stored and whoever else
subscribes meanwhile. -/
theorem C78_bound (hd : 0 ≤ cfg.delay) (h₀ : T₀.Reached cfg gc p) {e : Ev} (he : e ∈ T₀.s.stored)
    (hahead : T₀.s.lastSeq < e.seq) (hnew : ∀ x ∈ T₀.s.stored, x.seq ≤ e.seq)
    (hgap : ∀ n, T₀.s.lastSeq < n → n < e.seq → n ∈ T₀.s.lost ∨ ∃ x ∈ T₀.s.stored, x.seq = n)
    (h : Runs cfg gc p true T₀ T)
    (hlate : T₀.now + (2 * p.pass + p.batch + cfg.delay + 4 * p.lag) < T.now) : e ∈ T.s.hist := by
  have hb := p.batch_nonneg
  have hl := p.lag_nonneg
  have hps := p.pass_nonneg
  have ht := h₀.timely hd
  refine h.emitted hd ht h₀.reach ⟨he, hahead, hnew, hgap⟩ ?_
  have h1 := ht.soon
  cases hm : T₀.mode with
  | asleep u => have := ht.asleep u hm; simp only [Mode.latest]; omega
  | ready t => have := ht.ready t hm; simp only [Mode.latest]; omega
  | blocked u => have := ht.blocked u hm; simp only [Mode.latest]; omega
  | woken t => have := ht.woken t hm; simp only [Mode.latest]; omega
  | reading t => have := ht.reading t hm; simp only [Mode.latest]; omega

/-- **C78 (wake-up).** If the collector is waiting when `send_events` is called, then the event is emitted within the
time of one switch of threads and one pass. -/
theorem C78_woken (hd : 0 ≤ cfg.delay) (h₀ : T₀.Reached cfg gc p) {u : Int} (hm : T₀.mode = .blocked u) {e : Ev}
    (he : e ∈ T₀.s.stored) (hahead : T₀.s.lastSeq < e.seq) (hnew : ∀ x ∈ T₀.s.stored, x.seq ≤ e.seq)
    (hgap : ∀ n, T₀.s.lastSeq < n → n < e.seq → n ∈ T₀.s.lost ∨ ∃ x ∈ T₀.s.stored, x.seq = n)
    (hn : timed cfg gc p T₀ .notify = some T₁) (h : Runs cfg gc p true T₁ T)
    (hlate : T₀.now + p.lag + p.pass < T.now) : e ∈ T.s.hist := by
  have ht := (h₀.timely hd).step hd _ hn
  have h1 : T₁ = { T₀ with mode := .woken T₀.now } := by
    simp only [timed, Timed.notify, hm] at hn
    cases hn
    rfl
  subst h1
  exact h.emitted hd ht h₀.reach ⟨he, hahead, hnew, hgap⟩ hlate

/-- **C78 (gaps).** Whatever sequence numbers are missing before it, for whatever reason and for however long, the
newest event is emitted in bounded time: for every number after that of the last event emitted, at most two timeouts,
two passes, one sleep and four switches of threads, and then the rest of a pass. -/
theorem C78_gaps (hd : 0 ≤ cfg.delay) (h₀ : T₀.Reached cfg gc p) {e : Ev} (he : e ∈ T₀.s.stored)
    (hahead : T₀.s.lastSeq < e.seq) (hnew : ∀ x ∈ T₀.s.stored, x.seq ≤ e.seq) (h : Runs cfg gc p true T₀ T)
    (hlate : T₀.now + ((e.seq - T₀.s.lastSeq : Nat) : Int) * (2 * cfg.delay + 2 * p.pass + p.batch + 4 * p.lag) +
      p.pass < T.now) : e ∈ T.s.hist :=
  h.emittedAnyway hd (h₀.timely hd) h₀.reach h₀.lastEvent he hahead hnew hlate

/-- A list of steps, one after the other. Only for examples. -/
def goes (cfg : Cfg) (gc : Bool) (p : Pace) : Timed → List TAct → Option Timed
  | T, [] => some T
  | T, a :: as => match timed cfg gc p T a with
    | some T' => goes cfg gc p T' as
    | none => none

/-- The step reads the next event of the whole log, and is not an exception. -/
def plainly (T : Timed) : TAct → Bool
  | .fire (.read e) => match T.s.col with
    | .scanning sc => T.s.stored.contains e &&
      T.s.stored.all (fun m => decide (m.seq < sc.pos) || decide (e.seq ≤ m.seq))
    | _ => true
  | .fire (.fail _) => false
  | .fire (.crash _) => false
  | _ => true

/-- All steps are so. -/
def goesPlainly (cfg : Cfg) (gc : Bool) (p : Pace) : Timed → List TAct → Bool
  | _, [] => true
  | T, a :: as => plainly T a && match timed cfg gc p T a with
    | some T' => goesPlainly cfg gc p T' as
    | none => false

theorem Runs.of_goes {clean : Bool} : ∀ (as : List TAct) {T : Timed}, Runs cfg gc p clean T₀ T →
    goes cfg gc p T as = some T₁ → goesPlainly cfg gc p T as = true → Runs cfg gc p clean T₀ T₁
  | [], T, h, h1, _ => by cases h1; exact h
  | a :: as, T, h, h1, h2 => by
    simp only [goes] at h1
    simp only [goesPlainly, Bool.and_eq_true] at h2
    cases hs : timed cfg gc p T a with
    | none => rw [hs] at h1; cases h1
    | some T' =>
      rw [hs] at h1 h2
      refine Runs.of_goes as (h.step a hs ?_ ?_) h1 h2.2
      · rintro a' rfl e sc rfl hsc
        have h3 := h2.1
        simp only [plainly, hsc, Bool.and_eq_true, List.contains_iff_mem, List.all_eq_true, Bool.or_eq_true,
          decide_eq_true_eq] at h3
        refine ⟨T.s.stored, List.suffix_rfl, h3.1, fun m hm hp => ?_⟩
        rcases h3.2 m hm with h4 | h4
        · omega
        · exact h4
      · intro _
        refine ⟨?_, ?_⟩ <;> rintro now rfl <;> cases h2.1

/-- What happens: one event is stored, the collector is notified and emits it; while it sleeps, or before it waits again,
a second event is stored. -/
def exLate : List TAct :=
  [.block, .fire (.store ⟨1, 0⟩), .notify, .fire .wake, .fire (.read ⟨1, 0⟩), .fire (.decide 0), .fire .append,
    .fire .give, .fire .readEnd, .fire (.store ⟨2, 0⟩)]

/-- Then the collector sleeps, and waits until the time is out. -/
def exWaits (cfg : Cfg) (p : Pace) : List TAct := [.tick p.batch, .rise, .block, .tick cfg.delay]

/-- **C78 (lost wake-up).** A wake-up that comes when the collector isn't waiting is lost: for all settings there is an
execution without exceptions in which `send_events` is called right after the newest event was stored, all events
before it have been emitted, nothing is missing, and the event isn't emitted when the whole delay for skipped sequence
numbers has passed. -/
theorem C78_lost_wakeup (cfg : Cfg) (gc : Bool) (p : Pace) (hw : 0 < cfg.window) (hd : 0 ≤ cfg.delay) :
    ∃ (T₀ T₁ T : Timed) (e : Ev), T₀.Reached cfg gc p ∧ e ∈ T₀.s.stored ∧ e.seq = T₀.s.lastSeq + 1 ∧
      (∀ x ∈ T₀.s.stored, x.seq ≤ e.seq) ∧ timed cfg gc p T₀ .notify = some T₁ ∧ Runs cfg gc p true T₁ T ∧
      T.now = T₀.now + p.batch + cfg.delay ∧ e ∉ T.s.hist := by
  have hb := p.batch_nonneg
  have hl := p.lag_nonneg
  have hps := p.pass_nonneg
  obtain ⟨A, hA⟩ : ∃ A : Timed, A = ⟨.init cfg.window [] [] 0 0, 0, .ready 0⟩ := ⟨_, rfl⟩
  have h1 : ∃ T₀, goes cfg gc p A exLate = some T₀ ∧ goesPlainly cfg gc p A exLate = true ∧
      T₀.s.stored = [⟨2, 0⟩, ⟨1, 0⟩] ∧ T₀.s.lastSeq = 1 ∧ T₀.mode = .asleep (0 + p.batch) ∧ T₀.now = 0 ∧
      T₀.s.hist = [⟨1, 0⟩] := by
    subst hA
    simp [goes, goesPlainly, plainly, exLate, timed, act, State.init, Timed.notify, Timed.goOn, Act.clock, lastN,
      Scan.yields, Scan.ends, verdict, nextSeq, List.range', hw]
  obtain ⟨T₀, h1, h2, h3, h4, h5, h6, h7⟩ := h1
  have h8 : ∃ T, goes cfg gc p T₀ (exWaits cfg p) = some T ∧ goesPlainly cfg gc p T₀ (exWaits cfg p) = true ∧
      T.now = 0 + p.batch + cfg.delay ∧ T.s = T₀.s := by
    simp [goes, goesPlainly, plainly, exWaits, timed, h5, h6, Mode.leaves, hb, hl, hd]
  obtain ⟨T, h8, h9, h10, h11⟩ := h8
  refine ⟨T₀, T₀, T, ⟨2, 0⟩, ⟨[], [], 0, 0, ⟨hw, .nil, (fun _ h => (nomatch h)), .nil, (fun _ h => (nomatch h))⟩, ?_⟩,
    by rw [h3]; simp, by rw [h4], by rw [h3]; simp, ?_, ?_, by rw [h6]; exact h10, by rw [h11, h7]; simp⟩
  · rw [← hA]
    exact Runs.of_goes exLate .refl h1 h2
  · simp [timed, Timed.notify, h5]
  · exact Runs.of_goes (exWaits cfg p) .refl h8 h9

/-- The settings of the examples. -/
def exCfg78 : Cfg := ⟨4, 300, 120⟩

/-- The times of the examples. -/
def exPace : Pace := ⟨1, 1, 5, by decide, by decide, by decide⟩

/-- The event whose wake-up was lost is emitted by the pass after the timeout, 122 seconds later, and time goes on. -/
def exAtLast : List TAct := exLate ++ .notify :: exWaits exCfg78 exPace ++
  [.timeout, .tick 1, .fire .wake, .fire (.read ⟨2, 0⟩), .fire (.decide 122), .fire .append, .fire .give,
    .fire .readEnd, .tick 1, .rise, .block, .tick 100]

example : ((goes exCfg78 false exPace ⟨.init 4 [] [] 0 0, 0, .ready 0⟩ exAtLast).map
    (fun T => (T.now, T.s.hist, T.mode))) = some (223, [⟨1, 0⟩, ⟨2, 0⟩], .blocked 243) := by decide +kernel

example : goesPlainly exCfg78 false exPace ⟨.init 4 [] [] 0 0, 0, .ready 0⟩ exAtLast = true := by decide +kernel

/-- The number 2 never gets into the log. The collector sees 3 at once and waits for 2, and gives up on it when the
waiting has timed out. -/
def exHole : List TAct :=
  [.block, .fire (.store ⟨1, 0⟩), .notify, .tick 1, .fire .wake, .fire (.read ⟨1, 0⟩), .fire (.decide 1), .fire .append,
    .fire .give, .fire .readEnd, .tick 1, .rise, .block, .fire (.store ⟨3, 0⟩), .notify, .fire .wake,
    .fire (.read ⟨3, 0⟩), .fire (.decide 2), .tick 1, .rise, .block, .tick 120, .timeout, .fire .wake,
    .fire (.read ⟨3, 0⟩), .fire (.decide 123), .fire .append, .fire .give, .fire .readEnd]

example : ((goes exCfg78 false exPace ⟨.init 4 [] [] 0 0, 0, .ready 0⟩ exHole).map
    (fun T => (T.now, T.s.hist, T.mode))) = some (123, [⟨1, 0⟩, ⟨3, 0⟩], .asleep 124) ∧
    goesPlainly exCfg78 false exPace ⟨.init 4 [] [] 0 0, 0, .ready 0⟩ exHole = true := by decide +kernel

/-- Before the timeout it has not. -/
example : ((goes exCfg78 false exPace ⟨.init 4 [] [] 0 0, 0, .ready 0⟩ (exHole.take 22)).map
    (fun T => (T.now, T.s.hist, T.mode))) = some (123, [⟨1, 0⟩], .blocked 123) := by decide +kernel

end Arroba.Fire

namespace Arroba.Xrpc

open Arroba.Store

variable {C R : Type} [DecidableEq C]

/-- **C78 (no wake-up).** A server with the Datastore loads the repo anew for every request, and without the callback
that `app.py` has set on its own `Repo` object. So no request, whatever it writes, whatever fails, and whatever state it
starts from, calls a callback, except that a new repo is created with one. -/
theorem C78_no_wakeup (cfg : Config R) (out : Surroundings) (L : Lib C R) (w : World C R) (x : Chance)
    (q : Request R) (hq : ∀ did handle, q ≠ .newRepo did handle) :
    (serve cfg out L .datastore w x q).1.log = w.log := serve_log w x q hq

/-- A request that overwrites a record. -/
def exPut78 : Request Nat :=
  .putRecord exHeader ⟨some exHandle, some "coll".toList, some "b".toList, some 666, false⟩

/-- A commit is written with both backends, but only with one does the callback hear of it. -/
example : let x : Chance := ⟨lucky, 0, true, 0, false⟩
    let y (be : Backend) := serve exCfg exSurroundings exL be (exW1 be) x exPut78
    let news (be : Backend) := ((y be).1.last - (exW1 be).last, (y be).1.log.length - (exW1 be).log.length)
    ((exW1 .datastore).heap.all (·.callback) = true) ∧ news .datastore = (1, 0) ∧ news .memory = (1, 1) := by
  decide +kernel

end Arroba.Xrpc
