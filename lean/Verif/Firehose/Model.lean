import Mathlib.Logic.Function.Basic

/-!
# The firehose (firehose.py)

One collector thread, any number of subscriber threads, and an environment that stores events, marks
sequence numbers lost and advances the clock. Every action below is one atomic step of one thread;
actions of different threads interleave freely. Critical sections under `lock` are one step, except
the collector's loop over the subscribers, which is one step per subscriber: while it is under way no
other thread takes the lock, but the garbage collector can close a forgotten generator on the
collector's thread, which enters the (reentrant) lock and changes `subscribers` (lines 45-52).

Simplifications: an event is its sequence number and an opaque body; `process_event` keeps the
sequence number (lines 357, 423) and either succeeds or raises. `read_events_by_seq` is the contract
that C30 and C34 establish: see `Scan`. Time is an integer.
-/

namespace Arroba.Fire

/-- firehose.py 346-433. A stored event, or the header and payload made from it. -/
structure Ev where
  seq : Nat
  body : Nat
  deriving DecidableEq

/-- The settings (firehose.py 30-38). -/
structure Cfg where
  /-- ROLLBACK_WINDOW -/
  window : Nat
  /-- SUBSCRIBE_REPOS_SKIPPED_SEQ_WINDOW -/
  skipWindow : Nat
  /-- SUBSCRIBE_REPOS_SKIPPED_SEQ_DELAY -/
  delay : Int

/-- storage.py 368-425. A `read_events_by_seq` generator: the events stored when it began, and the
smallest sequence number it can still yield. It yields in order, and leaves out no event that was
stored when it began; it may or may not yield events stored since. -/
structure Scan where
  snap : List Ev
  pos : Nat
  deriving DecidableEq

/-- storage.py 368-425. The scan can yield `e` next. -/
def Scan.yields (sc : Scan) (stored : List Ev) (e : Ev) : Bool :=
  stored.contains e && decide (sc.pos ≤ e.seq) &&
    sc.snap.all (fun m => decide (m.seq < sc.pos) || decide (e.seq ≤ m.seq))

/-- storage.py 368-425. The scan can end. -/
def Scan.ends (sc : Scan) : Bool := sc.snap.all (fun m => decide (m.seq < sc.pos))

/-- firehose.py 225-343. Where the collector is. -/
inductive ColLoc where
  /-- firehose.py 259-262, 283-284, 343 -/
  | waiting
  /-- firehose.py 286 -/
  | scanning (sc : Scan)
  /-- firehose.py 287-322: has read an event -/
  | got (sc : Scan) (e : Ev)
  /-- firehose.py 331-333: has set `last_seq` -/
  | taken (sc : Scan) (e : Ev)
  /-- firehose.py 333-339: holds `lock`, has appended the event to `rollback`, and has handed it to the
  first `k` subscribers -/
  | handing (sc : Scan) (e : Ev) (k : Nat)
  deriving DecidableEq

/-- firehose.py 105-202. Where a subscriber is. -/
inductive SubLoc where
  /-- not subscribed -/
  | idle
  /-- firehose.py 114: has called `subscribe` -/
  | ready (c : Option Nat)
  /-- firehose.py 132: reading the events before the rollback window; `last` is `last_seq`, `pre` is
  `pre_rollback` -/
  | pre (c : Nat) (sc : Scan) (last : Option Nat) (pre : List Ev)
  /-- firehose.py 140-164: has read an event -/
  | check (c : Nat) (sc : Scan) (pre : List Ev) (e : Ev)
  /-- firehose.py 169 -/
  | copy (c : Nat)
  /-- firehose.py 171-174: `last` is the sequence number of the last event in `handoff`, `todo` are the
  events of `handoff` not looked at yet -/
  | hand (c : Nat) (last : Nat) (todo : List Ev)
  /-- firehose.py 179; for a subscriber without a cursor -/
  | join
  /-- firehose.py 196 -/
  | live
  /-- closed, or has raised -/
  | dead
  deriving DecidableEq

/-- firehose.py 40-57, 105-115, 270-280: the globals, and the local variables. -/
structure State where
  /-- the events in storage -/
  stored : List Ev
  /-- `sequences.last` -/
  last : Option Nat
  lost : List Nat
  rollback : List Ev
  /-- `subscribers` -/
  subs : List Nat
  /-- the subscribers' queues -/
  queue : Nat → List Ev
  /-- what the generators have yielded so far -/
  out : Nat → List Ev
  loc : Nat → SubLoc
  col : ColLoc
  /-- `Collector.last_seq` -/
  lastSeq : Nat
  /-- `last_event` (line 276) -/
  lastEvent : Int
  /- The rest only records what happened. -/
  /-- the events that were preloaded or emitted -/
  hist : List Ev
  /-- the events that subscribers have merged into the rollback window -/
  merged : List Ev
  /-- how many events have been evicted from the rollback window, and how often events have been
  merged into it -/
  evictions : Nat
  merges : Nat
  /-- per subscriber: the cursor, and the values of `evictions` and `merges`, the stored events, and
  the beginning of the rollback window when it began -/
  cursor : Nat → Option Nat
  since : Nat → Nat × Nat
  seen : Nat → List Ev
  front : Nat → Nat
  /-- per subscriber: whether nothing was evicted, and nothing merged, until it copied the rollback
  window -/
  unevicted : Nat → Bool
  unmerged : Nat → Bool
  /-- per subscriber: the length of `hist` when it went live, and what it had yielded or queued then -/
  joined : Nat → Nat
  replayed : Nat → List Ev

/-- a step to another line. -/
def State.goto (s : State) (i : Nat) (l : SubLoc) : State :=
  { s with loc := Function.update s.loc i l }

/-- firehose.py 140-196: `yield`. -/
def State.yield (s : State) (i : Nat) (e : Ev) : State :=
  { s with out := Function.update s.out i (s.out i ++ [e]) }

/-- firehose.py 243-246, 333. `deque.append` with a `maxlen`. -/
def push (w : Nat) (l : List Ev) (e : Ev) : List Ev := (l ++ [e]).drop (l.length + 1 - w)

/-- firehose.py 152. The last `n` elements, Python's `l[-n:]` for positive `n`. -/
def lastN (n : Nat) (l : List Ev) : List Ev := l.drop (l.length - n)

/-- firehose.py 126: `rollback[0][1]['seq'] if rollback else 0`. -/
def State.start (s : State) : Nat := match s.rollback with
  | [] => 0
  | r :: _ => r.seq

/-- firehose.py 225-251, 276: the state after `Collector.run` has preloaded `events`, those that
`read_events_by_seq` has yielded; `last` is `sequences.last`. -/
def State.init (w : Nat) (stored events : List Ev) (last : Nat) (now : Int) : State :=
  { stored, last := some last, lost := [], rollback := lastN w events, subs := []
    queue := fun _ => [], out := fun _ => [], loc := fun _ => .idle, col := .waiting
    lastSeq := match (lastN w events).getLast? with
      | some e => e.seq
      | none => last
    lastEvent := now, hist := events, merged := [], evictions := 0, merges := 0
    cursor := fun _ => none, since := fun _ => (0, 0), seen := fun _ => [], front := fun _ => 0
    unevicted := fun _ => true, unmerged := fun _ => true
    joined := fun _ => 0, replayed := fun _ => [] }

/-- firehose.py 295-299: the loop over `range(self.last_seq + 1, cur_seq + 1)`, given as a list; the value of
`next_seq` afterwards. -/
def nextSeq (lost : List Nat) : List Nat → Nat → Nat
  | [], cur => cur
  | n :: ns, _ => if lost.contains n then nextSeq lost ns n else n

/-- firehose.py 287-322. -/
inductive Verdict where
  /-- firehose.py 288-290 -/
  | skip
  /-- firehose.py 309, 312 -/
  | wait
  /-- firehose.py 316 -/
  | go
  deriving DecidableEq

/-- firehose.py 287-314 of `Collector._collect`: what to do with an event. -/
def verdict (cfg : Cfg) (s : State) (now : Int) (e : Ev) : Verdict :=
  if e.seq ≤ s.lastSeq then .skip
  else
    let next := nextSeq s.lost (List.range' (s.lastSeq + 1) (e.seq - s.lastSeq)) 0
    if e.seq > next then
      if now - s.lastEvent ≤ cfg.delay then
        match s.last with
        | none => .wait
        | some last => if (last : Int) - e.seq ≤ cfg.skipWindow then .wait else .go
      else .go
    else .go

/-- firehose.py 105-343. The steps. -/
inductive Act where
  /-- an event is stored -/
  | store (e : Ev)
  /-- `sequences.last` changes -/
  | allot (n : Option Nat)
  /-- `mark_seq_lost` -/
  | lose (n : Nat)
  /-- the collector begins to read -/
  | wake
  /-- `read_events_by_seq` yields an event to the collector -/
  | read (e : Ev)
  /-- `read_events_by_seq` ends -/
  | readEnd
  /-- the collector looks at the event -/
  | decide (now : Int)
  /-- an exception on lines 286-322 -/
  | fail (now : Int)
  /-- an exception between lines 331 and 333 -/
  | crash (now : Int)
  | append
  /-- one iteration of the loop in lines 335-339, or its end -/
  | give
  /-- a call to `subscribe` -/
  | call (i : Nat) (c : Option Nat)
  /-- firehose.py 126-132 -/
  | begin (i : Nat)
  | scan (i : Nat) (e : Ev)
  | scanEnd (i : Nat)
  /-- firehose.py 140-164 -/
  | look (i : Nat)
  | copyRollback (i : Nat)
  /-- one iteration of the loop in lines 171-174 -/
  | replay (i : Nat)
  /-- firehose.py 179-191 -/
  | goLive (i : Nat)
  /-- firehose.py 196 -/
  | pull (i : Nat)
  /-- the generator is closed, or the client's thread raises, lines 198-202 -/
  | close (i : Nat)
  /-- the garbage collector closes the generator on the collector's thread while that holds `lock` -/
  | reap (i : Nat)
  deriving DecidableEq

/-- firehose.py 333-339: the collector holds `lock`. -/
def ColLoc.locked : ColLoc → Bool
  | .handing _ _ _ => true
  | _ => false

/-- firehose.py 335-339: `subscriber.put`. -/
def State.put (s : State) (i : Nat) (e : Ev) : State :=
  { s with queue := Function.update s.queue i (s.queue i ++ [e]) }

/-- firehose.py 144, 169-171, 181: the hand-off of a subscriber, whose `handoff` is a copy of the window. Line
170 raises IndexError when it is empty. -/
def State.handoff (s : State) (i : Nat) (c : Nat) : State :=
  match s.rollback.getLast? with
  | none => s.goto i .dead
  | some l =>
    { s with unevicted := Function.update s.unevicted i (s.since i == (s.evictions, (s.since i).2)),
             unmerged := Function.update s.unmerged i (s.since i == ((s.since i).1, s.merges)) }.goto i
      (.hand c l.seq s.rollback)

/-- firehose.py 146-158: what a subscriber merges into the rollback window. The assertions on lines 154 and
156 cannot fail. -/
def State.extra (w : Nat) (s : State) (pre : List Ev) : List Ev :=
  lastN (w - s.rollback.length) (if s.rollback.length < w then
    pre.filter (fun e => decide (e.seq < s.start)) else [])

/-- firehose.py 146-158. -/
def State.merge (s : State) (pre : List Ev) : State :=
  if pre = [] then s
  else { s with rollback := pre ++ s.rollback, merged := pre ++ s.merged, merges := s.merges + 1 }

/-- firehose.py 184-188: the loop over the rollback window, from `last_seq`. -/
def catchUp : Nat → List Ev → List Ev
  | _, [] => []
  | last, e :: es => if e.seq > last then e :: catchUp e.seq es else catchUp last es

/-- firehose.py 190-191, and the records. -/
def State.register (s : State) (i : Nat) (q : List Ev) : State :=
  { s with subs := s.subs ++ [i]
           queue := Function.update s.queue i q
           joined := Function.update s.joined i s.hist.length
           replayed := Function.update s.replayed i (s.out i ++ q) }.goto i .live

/-- firehose.py 105-343. One step, if it is possible. `gc`: the garbage collector can close a
generator on the collector's thread while that holds the lock. A new event has a sequence number no
other stored event has (C28). -/
def act (cfg : Cfg) (gc : Bool) (s : State) : Act → Option State
  | .store e =>
    if e.seq ≠ 0 ∧ s.stored.all (fun x => decide (x.seq ≠ e.seq)) then
      some { s with stored := e :: s.stored }
    else none
  | .allot n => some { s with last := n }
  | .lose n => some { s with lost := n :: s.lost }
  | .wake => match s.col with
    | .waiting => some { s with col := .scanning ⟨s.stored, s.lastSeq + 1⟩ }
    | _ => none
  | .read e => match s.col with
    | .scanning sc =>
      if sc.yields s.stored e then some { s with col := .got { sc with pos := e.seq + 1 } e } else none
    | _ => none
  | .readEnd => match s.col with
    | .scanning sc => if sc.ends then some { s with col := .waiting } else none
    | _ => none
  | .decide now => match s.col with
    | .got sc e => match verdict cfg s now e with
      | .skip => some { s with col := .scanning sc }
      | .wait => some { s with col := .waiting }
      | .go => some { s with col := .taken sc e, lastSeq := e.seq, lastEvent := now }
    | _ => none
  | .fail now => match s.col with
    | .scanning _ => some { s with col := .waiting, lastEvent := now }
    | .got _ _ => some { s with col := .waiting, lastEvent := now }
    | _ => none
  | .crash now => match s.col with
    | .taken _ _ => some { s with col := .waiting, lastEvent := now }
    | _ => none
  | .append => match s.col with
    | .taken sc e =>
      some { s with col := .handing sc e 0
                    rollback := push cfg.window s.rollback e
                    hist := s.hist ++ [e]
                    evictions := s.evictions + (s.rollback.length + 1 - cfg.window) }
    | _ => none
  | .give => match s.col with
    | .handing sc e k => match s.subs[k]? with
      | some i => some { s.put i e with col := .handing sc e (k + 1) }
      | none => some { s with col := .scanning sc }
    | _ => none
  | .call i c => match s.loc i with
    | .idle => some ({ s with cursor := Function.update s.cursor i c }.goto i (.ready c))
    | _ => none
  | .begin i => match s.loc i with
    | .ready none => some (s.goto i .join)
    | .ready (some c) =>
      let s' := { s with since := Function.update s.since i (s.evictions, s.merges)
                         seen := Function.update s.seen i s.stored
                         front := Function.update s.front i s.start }
      if c < s.start then some (s'.goto i (.pre c ⟨s.stored, c⟩ none []))
      else some (s'.goto i (.copy c))
    | _ => none
  | .scan i e => match s.loc i with
    | .pre c sc last pre =>
      if sc.yields s.stored e then
        let sc' := { sc with pos := e.seq + 1 }
        match last with
        | some l => if l ≠ 0 ∧ e.seq ≤ l then some (s.goto i (.pre c sc' last pre))
          else some (s.goto i (.check c sc' pre e))
        | none => some (s.goto i (.check c sc' pre e))
      else none
    | _ => none
  | .scanEnd i => match s.loc i with
    | .pre c sc _ _ => if sc.ends then some (s.goto i (.copy c)) else none
    | _ => none
  | .look i => if s.col.locked then none else match s.loc i with
    | .check c sc pre e =>
      if e.seq ≥ s.start then some ((s.handoff i c).merge (s.extra cfg.window pre))
      else some ((s.yield i e).goto i (.pre c sc (some e.seq) (pre ++ [e])))
    | _ => none
  | .copyRollback i => match s.loc i with
    | .copy c => some (s.handoff i c)
    | _ => none
  | .replay i => match s.loc i with
    | .hand c last (e :: todo) =>
      if e.seq ≥ c then some ((s.yield i e).goto i (.hand c last todo))
      else some (s.goto i (.hand c last todo))
    | _ => none
  | .goLive i => if s.col.locked then none else match s.loc i with
    | .join => some (s.register i [])
    | .hand _ last [] =>
      if last ≥ s.start then some (s.register i (catchUp last s.rollback)) else some (s.goto i .dead)
    | _ => none
  | .pull i => match s.loc i, s.queue i with
    | .live, e :: q => some ({ s with queue := Function.update s.queue i q }.yield i e)
    | _, _ => none
  | .close i => match s.loc i with
    | .idle => none
    | .live => if s.col.locked then none else some ({ s with subs := s.subs.erase i }.goto i .dead)
    | _ => some (s.goto i .dead)
  | .reap i => match s.loc i with
    | .live => if s.col.locked && gc then some ({ s with subs := s.subs.erase i }.goto i .dead) else none
    | _ => none

/-- firehose.py 225-251. How an execution can begin: the collector has preloaded some stored events in
order. -/
structure Starts (cfg : Cfg) (stored events : List Ev) : Prop where
  window : 0 < cfg.window
  distinct : stored.Pairwise (fun a b => a.seq ≠ b.seq)
  positive : ∀ e ∈ stored, e.seq ≠ 0
  sorted : events.Pairwise (fun a b => a.seq < b.seq)
  sub : ∀ e ∈ events, e ∈ stored

/-- The states of all executions. -/
inductive Reach (cfg : Cfg) (gc : Bool) : State → Prop
  | init {stored events : List Ev} {last : Nat} (now : Int) (h : Starts cfg stored events) :
      Reach cfg gc (.init cfg.window stored events last now)
  | step {s s' : State} (a : Act) (h : Reach cfg gc s) (hs : act cfg gc s a = some s') :
      Reach cfg gc s'

/-- firehose.py 105-343. Several steps. -/
def acts (cfg : Cfg) (gc : Bool) (s : State) (as : List Act) : Option State :=
  as.foldlM (act cfg gc) s

end Arroba.Fire
