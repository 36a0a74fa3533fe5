import Verif.Firehose.Collect

/-!
# Model of how the collector starts (firehose.py 225-253), and of replaying what it has preloaded

Simplified: `rollback` is a list, and what it returns is what `Collector.run` has when it sets `started`. If it raises,
the collector's thread ends, `started` is never set, and `firehose.start` (line 70) and every `subscribe` (line 114) wait
for ever.
-/

namespace Arroba.Store

variable {C R : Type} [DecidableEq C]

/-- firehose.py 229-230: where the preload begins to read; `window` is PRELOAD_WINDOW. -/
def preloadStart (window last : Nat) : Nat := last + 1 - window

/-- firehose.py 233-235 `_prev`. -/
def Sent.prev : Sent C R → Option C
  | .commit c => match c.commit.val with
    | .commit co => co.prev
    | _ => none
  | .event _ => none

/-- firehose.py 250-251: `payload['seq']`; `none`: KeyError. `field` is as in `Sent.curSeq`. -/
def Message.curSeq (field : R → Option Nat) : Message C R → Option Nat
  | .commit _ p => some p.seq
  | .event _ e => some e.seq
  | .record r => field r

/-- firehose.py 232-251. The rollback window and `last_seq`, given the blocks that `read_blocks_by_seq` yields; `last` is
`sequences.last` and `window` is ROLLBACK_WINDOW. -/
def preload (L : Lib C R) (w : World C R) (field : R → Option Nat) (window last : Nat) (q : List (Block C R)) :
    Except Err (List (Message C R) × Nat) :=
  match readEvents L w q with
  | (_, some e) => .error e
  | (events, none) => do
    let msgs ← events.mapM fun e => processEvent L w (e.prev.bind w.read) e
    let rollback := msgs.drop (msgs.length - window)
    match rollback.head?, rollback.getLast? with
    | some a, some b =>
      match b.curSeq field, a.curSeq field with
      | some n, some _ => .ok (rollback, n)
      | _, _ => .error .key
    | _, _ => .ok (rollback, last)

/-- firehose.py 169-174. A subscriber replays the rollback window: what it yields, and whether it raises. -/
def replayWindow (field : R → Option Nat) (cursor : Nat) : List (Message C R) → List (Message C R) × Option Err
  | [] => ([], none)
  | m :: ms =>
    match m.curSeq field with
    | none => ([], some .key)
    | some n =>
      let r := replayWindow field cursor ms
      (if cursor ≤ n then m :: r.1 else r.1, r.2)

end Arroba.Store
