import Verif.Firehose.Payload

/-!
# Model of one pass of `Collector._collect` over the log (firehose.py 286-341)

Firehose/Model.lean lets an exception end a pass at any time. Here it is what `read_events_by_seq` yields that
decides: which exceptions are raised, and where.
-/

namespace Arroba.Store

variable {C R : Type} [DecidableEq C]

/-- firehose.py 287: `event['seq'] if isinstance(event, dict) else event.commit.seq`; `none`: KeyError. `field` is what
`record['seq']` is, for a record that looks like an event (C30). -/
def Sent.curSeq (field : R → Option Nat) : Sent C R → Option Nat
  | .event (.event e) => some e.seq
  | .event (.record r) => field r
  | .event _ => none
  | .commit c => some c.commit.seq

/-- firehose.py 286-341. What a pass does that begins with `self.last_seq = last`, given what `read_events_by_seq` yields
and the exception it ends with: `self.last_seq` afterwards, what is emitted, and the exception. `goes last cur`: line 316 is
reached, and not one of the `break`s on lines 309 and 312. -/
def passOver (L : Lib C R) (w : World C R) (field : R → Option Nat) (goes : Nat → Nat → Bool) (err : Option Err) :
    Nat → List (Sent C R) → Nat × List (Message C R) × Option Err
  | last, [] => (last, [], err)
  | last, e :: es =>
    match e.curSeq field with
    | none => (last, [], some .key)
    | some cur =>
      if cur ≤ last then passOver L w field goes err last es
      else if goes last cur = false then (last, [], none)
      else match processEvent L w none e with
        | .error x => (last, [], some x)
        | .ok msg =>
          let r := passOver L w field goes err cur es
          (r.1, msg :: r.2.1, r.2.2)

/-- firehose.py 286-341. A pass over the blocks that `read_blocks_by_seq` yields. -/
def collectPass (L : Lib C R) (w : World C R) (field : R → Option Nat) (goes : Nat → Nat → Bool) (last : Nat)
    (q : List (Block C R)) : Nat × List (Message C R) × Option Err :=
  passOver L w field goes (readEvents L w q).2 last (readEvents L w q).1

end Arroba.Store
