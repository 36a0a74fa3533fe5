import Verif.Firehose.Joint

/-!
# Connections to the firehose, one after the other (model for C74)

A consumer connects, is cut off, and connects again, perhaps to a server that has been restarted meanwhile.
-/

namespace Arroba.Fire

/-- firehose.py 126-181. Nothing was evicted from the rollback window (C38), and nothing merged into it (C36), while the
subscriber with cursor `c` was connecting. -/
def State.Undisturbed (s : State) (i c : Nat) : Prop :=
  match s.loc i with
  | .pre _ _ _ _ => (s.since i).1 = s.evictions ∧ ((s.since i).2 = s.merges ∨ s.front i ≤ c)
  | .check _ _ _ _ => (s.since i).1 = s.evictions ∧ ((s.since i).2 = s.merges ∨ s.front i ≤ c)
  | .copy _ => (s.since i).1 = s.evictions ∧ ((s.since i).2 = s.merges ∨ s.front i ≤ c)
  | _ => s.unevicted i = true ∧ (s.unmerged i = true ∨ s.front i ≤ c)

instance (s : State) (i c : Nat) : Decidable (s.Undisturbed i c) := by
  unfold State.Undisturbed
  split <;> infer_instance

/-- The number after those a consumer has, if it wants those from `c` on. -/
def nextAfter (c : Nat) (got : List Nat) : Nat := match got.getLast? with
  | none => c
  | some n => n + 1

/-- `got` are, in order, the numbers from `c` on for which `P` holds, up to some number. -/
structure Upto (P : Nat → Prop) (c : Nat) (got : List Nat) : Prop where
  sorted : got.Pairwise (· < ·)
  mem : ∀ n, n ∈ got ↔ P n ∧ c ≤ n ∧ n < nextAfter c got

end Arroba.Fire

namespace Arroba.Store

variable {C R : Type} [DecidableEq C]

/-- A consumer that wants the events from `c` on. It has the events with the numbers `got`, and for each the message
that it was sent; all it has been sent otherwise it has left out. `w` is the server.

* It can connect at any time, with the number after those it has as its cursor, or an earlier one, to a collector that
  was started at any time, on a server that is as it was, or that has gone on meanwhile.
* It can be cut off at any time, wherever the subscription is: while it replays, or when it is live, with events still in
  the queue.
* It leaves out what it has already. -/
inductive Consumed (L : Lib C R) (be : Backend) (al : Allow) (c : Nat) : World C R → List (Nat × Message C R) → Prop
  | none {w : World C R} (hw : Reach L be al w) : Consumed L be al c w []
  | session {w w' : World C R} {got : List (Nat × Message C R)} (h : Consumed L be al c w got)
      (hw : Relation.ReflTransGen (Step L be al) w w') {cfg : Fire.Cfg} {p : Nat} {s : Fire.State}
      (hj : Joint L be al cfg p w' s) {i cur : Nat} (hi : s.cursor i = some cur)
      (hc : cur ≤ Fire.nextAfter c (got.map (·.1))) (hl : s.loc i ≠ .dead) (hu : s.Undisturbed i cur)
      {sent : List (Nat × Message C R)}
      (hs : sent.map (·.1) = ((s.out i).map (·.seq)).filter fun n => decide (Fire.nextAfter c (got.map (·.1)) ≤ n))
      (hm : ∀ x ∈ sent, MadeFor L be al w' x.1 x.2) : Consumed L be al c w' (got ++ sent)

end Arroba.Store
