import Verif.Firehose.Example

/-!
# C36: firehose order

Every interleaving of one collector, any number of subscribers, commits, lost sequence numbers,
garbage collection and exceptions.
-/

namespace Arroba.Fire

variable {cfg : Cfg} {gc : Bool} {s : State}

/-- **C36.** What a subscriber yields has strictly increasing sequence numbers, if it connected without
a cursor, or with one inside the rollback window, or if no other subscriber merged events into the
window while it was reading older events from storage. Missing: that case, in which it is false, see
`C36_merge_false`. -/
theorem C36_order_partial (h : Reach cfg gc s) (i : Nat)
    (hi : s.cursor i = none ∨ (∃ c, s.cursor i = some c ∧ s.front i ≤ c) ∨ s.unmerged i = true) :
    (s.out i).Pairwise (fun a b => a.seq < b.seq) :=
  h.inv.sorted i (by
    rcases hi with h | h | h
    · exact .inr (.inl h)
    · exact .inr (.inr h)
    · exact .inl h)

/-- The same for what is waiting in the queue of a live subscriber. -/
theorem C36_queue_partial (h : Reach cfg gc s) (i : Nat) (hl : s.loc i = .live)
    (hi : s.cursor i = none ∨ (∃ c, s.cursor i = some c ∧ s.front i ≤ c) ∨ s.unmerged i = true) :
    (s.out i ++ s.queue i).Pairwise (fun a b => a.seq < b.seq) :=
  h.inv.liveSorted hl (by
    rcases hi with h | h | h
    · exact .inr (.inl h)
    · exact .inr (.inr h)
    · exact .inl h)

/-- What the collector emits is strictly increasing, always. -/
theorem C36_emitted (h : Reach cfg gc s) : s.hist.Pairwise (fun a b => a.seq < b.seq) :=
  (List.pairwise_append.1 h.inv.core.sorted).2.1

/-- A window of 10 events. -/
def exCfg : Cfg := ⟨10, 300, 120⟩

/-- Six stored events, of which two are preloaded. -/
def exInit : State := .init 10 (evs [1, 2, 3, 4, 5, 6]) (evs [5, 6]) 6 0

theorem exInit_reach : Reach exCfg gc exInit :=
  .init 0 (Starts.evs (by decide) (by decide) (by decide) (by decide) (by decide))

/-- A subscriber with cursor 3 and one without, and then two new events. -/
def exPlain : List Act :=
  connect 1 ++ [.call 0 (some 3), .begin 0] ++ load 0 3 ++ load 0 4 ++ emit 7 1 1 ++ load 0 5 ++
    [.replay 0, .replay 0, .replay 0] ++ [.goLive 0] ++ emit 8 2 1 ++ [.pull 0, .pull 1, .pull 1]

/-- The theorem's hypotheses hold for both. -/
example : (acts exCfg false exInit exPlain).map (fun s => (s.seqs 0, s.seqs 1, s.unmerged 0, s.cursor 1)) =
    some ([3, 4, 5, 6, 7, 8], [7, 8], true, none) := by decide +kernel

/-- Two subscribers with cursor 1, when the window has room. The first yields 1 and 2. The second
yields 1 to 4, reaches the window and merges its events into it. Then the first believes that it has
reached the window, too, and replays it from its cursor. -/
def exMerge : List Act :=
  [.call 0 (some 1), .begin 0] ++ load 0 1 ++ load 0 2 ++ [.call 1 (some 1), .begin 1] ++ load 1 1 ++
    load 1 2 ++ load 1 3 ++ load 1 4 ++ load 1 5 ++ load 0 3 ++ [.replay 0, .replay 0, .replay 0]

/-- **C36 is false** when two subscribers read old events at the same time: the first yields 1, 2, 1,
2, 3. -/
theorem C36_merge_false : ∃ s, Reach exCfg false s ∧ s.seqs 0 = [1, 2, 1, 2, 3] := by
  have h : (acts exCfg false exInit exMerge).map (fun s => s.seqs 0) = some [1, 2, 1, 2, 3] := by
    decide +kernel
  obtain ⟨s, h1, h2⟩ := Option.map_eq_some_iff.1 h
  exact ⟨s, exInit_reach.acts h1, h2⟩

end Arroba.Fire
