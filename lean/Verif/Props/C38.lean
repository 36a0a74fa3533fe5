import Verif.Props.C37

/-!
# C38: cursor replay has no gaps
-/

namespace Arroba.Fire

variable {cfg : Cfg} {s : State}

theorem Reach.joinedView {gc : Bool} (h : Reach cfg gc s) {i : Nat} (hl : s.loc i = .live) :
    Joined s.env (s.view i) := by
  have hj := h.inv.sub i
  unfold Sub at hj
  rw [show (s.view i).loc = .live from hl] at hj
  exact hj

/-- **C38, no gaps.** A subscriber with cursor `c` that has gone live has yielded or queued every
preloaded or emitted event from `c` on, if nothing was evicted from the rollback window between its
connecting and its copying the window. Missing: subscribers that an assertion or IndexError ends
before they go live (`C38_slow_false`, `C38_empty_false`), evictions (`C38_evict_false`), and the
garbage collection of C37. -/
theorem C38_no_gap_partial (h : Reach cfg false s) {i c : Nat} (hl : s.loc i = .live)
    (hc : s.cursor i = some c) (he : s.unevicted i = true) (hq : s.col.locked = false) :
    ∀ e ∈ s.hist, c ≤ e.seq → e ∈ s.out i ++ s.queue i := by
  intro e hm hce
  rw [C37_live_partial h hl hq]
  rw [← List.take_append_drop (s.joined i) s.hist] at hm
  rcases List.mem_append.1 hm with hm | hm
  · exact List.mem_append_left _ ((h.joinedView hl).evict c hc he e hm hce)
  · exact List.mem_append_right _ hm

/-- **C38, exactly once.** -/
theorem C38_once_partial (h : Reach cfg false s) {i c : Nat} (hl : s.loc i = .live)
    (hc : s.cursor i = some c) (he : s.unevicted i = true) (hq : s.col.locked = false)
    (hm : s.unmerged i = true ∨ s.front i ≤ c) :
    ∀ e ∈ s.hist, c ≤ e.seq → (s.out i ++ s.queue i).count e = 1 := by
  intro e hmem hce
  have hs := C36_queue_partial h i hl (hm.elim (fun h => .inr (.inr h)) (fun h => .inr (.inl ⟨c, hc, h⟩)))
  have hn : (s.out i ++ s.queue i).Nodup :=
    hs.imp (fun {a b} hab he => by rw [he] at hab; omega)
  exact List.count_eq_one_of_mem hn (C38_no_gap_partial h hl hc he hq e hmem hce)

/-- **C38, older events.** It has also yielded every event from `c` on that was stored when it
connected and is older than the window then, whatever is evicted. -/
theorem C38_older_partial {gc : Bool} (h : Reach cfg gc s) {i c : Nat} (hl : s.loc i = .live)
    (hc : s.cursor i = some c) (hm : s.unmerged i = true) :
    ∀ e ∈ s.seen i, c ≤ e.seq → e.seq < s.front i → e ∈ s.out i ++ s.queue i := by
  intro e hmem h1 h2
  obtain ⟨l, g1, _⟩ := (h.inv.live i hl).got
  rw [g1]
  exact List.mem_append_left _ ((h.joinedView hl).old c hc hm e hmem h1 h2)

/-- Subscriber 0 of the example execution of C36 meets the hypotheses: its cursor is 3, it has read 3
and 4 from storage, and an event was emitted meanwhile. -/
example : (acts exCfg false exInit exPlain).map (fun s => (s.cursor 0, decide (s.loc 0 = .live),
    s.unevicted 0, s.unmerged 0, s.front 0, s.col.locked)) = some (some 3, true, true, true, 5, false) := by
  decide +kernel

/-- A window of two events. -/
def smallCfg : Cfg := ⟨2, 300, 120⟩

def smallInit : State := .init 2 (evs [1, 2, 3]) (evs [2, 3]) 3 0

theorem smallInit_reach {gc : Bool} : Reach smallCfg gc smallInit :=
  .init 0 (Starts.evs (by decide) (by decide) (by decide) (by decide) (by decide))

/-- A subscriber with cursor 1 begins to read from storage. Three new events are emitted before it has
read on, so the window begins at 5; its query ends with 3, the last event there was when it began. -/
def exEvict : List Act :=
  [.call 0 (some 1), .begin 0] ++ load 0 1 ++ emit 4 0 1 ++ emit 5 0 1 ++ emit 6 0 1 ++ load 0 2 ++
    load 0 3 ++ [.scanEnd 0, .copyRollback 0, .replay 0, .replay 0, .goLive 0]

/-- **C38 is false** if the window moves on while the subscriber reads from storage: it never gets
event 4. -/
theorem C38_evict_false : ∃ s, Reach smallCfg false s ∧ s.loc 0 = .live ∧ s.cursor 0 = some 1 ∧
    s.hist.map (·.seq) = [2, 3, 4, 5, 6] ∧ s.seqs 0 = [1, 2, 3, 5, 6] ∧ s.queue 0 = [] := by
  have h : (acts smallCfg false smallInit exEvict).map (fun s =>
      (s.loc 0, s.cursor 0, s.hist.map (·.seq), s.seqs 0, s.queue 0)) =
      some (.live, some 1, [2, 3, 4, 5, 6], [1, 2, 3, 5, 6], []) := by
    decide +kernel
  obtain ⟨s, h1, h2⟩ := Option.map_eq_some_iff.1 h
  injection h2 with a1 h2
  injection h2 with a2 h2
  injection h2 with a3 h2
  injection h2 with a4 a5
  exact ⟨s, smallInit_reach.acts h1, a1, a2, a3, a4, a5⟩

/-- **C38 is false** while there are no events: any cursor raises IndexError. -/
theorem C38_empty_false : ∃ s, Reach exCfg false s ∧ s.cursor 0 = some 0 ∧ s.loc 0 = .dead := by
  have h : (acts exCfg false (.init 10 [] [] 0 0) [.call 0 (some 0), .begin 0, .copyRollback 0]).map
      (fun s => (s.cursor 0, s.loc 0)) = some (some 0, .dead) := by decide +kernel
  obtain ⟨s, h1, h2⟩ := Option.map_eq_some_iff.1 h
  injection h2 with a1 a2
  exact ⟨s, (Reach.init 0 (Starts.evs (stored := []) (events := []) (by decide) (by decide) (by decide)
    (by decide) (by decide))).acts h1, a1, a2⟩

/-- A subscriber with cursor 2, inside the window, has yielded its copy when two more events have
been emitted. -/
def exSlow : List Act :=
  [.call 0 (some 2), .begin 0, .copyRollback 0, .replay 0, .replay 0] ++ emit 4 0 1 ++ emit 5 0 1 ++
    [.goLive 0]

/-- **C38 is false** for a subscriber that replays the window slower than it moves on: the assertion
on line 182 ends it. -/
theorem C38_slow_false : ∃ s, Reach smallCfg false s ∧ s.cursor 0 = some 2 ∧ s.loc 0 = .dead ∧
    s.seqs 0 = [2, 3] ∧ s.hist.map (·.seq) = [2, 3, 4, 5] := by
  have h : (acts smallCfg false smallInit exSlow).map (fun s =>
      (s.cursor 0, s.loc 0, s.seqs 0, s.hist.map (·.seq))) =
      some (some 2, .dead, [2, 3], [2, 3, 4, 5]) := by decide +kernel
  obtain ⟨s, h1, h2⟩ := Option.map_eq_some_iff.1 h
  injection h2 with a1 h2
  injection h2 with a2 h2
  injection h2 with a3 a4
  exact ⟨s, smallInit_reach.acts h1, a1, a2, a3, a4⟩

/-- A cursor ahead of the collector: 5 has been allocated, but only 3 has been emitted. -/
def exAhead : List Act :=
  [.allot (some 5), .call 0 (some 5), .begin 0, .copyRollback 0, .replay 0, .replay 0, .goLive 0] ++
    emit 4 1 1 ++ [.pull 0]

/-- A subscriber can get events below its cursor. -/
theorem C38_below_cursor : ∃ s, Reach smallCfg false s ∧ s.cursor 0 = some 5 ∧ s.seqs 0 = [4] := by
  have h : (acts smallCfg false smallInit exAhead).map (fun s => (s.cursor 0, s.seqs 0)) =
      some (some 5, [4]) := by decide +kernel
  obtain ⟨s, h1, h2⟩ := Option.map_eq_some_iff.1 h
  injection h2 with a1 a2
  exact ⟨s, smallInit_reach.acts h1, a1, a2⟩

end Arroba.Fire
