import Verif.Props.C36

/-!
# C37: live subscribers miss nothing
-/

namespace Arroba.Fire

variable {cfg : Cfg} {s : State}

/-- **C37.** Whenever the collector is not handing out an event, a live subscriber has yielded or
queued exactly what it had when it went live, followed by the events emitted since, in order.
Missing: executions in which the garbage collector closes a forgotten subscriber on the collector's
thread while it is handing out an event, for which it is false, see `C37_gc_false`. -/
theorem C37_live_partial (h : Reach cfg false s) {i : Nat} (hl : s.loc i = .live)
    (hq : s.col.locked = false) :
    s.out i ++ s.queue i = s.replayed i ++ s.hist.drop (s.joined i) := by
  obtain ⟨l, g1, _, _, g4⟩ := (h.inv.live i hl).got
  rw [g1, (g4 rfl).2 (fun hp => not_handing hq (State.Pending.handing hp))]

/-- **C37** for a subscriber without a cursor: exactly the events emitted since it registered. -/
theorem C37_no_cursor_partial (h : Reach cfg false s) {i : Nat} (hl : s.loc i = .live)
    (hc : s.cursor i = none) (hq : s.col.locked = false) :
    s.out i ++ s.queue i = s.hist.drop (s.joined i) := by
  rw [C37_live_partial h hl hq]
  have hj := h.inv.sub i
  unfold Sub at hj
  rw [show (s.view i).loc = .live from hl] at hj
  have : s.replayed i = [] := Joined.none hj hc
  rw [this]; rfl

/-- While it is handing out an event, only that event can be missing. -/
theorem C37_handing_partial (h : Reach cfg false s) {i : Nat} (hl : s.loc i = .live) :
    s.out i ++ s.queue i = s.replayed i ++ s.hist.drop (s.joined i) ∨
    s.out i ++ s.queue i = s.replayed i ++ s.hist.dropLast.drop (s.joined i) := by
  obtain ⟨l, g1, _, _, g4⟩ := (h.inv.live i hl).got
  by_cases hp : s.pending i
  · exact .inr (by rw [g1, (g4 rfl).1 hp])
  · exact .inl (by rw [g1, (g4 rfl).2 hp])

/-- With garbage collection, and always: nothing but events emitted since, in order. -/
theorem C37_only {gc : Bool} (h : Reach cfg gc s) {i : Nat} (hl : s.loc i = .live) :
    ∃ l, s.out i ++ s.queue i = s.replayed i ++ l ∧ l.Sublist (s.hist.drop (s.joined i)) := by
  obtain ⟨l, g1, g2, _⟩ := (h.inv.live i hl).got
  exact ⟨l, g1, g2⟩

/-- In the example execution of C36 subscriber 1 registered after the two preloaded events. -/
example : (acts exCfg false exInit exPlain).map (fun s =>
    (s.joined 1, s.hist.map (·.seq), decide (s.loc 1 = .live), s.col.locked)) =
    some (2, [5, 6, 7, 8], true, false) := by decide +kernel

/-- Two live subscribers; the generator of the first has been forgotten. While the collector is
handing out event 7, and has come to the second, the garbage collector closes the first. -/
def exReap : List Act :=
  connect 0 ++ connect 1 ++
    [.store (ev 7), .wake, .read (ev 7), .decide 1, .append, .give, .reap 0, .give, .readEnd]

/-- **C37 is false** when the garbage collector runs on the collector's thread at that moment: the
list shrinks under the loop, and the second subscriber never gets event 7. -/
theorem C37_gc_false : ∃ s, Reach exCfg true s ∧ s.loc 1 = .live ∧ s.cursor 1 = none ∧
    s.col = .waiting ∧ s.hist.drop (s.joined 1) = [ev 7] ∧ s.out 1 ++ s.queue 1 = [] := by
  have h : (acts exCfg true exInit exReap).map (fun s =>
      (s.loc 1, s.cursor 1, s.col, s.hist.drop (s.joined 1), s.out 1 ++ s.queue 1)) =
      some (.live, none, .waiting, [ev 7], []) := by
    decide +kernel
  obtain ⟨s, h1, h2⟩ := Option.map_eq_some_iff.1 h
  injection h2 with a1 h2
  injection h2 with a2 h2
  injection h2 with a3 h2
  injection h2 with a4 a5
  exact ⟨s, exInit_reach.acts h1, a1, a2, a3, a4, a5⟩

end Arroba.Fire
