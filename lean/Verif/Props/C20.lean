import Verif.Props.C19

/-! # C20: next_tid is strictly monotone -/

namespace Arroba
open Tid

theorem nextTids_mem {rc last : Int} {ts : List Int} {r : Except Err Key}
    (h : r ∈ nextTids rc last ts) : ∃ k : Int, last < k ∧ r = intToTid rc k none := by
  induction ts generalizing last with
  | nil => simp [nextTids] at h
  | cons t ts ih =>
    simp only [nextTids, nextTid, List.mem_cons] at h
    rcases h with rfl | h
    · exact ⟨_, by omega, rfl⟩
    · obtain ⟨k, hk, e⟩ := ih h
      exact ⟨k, by omega, e⟩

/-- **C20.** For every sequence of clock readings (in nanoseconds, in any order, even negative),
the TIDs returned by successive `next_tid()` calls are strictly increasing strings. The module
variable starts at 0 (util.py 35); calls whose timestamp does not fit raise instead of
returning. -/
theorem C20_monotone (runtimeClock : Nat) (hrc : runtimeClock < 32) (last : Int) (hlast : 0 ≤ last)
    (clock : List Int) :
    ((nextTids runtimeClock last clock).filterMap Except.toOption).Pairwise (· < ·) := by
  induction clock generalizing last with
  | nil => simp [nextTids]
  | cons t ts ih =>
    simp only [nextTids, nextTid]
    have hl : last < max (t / 1000) (last + 1) := by omega
    generalize max (t / 1000) (last + 1) = l at hl
    have ih := ih l (by omega)
    cases e : intToTid (runtimeClock : Int) l none with
    | error err =>
      rw [List.filterMap_cons_none rfl]
      exact ih
    | ok s =>
      simp only [List.filterMap_cons, Except.toOption]
      rw [List.pairwise_cons]
      refine ⟨fun s' hs' => ?_, ih⟩
      obtain ⟨r, hr, er⟩ := List.mem_filterMap.mp hs'
      obtain ⟨k, hk, rfl⟩ := nextTids_mem hr
      cases e' : intToTid (runtimeClock : Int) k none with
      | error err => rw [e'] at er; cases er
      | ok s'' =>
        rw [e'] at er
        have es : s'' = s' := by cases er; rfl
        subst es
        obtain ⟨l', rfl⟩ : ∃ l' : Nat, l = l' := ⟨l.toNat, by omega⟩
        obtain ⟨k', rfl⟩ : ∃ k' : Nat, k = k' := ⟨k.toNat, by omega⟩
        exact C19_order_any_clock 0 0 runtimeClock runtimeClock hrc hrc l' k' s s''
          (by simpa [intToTid] using e) (by simpa [intToTid] using e') (by omega)

/-- **C20 (calls succeed).** While the clock reads a time before year 3111 (2^55 microseconds)
and fewer calls than that have been made, every call returns. -/
theorem C20_succeeds (runtimeClock : Nat) (hrc : runtimeClock < 32) (last : Int) (hlast : 0 ≤ last)
    (clock : List Int) (bound : Int) (h1 : last ≤ bound) (h2 : ∀ t ∈ clock, t / 1000 ≤ bound)
    (h3 : bound + clock.length < 32 ^ 11) :
    ∀ r ∈ nextTids runtimeClock last clock, ∃ s, r = .ok s := by
  induction clock generalizing last bound with
  | nil => simp [nextTids]
  | cons t ts ih =>
    simp only [nextTids, nextTid, List.mem_cons, List.length_cons, Nat.cast_add, Nat.cast_one]
      at h2 h3 ⊢
    have ht := h2 t (.inl rfl)
    have hl : max (t / 1000) (last + 1) ≤ bound + 1 := by omega
    have hl0 : 0 ≤ max (t / 1000) (last + 1) := by omega
    generalize max (t / 1000) (last + 1) = l at hl hl0
    rintro r (rfl | hr)
    · obtain ⟨l', rfl⟩ : ∃ l' : Nat, l = l' := ⟨l.toNat, by omega⟩
      have := intToTid_spec runtimeClock l' runtimeClock hrc
      rw [if_pos (by omega)] at this
      exact ⟨_, by simpa [intToTid] using this⟩
    · exact ih l hl0 (bound + 1) hl
        (fun x hx => by have := h2 x (.inr hx); omega) (by omega) r hr

/-- **C20 (finding: not thread-safe).** `next_tid` takes no lock, so two threads of one process
calling it concurrently can both return the same TID: from every state and for every clock
reading there is an interleaving in which both pass one timestamp to `int_to_tid`. -/
theorem C20_concurrent_false (last timeNs : Int) :
    ∃ l v, Steps last .start .start l (.returned v) (.returned v) := by
  refine ⟨max (timeNs / 1000) (last + 1), max (timeNs / 1000) (last + 1), ?_⟩
  exact .left (.compute last timeNs) (.right (.compute last timeNs)
    (.left (.store _ _) (.right (.store _ _) (.left (.ret _) (.right (.ret _) .refl)))))

-- a clock that goes backwards: the second call still gets a later TID
example : nextTids (7 : Nat) 0 [5000000, 1000] =
    [.ok "222222226wcb2".toList, .ok "222222226wdb2".toList] := by
  have h (n : Nat) := intToTid_spec 7 n 7 (by decide)
  have e1 : max ((5000000 : Int) / 1000) (0 + 1) = (5000 : Nat) := by decide
  have e2 : max ((1000 : Int) / 1000) ((5000 : Nat) + 1) = (5001 : Nat) := by decide
  have h1 := h 5000
  have h2 := h 5001
  simp only [nextTids, nextTid, e1, e2]
  rw [if_pos (by decide)] at h1 h2
  have h1 : intToTid ((7 : Nat) : Int) (5000 : Nat) none = _ := h1
  have h2 : intToTid ((7 : Nat) : Int) (5001 : Nat) none = _ := h2
  rw [h1, h2]
  decide +kernel

end Arroba
