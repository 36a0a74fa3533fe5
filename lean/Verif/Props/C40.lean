import Verif.Firehose.SubscribeRepos

/-!
# C40: cursor validation
-/

namespace Arroba.Fire

/-- The first sequence number of the rollback window: the last `window` numbers up to `cur`, and the one
before them. -/
def InWindow (window cur : Nat) (c : Int) : Prop := 0 ≤ c ∧ (cur : Int) ≤ c + window

/-- **C40.** A cursor above the current sequence number is answered with a FutureCursor error and
nothing else. -/
theorem C40_future (window cur : Nat) (c : Int) (h : (cur : Int) < c) :
    subscribeRepos window (some cur) (some c) = .ok ⟨[.futureCursor], none⟩ := by
  unfold subscribeRepos
  dsimp only
  rw [if_pos (by omega)]

/-- **C40.** A cursor older than the window is answered with an OutdatedCursor notice, followed by the
events from the smallest number in the window on. -/
theorem C40_outdated (window cur : Nat) (c : Int) (h : c ≤ cur) (ho : ¬ InWindow window cur c) :
    ∃ start : Int, subscribeRepos window (some cur) (some c) = .ok ⟨[.outdatedCursor], some (some start)⟩ ∧
      c < start ∧ InWindow window cur start ∧ ∀ c', InWindow window cur c' → start ≤ c' := by
  unfold InWindow at *
  refine ⟨max ((cur : Int) - window) 0, ?_, by omega, by omega, fun c' hc' => by omega⟩
  unfold subscribeRepos
  dsimp only
  rw [if_neg (by omega), if_pos (by omega)]

/-- **C40.** Any other cursor is served without a notice, and so is none. -/
theorem C40_valid (window cur : Nat) (c : Int) (h : c ≤ cur) (hw : InWindow window cur c) :
    subscribeRepos window (some cur) (some c) = .ok ⟨[], some (some c)⟩ ∧
    subscribeRepos window (some cur) none = .ok ⟨[], some none⟩ := by
  unfold InWindow at hw
  refine ⟨?_, rfl⟩
  unfold subscribeRepos
  dsimp only
  rw [if_neg (by omega), if_neg (by omega)]

/-- A missing sequence counter is refused. -/
theorem C40_refuses (window : Nat) (c : Option Int) :
    subscribeRepos window none c = .error .assertion := rfl

example : subscribeRepos 50 (some 100) (some 101) = .ok ⟨[.futureCursor], none⟩ := C40_future _ _ _ (by decide)
example : subscribeRepos 50 (some 100) (some 49) = .ok ⟨[.outdatedCursor], some (some 50)⟩ := by decide
example : subscribeRepos 50 (some 100) (some 50) = .ok ⟨[], some (some 50)⟩ := by decide
example : subscribeRepos 50 (some 100) (some (-1)) = .ok ⟨[.outdatedCursor], some (some 50)⟩ := by decide
example : subscribeRepos 50 (some 10) (some 0) = .ok ⟨[], some (some 0)⟩ := by decide

end Arroba.Fire
