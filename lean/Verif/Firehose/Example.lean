import Verif.Firehose.StepProofs

/-!
# Example executions
-/

namespace Arroba.Fire

variable {cfg : Cfg} {gc : Bool}

theorem Reach.acts : ∀ {as : List Act} {s s' : State}, Reach cfg gc s → acts cfg gc s as = some s' →
    Reach cfg gc s'
  | [], s, s', h, hs => by cases hs; exact h
  | a :: as, s, s', h, hs => by
    unfold Fire.acts at hs
    rw [List.foldlM_cons] at hs
    cases ha : act cfg gc s a with
    | none => rw [ha] at hs; cases hs
    | some s1 =>
      rw [ha] at hs
      exact Reach.acts (as := as) (h.step a ha) hs

/-- An event whose body is its sequence number. -/
def ev (n : Nat) : Ev := ⟨n, n⟩

def evs (l : List Nat) : List Ev := l.map ev

theorem Starts.evs {stored events : List Nat} (hw : 0 < cfg.window) (h1 : stored.Pairwise (· ≠ ·))
    (h2 : ∀ n ∈ stored, n ≠ 0) (h3 : events.Pairwise (· < ·)) (h4 : ∀ n ∈ events, n ∈ stored) :
    Starts cfg (evs stored) (evs events) := by
  refine ⟨hw, List.pairwise_map.2 h1, ?_, List.pairwise_map.2 h3, ?_⟩
  · intro e he
    obtain ⟨n, hn, rfl⟩ := List.mem_map.1 he
    exact h2 n hn
  · intro e he
    obtain ⟨n, hn, rfl⟩ := List.mem_map.1 he
    exact List.mem_map.2 ⟨n, h4 n hn, rfl⟩

/-- The collector emits event `n`, which has just been stored, to `k` subscribers. -/
def emit (n k : Nat) (now : Int) : List Act :=
  [.store (ev n), .wake, .read (ev n), .decide now, .append] ++ List.replicate (k + 1) .give ++ [.readEnd]

/-- A subscriber connects without a cursor. -/
def connect (i : Nat) : List Act := [.call i none, .begin i, .goLive i]

/-- A subscriber reads event `n` from storage. -/
def load (i n : Nat) : List Act := [.scan i (ev n), .look i]

/-- What a subscriber has yielded. -/
def State.seqs (s : State) (i : Nat) : List Nat := (s.out i).map (·.seq)

end Arroba.Fire
