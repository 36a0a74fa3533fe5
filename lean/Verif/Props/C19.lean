import Verif.Util.TidProofs

/-! # C19: TIDs sort like the integers they encode -/

namespace Arroba
open Tid

/-- **C19.** For a fixed clock id, `m < n` exactly when the TID of `m` sorts before that of `n`. -/
theorem C19_order (runtimeClock : Int) (c : Nat) (hc : c < 32) (m n : Nat)
    (s t : Key) (hs : intToTid runtimeClock m (some (c : Int)) = .ok s)
    (ht : intToTid runtimeClock n (some (c : Int)) = .ok t) : m < n ↔ s < t := by
  rw [intToTid_spec _ _ _ hc] at hs ht
  split at hs <;> split at ht <;> simp only [Except.ok.injEq, reduceCtorEq] at hs ht
  rename_i hm hn
  subst hs ht
  have key : ∀ {a b : Nat}, b < 32 ^ 11 → a < b →
      numeral 11 a ++ clockPart c < numeral 11 b ++ clockPart c := fun hb h =>
    lt_append_left (numeral_lt hb h) (by simp [numeral_length]) _ _
  constructor
  · exact key hn
  · intro h
    rcases Nat.lt_trichotomy m n with h' | rfl | h'
    · exact h'
    · exact absurd h (List.lt_irrefl _)
    · exact absurd (List.lt_trans h (key hm h')) (List.lt_irrefl _)

/-- **C19 (different clock ids).** A larger integer sorts later whatever the two clock ids are, so
revs minted by different processes still sort by sequence number. -/
theorem C19_order_any_clock (runtimeClock runtimeClock' : Int) (c d : Nat) (hc : c < 32)
    (hd : d < 32) (m n : Nat) (s t : Key)
    (hs : intToTid runtimeClock m (some (c : Int)) = .ok s)
    (ht : intToTid runtimeClock' n (some (d : Int)) = .ok t) (h : m < n) : s < t := by
  rw [intToTid_spec _ _ _ hc] at hs
  rw [intToTid_spec _ _ _ hd] at ht
  split at hs <;> split at ht <;> simp only [Except.ok.injEq, reduceCtorEq] at hs ht
  rename_i hm hn
  subst hs ht
  exact lt_append_left (numeral_lt hn h) (by simp [numeral_length]) _ _

/-- **C19 (revs).** Any strictly increasing list of sequence numbers that all encode gives a
strictly increasing list of revs (`_commit` uses `int_to_tid(seq, clock_id=0)`). -/
theorem C19_revs (runtimeClock : Int) (seqs : List Nat) (revs : List Key)
    (hp : seqs.Pairwise (· < ·))
    (h : seqs.map (fun n : Nat => intToTid runtimeClock n (some 0)) = revs.map .ok) :
    revs.Pairwise (· < ·) := by
  induction seqs generalizing revs with
  | nil => cases revs <;> simp at h ⊢
  | cons n ns ih =>
    cases revs with
    | nil => simp at h
    | cons r rs =>
      simp only [List.map_cons, List.cons.injEq] at h
      rw [List.pairwise_cons] at hp ⊢
      refine ⟨?_, ih rs hp.2 h.2⟩
      intro r' hr'
      have : (Except.ok r' : Except Err Key) ∈ rs.map .ok := List.mem_map_of_mem hr'
      rw [← h.2] at this
      obtain ⟨n', hn', e⟩ := List.mem_map.mp this
      exact C19_order_any_clock runtimeClock runtimeClock 0 0 (by omega) (by omega) n n' r r'
        h.1 e (hp.1 n' hn')

-- two consecutive integers whose TIDs differ in more than one digit
example : intToTid 0 (1023 : Nat) (some (0 : Nat)) = .ok "222222222zz22".toList ∧
    intToTid 0 (1024 : Nat) (some (0 : Nat)) = .ok "2222222232222".toList := by
  rw [intToTid_spec _ _ _ (by decide), intToTid_spec _ _ _ (by decide)]
  decide +kernel

end Arroba
