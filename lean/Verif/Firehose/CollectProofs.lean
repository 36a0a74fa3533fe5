import Verif.Firehose.Example

/-!
# The collector's decisions
-/

namespace Arroba.Fire

variable {cfg : Cfg} {gc : Bool} {s s' : State}

/-- firehose.py 295-299: `next_seq` afterwards is the first number that is not lost, or else the last. -/
theorem nextSeq_spec (lost : List Nat) : ∀ (k a cur : Nat),
    (nextSeq lost (List.range' a (k + 1)) cur = a + k ∧ ∀ n, a ≤ n → n < a + k → n ∈ lost) ∨
    (∃ n, nextSeq lost (List.range' a (k + 1)) cur = n ∧ a ≤ n ∧ n < a + k ∧ n ∉ lost)
  | 0, a, cur => by
    left
    refine ⟨?_, fun n h1 h2 => by omega⟩
    show (if lost.contains a then a else a) = a + 0
    split <;> rfl
  | k + 1, a, cur => by
    rw [List.range'_succ]
    unfold nextSeq
    by_cases ha : a ∈ lost
    · rw [if_pos (by simpa using ha)]
      rcases nextSeq_spec lost k (a + 1) a with ⟨h1, h2⟩ | ⟨n, h1, h2, h3, h4⟩
      · left
        refine ⟨by rw [h1]; omega, fun n h3 h4 => ?_⟩
        by_cases hna : n = a
        · rw [hna]; exact ha
        · exact h2 n (by omega) (by omega)
      · exact .inr ⟨n, h1, by omega, by omega, h4⟩
    · rw [if_neg (by simpa using ha)]
      exact .inr ⟨a, rfl, by omega, by omega, ha⟩

/-- Why the collector may go past missing numbers. -/
def Excused (cfg : Cfg) (s : State) (now : Int) (e : Ev) : Prop :=
  now - s.lastEvent > cfg.delay ∨ ∃ last, s.last = some last ∧ (last : Int) - e.seq > cfg.skipWindow

theorem verdict_go (now : Int) (e : Ev) :
    verdict cfg s now e = .go ↔ s.lastSeq < e.seq ∧
      ((∀ n, s.lastSeq < n → n < e.seq → n ∈ s.lost) ∨ Excused cfg s now e) := by
  unfold verdict
  by_cases h0 : e.seq ≤ s.lastSeq
  · rw [if_pos h0]
    exact ⟨fun h => (by cases h), fun h => by omega⟩
  · rw [if_neg h0]
    obtain ⟨k, hk⟩ : ∃ k, e.seq - s.lastSeq = k + 1 := ⟨e.seq - s.lastSeq - 1, by omega⟩
    rw [hk]
    dsimp only
    have hlt : s.lastSeq < e.seq := by omega
    rcases nextSeq_spec s.lost k (s.lastSeq + 1) 0 with ⟨h1, h2⟩ | ⟨n, h1, h2, h3, h4⟩
    · rw [h1, if_neg (by omega)]
      exact ⟨fun _ => ⟨hlt, .inl fun n a b => h2 n (by omega) (by omega)⟩, fun _ => rfl⟩
    · rw [h1, if_pos (by omega)]
      have hno : ¬ ∀ n, s.lastSeq < n → n < e.seq → n ∈ s.lost := fun hh => h4 (hh n (by omega) (by omega))
      by_cases ht : now - s.lastEvent ≤ cfg.delay
      · rw [if_pos ht]
        cases hl : s.last with
        | none =>
          dsimp only
          refine ⟨fun h => (by cases h), fun h => ?_⟩
          rcases h.2 with h | h | ⟨last, h, _⟩
          · exact absurd h hno
          · omega
          · rw [hl] at h; cases h
        | some last =>
          dsimp only
          by_cases hw : (last : Int) - e.seq ≤ cfg.skipWindow
          · rw [if_pos hw]
            refine ⟨fun h => (by cases h), fun h => ?_⟩
            rcases h.2 with h | h | ⟨last', h, h'⟩
            · exact absurd h hno
            · omega
            · rw [hl] at h; cases h; omega
          · rw [if_neg hw]
            exact ⟨fun _ => ⟨hlt, .inr (.inr ⟨last, hl, by omega⟩)⟩, fun _ => rfl⟩
      · rw [if_neg ht]
        exact ⟨fun _ => ⟨hlt, .inr (.inl (by omega))⟩, fun _ => rfl⟩

/-- How a step changes what was emitted, and what the collector is about to emit. -/
structure Emits (cfg : Cfg) (s s' : State) (a : Act) : Prop where
  lastSeq : s.lastSeq ≤ s'.lastSeq
  hist : s'.hist = s.hist ∨ ∃ sc e, a = .append ∧ s.col = .taken sc e ∧ s'.hist = s.hist ++ [e]
  lost : ∀ n ∈ s.lost, n ∈ s'.lost
  taken : ∀ sc e, s.col = .taken sc e →
    (s'.col = .taken sc e ∧ s'.lastSeq = s.lastSeq) ∨ (a = .append ∧ s'.hist = s.hist ++ [e] ∧ s'.lastSeq = s.lastSeq) ∨
      ∃ now, a = .crash now
  takes : ∀ sc e, s'.col = .taken sc e → (s.col = .taken sc e ∧ s'.lastSeq = s.lastSeq) ∨
    ∃ now, a = .decide now ∧ s.col = .got sc e ∧ verdict cfg s now e = .go ∧ s'.lastSeq = e.seq
  other : (∀ sc e, s'.col ≠ .taken sc e) → s'.lastSeq = s.lastSeq

theorem Emits.same {a : Act} (h1 : s'.lastSeq = s.lastSeq) (h2 : s'.hist = s.hist)
    (h3 : s'.lost = s.lost) (h4 : s'.col = s.col) : Emits cfg s s' a :=
  ⟨Nat.le_of_eq h1.symm, .inl h2, by rw [h3]; exact fun _ h => h,
    fun sc e h => .inl ⟨by rw [h4]; exact h, h1⟩, fun sc e h => .inl ⟨by rw [← h4]; exact h, h1⟩,
    fun _ => h1⟩

/-- The collector moves between places without a taken event. -/
theorem Emits.move {a : Act} (h1 : s'.lastSeq = s.lastSeq) (h2 : s'.hist = s.hist)
    (h3 : s'.lost = s.lost) (h4 : ∀ sc e, s.col ≠ .taken sc e) (h5 : ∀ sc e, s'.col ≠ .taken sc e) :
    Emits cfg s s' a :=
  ⟨Nat.le_of_eq h1.symm, .inl h2, by rw [h3]; exact fun _ h => h, fun sc e h => absurd h (h4 sc e),
    fun sc e h => absurd h (h5 sc e), fun _ => h1⟩

theorem act_emits (a : Act) (hs : act cfg gc s a = some s') : Emits cfg s s' a := by
  cases a with
  | store e =>
    simp only [Fire.act] at hs
    split at hs
    · cases hs; exact .same rfl rfl rfl rfl
    · cases hs
  | allot n => cases hs; exact .same rfl rfl rfl rfl
  | lose n =>
    cases hs
    exact ⟨Nat.le_refl _, .inl rfl, fun n hn => List.mem_cons_of_mem _ hn, fun sc e h => .inl ⟨h, rfl⟩,
      fun sc e h => .inl ⟨h, rfl⟩, fun _ => rfl⟩
  | wake =>
    simp only [Fire.act] at hs
    split at hs
    · rename_i hc; cases hs; exact .move rfl rfl rfl (by rw [hc]; simp) (by simp)
    · cases hs
  | read e =>
    simp only [Fire.act] at hs
    split at hs
    · rename_i hc
      split at hs
      · cases hs; exact .move rfl rfl rfl (by rw [hc]; simp) (by simp)
      · cases hs
    · cases hs
  | readEnd =>
    simp only [Fire.act] at hs
    split at hs
    · rename_i hc
      split at hs
      · cases hs; exact .move rfl rfl rfl (by rw [hc]; simp) (by simp)
      · cases hs
    · cases hs
  | decide now =>
    simp only [Fire.act] at hs
    split at hs
    · rename_i sc e hc
      split at hs
      · cases hs; exact .move rfl rfl rfl (by rw [hc]; simp) (by simp)
      · cases hs; exact .move rfl rfl rfl (by rw [hc]; simp) (by simp)
      · rename_i hv
        cases hs
        have hlt := ((verdict_go now e).1 hv).1
        refine ⟨Nat.le_of_lt hlt, .inl rfl, fun n hn => hn, fun sc e h => ?_, fun sc' e' h => ?_,
          fun h => absurd rfl (h sc e)⟩
        · rw [hc] at h; cases h
        · cases h
          exact .inr ⟨now, rfl, hc, hv, rfl⟩
    · cases hs
  | fail now =>
    simp only [Fire.act] at hs
    split at hs
    · rename_i hc; cases hs; exact .move rfl rfl rfl (by rw [hc]; simp) (by simp)
    · rename_i hc; cases hs; exact .move rfl rfl rfl (by rw [hc]; simp) (by simp)
    · cases hs
  | crash now =>
    simp only [Fire.act] at hs
    split at hs
    · cases hs
      exact ⟨Nat.le_refl _, .inl rfl, fun n hn => hn, fun sc e _ => .inr (.inr ⟨now, rfl⟩),
        fun sc e h => (by cases h), fun _ => rfl⟩
    · cases hs
  | append =>
    simp only [Fire.act] at hs
    split at hs
    · rename_i sc e hc
      cases hs
      refine ⟨Nat.le_refl _, .inr ⟨sc, e, rfl, hc, rfl⟩, fun n hn => hn, fun sc' e' h => ?_,
        fun sc e h => (by cases h), fun _ => rfl⟩
      rw [hc] at h; cases h
      exact .inr (.inl ⟨rfl, rfl, rfl⟩)
    · cases hs
  | give =>
    simp only [Fire.act] at hs
    split at hs
    · rename_i hc
      split at hs
      · cases hs; exact .move rfl rfl rfl (by rw [hc]; simp) (by simp)
      · cases hs; exact .move rfl rfl rfl (by rw [hc]; simp) (by simp)
    · cases hs
  | call i c =>
    simp only [Fire.act] at hs
    split at hs
    · cases hs; exact .same rfl rfl rfl rfl
    · cases hs
  | begin i =>
    simp only [Fire.act] at hs
    split at hs
    · cases hs; exact .same rfl rfl rfl rfl
    · split at hs
      · cases hs; exact .same rfl rfl rfl rfl
      · cases hs; exact .same rfl rfl rfl rfl
    · cases hs
  | scan i e =>
    simp only [Fire.act] at hs
    split at hs
    · split at hs
      · split at hs
        · split at hs
          · cases hs; exact .same rfl rfl rfl rfl
          · cases hs; exact .same rfl rfl rfl rfl
        · cases hs; exact .same rfl rfl rfl rfl
      · cases hs
    · cases hs
  | scanEnd i =>
    simp only [Fire.act] at hs
    split at hs
    · split at hs
      · cases hs; exact .same rfl rfl rfl rfl
      · cases hs
    · cases hs
  | look i =>
    simp only [Fire.act] at hs
    split at hs
    · cases hs
    · split at hs
      · split at hs
        · cases hs
          unfold State.merge State.handoff
          split <;> split <;> exact .same rfl rfl rfl rfl
        · cases hs; exact .same rfl rfl rfl rfl
      · cases hs
  | copyRollback i =>
    simp only [Fire.act] at hs
    split at hs
    · cases hs
      unfold State.handoff
      split <;> exact .same rfl rfl rfl rfl
    · cases hs
  | replay i =>
    simp only [Fire.act] at hs
    split at hs
    · split at hs
      · cases hs; exact .same rfl rfl rfl rfl
      · cases hs; exact .same rfl rfl rfl rfl
    · cases hs
  | goLive i =>
    simp only [Fire.act] at hs
    split at hs
    · cases hs
    · split at hs
      · cases hs; exact .same rfl rfl rfl rfl
      · split at hs
        · cases hs; exact .same rfl rfl rfl rfl
        · cases hs; exact .same rfl rfl rfl rfl
      · cases hs
  | pull i =>
    simp only [Fire.act] at hs
    split at hs
    · cases hs; exact .same rfl rfl rfl rfl
    · cases hs
  | close i =>
    simp only [Fire.act] at hs
    split at hs
    · cases hs
    · split at hs
      · cases hs
      · cases hs; exact .same rfl rfl rfl rfl
    · cases hs; exact .same rfl rfl rfl rfl
  | reap i =>
    simp only [Fire.act] at hs
    split at hs
    · split at hs
      · cases hs; exact .same rfl rfl rfl rfl
      · cases hs
    · cases hs

end Arroba.Fire
