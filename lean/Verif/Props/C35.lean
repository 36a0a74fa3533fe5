import Verif.Memcache.SequenceProofs
import Mathlib.Data.List.Nodup
import Mathlib.Data.List.Perm.Subperm

/-!
# C35: memcache sequence numbers are never reissued

`MemcacheSequences.allocate`, called by any number of threads of any number of processes, while
memcache loses the counter and calls fail. False without restrictions on when the counter is lost:
see the three counterexamples at the end.
-/

namespace Arroba.Mc

variable {batch buffer : Nat} {proc : Nat → Nat}

/-- Fewer than `k` calls have a number and have not returned it; calls that raised stay in flight
for ever. -/
def State.InFlight (s : State) (k : Nat) : Prop :=
  ∃ ts : List Nat, ts.length < k ∧ ∀ t n, (s.threads t).num = some n → t ∈ ts

/-- When it is harmless that memcache loses the counter: fewer than `buffer` calls are in flight, a
call has completed since the counter was last initialized (or no number has been taken since), and no
process is about to initialize the counter with a value it read before another process stored a new
batch. -/
structure CalmWipe (buffer : Nat) (s : State) : Prop where
  inFlight : s.InFlight buffer
  completed : s.mc = some s.base ∨ ∃ n ∈ s.returned, s.base < n
  fresh : ∀ t v, s.threads t = .initing v → s.next ≤ v + 1

/-- The largest element of a list below a bound. -/
theorem exists_largest {P : Nat → Prop} : ∀ {m : Nat}, (∃ n, n ≤ m ∧ P n) →
    ∃ n, n ≤ m ∧ P n ∧ ∀ k, n < k → k ≤ m → ¬ P k := by
  intro m
  induction m with
  | zero => rintro ⟨n, h1, h2⟩; exact ⟨n, h1, h2, fun k _ _ => by omega⟩
  | succ m ih =>
    rintro ⟨n, h1, h2⟩
    by_cases h : P (m + 1)
    · exact ⟨m + 1, le_refl _, h, fun k _ _ => by omega⟩
    · have hn : n ≤ m := by
        rcases Nat.lt_or_ge n (m + 1) with h' | h'
        · omega
        · exact absurd (by rw [show m + 1 = n by omega]; exact h2) h
      obtain ⟨n', g1, g2, g3⟩ := ih ⟨n, hn, h2⟩
      refine ⟨n', by omega, g2, fun k k1 k2 => ?_⟩
      by_cases hk : k = m + 1
      · rw [hk]; exact h
      · exact g3 k k1 (by omega)

/-- At a harmless moment all numbers answered so far are below the stored one. -/
theorem CalmWipe.below {s : State} (hi : Inv buffer proc s) (h : CalmWipe buffer s) {m : Nat}
    (hm : s.mc = some m) : m < s.next := by
  obtain ⟨e1, e2, e3⟩ := hi.epoch m hm
  rcases h.completed with hb | ⟨f, hf, hbf⟩
  · rw [hm] at hb; cases hb; exact e2
  · have hfm : f ≤ m := by
      have := hi.top f (hi.ret f hf).1
      rw [hm] at this; exact this
    obtain ⟨f', g1, ⟨g2, g2'⟩, g3⟩ := exists_largest (P := fun n => n ∈ s.returned ∧ s.base < n)
      ⟨f, hfm, hf, hbf⟩
    obtain ⟨ts, t1, t2⟩ := h.inFlight
    -- the numbers after f' are all in flight
    have hsub : List.range' (f' + 1) (m - f') ⊆ ts.filterMap (fun t => (s.threads t).num) := by
      intro n hn
      rw [List.mem_range'_1] at hn
      rcases e3 n (by omega) (by omega) with h | ⟨t, h⟩
      · exact absurd ⟨h, by omega⟩ (g3 n (by omega) (by omega))
      · exact List.mem_filterMap.2 ⟨t, t2 t n h, h⟩
    have hlen := (List.subperm_of_subset (List.nodup_range' (step := 1)) hsub).length_le
    rw [List.length_range'] at hlen
    have := List.length_filterMap_le (fun t => (s.threads t).num) ts
    have := (hi.ret f' g2).2
    omega

theorem Reach.inv (hbuf : 1 < buffer) (hb : buffer < batch) {s : State}
    (h : Reach batch buffer proc False (CalmWipe buffer) s) : Inv buffer proc s := by
  induction h with
  | refl => exact .empty
  | tail _ hs ih =>
    cases hs with
    | run t _ => exact ih.run hbuf hb t
    | txFails t n hf => exact hf.elim
    | crash t h =>
      rename_i s0 _
      cases hn : (s0.threads t).num with
      | none => exact ih.move (by rw [hn]; rfl) (by simp) (by simp)
      | some n => exact ih.move (by rw [hn]; rfl) (by simp) (by simp)
    | wipe hw => exact ih.wipe (fun m hm => hw.below ih hm) (fun _ t v ht => hw.fresh t v ht)

/-- **C35.** In every execution in which the counter is only lost at harmless moments and no batch
transaction fails, no number is returned twice, every returned number is positive and below the
stored one, and the assertion on line 375 never fails. `buffer` and `batch` are any numbers that
satisfy the assertion on line 347. Missing: losing the counter at other moments, and failing
transactions, for which it is false (`C35_double_wipe_false`, `C35_stale_init_false`,
`C35_failed_batch_false`). -/
theorem C35_partial (hbuf : 1 < buffer) (hb : buffer < batch) {s : State}
    (h : Reach batch buffer proc False (CalmWipe buffer) s) :
    s.returned.Nodup ∧ (∀ n ∈ s.returned, 1 ≤ n ∧ n < s.next) ∧
    ∀ t n, s.threads t = .secured n → (run batch buffer proc s t).threads t = .returned n := by
  have hi := Reach.inv hbuf hb h
  refine ⟨hi.retNodup, fun n hn => ?_, fun t n ht => ?_⟩
  · have := hi.ret n hn
    exact ⟨hi.one n this.1, by omega⟩
  · obtain ⟨_, m, g1, g2⟩ := hi.secured t n ht
    have := hi.one n (hi.held t n (by rw [ht]; rfl)).1
    unfold run
    rw [ht]
    dsimp only
    rw [g1, if_pos ⟨by omega, g2⟩, goto_self]

/-! ### One process -/

/-- The same without the last condition. -/
structure CalmWipe₁ (buffer : Nat) (s : State) : Prop where
  inFlight : s.InFlight buffer
  completed : s.mc = some s.base ∨ ∃ n ∈ s.returned, s.base < n

/-- In one process at most one thread initializes the counter, and nobody stores a new batch
meanwhile. -/
def Current (s : State) : Prop := ∀ t v, s.threads t = .initing v → s.next ≤ v + 1

theorem Current.goto {s : State} (h : Current s) {t : Nat} {l : Loc} (hl : ∀ v, l ≠ .initing v) :
    Current (s.goto t l) := by
  intro t' v ht
  by_cases he : t' = t
  · subst he; rw [goto_self] at ht; exact absurd ht (hl v)
  · rw [goto_ne _ he] at ht; exact h t' v ht

theorem Current.run {s : State} (h : Current s) (hone : ∀ t t', proc t = proc t') (t : Nat)
    (hl : (s.threads t).locks = true → s.free proc (proc t)) :
    Current (run batch buffer proc s t) := by
  unfold Mc.run
  dsimp only
  split
  · split
    · exact h.goto (by simp)
    · exact Current.goto (s := { s with mc := _, issued := _ }) h (by simp)
  · rename_i ht
    have hf := hl (by rw [ht]; rfl)
    intro t' v ht'
    by_cases he : t' = t
    · subst he; rw [goto_self] at ht'; cases ht'
      show s.next ≤ s.next - 1 + 1
      omega
    · rw [goto_ne _ he] at ht'
      exact absurd ht' (hf t' v (hone _ _))
  · split
    · exact Current.goto (s := { s with mc := _, base := _ }) h (by simp)
    · exact h.goto (by simp)
  · split
    · exact h.goto (by simp)
    · exact Current.goto (s := { s with mc := _, issued := _ }) h (by simp)
  · rename_i n ht
    have hf := hl (by rw [ht]; rfl)
    split
    · intro t' v ht'
      by_cases he : t' = t
      · subst he; rw [goto_self] at ht'; cases ht'
      · rw [goto_ne _ he] at ht'
        exact absurd ht' (hf t' v (hone _ _))
    · exact h.goto (by simp)
  · split
    · exact Current.goto (s := { s with returned := _ }) h (by simp)
    · exact h.goto (by simp)
  · exact h
  · exact h
  · exact h

/-- **C35 for one process.** If all threads belong to one process, it is enough that the counter is
lost only while fewer than `buffer` calls are in flight and after a call has completed since the
last initialization. -/
theorem C35_one_process_partial (hbuf : 1 < buffer) (hb : buffer < batch)
    (hone : ∀ t t', proc t = proc t') {s : State}
    (h : Reach batch buffer proc False (CalmWipe₁ buffer) s) :
    s.returned.Nodup ∧ ∀ n ∈ s.returned, 1 ≤ n ∧ n < s.next := by
  have key : Reach batch buffer proc False (CalmWipe buffer) s ∧ Current s := by
    induction h with
    | refl => exact ⟨.refl, fun t v h => by cases h⟩
    | tail _ hs ih =>
      obtain ⟨h1, h2⟩ := ih
      cases hs with
      | run t hl => exact ⟨h1.tail (.run _ t hl), h2.run hone t hl⟩
      | txFails t n hf => exact hf.elim
      | crash t hr =>
        refine ⟨h1.tail (.crash _ t hr), h2.goto ?_⟩
        intro v
        split <;> simp
      | wipe hw => exact ⟨h1.tail (.wipe _ ⟨hw.1, hw.2, h2⟩), h2⟩
  obtain ⟨g1, g2, _⟩ := C35_partial hbuf hb key.1
  exact ⟨g1, g2⟩

/-! ### Examples and counterexamples -/

/-- Threads `ts` take a step each. -/
def runs (proc : Nat → Nat) (s : State) (ts : List Nat) : State :=
  ts.foldl (fun s t => run 1000 100 proc s t) s

def State.wiped (s : State) : State := { s with mc := none }

theorem Reach.run' {failing : Prop} {wipes : State → Prop} {s : State}
    (h : Reach batch buffer proc failing wipes s) {t : Nat}
    (hl : (s.threads t).locks = false ∨ s.free proc (proc t)) :
    Reach batch buffer proc failing wipes (run batch buffer proc s t) :=
  h.tail (.run s t (fun h' => hl.resolve_left (by rw [h']; simp)))

/-- With the defaults of the code (a batch of 1000, a buffer of 100): a first call, alone. -/
def exFirst : State := runs (fun _ => 0) .init [0, 0, 0, 0, 0, 0]

example : exFirst.returned = [1] ∧ exFirst.stored = some 1001 ∧ exFirst.mc = some 1 := by
  decide +kernel

/-- Then memcache loses the counter. The next call gets 1001: nothing is reissued. -/
example : (runs (fun _ => 0) exFirst.wiped [1, 1, 1, 1, 1, 1]).returned = [1001, 1] := by
  decide +kernel

theorem idle_free {s : State} {p : Nat} (k : Nat) (h1 : ∀ t, k ≤ t → s.threads t = .start)
    (h2 : ∀ t < k, (match s.threads t with
      | .initing _ => true
      | _ => false) = false) : s.free proc p := by
  intro t v _ ht
  rcases Nat.lt_or_ge t k with h | h
  · have := h2 t h; rw [ht] at this; cases this
  · rw [h1 t h] at ht; cases ht

/-- `runs` only touches the threads it runs. -/
theorem run_other {s : State} {t t' : Nat} (h : t' ≠ t) :
    (run batch buffer proc s t).threads t' = s.threads t' := by
  unfold run
  dsimp only
  split
  · split <;> exact goto_ne _ h _
  · exact goto_ne _ h _
  · split <;> exact goto_ne _ h _
  · split <;> exact goto_ne _ h _
  · split <;> exact goto_ne _ h _
  · split <;> exact goto_ne _ h _
  · rfl
  · rfl
  · rfl

/-- No thread but the first `k` has begun. -/
def Begun (k : Nat) (s : State) : Prop := ∀ t, k ≤ t → s.threads t = .start

theorem Begun.run {k : Nat} {s : State} (h : Begun k s) {t : Nat} (ht : t < k) :
    Begun k (run batch buffer proc s t) := fun t' ht' => by
  rw [run_other (by omega)]; exact h t' ht'

/-- Does running the threads in this order respect the lock? -/
def okRuns (proc : Nat → Nat) (k : Nat) : State → List Nat → Bool
  | _, [] => true
  | s, t :: ts =>
    decide (t < k) && (!(s.threads t).locks || (List.range k).all (fun t' =>
      decide (proc t' ≠ proc t) || (match s.threads t' with
        | .initing _ => false
        | _ => true))) && okRuns proc k (Mc.run 1000 100 proc s t) ts

theorem Reach.runs {failing : Prop} {wipes : State → Prop} {k : Nat} :
    ∀ {ts : List Nat} {s : State}, Reach 1000 100 proc failing wipes s → Begun k s →
      okRuns proc k s ts = true →
      Reach 1000 100 proc failing wipes (Mc.runs proc s ts) ∧ Begun k (Mc.runs proc s ts)
  | [], s, h, hb, _ => ⟨h, hb⟩
  | t :: ts, s, h, hb, hok => by
    unfold okRuns at hok
    simp only [Bool.and_eq_true, decide_eq_true_eq, Bool.or_eq_true, Bool.not_eq_true'] at hok
    obtain ⟨⟨h1, h2⟩, h3⟩ := hok
    refine Reach.runs (ts := ts) (h.run' ?_) (hb.run h1) h3
    rcases h2 with h2 | h2
    · exact .inl h2
    · right
      intro t' v hp ht'
      rcases Nat.lt_or_ge t' k with hk | hk
      · have := List.all_eq_true.1 h2 t' (List.mem_range.2 hk)
        rw [ht'] at this
        simp [hp] at this
      · rw [hb t' hk] at ht'; cases ht'

theorem Begun.init {k : Nat} : Begun k State.init := fun _ _ => rfl

/-- One process, two calls. The first initializes the counter and takes 1. -/
def exA : State := runs (fun _ => 0) .init [0, 0, 0, 0]

/-- Before it stores a new batch, memcache loses the counter again, and the second call initializes
it with the same value and takes 1, too. -/
def exB : State := runs (fun _ => 0) exA.wiped [1, 1, 1, 1, 0, 0, 1, 1]

/-- **C35 is false** if memcache loses the counter before the first call after its initialization
has completed: with one process and two calls, 1 is returned twice. -/
theorem C35_double_wipe_false :
    Reach 1000 100 (fun _ => 0) False (fun s => s.InFlight 2) exB ∧ exB.returned = [1, 1] := by
  refine ⟨?_, by decide +kernel⟩
  obtain ⟨h1, h2⟩ := Reach.runs (proc := fun _ => 0) (failing := False)
    (wipes := fun s => s.InFlight 2) (ts := [0, 0, 0, 0]) (k := 2) .refl .init (by decide +kernel)
  have h3 : Reach 1000 100 (fun _ => 0) False (fun s => s.InFlight 2) exA.wiped := by
    refine h1.tail (.wipe _ ⟨[0], by decide, fun t n ht => ?_⟩)
    by_cases he : t = 0
    · simp [he]
    · exfalso
      have : (runs (fun _ => 0) State.init [0, 0, 0, 0]).threads t = .start := by
        rcases Nat.lt_or_ge t 2 with h | h
        · have : t = 1 := by omega
          subst this; decide +kernel
        · exact h2 t h
      rw [this] at ht; cases ht
  exact (Reach.runs (k := 2) h3 h2 (by decide +kernel)).1

/-- Two processes: threads 0 and 3 belong to the first, 1 and 2 to the second. -/
def twoProcs (t : Nat) : Nat := if t = 0 ∨ t = 3 then 0 else 1

/-- Thread 0 finds no counter and reads the stored number, 0. Meanwhile thread 1 initializes the
counter and returns 1. -/
def exC : State := runs twoProcs .init [0, 0, 1, 1, 1, 1, 1, 1]

/-- memcache loses the counter. Thread 0 initializes it with 0, and returns 1. -/
def exD : State := runs twoProcs exC.wiped [0, 0, 0, 0]

/-- **C35 is false** for several processes if memcache loses the counter while one of them is about
to initialize it, even with no call in flight and 1 completed. -/
theorem C35_stale_init_false :
    Reach 1000 100 twoProcs False (fun s => s.InFlight 1 ∧ ∃ n ∈ s.returned, s.base < n) exD ∧
      exD.returned = [1, 1] := by
  refine ⟨?_, by decide +kernel⟩
  obtain ⟨h1, h2⟩ := Reach.runs (proc := twoProcs) (failing := False)
    (wipes := fun s => s.InFlight 1 ∧ ∃ n ∈ s.returned, s.base < n)
    (ts := [0, 0, 1, 1, 1, 1, 1, 1]) (k := 2) .refl .init (by decide +kernel)
  have h3 : Reach 1000 100 twoProcs False (fun s => s.InFlight 1 ∧ ∃ n ∈ s.returned, s.base < n)
      exC.wiped := by
    refine h1.tail (.wipe _ ⟨⟨[], by decide, fun t n ht => ?_⟩, 1, by decide +kernel, by decide +kernel⟩)
    exfalso
    have : ((runs twoProcs State.init [0, 0, 1, 1, 1, 1, 1, 1]).threads t).num = none := by
      rcases Nat.lt_or_ge t 2 with h | h
      · have : t = 0 ∨ t = 1 := by omega
        rcases this with rfl | rfl <;> decide +kernel
      · rw [h2 t h]; rfl
    rw [this] at ht; cases ht
  exact (Reach.runs (k := 2) h3 h2 (by decide +kernel)).1

/-- One process. The first call takes 1, and its batch transaction fails: the process believes that
numbers up to 1001 are stored, but they are not. The next call returns 2. -/
def exE : State := (runs (fun _ => 0) .init [0, 0, 0, 0])

def exE' : State := { exE with maxSeqs := Function.update exE.maxSeqs 0 (some 1001) }.goto 0 (.dead 1)

def exF : State := runs (fun _ => 0) exE' [1, 1, 1]

/-- Later memcache loses the counter, and two more calls return 1 and 2. -/
def exG : State := runs (fun _ => 0) exF.wiped [2, 2, 2, 2, 2, 2, 3, 3, 3]

/-- **C35 is false** if a batch transaction can fail to commit: `max_seqs` is set before the commit,
on line 369. Here the counter is lost at a harmless moment, and 2 is returned twice. -/
theorem C35_failed_batch_false :
    Reach 1000 100 (fun _ => 0) True (CalmWipe 100) exG ∧ exG.returned = [2, 1, 2] := by
  refine ⟨?_, by decide +kernel⟩
  obtain ⟨h1, h2⟩ := Reach.runs (proc := fun _ => 0) (failing := True)
    (wipes := CalmWipe 100) (ts := [0, 0, 0, 0]) (k := 4) .refl .init (by decide +kernel)
  have h3 : Reach 1000 100 (fun _ => 0) True (CalmWipe 100) exE' := by
    have := h1.tail (.txFails _ 0 1 trivial (idle_free 4 h2 (by decide +kernel)) (by decide +kernel)
      (by decide +kernel))
    exact this
  have h4 : Begun 4 exE' := by
    intro t ht
    unfold exE'
    rw [goto_ne _ (by omega)]
    exact h2 t ht
  obtain ⟨h5, h6⟩ := Reach.runs (ts := [1, 1, 1]) (k := 4) h3 h4 (by decide +kernel)
  have h7 : Reach 1000 100 (fun _ => 0) True (CalmWipe 100) exF.wiped := by
    refine h5.tail (.wipe _ ⟨⟨[0, 1, 2, 3], by decide, fun t n ht => ?_⟩, .inr ⟨2, by decide +kernel,
      by decide +kernel⟩, fun t v ht => ?_⟩)
    · rcases Nat.lt_or_ge t 4 with h | h
      · have : t = 0 ∨ t = 1 ∨ t = 2 ∨ t = 3 := by omega
        rcases this with rfl | rfl | rfl | rfl <;> simp
      · rw [h6 t h] at ht; cases ht
    · exact absurd ht (idle_free (proc := fun _ => 0) (p := 0) 4 h6 (by decide +kernel) t v rfl)
  exact (Reach.runs (k := 4) h7 h6 (by decide +kernel)).1

end Arroba.Mc
