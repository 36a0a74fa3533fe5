import Verif.Storage.Sequences
import Verif.Storage.StepProofs
import Verif.Mst.DiffProofs

/-! # C28: sequence numbers are unique and increasing -/

namespace Arroba.Store

theorem allocate_get (s : List (Key × Nat)) (k k' : Key) :
    (allocate s k).1 = (dictGet s k).getD 1 ∧
    dictGet (allocate s k).2 k' = if k' = k then some ((dictGet s k).getD 1 + 1) else dictGet s k' := by
  unfold allocate
  simp only [dictGet_dictSetDefault, dictGet_dictSet]
  by_cases hk : k' = k
  · subst hk
    cases dictGet s k' <;> simp
  · simp only [if_neg hk]
    have hk' : ¬ k = k' := fun h => hk h.symm
    refine ⟨by cases dictGet s k <;> simp, ?_⟩
    cases dictGet s k' <;> simp [hk']

/-- **C28 (sequential).** Whatever the order of the calls and their NSIDs, the `i`-th call returns one
more than the number of earlier calls for the same NSID (so 1, 2, 3, ... for each NSID
independently), and afterwards `last` is the number of calls, or None if there was none. -/
theorem C28_sequential (ks : List Key) :
    (∀ i (hi : i < ks.length), (allocateAll [] ks).1[i]? = some ((ks.take i).count ks[i] + 1)) ∧
    (∀ k, lastSeq (allocateAll [] ks).2 k = if k ∈ ks then some (ks.count k) else none) := by
  -- generalise over the table
  have main : ∀ (ks : List Key) (s : List (Key × Nat)) (f : Key → Nat),
      (∀ k, dictGet s k = if f k = 0 then none else some (f k + 1)) →
      (∀ i (hi : i < ks.length),
        (allocateAll s ks).1[i]? = some (f ks[i] + (ks.take i).count ks[i] + 1)) ∧
      (∀ k, dictGet (allocateAll s ks).2 k =
        if f k + ks.count k = 0 then none else some (f k + ks.count k + 1)) := by
    intro ks
    induction ks with
    | nil =>
      intro s f h
      exact ⟨fun i hi => by simp at hi, fun k => by simpa [allocateAll] using h k⟩
    | cons x xs ih =>
      intro s f h
      have hx : (dictGet s x).getD 1 = f x + 1 := by
        rw [h x]; split <;> simp_all
      have hs' : ∀ k, dictGet (allocate s x).2 k =
          if (Function.update f x (f x + 1)) k = 0 then none
          else some ((Function.update f x (f x + 1)) k + 1) := by
        intro k
        rw [(allocate_get s x k).2]
        by_cases hk : k = x
        · subst hk; simp [hx]
        · simp [hk, Function.update_of_ne hk, h k]
      obtain ⟨h1, h2⟩ := ih _ _ hs'
      constructor
      · intro i hi
        cases i with
        | zero => simp [allocateAll, (allocate_get s x x).1, hx]
        | succ i =>
          simp only [allocateAll, List.getElem?_cons_succ, List.getElem_cons_succ,
            List.take_succ_cons]
          rw [h1 i (by simpa using hi)]
          by_cases hk : xs[i]'(by simpa using hi) = x
          · simp only [hk, Function.update_self, List.count_cons_self]; congr 1; omega
          · rw [Function.update_of_ne hk, List.count_cons_of_ne (Ne.symm hk)]
      · intro k
        simp only [allocateAll]
        rw [h2 k]
        by_cases hk : k = x
        · subst hk
          simp only [Function.update_self, List.count_cons_self]
          have e : f k + 1 + List.count k xs = f k + (List.count k xs + 1) := by omega
          rw [e]
        · rw [Function.update_of_ne hk, List.count_cons_of_ne (Ne.symm hk)]
  obtain ⟨h1, h2⟩ := main ks [] (fun _ => 0) (fun k => by simp [dictGet])
  refine ⟨fun i hi => by simpa using h1 i hi, fun k => ?_⟩
  unfold lastSeq
  rw [h2 k]
  by_cases hk : k ∈ ks
  · have := List.count_pos_iff.2 hk
    rw [if_neg (by omega), if_pos hk]
    simp
  · have := List.count_eq_zero.2 hk
    rw [if_pos (by omega), if_neg hk]

/-- **C28 (rejects).** Exactly the empty NSID is rejected, with AssertionError. -/
theorem C28_rejects (s : List (Key × Nat)) (k : Key) :
    (allocateCall s k = .error .assertion ↔ k = []) ∧
    (k ≠ [] → allocateCall s k = .ok (allocate s k)) := by
  unfold allocateCall
  constructor
  · split <;> simp_all
  · intro h; rw [if_neg h]

/-- The numbers handed out for one NSID, in order. -/
def TxState.numbers (s : TxState) (k : Key) : List Nat :=
  ((s.returned.filter (fun x => x.1 = k)).map (·.2)).reverse

/-- **C28 (Datastore, concurrent).** Under every interleaving of any number of concurrent callers,
with any transactions aborted, the numbers handed out for an NSID are 1, 2, 3, ... in the order of
the commits: none twice, none skipped; and `last` is the highest, or None. -/
theorem C28_datastore_concurrent {s : TxState} (h : Relation.ReflTransGen TxStep .init s) (k : Key) :
    s.numbers k = List.range' 1 (s.numbers k).length ∧
    s.last k = if s.numbers k = [] then none else some (s.numbers k).length := by
  have inv : ∀ k, s.numbers k = List.range' 1 (s.numbers k).length ∧
      s.next k = (if s.numbers k = [] then none else some ((s.numbers k).length + 1)) ∧
      ∀ t next version, s.threads t = .read k next version →
        version ≤ s.version k ∧ (version = s.version k → next = s.next k) := by
    induction h with
    | refl =>
      intro k
      refine ⟨rfl, rfl, ?_⟩
      intro t next version h
      simp [TxState.init] at h
    | @tail s0 _ _ hs ih =>
      intro k
      obtain ⟨h1, h2, h3⟩ := ih k
      cases hs with
      | begin t nsid hn h =>
        refine ⟨h1, h2, ?_⟩
        intro t' next version h'
        by_cases ht : t' = t
        · subst ht
          simp only [Function.update_self, TxLocal.read.injEq] at h'
          obtain ⟨rfl, rfl, rfl⟩ := h'
          exact ⟨le_refl _, fun _ => rfl⟩
        · simp only [Function.update_of_ne ht] at h'
          exact h3 t' next version h'
      | abort t =>
        refine ⟨h1, h2, ?_⟩
        intro t' next version h'
        by_cases ht : t' = t
        · subst ht; simp at h'
        · simp only [Function.update_of_ne ht] at h'
          exact h3 t' next version h'
      | commit t nsid next version h hv =>
        by_cases hk : k = nsid
        · subst hk
          obtain ⟨_, h4⟩ := h3 t next version h
          have hnext := h4 hv.symm
          rw [h2] at hnext
          have hn : (⟨Function.update s0.next k (some (next.getD 1 + 1)),
              Function.update s0.version k (version + 1), Function.update s0.threads t .idle,
              (k, next.getD 1) :: s0.returned⟩ : TxState).numbers k =
              s0.numbers k ++ [next.getD 1] := by
            simp [TxState.numbers]
          have hv1 : next.getD 1 = (s0.numbers k).length + 1 := by
            rw [hnext]
            split
            · rename_i he; simp [he]
            · simp
          rw [hn]
          refine ⟨?_, ?_, ?_⟩
          · rw [List.length_append, List.length_singleton, List.range'_concat, ← h1, hv1]
            simp; omega
          · simp [hv1]
          · intro t' next' version' h'
            by_cases ht : t' = t
            · subst ht; simp at h'
            · simp only [Function.update_of_ne ht] at h'
              obtain ⟨g1, g2⟩ := h3 t' next' version' h'
              simp only [Function.update_self]
              exact ⟨by omega, fun he => by omega⟩
        · have hn : (⟨Function.update s0.next nsid (some (next.getD 1 + 1)),
              Function.update s0.version nsid (version + 1), Function.update s0.threads t .idle,
              (nsid, next.getD 1) :: s0.returned⟩ : TxState).numbers k = s0.numbers k := by
            simp [TxState.numbers, Ne.symm hk]
          rw [hn]
          refine ⟨h1, by simp only [Function.update_of_ne hk]; exact h2, ?_⟩
          intro t' next' version' h'
          by_cases ht : t' = t
          · subst ht; simp at h'
          · simp only [Function.update_of_ne ht] at h'
            simp only [Function.update_of_ne hk]
            exact h3 t' next' version' h'
  obtain ⟨h1, h2, _⟩ := inv k
  refine ⟨h1, ?_⟩
  unfold TxState.last
  rw [h2]
  split <;> simp

/-- **C28 (unique).** In particular no number is handed out twice for an NSID. -/
theorem C28_datastore_unique {s : TxState} (h : Relation.ReflTransGen TxStep .init s) :
    s.returned.Nodup := by
  have hk : ∀ k, (s.numbers k).Nodup := fun k => by
    rw [(C28_datastore_concurrent h k).1]; exact List.nodup_range'
  rw [List.nodup_iff_count_le_one]
  rintro ⟨k, n⟩
  have h1 := List.nodup_iff_count_le_one.1 (hk k) n
  unfold TxState.numbers at h1
  rw [List.count_reverse] at h1
  have h2 : List.count (k, n) s.returned ≤
      List.count n ((s.returned.filter (fun x => x.1 = k)).map (·.2)) := by
    have h3 : List.count (k, n) s.returned =
        List.count (k, n) (s.returned.filter (fun x => x.1 = k)) := by
      rw [List.count_filter]; simp
    rw [h3]
    exact List.count_le_count_map (f := Prod.snd)
  omega

/-! ### Examples and a counterexample -/

example : (allocateAll [] ["a".toList, "b".toList, "a".toList, "a".toList, "b".toList]).1 =
    [1, 1, 2, 3, 2] := by decide

/-- Two concurrent transactions; the second must be retried. -/
example : ∃ s, Relation.ReflTransGen TxStep .init s ∧ s.returned = [("a".toList, 2), ("a".toList, 1)] ∧
    s.last "a".toList = some 2 := by
  let k := "a".toList
  have hk : k ≠ [] := by decide
  refine ⟨_, .tail (.tail (.tail (.tail (.tail (.tail .refl
    (.begin _ 0 k hk rfl)) (.begin _ 1 k hk rfl))
    (.commit _ 1 k none 0 rfl rfl)) (.abort _ 0)) (.begin _ 0 k hk rfl))
    (.commit _ 0 k (some 2) 1 rfl rfl), rfl, rfl⟩

/-- **C28 is false for `MemorySequences` with threads.** `allocate` takes no lock: two threads that
both run `setdefault` before either runs `+= 1` return the same number, and the next caller gets 3
(or even 2, if the increments race as well). -/
theorem C28_memory_threads_false :
    (memRun ⟨[], [.idle, .idle], []⟩ "a".toList [0, 1, 0, 0, 1, 1]).returned =
      [("a".toList, 1), ("a".toList, 1)] ∧
    dictGet (memRun ⟨[], [.idle, .idle], []⟩ "a".toList [0, 1, 0, 0, 1, 1]).seqs "a".toList = some 3 ∧
    dictGet (memRun ⟨[], [.idle, .idle], []⟩ "a".toList [0, 1, 0, 1, 0, 1]).seqs "a".toList = some 2 := by
  decide

end Arroba.Store
