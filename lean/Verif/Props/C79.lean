import Verif.Firehose.StartProofs

/-!
# C79: Starting the firehose

The claim: any number of threads may start the firehose and subscribe, at the same time. One collector runs; whoever
subscribes goes on when the window has been loaded, and not before; if loading fails, starting again helps. All but the
last is true.
-/

namespace Arroba.Fire.Starting

variable {resets : Bool} {s s' t : State}

/-- **C79 (one collector).** However often and by however many threads `start` and `reset` are called, never is more
than one collector alive. -/
theorem C79_one (h : From resets .fresh s) {c d : Nat} (hc : (s.thread c).alive = true)
    (hd : (s.thread d).alive = true) : c = d := by
  have h1 := h.inv.alive c hc
  rw [h.inv.alive d hd] at h1
  exact (Option.some.inj h1).symm

/-- **C79 (ready).** Without `reset`, at most one collector is ever made, no call of `start` raises, and when a
subscriber goes on, or a call of `start` that has started the collector returns, the rollback window has been
loaded. -/
theorem C79_ready (h : From false .fresh s) : s.made ≤ 1 ∧ (∀ i, s.caller i ≠ .raised) ∧
    (∀ j, s.sub j = .going → s.rollback = true) ∧ ∀ i s', act s (.proceed i) = some s' → s.rollback = true := by
  have ho := h.once
  refine ⟨ho.few, ho.raised, fun j hj => ho.started (ho.going j hj), fun i s' hs => ?_⟩
  simp only [act] at hs
  split at hs
  · rename_i hc; exact ho.started hc.2
  · cases hs

/-- **C79 (goes on).** Unless a collector has failed, no thread waits in vain: in every state that can be reached without
`reset`, every call of `start` can still return, and every subscriber can go on if `start` was ever called. -/
theorem C79_goes_on_partial (h : From false .fresh s) (hd : s.thread 0 ≠ .dead) :
    (∀ i, s.caller i ≠ .idle → ∃ s', From false s s' ∧ s'.caller i = .returned) ∧
    ∀ j i, s.sub j = .waiting → s.caller i ≠ .idle → ∃ s', From false s s' ∧ s'.sub j = .going := by
  -- some collector is made
  have key : ∀ i, s.caller i ≠ .idle → ∃ x, From false s x ∧ x.made = 1 ∧ x.thread 0 ≠ .dead ∧ x.sub = s.sub ∧
      (x.caller i = s.caller i ∨ x.caller i = .making) := by
    intro i hi
    have ho := h.once
    by_cases hm : s.made = 1
    · exact ⟨s, .refl, hm, hd, rfl, .inl rfl⟩
    · have hm0 : s.made = 0 := by have := ho.few; omega
      have hcol : s.collector = none := by rw [ho.current, if_pos hm0]
      cases hc : s.caller i with
      | idle => exact absurd hc hi
      | raised => exact absurd hc (ho.raised i)
      | making => have := (ho.making i hc).1; omega
      | waiting => have := (ho.waiting i hc).1; omega
      | entered =>
        refine ⟨{ s with collector := some s.made, made := s.made + 1 }.call i .making,
          .one (.enter i) (by simp [act, hc, State.locked, hcol]) (by simp), by simp [State.call, hm0], hd, rfl,
          .inr (by simp [State.call])⟩
      | returned =>
        have := h.returned i hc; omega
  refine ⟨fun i hi => ?_, fun j i hj hi => ?_⟩
  · obtain ⟨x, h1, h2, h3, h4, h5⟩ := key i hi
    obtain ⟨y, g1, g2, g3, g4, _, g6, g7⟩ := settle (h.trans h1) h2 h3
    have ho := (h.trans h1).once
    have hcx : x.caller i ≠ .idle := by
      rcases h5 with h5 | h5
      · rw [h5]; exact hi
      · rw [h5]; simp
    cases hc : x.caller i with
    | idle => exact absurd hc hcx
    | raised => exact absurd hc (ho.raised i)
    | returned =>
      exact ⟨x, h1, hc⟩
    | making =>
      refine ⟨y.call i .returned, (h1.trans g1).trans (.one (.proceed i) ?_ (by simp)), by simp [State.call]⟩
      simp [act, g4 i hc, g2]
    | waiting =>
      refine ⟨y.call i .returned, (h1.trans g1).trans (.one (.proceed i) ?_ (by simp)), by simp [State.call]⟩
      simp [act, g3 i (by rw [hc]; simp), hc, g2]
    | entered =>
      refine ⟨y.call i .returned, (h1.trans g1).trans (.one (.enter i) ?_ (by simp)), by simp [State.call]⟩
      simp [act, g3 i (by rw [hc]; simp), hc, g6, g7]
  · obtain ⟨x, h1, h2, h3, h4, _⟩ := key i hi
    obtain ⟨y, g1, g2, _, _, g5, _⟩ := settle (h.trans h1) h2 h3
    refine ⟨y.goto j .going, (h1.trans g1).trans (.one (.begin j) ?_ (by simp)), by simp [State.goto]⟩
    simp [act, g5, h4, hj, g2]

/-- **C79 (reset).** `reset` makes starting possible again when the last collector has ended: the next call of `start`
can load the window anew and return. -/
theorem C79_reset (h : From resets .fresh s) (hs : act s .reset = some s')
    (hd : ∀ c, (s.thread c).alive = false) :
    s'.collector = none ∧ s'.started = false ∧ s'.rollback = false ∧
    ∀ i, s'.caller i = .entered → ∃ t, From false s' t ∧ t.caller i = .returned ∧ t.started = true ∧
      t.rollback = true ∧ t.thread s.made = .collecting := by
  have hbase : s'.collector = none ∧ s'.started = false ∧ s'.rollback = false ∧ s'.made = s.made := by
    simp only [act] at hs
    split at hs
    · cases hs
    · split at hs
      · rename_i c hc
        rw [if_neg (by rw [hd c]; simp)] at hs
        cases hs; exact ⟨rfl, rfl, rfl, rfl⟩
      · cases hs; exact ⟨rfl, rfl, rfl, rfl⟩
  obtain ⟨b1, b2, b3, b4⟩ := hbase
  refine ⟨b1, b2, b3, fun i hi => ?_⟩
  have hu : s'.thread s.made = .unborn := (h.inv.step .reset hs).unborn _ (by omega)
  let a1 := { s' with collector := some s'.made, made := s'.made + 1 }.call i .making
  let a2 := (a1.step s'.made .begun).call i .waiting
  let a3 := a2.step s'.made .loading
  let a4 := ({ a3 with rollback := true } : State).step s'.made .loaded
  let a5 := ({ a4 with started := true } : State).step s'.made .collecting
  rw [← b4] at hu
  have s1 : act s' (.enter i) = some a1 := by simp [act, hi, State.locked, b1, a1]
  have s2 : act a1 (.launch i) = some a2 := by simp [act, State.call, hu, a1, a2]
  have s3 : act a2 (.lock s'.made) = some a3 := by simp [act, State.call, State.step, a2, a3]
  have s4 : act a3 (.load s'.made) = some a4 := by simp [act, State.step, a3, a4]
  have s5 : act a4 (.set s'.made) = some a5 := by simp [act, State.step, a4, a5]
  have s6 : act a5 (.proceed i) = some (a5.call i .returned) := by
    simp [act, State.step, State.call, a1, a2, a3, a4, a5]
  refine ⟨a5.call i .returned, ?_, by simp [State.call], rfl, rfl, by
    simp [State.call, State.step, a5, b4]⟩
  exact (((((From.one _ s1 (by simp)).trans (.one _ s2 (by simp))).trans (.one _ s3 (by simp))).trans
    (.one _ s4 (by simp))).trans (.one _ s5 (by simp))).trans (.one _ s6 (by simp))

/-- **C79 (false: loading fails).** When a collector has failed before it had started, and `reset` is not called,
then for ever after: no collector is alive, no subscriber goes on, the call of `start` that had started it does not
return, and other calls of `start` return at once as if all were well. -/
theorem C79_failed_false (h : From false .fresh s) (hd : s.thread 0 = .dead) (hs : s.started = false)
    (g : From false s s') :
    (∀ c, (s'.thread c).alive = false) ∧ (∀ j, s'.sub j ≠ .going) ∧
    (∀ i, act s' (.proceed i) = none) ∧ (∀ j, act s' (.begin j) = none) ∧
    ∀ i, s'.caller i = .entered → act s' (.enter i) = some (s'.call i .returned) := by
  have ho := h.once
  have ho' := (h.trans g).once
  have hm : s.made ≠ 0 := fun h0 => by rw [ho.none h0] at hd; cases hd
  have hcol : s.collector = some 0 := by rw [ho.current, if_neg hm]
  obtain ⟨i1, i2, i3, i4⟩ := h.stays g hcol (.inl hd) hs
  have i5 : s'.thread 0 = .dead := by
    rcases i2 with i2 | i2
    · exact i2
    · have := ho'.set i2; rw [i3] at this; cases this
  refine ⟨fun c => ?_, fun j hj => ?_, fun i => by simp [act, i3], fun j => by simp [act, i3], fun i hi => ?_⟩
  · by_cases hc : c = 0
    · rw [hc, i5]; rfl
    · rw [ho'.other c hc]; rfl
  · have := ho.going j (i4 j hj); rw [hs] at this; cases this
  · simp [act, hi, State.locked, i1, i5]

/-- It does happen: one thread calls `start`, another subscribes, and reading the stored events raises. -/
theorem C79_failed_reached : ∃ s, From false .fresh s ∧ s.thread 0 = .dead ∧ s.started = false ∧
    s.caller 0 = .waiting ∧ s.sub 0 = .waiting := by
  refine ⟨_, From.run [.call 0, .subscribe 0, .enter 0, .launch 0, .lock 0, .fail 0] rfl (by decide), ?_, ?_, ?_, ?_⟩ <;>
    rfl

/-- **C79 (false: early).** A call of `start` may return before the window has been loaded: when another thread has
called it a moment before. -/
theorem C79_early_false : ∃ s, From false .fresh s ∧ s.caller 1 = .returned ∧ s.started = false ∧
    s.rollback = false := by
  refine ⟨_, From.run [.call 0, .call 1, .enter 0, .enter 1] rfl (by decide), ?_, ?_, ?_⟩ <;> rfl

/-- **C79 (false: reset).** A call of `reset` while a collector is running raises AssertionError, but not without
effect: from then on, until the next `reset`, no new subscriber goes on. -/
theorem C79_reset_false (h : From resets .fresh s) {c : Nat} (hc : s.thread c = .collecting)
    (hs : act s .reset = some s') (g : From false s' t) :
    (∀ j, act t (.begin j) = none) ∧ ∀ j, t.sub j = .going → s.sub j = .going := by
  have hcol := h.inv.alive c (by rw [hc]; rfl)
  have hs' : s' = { s with started := false } := by
    simp only [act, State.locked, hcol, hc] at hs
    simpa [Thread.alive, hcol] using hs.symm
  have h' : From true .fresh s' := by
    have : From true .fresh s := by
      clear hc hs g hcol hs'
      induction h with
      | refl => exact .refl
      | step a _ hs _ ih => exact .step a ih hs (fun h => (nomatch h))
    exact .step .reset this hs (fun h => (nomatch h))
  subst hs'
  obtain ⟨_, _, i3, i4⟩ := h'.stays g hcol (.inr hc) rfl
  exact ⟨fun j => by simp [act, i3], i4⟩

/-! A case: two threads start the firehose and two subscribe; one collector runs, all go on. -/
example : ∃ s, From false .fresh s ∧ s.made = 1 ∧ s.caller 0 = .returned ∧ s.caller 1 = .returned ∧
    s.sub 0 = .going ∧ s.sub 1 = .going ∧ s.thread 0 = .collecting ∧ s.rollback = true := by
  refine ⟨_, From.run [.subscribe 0, .call 0, .call 1, .enter 1, .enter 0, .launch 1, .lock 0, .subscribe 1, .load 0,
    .set 0, .proceed 1, .begin 1, .begin 0] rfl (by decide), ?_, ?_, ?_, ?_, ?_, ?_, ?_⟩ <;> rfl

/-! And with `reset` in between: the second collector is another one. -/
example : ∃ s s' t, From true .fresh s ∧ (∀ c, (s.thread c).alive = false) ∧ act s .reset = some s' ∧
    From false s' t ∧ t.thread 1 = .collecting ∧ t.caller 1 = .returned := by
  have h : From true .fresh _ := From.run [.call 0, .enter 0, .launch 0, .lock 0, .load 0, .set 0, .proceed 0, .ends 0,
    .call 1] rfl (by decide)
  refine ⟨_, _, _, h, fun c => ?_, rfl, From.run [.enter 1, .launch 1, .lock 1, .load 1, .set 1, .proceed 1] rfl
    (by decide), ?_, ?_⟩
  · by_cases hc : c = 0
    · subst hc; rfl
    · simp [State.call, State.step, Function.update_of_ne hc, State.fresh, Thread.alive]
  · rfl
  · rfl

end Arroba.Fire.Starting
