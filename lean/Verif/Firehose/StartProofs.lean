import Verif.Firehose.Start

/-! Helper lemmas: how the firehose is started. -/

namespace Arroba.Fire.Starting

variable {resets : Bool} {s s' s₀ : State}

/-- What holds with resets, too. -/
structure Inv (s : State) : Prop where
  /-- a collector that has been started and has not ended is the current one -/
  alive : ∀ c, (s.thread c).alive = true → s.collector = some c
  /-- those not made yet have not been started -/
  unborn : ∀ c, s.made ≤ c → s.thread c = .unborn
  made : ∀ c, s.collector = some c → c < s.made

theorem Inv.fresh : Inv .fresh := ⟨fun _ h => (nomatch h), fun _ _ => rfl, fun _ h => (nomatch h)⟩

theorem Inv.thread {c : Nat} {l : Thread} (h : Inv s) (hc : (s.thread c).alive = true) : Inv (s.step c l) := by
  have hcur := h.alive c hc
  refine ⟨fun d hd => ?_, fun d hd => ?_, h.made⟩
  · by_cases hdc : d = c
    · subst hdc; exact hcur
    · exact h.alive d (by simpa [State.step, Function.update_of_ne hdc] using hd)
  · have hlt := h.made c hcur
    have hdc : d ≠ c := fun hx => by subst hx; exact absurd hd (by simpa [State.step] using hlt)
    simpa [State.step, Function.update_of_ne hdc] using h.unborn d hd

theorem Inv.step (h : Inv s) (a : Act) (hs : act s a = some s') : Inv s' := by
  cases a with
  | call i => simp only [act] at hs; split at hs <;> cases hs; exact ⟨h.alive, h.unborn, h.made⟩
  | enter i =>
    simp only [act] at hs
    split at hs
    · split at hs
      · cases hs; exact ⟨h.alive, h.unborn, h.made⟩
      · rename_i hn
        cases hs
        refine ⟨fun c hc => ?_, fun c hc => h.unborn c (by simp only [State.call] at hc; omega), fun c hc => ?_⟩
        · have := h.alive c hc
          rw [hn] at this; cases this
        · simp only [State.call] at hc ⊢
          cases hc
          exact Nat.lt_succ_self _
    · cases hs
  | launch i =>
    simp only [act] at hs
    split at hs
    · split at hs
      · cases hs; exact ⟨h.alive, h.unborn, h.made⟩
      · rename_i c hc
        split at hs
        · cases hs
          refine ⟨fun d hd => ?_, fun d hd => ?_, h.made⟩
          · by_cases hdc : d = c
            · subst hdc; exact hc
            · exact h.alive d (by simpa [State.step, State.call, Function.update_of_ne hdc] using hd)
          · have hlt := h.made c hc
            have hdc : d ≠ c := fun hx => by subst hx; exact absurd hd (by simpa [State.step, State.call] using hlt)
            simpa [State.step, State.call, Function.update_of_ne hdc] using h.unborn d hd
        · cases hs; exact ⟨h.alive, h.unborn, h.made⟩
    · cases hs
  | proceed i => simp only [act] at hs; split at hs <;> cases hs; exact ⟨h.alive, h.unborn, h.made⟩
  | lock c =>
    simp only [act] at hs; split at hs <;> cases hs
    rename_i hc
    exact h.thread (by rw [hc]; rfl)
  | load c =>
    simp only [act] at hs; split at hs <;> cases hs
    rename_i hc
    exact Inv.thread ⟨h.alive, h.unborn, h.made⟩ (by show (s.thread c).alive = true; rw [hc]; rfl)
  | set c =>
    simp only [act] at hs; split at hs <;> cases hs
    rename_i hc
    exact Inv.thread ⟨h.alive, h.unborn, h.made⟩ (by show (s.thread c).alive = true; rw [hc]; rfl)
  | fail c =>
    simp only [act] at hs; split at hs <;> cases hs
    rename_i hc
    exact h.thread (by rcases hc with hc | hc | hc <;> rw [hc] <;> rfl)
  | ends c =>
    simp only [act] at hs; split at hs <;> cases hs
    rename_i hc
    exact h.thread (by rw [hc]; rfl)
  | subscribe j => simp only [act] at hs; split at hs <;> cases hs; exact ⟨h.alive, h.unborn, h.made⟩
  | begin j => simp only [act] at hs; split at hs <;> cases hs; exact ⟨h.alive, h.unborn, h.made⟩
  | reset =>
    simp only [act] at hs
    split at hs
    · cases hs
    · split at hs
      · rename_i c hc
        split at hs
        · cases hs; exact ⟨h.alive, h.unborn, h.made⟩
        · rename_i hna
          cases hs
          refine ⟨fun d hd => ?_, h.unborn, fun _ h => (nomatch h)⟩
          have h1 := h.alive d hd
          rw [h1] at hc
          cases hc
          exact absurd hd hna
      · rename_i hn
        cases hs
        exact ⟨fun d hd => (by have h1 := h.alive d hd; rw [h1] at hn; cases hn), h.unborn, fun _ h => (nomatch h)⟩

theorem From.inv (h : From resets .fresh s) : Inv s := by
  induction h with
  | refl => exact .fresh
  | step a _ hs _ ih => exact ih.step a hs

/-- What holds without resets. -/
structure Once (s : State) : Prop where
  few : s.made ≤ 1
  current : s.collector = if s.made = 0 then none else some 0
  started : s.started = true → s.rollback = true
  loaded : s.thread 0 = .loaded ∨ s.thread 0 = .collecting → s.rollback = true
  set : s.thread 0 = .collecting → s.started = true
  early : s.thread 0 = .unborn ∨ s.thread 0 = .begun ∨ s.thread 0 = .loading ∨ s.thread 0 = .loaded → s.started = false
  going : ∀ j, s.sub j = .going → s.started = true
  raised : ∀ i, s.caller i ≠ .raised
  making : ∀ i, s.caller i = .making → s.made = 1 ∧ s.thread 0 = .unborn
  unique : ∀ i j, s.caller i = .making → s.caller j = .making → i = j
  launcher : s.made = 1 → s.thread 0 = .unborn → ∃ i, s.caller i = .making
  waiting : ∀ i, s.caller i = .waiting → s.made = 1 ∧ s.thread 0 ≠ .unborn
  other : ∀ c, c ≠ 0 → s.thread c = .unborn
  none : s.made = 0 → s.thread 0 = .unborn

theorem Once.fresh : Once .fresh := by
  constructor <;> simp [State.fresh]

theorem Once.step (h : Once s) (a : Act) (hs : act s a = some s') (hr : a ≠ .reset) : Once s' := by
  obtain ⟨h1, h2, h3, h4, h5, h6, h7, h8, h9, h10, h11, h12, h13, h14⟩ := h
  have upd : ∀ {β : Type} (f : Nat → β) (i j : Nat) (x : β),
      Function.update f i x j = if j = i then x else f j := fun f i j x => by
    by_cases hij : j = i
    · subst hij; simp
    · simp [hij]
  cases a with
  | reset => exact absurd rfl hr
  | call i =>
    simp only [act] at hs; split at hs <;> cases hs
    rename_i hc
    constructor <;> simp only [State.call, upd]
    all_goals first | assumption | skip
    · intro j; split
      · simp
      · exact h8 j
    · intro j; split
      · intro h; cases h
      · exact h9 j
    · intro j k; split <;> split
      · intro h; cases h
      · intro h; cases h
      · intro _ h; cases h
      · exact h10 j k
    · intro g1 g2
      obtain ⟨j, hj⟩ := h11 g1 g2
      refine ⟨j, ?_⟩
      rw [if_neg (fun hx => by subst hx; rw [hc] at hj; cases hj)]
      exact hj
    · intro j; split
      · intro h; cases h
      · exact h12 j
  | enter i =>
    simp only [act] at hs
    split at hs
    · rename_i hc
      split at hs
      · cases hs
        constructor <;> simp only [State.call, upd]
        all_goals first | assumption | skip
        · intro j; split
          · simp
          · exact h8 j
        · intro j; split
          · intro h; cases h
          · exact h9 j
        · intro j k; split <;> split
          · intro h; cases h
          · intro h; cases h
          · intro _ h; cases h
          · exact h10 j k
        · intro g1 g2
          obtain ⟨j, hj⟩ := h11 g1 g2
          refine ⟨j, ?_⟩
          rw [if_neg (fun hx => by subst hx; rw [hc.1] at hj; cases hj)]
          exact hj
        · intro j; split
          · intro h; cases h
          · exact h12 j
      · rename_i hn
        cases hs
        have hm : s.made = 0 := by
          by_contra hx
          rw [if_neg hx] at h2
          rw [h2] at hn; cases hn
        have hu := h14 hm
        constructor <;> simp only [State.call, upd]
        all_goals first | assumption | skip
        · omega
        · rw [hm]; rfl
        · intro j; split
          · simp
          · exact h8 j
        · intro j; split
          · intro _; exact ⟨by omega, hu⟩
          · intro h; have := (h9 j h).1; omega
        · intro j k; split <;> split
          · intro _ _; omega
          · intro _ h; have := (h9 k h).1; omega
          · intro h _; have := (h9 j h).1; omega
          · exact h10 j k
        · intro _ _; exact ⟨i, by rw [if_pos rfl]⟩
        · intro j; split
          · intro h; cases h
          · intro h; have := (h12 j h).1; omega
        · omega
    · cases hs
  | launch i =>
    simp only [act] at hs
    split at hs
    · rename_i hc
      obtain ⟨hm, hu⟩ := h9 i hc
      have hcol : s.collector = some 0 := by rw [h2, if_neg (by omega)]
      rw [hcol] at hs
      dsimp only at hs
      rw [if_pos hu] at hs
      cases hs
      constructor <;> simp only [State.call, State.step, upd]
      all_goals first | assumption | skip
      · simp
      · simp
      · intro _; exact h6 (.inl hu)
      · intro j; split
        · simp
        · exact h8 j
      · intro j; split
        · intro h; cases h
        · intro h; rename_i hne; exact absurd (h10 j i h hc) hne
      · intro j k; split <;> split
        · intro h; cases h
        · intro h; cases h
        · intro _ h; cases h
        · exact h10 j k
      · simp
      · intro j _; exact ⟨hm, by simp⟩
      · intro c hc0; rw [if_neg hc0]; exact h13 c hc0
      · intro h; omega
    · cases hs
  | proceed i =>
    simp only [act] at hs; split at hs <;> cases hs
    rename_i hc
    constructor <;> simp only [State.call, upd]
    all_goals first | assumption | skip
    · intro j; split
      · simp
      · exact h8 j
    · intro j; split
      · intro h; cases h
      · exact h9 j
    · intro j k; split <;> split
      · intro h; cases h
      · intro h; cases h
      · intro _ h; cases h
      · exact h10 j k
    · intro g1 g2
      obtain ⟨j, hj⟩ := h11 g1 g2
      refine ⟨j, ?_⟩
      rw [if_neg (fun hx => by subst hx; rw [hc.1] at hj; cases hj)]
      exact hj
    · intro j; split
      · intro h; cases h
      · exact h12 j
  | lock c =>
    simp only [act] at hs; split at hs <;> cases hs
    rename_i hc
    have hc0 : c = 0 := by by_contra hx; rw [h13 c hx] at hc; cases hc
    subst hc0
    have hm : s.made ≠ 0 := fun hx => by rw [h14 hx] at hc; cases hc
    constructor <;> simp only [State.step, upd]
    all_goals first | assumption | skip
    · simp
    · simp
    · intro _; exact h6 (.inr (.inl hc))
    · intro i hi; have := (h9 i hi).2; rw [hc] at this; cases this
    · simp
    · intro i hi; exact ⟨(h12 i hi).1, by simp⟩
    · intro d hd; rw [if_neg hd]; exact h13 d hd
    · intro hx; exact absurd hx hm
  | load c =>
    simp only [act] at hs; split at hs <;> cases hs
    rename_i hc
    have hc0 : c = 0 := by by_contra hx; rw [h13 c hx] at hc; cases hc
    subst hc0
    have hm : s.made ≠ 0 := fun hx => by rw [h14 hx] at hc; cases hc
    constructor <;> simp only [State.step, upd]
    all_goals first | assumption | skip
    · simp
    · simp
    · simp
    · intro _; exact h6 (.inr (.inr (.inl hc)))
    · intro i hi; have := (h9 i hi).2; rw [hc] at this; cases this
    · simp
    · intro i hi; exact ⟨(h12 i hi).1, by simp⟩
    · intro d hd; rw [if_neg hd]; exact h13 d hd
    · intro hx; exact absurd hx hm
  | set c =>
    simp only [act] at hs; split at hs <;> cases hs
    rename_i hc
    have hc0 : c = 0 := by by_contra hx; rw [h13 c hx] at hc; cases hc
    subst hc0
    have hm : s.made ≠ 0 := fun hx => by rw [h14 hx] at hc; cases hc
    have hl := h4 (.inl hc)
    constructor <;> simp only [State.step, upd]
    all_goals first | assumption | skip
    · intro _; exact hl
    · intro _; exact hl
    · simp
    · simp
    · simp
    · intro i hi; have := (h9 i hi).2; rw [hc] at this; cases this
    · simp
    · intro i hi; exact ⟨(h12 i hi).1, by simp⟩
    · intro d hd; rw [if_neg hd]; exact h13 d hd
    · intro hx; exact absurd hx hm
  | fail c =>
    simp only [act] at hs; split at hs <;> cases hs
    rename_i hc
    have hnu : s.thread c ≠ .unborn := fun hx => by rw [hx] at hc; rcases hc with h | h | h <;> cases h
    have hc0 : c = 0 := by by_contra hx; exact hnu (h13 c hx)
    subst hc0
    have hm : s.made ≠ 0 := fun hx => hnu (h14 hx)
    constructor <;> simp only [State.step, upd]
    all_goals first | assumption | skip
    · simp
    · simp
    · simp
    · intro i hi; exact absurd (h9 i hi).2 hnu
    · simp
    · intro i hi; exact ⟨(h12 i hi).1, by simp⟩
    · intro d hd; rw [if_neg hd]; exact h13 d hd
    · intro hx; exact absurd hx hm
  | ends c =>
    simp only [act] at hs; split at hs <;> cases hs
    rename_i hc
    have hnu : s.thread c ≠ .unborn := fun hx => by rw [hx] at hc; cases hc
    have hc0 : c = 0 := by by_contra hx; exact hnu (h13 c hx)
    subst hc0
    have hm : s.made ≠ 0 := fun hx => hnu (h14 hx)
    constructor <;> simp only [State.step, upd]
    all_goals first | assumption | skip
    · simp
    · simp
    · simp
    · intro i hi; exact absurd (h9 i hi).2 hnu
    · simp
    · intro i hi; exact ⟨(h12 i hi).1, by simp⟩
    · intro d hd; rw [if_neg hd]; exact h13 d hd
    · intro hx; exact absurd hx hm
  | subscribe j =>
    simp only [act] at hs; split at hs <;> cases hs
    constructor <;> simp only [State.goto, upd]
    all_goals first | assumption | skip
    intro k; split
    · intro h; cases h
    · exact h7 k
  | begin j =>
    simp only [act] at hs; split at hs <;> cases hs
    rename_i hc
    constructor <;> simp only [State.goto, upd]
    all_goals first | assumption | skip
    intro k _; exact hc.2

theorem From.once (h : From false .fresh s) : Once s := by
  induction h with
  | refl => exact .fresh
  | step a _ hs hr ih => exact ih.step a hs (hr rfl)

theorem From.trans {a b c : State} (h : From resets a b) (h' : From resets b c) : From resets a c := by
  induction h' with
  | refl => exact h
  | step x _ hs hr ih => exact .step x ih hs hr

theorem From.one {a b : State} (x : Act) (hs : act a x = some b) (hr : x ≠ .reset) : From resets a b :=
  .step x .refl hs (fun _ => hr)

/-- A call of `start` returns only when there is a collector. -/
theorem From.returned (h : From false .fresh s) (i : Nat) (hi : s.caller i = .returned) : s.made = 1 := by
  induction h with
  | refl => cases hi
  | step a h hs hr ih =>
    rename_i s s'
    have ho := h.once
    have hfew := (From.step a h hs hr).once.few
    by_cases hx : s.caller i = .returned
    · have hm := ih hx
      have hmono : s.made ≤ s'.made := by
        cases a
        case reset => exact absurd rfl (hr rfl)
        case enter k =>
          simp only [act] at hs
          split at hs
          · split at hs <;> cases hs <;> simp [State.call]
          · cases hs
        case launch k =>
          simp only [act] at hs
          split at hs
          · split at hs
            · cases hs; exact Nat.le_refl _
            · split at hs <;> cases hs <;> exact Nat.le_refl _
          · cases hs
        all_goals
          simp only [act] at hs
          split at hs <;> cases hs
          exact Nat.le_refl _
      omega
    · have upd : ∀ {k : Nat} {l : Caller}, l ≠ .returned → Function.update s.caller k l i = .returned → False := by
        intro k l hl hk
        by_cases hik : i = k
        · rw [hik, Function.update_self] at hk; exact hl hk
        · rw [Function.update_of_ne hik] at hk; exact hx hk
      cases a
      case reset => exact absurd rfl (hr rfl)
      case enter k =>
        simp only [act] at hs
        split at hs
        · split at hs
          · rename_i c hc
            cases hs
            show s.made = 1
            have h0 : s.made ≠ 0 := fun h0 => by rw [ho.current, if_pos h0] at hc; cases hc
            have := ho.few
            omega
          · cases hs; exact absurd hi (upd (by simp))
        · cases hs
      case launch k =>
        simp only [act] at hs
        split at hs
        · split at hs
          · cases hs; exact absurd hi (upd (by simp))
          · split at hs <;> cases hs <;> exact absurd hi (upd (by simp))
        · cases hs
      case proceed k =>
        simp only [act] at hs
        split at hs <;> cases hs
        rename_i hw
        exact (ho.waiting k hw.1).1
      case call k =>
        simp only [act] at hs
        split at hs <;> cases hs
        exact absurd hi (upd (by simp))
      all_goals
        simp only [act] at hs
        split at hs <;> cases hs
        exact absurd hi hx

/-- The collector gets to where it sets `started`, unless it has failed. -/
theorem settle (h : From false .fresh s) (hm : s.made = 1) (hd : s.thread 0 ≠ .dead) :
    ∃ s', From false s s' ∧ s'.started = true ∧ (∀ i, s.caller i ≠ .making → s'.caller i = s.caller i) ∧
      (∀ i, s.caller i = .making → s'.caller i = .waiting) ∧ s'.sub = s.sub ∧ s'.locked = false ∧
      s'.collector = some 0 := by
  have collect : ∀ {x : State}, x.made = 1 → x.collector = some 0 → x.thread 0 = .begun →
      ∃ s', From false x s' ∧ s'.started = true ∧ s'.caller = x.caller ∧ s'.sub = x.sub ∧ s'.locked = false ∧
        s'.collector = some 0 := by
    intro x _ hc ht
    let y := x.step 0 .loading
    let z := ({ y with rollback := true } : State).step 0 .loaded
    have s1 : act x (.lock 0) = some y := by simp [act, ht, y]
    have s2 : act y (.load 0) = some z := by simp [act, State.step, y, z]
    have s3 : act z (.set 0) = some (({ z with started := true } : State).step 0 .collecting) := by
      simp [act, State.step, z]
    refine ⟨({ z with started := true } : State).step 0 .collecting, ?_, rfl, rfl, rfl, ?_, hc⟩
    · exact ((From.one _ s1 (by simp)).trans (.one _ s2 (by simp))).trans (.one _ s3 (by simp))
    · simp [State.locked, State.step, y, z, hc]
  have ho := h.once
  have hcol : s.collector = some 0 := by rw [ho.current, if_neg (by omega)]
  cases ht : s.thread 0 with
  | dead => exact absurd ht hd
  | unborn =>
    obtain ⟨i, hi⟩ := ho.launcher hm ht
    have hstep : act s (.launch i) = some ((s.step 0 .begun).call i .waiting) := by
      simp [act, hi, hcol, ht]
    obtain ⟨s', h1, h2, h3, h4, h5, h6⟩ := collect (x := (s.step 0 .begun).call i .waiting) hm hcol
      (by simp [State.call, State.step])
    refine ⟨s', (From.one _ hstep (by simp)).trans h1, h2, ?_, ?_, h4, h5, h6⟩
    · intro j hj
      have hne : j ≠ i := fun hx => hj (by rw [hx]; exact hi)
      rw [h3]; simp [State.call, State.step, hne]
    · intro j hj
      have : j = i := ho.unique j i hj hi
      rw [h3, this]; simp [State.call]
  | begun =>
    obtain ⟨s', h1, h2, h3, h4, h5, h6⟩ := collect hm hcol ht
    refine ⟨s', h1, h2, fun i _ => by rw [h3], fun i hi => ?_, h4, h5, h6⟩
    have := (ho.making i hi).2; rw [ht] at this; cases this
  | loading =>
    let z := ({ s with rollback := true } : State).step 0 .loaded
    have s2 : act s (.load 0) = some z := by simp [act, ht, z]
    have s3 : act z (.set 0) = some (({ z with started := true } : State).step 0 .collecting) := by
      simp [act, State.step, z]
    refine ⟨({ z with started := true } : State).step 0 .collecting,
      (From.one _ s2 (by simp)).trans (.one _ s3 (by simp)), rfl, fun _ _ => rfl, fun i hi => ?_, rfl, ?_, hcol⟩
    · have := (ho.making i hi).2; rw [ht] at this; cases this
    · simp [State.locked, State.step, z, hcol]
  | loaded =>
    refine ⟨({ s with started := true } : State).step 0 .collecting,
      .one (.set 0) (by simp [act, ht]) (by simp), rfl, fun _ _ => rfl, fun i hi => ?_, rfl, ?_, hcol⟩
    · have := (ho.making i hi).2; rw [ht] at this; cases this
    · simp [State.locked, State.step, hcol]
  | collecting =>
    refine ⟨s, .refl, ho.set ht, fun _ _ => rfl, fun i hi => ?_, rfl, ?_, hcol⟩
    · have := (ho.making i hi).2; rw [ht] at this; cases this
    · simp [State.locked, hcol, ht]

/-- Without `reset`, a collector that has ended leaves `started` as it is. -/
theorem From.stays (h : From resets .fresh s) (g : From false s s') {c : Nat} (hc : s.collector = some c)
    (ht : s.thread c = .dead ∨ s.thread c = .collecting) (hs : s.started = false) :
    s'.collector = some c ∧ (s'.thread c = .dead ∨ s'.thread c = .collecting) ∧ s'.started = false ∧
      ∀ j, s'.sub j = .going → s.sub j = .going := by
  induction g with
  | refl => exact ⟨hc, ht, hs, fun _ h => h⟩
  | step a g hstep hr ih =>
    rename_i x y
    have hx : Inv x := by
      clear hstep hr ih
      have h0 := h.inv
      induction g with
      | refl => exact h0
      | step a _ hs _ ih => exact ih.step a hs
    obtain ⟨i1, i2, i3, i4⟩ := ih
    have hne : ∀ {d : Nat}, (x.thread d = .begun ∨ x.thread d = .loading ∨ x.thread d = .loaded) → False := by
      intro d hd
      have hal : (x.thread d).alive = true := by rcases hd with hd | hd | hd <;> rw [hd] <;> rfl
      have := hx.alive d hal
      rw [i1] at this
      cases this
      rcases hd with hd | hd | hd <;> rw [hd] at i2 <;> rcases i2 with i2 | i2 <;> cases i2
    cases a with
    | reset => exact absurd rfl (hr rfl)
    | call i => simp only [act] at hstep; split at hstep <;> cases hstep; exact ⟨i1, i2, i3, i4⟩
    | enter i =>
      simp only [act, i1] at hstep; split at hstep <;> cases hstep; exact ⟨i1, i2, i3, i4⟩
    | launch i =>
      simp only [act, i1] at hstep
      split at hstep
      · split at hstep
        · rename_i hu; rw [hu] at i2; rcases i2 with i2 | i2 <;> cases i2
        · cases hstep; exact ⟨i1, i2, i3, i4⟩
      · cases hstep
    | proceed i => simp only [act] at hstep; split at hstep <;> cases hstep; exact ⟨i1, i2, i3, i4⟩
    | lock d =>
      simp only [act] at hstep; split at hstep <;> cases hstep
      rename_i hd; exact (hne (.inl hd)).elim
    | load d =>
      simp only [act] at hstep; split at hstep <;> cases hstep
      rename_i hd; exact (hne (.inr (.inl hd))).elim
    | set d =>
      simp only [act] at hstep; split at hstep <;> cases hstep
      rename_i hd; exact (hne (.inr (.inr hd))).elim
    | fail d =>
      simp only [act] at hstep; split at hstep <;> cases hstep
      rename_i hd; exact (hne hd).elim
    | ends d =>
      simp only [act] at hstep; split at hstep <;> cases hstep
      refine ⟨i1, ?_, i3, i4⟩
      by_cases hdc : c = d
      · subst hdc; exact .inl (by simp [State.step])
      · simpa [State.step, Function.update_of_ne hdc] using i2
    | subscribe j =>
      simp only [act] at hstep; split at hstep <;> cases hstep
      refine ⟨i1, i2, i3, fun k hk => ?_⟩
      by_cases hkj : k = j
      · subst hkj; simp [State.goto] at hk
      · exact i4 k (by simpa [State.goto, Function.update_of_ne hkj] using hk)
    | begin j =>
      simp only [act] at hstep; split at hstep <;> cases hstep
      rename_i hb; rw [i3] at hb; cases hb.2

/-- Steps one after the other. -/
theorem From.run : ∀ (l : List Act) {a b : State}, l.foldlM act a = some b → (∀ x ∈ l, x ≠ .reset) → From resets a b := by
  intro l
  induction l with
  | nil => intro a b h _; cases h; exact .refl
  | cons x l ih =>
    intro a b h hr
    rw [List.foldlM_cons] at h
    cases hx : act a x with
    | none => rw [hx] at h; cases h
    | some c =>
      rw [hx] at h
      exact (From.one x hx (hr x (by simp))).trans (ih h (fun y hy => hr y (by simp [hy])))

end Arroba.Fire.Starting
