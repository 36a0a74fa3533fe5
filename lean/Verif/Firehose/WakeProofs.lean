import Verif.Firehose.Wake
import Verif.Firehose.InOrder

/-! Helper lemmas: how soon the collector emits a new event. -/

namespace Arroba.Fire

variable {cfg : Cfg} {gc clean : Bool} {p : Pace} {T T' T₀ : Timed} {s s' : State}

/-- The collector's thread is where the model says, and not later than it can be. -/
structure Timely (cfg : Cfg) (p : Pace) (T : Timed) : Prop where
  col : T.s.col = .waiting ↔ ∀ t, T.mode ≠ .reading t
  soon : T.now ≤ T.mode.leaves p
  asleep : ∀ u, T.mode = .asleep u → u ≤ T.now + p.batch
  blocked : ∀ u, T.mode = .blocked u → u ≤ T.now + cfg.delay
  ready : ∀ t, T.mode = .ready t → t ≤ T.now
  woken : ∀ t, T.mode = .woken t → t ≤ T.now
  reading : ∀ t, T.mode = .reading t → t ≤ T.now

/-- The time by which a pass that has begun after this moment is over. -/
def Mode.latest (cfg : Cfg) (p : Pace) : Mode → Int
  | .asleep u => u + 4 * p.lag + cfg.delay + p.pass
  | .ready t => t + 3 * p.lag + cfg.delay + p.pass
  | .blocked u => u + 2 * p.lag + p.pass
  | .woken t => t + p.lag + p.pass
  | .reading t => t + p.pass + p.batch + 4 * p.lag + cfg.delay + p.pass

/-- What a step of `Model.lean` is here. -/
theorem timed_fire {a : Act} (hs : timed cfg gc p T (.fire a) = some T') :
    (a = .wake ∧ ∃ t s', T.mode = .woken t ∧ act cfg gc T.s .wake = some s' ∧
      T' = { T with s := s', mode := .reading T.now }) ∨
    (a ≠ .wake ∧ (a.clock = none ∨ a.clock = some T.now) ∧ T.s.col = .waiting ∧
      ∃ s', act cfg gc T.s a = some s' ∧ T' = { T with s := s' }) ∨
    (a ≠ .wake ∧ (a.clock = none ∨ a.clock = some T.now) ∧ T.s.col ≠ .waiting ∧
      ∃ s', act cfg gc T.s a = some s' ∧ T' = T.goOn p s') := by
  by_cases ha : a = .wake
  · subst ha
    left
    refine ⟨rfl, ?_⟩
    simp only [timed] at hs
    split at hs
    · rename_i t hm
      cases hw : act cfg gc T.s .wake with
      | none => rw [hw] at hs; cases hs
      | some s' => rw [hw] at hs; cases hs; exact ⟨t, s', hm, rfl, rfl⟩
    · cases hs
  · right
    have hs' : (if a.clock = none ∨ a.clock = some T.now then
      match T.s.col with
      | .waiting => (act cfg gc T.s a).map (fun s' => { T with s := s' })
      | _ => (act cfg gc T.s a).map (T.goOn p)
      else none) = some T' := by
      cases a <;> first | exact absurd rfl ha | exact hs
    by_cases hk : a.clock = none ∨ a.clock = some T.now
    · rw [if_pos hk] at hs'
      by_cases hc : T.s.col = .waiting
      · left
        rw [hc] at hs'
        dsimp only at hs'
        cases hw : act cfg gc T.s a with
        | none => rw [hw] at hs'; cases hs'
        | some s' => rw [hw] at hs'; cases hs'; exact ⟨ha, hk, hc, s', rfl, rfl⟩
      · right
        cases hw : act cfg gc T.s a with
        | none => rw [hw] at hs'; split at hs' <;> cases hs'
        | some s' =>
          rw [hw] at hs'
          split at hs'
          · rename_i h; exact absurd h hc
          · cases hs'; exact ⟨ha, hk, hc, s', rfl, rfl⟩
    · rw [if_neg hk] at hs'; cases hs'

theorem goOn_waiting (h : s'.col = .waiting) :
    T.goOn p s' = { T with s := s', mode := .asleep (T.now + p.batch) } := by
  unfold Timed.goOn; rw [h]

theorem goOn_other (h : s'.col ≠ .waiting) : T.goOn p s' = { T with s := s' } := by
  unfold Timed.goOn
  split
  · rename_i h'; exact absurd h' h
  · rfl

/-- The others do not make the collector begin a pass, and while it waits it does nothing else. -/
theorem waiting_stays {a : Act} (ha : a ≠ .wake) (hc : s.col = .waiting) (hs : act cfg gc s a = some s') :
    s'.col = .waiting ∧ s'.lastSeq = s.lastSeq ∧ s'.hist = s.hist := by
  cases hk : a.collects with
  | false =>
    have h := act_leaves a hs hk
    exact ⟨h.col.trans hc, h.lastSeq, h.hist⟩
  | true =>
    cases a <;> first
      | (cases hk; done)
      | exact absurd rfl ha
      | (simp only [Fire.act, hc] at hs; cases hs)

theorem Timely.step (h : Timely cfg p T) (hd : 0 ≤ cfg.delay) (a : TAct) (hs : timed cfg gc p T a = some T') :
    Timely cfg p T' := by
  have hb := p.batch_nonneg
  have hl := p.lag_nonneg
  have hp := p.pass_nonneg
  obtain ⟨hcol, h1, h2, h3, h4, h5, h6⟩ := h
  cases a with
  | tick d =>
    simp only [timed] at hs
    split at hs
    · rename_i hk
      cases hs
      refine ⟨hcol, hk.2, ?_, ?_, ?_, ?_, ?_⟩
      · intro u hu; have := h2 u hu; dsimp only; omega
      · intro u hu; have := h3 u hu; dsimp only; omega
      · intro u hu; have := h4 u hu; dsimp only; omega
      · intro u hu; have := h5 u hu; dsimp only; omega
      · intro u hu; have := h6 u hu; dsimp only; omega
    · cases hs
  | notify =>
    simp only [timed, Timed.notify] at hs
    cases hs
    split
    · rename_i u hm
      refine ⟨?_, ?_, ?_, ?_, ?_, ?_, ?_⟩
      · dsimp only
        rw [hcol, hm]
        exact ⟨fun _ _ h => (nomatch h), fun _ _ h => (nomatch h)⟩
      · show T.now ≤ T.now + p.lag; omega
      all_goals (intro u hu; cases hu)
      exact Int.le_refl _
    · exact ⟨hcol, h1, h2, h3, h4, h5, h6⟩
  | rise =>
    simp only [timed] at hs
    split at hs
    · rename_i u hm
      split at hs
      · cases hs
        refine ⟨?_, ?_, ?_, ?_, ?_, ?_, ?_⟩
        · dsimp only
          rw [hcol, hm]
          exact ⟨fun _ _ h => (nomatch h), fun _ _ h => (nomatch h)⟩
        · show T.now ≤ T.now + p.lag; omega
        all_goals (intro u hu; cases hu)
        exact Int.le_refl _
      · cases hs
    · cases hs
  | block =>
    simp only [timed] at hs
    split at hs
    · rename_i u hm
      cases hs
      refine ⟨?_, ?_, ?_, ?_, ?_, ?_, ?_⟩
      · dsimp only
        rw [hcol, hm]
        exact ⟨fun _ _ h => (nomatch h), fun _ _ h => (nomatch h)⟩
      · show T.now ≤ T.now + cfg.delay + p.lag; omega
      all_goals (intro u hu; cases hu)
      exact Int.le_refl _
    · cases hs
  | timeout =>
    simp only [timed] at hs
    split at hs
    · rename_i u hm
      split at hs
      · cases hs
        refine ⟨?_, ?_, ?_, ?_, ?_, ?_, ?_⟩
        · dsimp only
          rw [hcol, hm]
          exact ⟨fun _ _ h => (nomatch h), fun _ _ h => (nomatch h)⟩
        · show T.now ≤ T.now + p.lag; omega
        all_goals (intro u hu; cases hu)
        exact Int.le_refl _
      · cases hs
    · cases hs
  | fire a =>
    rcases timed_fire hs with ⟨_, t, s', hm, hw, rfl⟩ | ⟨ha, _, hc, s', hw, rfl⟩ | ⟨ha, _, hc, s', hw, rfl⟩
    · refine ⟨?_, ?_, ?_, ?_, ?_, ?_, ?_⟩
      · dsimp only
        simp only [Fire.act] at hw
        split at hw
        · cases hw
          exact ⟨fun h => (nomatch h), fun h => absurd rfl (h _)⟩
        · cases hw
      · show T.now ≤ T.now + p.pass; omega
      all_goals (intro u hu; cases hu)
      exact Int.le_refl _
    · refine ⟨?_, h1, h2, h3, h4, h5, h6⟩
      have h := (waiting_stays ha hc hw).1
      exact ⟨fun _ => hcol.1 hc, fun _ => h⟩
    · by_cases hc' : s'.col = .waiting
      · rw [goOn_waiting hc']
        refine ⟨?_, ?_, ?_, ?_, ?_, ?_, ?_⟩
        · exact ⟨fun _ _ h => (nomatch h), fun _ => hc'⟩
        · show T.now ≤ T.now + p.batch + p.lag; omega
        all_goals (intro u hu; cases hu)
        exact Int.le_refl _
      · rw [goOn_other hc']
        refine ⟨?_, h1, h2, h3, h4, h5, h6⟩
        exact ⟨fun h => absurd h hc', fun h => absurd (hcol.2 h) hc⟩

theorem Runs.timely (h : Runs cfg gc p clean T₀ T) (hd : 0 ≤ cfg.delay) (h0 : Timely cfg p T₀) : Timely cfg p T := by
  induction h with
  | refl => exact h0
  | step a _ hs _ _ ih => exact ih.step hd a hs

/-- The steps here are steps there. -/
theorem timed_s {a : TAct} (hs : timed cfg gc p T a = some T') :
    T'.s = T.s ∨ ∃ a', a = .fire a' ∧ act cfg gc T.s a' = some T'.s := by
  cases a with
  | fire a =>
    right
    rcases timed_fire hs with ⟨rfl, t, s', hm, hw, rfl⟩ | ⟨ha, _, hc, s', hw, rfl⟩ | ⟨ha, _, hc, s', hw, rfl⟩
    · exact ⟨_, rfl, hw⟩
    · exact ⟨_, rfl, hw⟩
    · refine ⟨_, rfl, ?_⟩
      by_cases hc' : s'.col = .waiting
      · rw [goOn_waiting hc']; exact hw
      · rw [goOn_other hc']; exact hw
  | tick d => simp only [timed] at hs; split at hs <;> cases hs; exact .inl rfl
  | notify =>
    simp only [timed, Timed.notify] at hs
    cases hs
    split <;> exact .inl rfl
  | rise =>
    simp only [timed] at hs
    repeat' (first | (split at hs) | (cases hs; done))
    cases hs; exact .inl rfl
  | block =>
    simp only [timed] at hs
    repeat' (first | (split at hs) | (cases hs; done))
    cases hs; exact .inl rfl
  | timeout =>
    simp only [timed] at hs
    repeat' (first | (split at hs) | (cases hs; done))
    cases hs; exact .inl rfl

theorem Runs.reach (h : Runs cfg gc p clean T₀ T) (h0 : Reach cfg gc T₀.s) : Reach cfg gc T.s := by
  induction h with
  | refl => exact h0
  | step a _ hs _ _ ih =>
    rcases timed_s hs with h1 | ⟨a', _, h1⟩
    · rw [h1]; exact ih
    · exact ih.step a' h1

theorem Timed.Reached.reach (h : T.Reached cfg gc p) : Reach cfg gc T.s := by
  obtain ⟨stored, events, last, now, h1, h2⟩ := h
  exact h2.reach (.init now h1)

theorem Timed.Reached.timely (h : T.Reached cfg gc p) (hd : 0 ≤ cfg.delay) : Timely cfg p T := by
  have hl := p.lag_nonneg
  obtain ⟨stored, events, last, now, h1, h2⟩ := h
  refine h2.timely hd ⟨?_, ?_, ?_, ?_, ?_, ?_, ?_⟩
  · exact ⟨fun _ _ h => (nomatch h), fun _ => rfl⟩
  · show now ≤ now + p.lag; omega
  all_goals (intro u hu; cases hu)
  exact Int.le_refl _

/-- What is stored only grows, at the front. -/
theorem act_suffix (a : Act) (hs : act cfg gc s a = some s') : s.stored <:+ s'.stored := by
  cases a <;>
    (simp only [Fire.act] at hs
     repeat' (first | (split at hs) | (cases hs; done))
     all_goals (cases hs; (try unfold State.merge); (try unfold State.handoff); (repeat' split) <;>
       first | exact List.suffix_rfl | exact List.suffix_cons _ _))

theorem Runs.grows (h : Runs cfg gc p clean T₀ T) : T₀.s.stored <:+ T.s.stored ∧ T₀.s.lastSeq ≤ T.s.lastSeq ∧
    ∀ n ∈ T₀.s.lost, n ∈ T.s.lost := by
  induction h with
  | refl => exact ⟨List.suffix_rfl, Nat.le_refl _, fun _ h => h⟩
  | step a _ hs _ _ ih =>
    rcases timed_s hs with h1 | ⟨a', _, h1⟩
    · rw [h1]; exact ih
    · exact ⟨ih.1.trans (act_suffix a' h1), Nat.le_trans ih.2.1 (act_emits a' h1).lastSeq,
        fun n hn => (act_emits a' h1).lost n (ih.2.2 n hn)⟩

/-- A scan is never ahead of the last event emitted. -/
theorem Reach.pos (h : Reach cfg gc s) : ∀ sc, s.col = .scanning sc → sc.pos ≤ s.lastSeq + 1 := by
  induction h with
  | init => intro sc h; cases h
  | step a hr hs ih =>
    rename_i s s'
    have hsound := hr.sound
    cases hk : a.collects with
    | false =>
      have h := act_leaves a hs hk
      intro sc hsc
      rw [h.col] at hsc
      rw [h.lastSeq]
      exact ih sc hsc
    | true =>
      intro sc hsc
      cases a <;> first | (cases hk; done) | simp only [Fire.act] at hs
      all_goals (repeat' (first | (split at hs) | (cases hs; done)))
      all_goals (cases hs; first | (cases hsc; done) | skip)
      · cases hsc; exact Nat.le_refl _
      · rename_i sc0 e hcol _ hv
        cases hsc
        rw [hcol] at hsound
        have := verdict_skip hv
        have := hsound.1
        dsimp only
        omega
      · rename_i sc0 e k hcol _ hk
        cases hsc
        rw [hcol] at hsound
        have := hsound.1
        have := hsound.2
        dsimp only
        omega

/-- An event that has just been stored, with all before it. -/
structure Fresh (s : State) (e : Ev) : Prop where
  stored : e ∈ s.stored
  ahead : s.lastSeq < e.seq
  newest : ∀ x ∈ s.stored, x.seq ≤ e.seq
  gapless : ∀ n, s.lastSeq < n → n < e.seq → n ∈ s.lost ∨ ∃ x ∈ s.stored, x.seq = n

/-- Where the event is: emitted, in a pass that began since, or still to come. -/
inductive Coming (cfg : Cfg) (gc : Bool) (p : Pace) (D : Int) (e : Ev) (T : Timed) : Prop
  | emitted (h : e ∈ T.s.hist)
  | taken (t : Int) (sc : Scan) (hm : T.mode = .reading t) (h : T.s.col = .taken sc e) (hd : t + p.pass ≤ D)
  | inPass (t : Int) (s₀ : State) (hm : T.mode = .reading t) (hd : t + p.pass ≤ D) (hp : Pass cfg gc true s₀ T.s)
      (hr : Reach cfg gc s₀) (he : e ∈ s₀.stored) (hl : s₀.lastSeq < e.seq)
      (hn : ∀ n, s₀.lastSeq < n → n < e.seq → n ∈ s₀.lost ∨ ∃ x ∈ s₀.stored, x.seq = n)
  | before (hd : T.mode.latest cfg p ≤ D) (hl : T.s.lastSeq < e.seq)
      (hg : ∀ sc f, T.s.col = .got sc f → f.seq ≤ e.seq)

theorem hist_keeps {a : Act} (hs : act cfg gc s a = some s') {e : Ev} (he : e ∈ s.hist) : e ∈ s'.hist := by
  rcases (act_emits a hs).hist with h1 | ⟨_, _, _, _, h1⟩
  · rw [h1]; exact he
  · rw [h1]; exact List.mem_append_left _ he

/-- Time alone, and the waiting, bring the next pass nearer. -/
theorem latest_nonfire {a : TAct} (hs : timed cfg gc p T a = some T') (hT : Timely cfg p T) (ha : ∀ a', a ≠ .fire a') :
    T'.mode.latest cfg p ≤ T.mode.latest cfg p ∧ (∀ t, T.mode = .reading t → T'.mode = .reading t) := by
  have hb := p.batch_nonneg
  have hl := p.lag_nonneg
  have hsoon := hT.soon
  cases a with
  | fire a => exact absurd rfl (ha a)
  | tick d =>
    simp only [timed] at hs; split at hs <;> cases hs; exact ⟨Int.le_refl _, fun _ h => h⟩
  | notify =>
    simp only [timed, Timed.notify] at hs
    cases hs
    split
    · rename_i u hm
      rw [hm] at hsoon ⊢
      simp only [Mode.leaves] at hsoon
      refine ⟨?_, fun _ h => (nomatch h)⟩
      simp only [Mode.latest]
      omega
    · exact ⟨Int.le_refl _, fun _ h => h⟩
  | rise =>
    simp only [timed] at hs
    repeat' (first | (split at hs) | (cases hs; done))
    rename_i u hm _
    cases hs
    rw [hm] at hsoon ⊢
    simp only [Mode.leaves] at hsoon
    refine ⟨?_, fun _ h => (nomatch h)⟩
    simp only [Mode.latest]
    omega
  | block =>
    simp only [timed] at hs
    repeat' (first | (split at hs) | (cases hs; done))
    rename_i u hm
    cases hs
    rw [hm] at hsoon ⊢
    simp only [Mode.leaves] at hsoon
    refine ⟨?_, fun _ h => (nomatch h)⟩
    simp only [Mode.latest]
    omega
  | timeout =>
    simp only [timed] at hs
    repeat' (first | (split at hs) | (cases hs; done))
    rename_i u hm _
    cases hs
    rw [hm] at hsoon ⊢
    simp only [Mode.leaves] at hsoon
    refine ⟨?_, fun _ h => (nomatch h)⟩
    simp only [Mode.latest]
    omega

theorem Runs.coming {e : Ev} (h : Runs cfg gc p true T₀ T) (hd : 0 ≤ cfg.delay) (hT : Timely cfg p T₀)
    (hr : Reach cfg gc T₀.s) (he : Fresh T₀.s e) : Coming cfg gc p (T₀.mode.latest cfg p) e T := by
  have hb := p.batch_nonneg
  have hl := p.lag_nonneg
  have hps := p.pass_nonneg
  obtain ⟨D, hD⟩ : ∃ D, D = T₀.mode.latest cfg p := ⟨_, rfl⟩
  rw [← hD]
  induction h with
  | refl =>
    exact .before (Int.le_of_eq hD.symm) he.ahead (fun sc f hf => he.newest f (hr.inv.core.got sc f hf))
  | step a h hs hh hcl ih =>
    rename_i T T'
    have hT1 := h.timely hd hT
    have hr1 := h.reach hr
    have hg := h.grows
    have hin : e ∈ T.s.stored := hg.1.subset he.stored
    by_cases hf : ∀ a', a ≠ .fire a'
    · have hs1 : T'.s = T.s := by
        rcases timed_s hs with h1 | ⟨a', h1, _⟩
        · exact h1
        · exact absurd h1 (hf a')
      obtain ⟨hm1, hm2⟩ := latest_nonfire hs hT1 hf
      cases ih with
      | emitted h1 => exact .emitted (by rw [hs1]; exact h1)
      | taken t sc hm h1 h2 => exact .taken t sc (hm2 t hm) (by rw [hs1]; exact h1) h2
      | inPass t s₀ hm h1 h2 h3 h4 h5 h6 =>
        exact .inPass t s₀ (hm2 t hm) h1 (by rw [hs1]; exact h2) h3 h4 h5 h6
      | before h1 h2 h3 => exact .before (Int.le_trans hm1 h1) (by rw [hs1]; exact h2) (by rw [hs1]; exact h3)
    · obtain ⟨b, rfl⟩ : ∃ b, a = .fire b := by
        by_contra hx
        exact hf (fun a' ha' => hx ⟨a', ha'⟩)
      have hnf : (∀ now, b ≠ .fail now) ∧ ∀ now, b ≠ .crash now :=
        ⟨fun now hx => (hcl rfl).1 now (by rw [hx]), fun now hx => (hcl rfl).2 now (by rw [hx])⟩
      have hon := hh b rfl
      rcases timed_fire hs with ⟨rfl, t, s', hm, hw, rfl⟩ | ⟨ha, -, hc, s', hw, rfl⟩ | ⟨ha, -, hc, s', hw, rfl⟩
      · cases ih with
        | emitted h1 => exact .emitted (hist_keeps hw h1)
        | taken t' sc hm' => rw [hm] at hm'; cases hm'
        | inPass t' s₀ hm' => rw [hm] at hm'; cases hm'
        | before h1 h2 h3 =>
          refine .inPass T.now T.s rfl ?_ (.wake hw) hr1 hin h2 ?_
          · have := hT1.soon
            rw [hm] at this h1
            simp only [Mode.leaves] at this
            simp only [Mode.latest] at h1
            omega
          · intro n hn1 hn2
            rcases he.gapless n (Nat.lt_of_le_of_lt hg.2.1 hn1) hn2 with h4 | ⟨x, h4, h5⟩
            · exact .inl (hg.2.2 n h4)
            · exact .inr ⟨x, hg.1.subset h4, h5⟩
      · have hk := waiting_stays ha hc hw
        cases ih with
        | emitted h1 => exact .emitted (hist_keeps hw h1)
        | taken t' sc hm' h1 => rw [hc] at h1; cases h1
        | inPass t' s₀ hm' => exact absurd hm' (hT1.col.1 hc t')
        | before h1 h2 h3 =>
          exact .before h1 (by rw [hk.2.1]; exact h2) (fun sc f hf' => by rw [hk.1] at hf'; cases hf')
      · have hmode : ∃ t, T.mode = .reading t := by
          by_contra hx
          exact hc (hT1.col.2 (fun t ht => hx ⟨t, ht⟩))
        have hkeep : ∀ {x : State} (q : x.col ≠ .waiting), (T.goOn p x).mode = T.mode := fun q => by
          rw [goOn_other q]
        have hgs : ∀ x : State, (T.goOn p x).s = x := fun x => by
          by_cases q : x.col = .waiting
          · rw [goOn_waiting q]
          · rw [goOn_other q]
        have hsoon := hT1.soon
        cases ih with
        | emitted h1 => exact .emitted (by rw [hgs]; exact hist_keeps hw h1)
        | taken t sc hm h1 h2 =>
          rcases (act_emits b hw).taken sc e h1 with ⟨h3, _⟩ | ⟨_, h3, _⟩ | ⟨now, h3⟩
          · refine .taken t sc ?_ (by rw [hgs]; exact h3) h2
            rw [hkeep (by rw [h3]; exact fun h => (nomatch h))]; exact hm
          · exact .emitted (by rw [hgs, h3]; simp)
          · exact absurd h3 (hnf.2 now)
        | inPass t s₀ hm h1 h2 h3 h4 h5 h6 =>
          have hpass : Pass cfg gc true s₀ s' := .step b h2 hw hc (fun _ => hnf)
          by_cases q : s'.col = .waiting
          · rcases hpass.due h3 h4 h5 h6 with h7 | h7
            · exact .emitted (by rw [hgs]; exact h7)
            · rw [q] at h7; exact absurd h7 id
          · exact .inPass t s₀ (by rw [hkeep q]; exact hm) h1 (by rw [hgs]; exact hpass) h3 h4 h5 h6
        | before h1 h2 h3 =>
          obtain ⟨t, hm⟩ := hmode
          rw [hm] at h1 hsoon
          simp only [Mode.latest] at h1
          simp only [Mode.leaves] at hsoon
          have hlat : (T.goOn p s').mode.latest cfg p ≤ D := by
            by_cases q : s'.col = .waiting
            · rw [goOn_waiting q]
              simp only [Mode.latest]
              omega
            · rw [hkeep q, hm]
              simp only [Mode.latest]
              omega
          have fin : s'.lastSeq < e.seq → (∀ sc f, s'.col = .got sc f → f.seq ≤ e.seq) →
              Coming cfg gc p D e (T.goOn p s') := fun q1 q2 =>
            .before hlat (by rw [hgs]; exact q1) (by rw [hgs]; exact q2)
          cases hk : b.collects with
          | false =>
            have h4 := act_leaves b hw hk
            exact fin (by rw [h4.lastSeq]; exact h2) (by rw [h4.col]; exact h3)
          | true =>
            cases b <;> first | (cases hk; done) | simp only [Fire.act] at hw
            case wake => exact absurd rfl ha
            case fail now => exact absurd rfl (hnf.1 now)
            case crash now => exact absurd rfl (hnf.2 now)
            case read f =>
              split at hw
              · rename_i sc hcol
                split at hw
                · cases hw
                  refine fin h2 ?_
                  intro sc' f' hf'
                  cases hf'
                  obtain ⟨u, hu1, hu2, hu3⟩ := hon f sc rfl hcol
                  rcases List.suffix_or_suffix_of_suffix hu1 hg.1 with h5 | h5
                  · exact he.newest f (h5.subset hu2)
                  · exact hu3 e (h5.subset he.stored) (Nat.le_trans (hr1.pos sc hcol) h2)
                · cases hw
              · cases hw
            case readEnd =>
              split at hw
              · split at hw
                · cases hw
                  exact fin h2 (fun _ _ h => (nomatch h))
                · cases hw
              · cases hw
            case decide now =>
              split at hw
              · rename_i sc f hcol
                split at hw
                · cases hw; exact fin h2 (fun _ _ h => (nomatch h))
                · cases hw; exact fin h2 (fun _ _ h => (nomatch h))
                · cases hw
                  have hfe := h3 sc f hcol
                  rcases Nat.lt_or_eq_of_le hfe with h5 | h5
                  · exact fin h5 (fun _ _ h => (nomatch h))
                  · have h6 : f = e := eq_of_seq hr1.inv.core.distinct (hr1.inv.core.got sc f hcol) hin h5
                    subst h6
                    refine .taken t sc ?_ (by rw [hgs]) ?_
                    · rw [hkeep (fun h => by cases h)]; exact hm
                    · omega
              · cases hw
            case append =>
              split at hw
              · cases hw; exact fin h2 (fun _ _ h => (nomatch h))
              · cases hw
            case give =>
              split at hw
              · split at hw
                · cases hw; exact fin h2 (fun _ _ h => (nomatch h))
                · cases hw; exact fin h2 (fun _ _ h => (nomatch h))
              · cases hw

/-- The event is emitted by then. -/
theorem Runs.emitted {e : Ev} (h : Runs cfg gc p true T₀ T) (hd : 0 ≤ cfg.delay) (hT : Timely cfg p T₀)
    (hr : Reach cfg gc T₀.s) (he : Fresh T₀.s e) (hn : T₀.mode.latest cfg p < T.now) : e ∈ T.s.hist := by
  have hb := p.batch_nonneg
  have hl := p.lag_nonneg
  have hps := p.pass_nonneg
  have hsoon := (h.timely hd hT).soon
  have hcm := h.coming hd hT hr he
  generalize T₀.mode.latest cfg p = D at hcm hn
  cases hcm with
  | emitted h1 => exact h1
  | taken t sc hm _ h2 =>
    rw [hm] at hsoon
    simp only [Mode.leaves] at hsoon
    omega
  | inPass t s₀ hm h2 =>
    rw [hm] at hsoon
    simp only [Mode.leaves] at hsoon
    omega
  | before h1 =>
    cases hm : T.mode <;> rw [hm] at hsoon h1 <;> simp only [Mode.leaves] at hsoon <;>
      simp only [Mode.latest] at h1 <;> omega

end Arroba.Fire
