import Verif.Firehose.WakeProofs
import Verif.Firehose.ProgressProofs
import Mathlib.Tactic.Linarith

/-! Helper lemmas: how soon the collector emits an event when sequence numbers before it are missing. -/

namespace Arroba.Fire

variable {cfg : Cfg} {gc clean : Bool} {p : Pace} {T T' T₀ T₁ : Timed} {s s' : State}

theorem Runs.trans (h : Runs cfg gc p clean T₀ T₁) (h' : Runs cfg gc p clean T₁ T) : Runs cfg gc p clean T₀ T := by
  induction h' with
  | refl => exact h
  | step a _ hs hh hc ih => exact .step a ih hs hh hc

/-- The clock does not go back. -/
theorem timed_now {a : TAct} (hs : timed cfg gc p T a = some T') :
    T.now ≤ T'.now ∧ ((∃ a', a = .fire a') → T'.now = T.now) := by
  cases a with
  | fire a =>
    have : T'.now = T.now := by
      rcases timed_fire hs with ⟨_, t, s', hm, hw, rfl⟩ | ⟨ha, _, hc, s', hw, rfl⟩ | ⟨ha, _, hc, s', hw, rfl⟩
      · rfl
      · rfl
      · by_cases hc' : s'.col = .waiting
        · rw [goOn_waiting hc']
        · rw [goOn_other hc']
    exact ⟨Int.le_of_eq this.symm, fun _ => this⟩
  | tick d =>
    simp only [timed] at hs
    split at hs
    · rename_i h
      cases hs
      exact ⟨by dsimp only; omega, fun ⟨_, h⟩ => (nomatch h)⟩
    · cases hs
  | notify =>
    simp only [timed, Timed.notify] at hs
    cases hs
    refine ⟨?_, fun ⟨_, h⟩ => (nomatch h)⟩
    split <;> exact Int.le_refl _
  | rise =>
    simp only [timed] at hs
    repeat' (first | (split at hs) | (cases hs; done))
    cases hs; exact ⟨Int.le_refl _, fun ⟨_, h⟩ => (nomatch h)⟩
  | block =>
    simp only [timed] at hs
    repeat' (first | (split at hs) | (cases hs; done))
    cases hs; exact ⟨Int.le_refl _, fun ⟨_, h⟩ => (nomatch h)⟩
  | timeout =>
    simp only [timed] at hs
    repeat' (first | (split at hs) | (cases hs; done))
    cases hs; exact ⟨Int.le_refl _, fun ⟨_, h⟩ => (nomatch h)⟩

/-- `last_event` is not in the future. -/
theorem act_lastEvent_le {a : Act} {now : Int} (hs : act cfg gc s a = some s')
    (hk : a.clock = none ∨ a.clock = some now) (h : s.lastEvent ≤ now) : s'.lastEvent ≤ now := by
  cases a
  case decide n =>
    have hn : n = now := by rcases hk with h1 | h1 <;> cases h1; rfl
    subst hn
    simp only [Fire.act] at hs
    repeat' (first | (split at hs) | (cases hs; done))
    all_goals (cases hs; first | exact h | exact Int.le_refl _)
  case fail n =>
    have hn : n = now := by rcases hk with h1 | h1 <;> cases h1; rfl
    subst hn
    simp only [Fire.act] at hs
    repeat' (first | (split at hs) | (cases hs; done))
    all_goals (cases hs; exact Int.le_refl _)
  case crash n =>
    have hn : n = now := by rcases hk with h1 | h1 <;> cases h1; rfl
    subst hn
    simp only [Fire.act] at hs
    repeat' (first | (split at hs) | (cases hs; done))
    all_goals (cases hs; exact Int.le_refl _)
  all_goals
    (simp only [Fire.act] at hs
     repeat' (first | (split at hs) | (cases hs; done))
     all_goals (cases hs; (try unfold State.merge); (try unfold State.handoff); (repeat' split) <;> exact h))

theorem Runs.lastEvent (h : Runs cfg gc p clean T₀ T) (h0 : T₀.s.lastEvent ≤ T₀.now) : T.s.lastEvent ≤ T.now := by
  induction h with
  | refl => exact h0
  | step a _ hs _ _ ih =>
    rename_i T T' _
    have hn := timed_now hs
    rcases timed_s hs with h1 | ⟨a', rfl, h1⟩
    · rw [h1]; exact Int.le_trans ih hn.1
    · rw [hn.2 ⟨a', rfl⟩]
      refine act_lastEvent_le h1 ?_ ih
      rcases timed_fire hs with ⟨rfl, _⟩ | ⟨_, hk, _⟩ | ⟨_, hk, _⟩
      · exact .inl rfl
      · exact hk
      · exact hk

theorem Timed.Reached.lastEvent (h : T.Reached cfg gc p) : T.s.lastEvent ≤ T.now := by
  obtain ⟨stored, events, last, now, _, h2⟩ := h
  exact h2.lastEvent (Int.le_refl _)

/-- The collector has emitted something since, or is about to. -/
def Nears (cfg : Cfg) (gc : Bool) (p : Pace) (T₀ : Timed) (D : Int) (e : Ev) (T : Timed) : Prop :=
  T₀.s.lastSeq < T.s.lastSeq ∨ (T.s.lastSeq = T₀.s.lastSeq ∧ T.s.lastEvent = T₀.s.lastEvent ∧
    (T.mode.latest cfg p ≤ D ∨ ∃ t s₀, T.mode = .reading t ∧ t + p.pass ≤ D ∧ T₀.now + cfg.delay < t ∧
      Round cfg gc true s₀ T.s ∧ Reach cfg gc s₀ ∧ e ∈ s₀.stored ∧ s₀.lastSeq = T₀.s.lastSeq ∧
      s₀.lastEvent = T₀.s.lastEvent))

theorem Runs.nears {e : Ev} (h : Runs cfg gc p true T₀ T) (hd : 0 ≤ cfg.delay) (hT : Timely cfg p T₀)
    (hr : Reach cfg gc T₀.s) (hev : T₀.s.lastEvent ≤ T₀.now) (he : e ∈ T₀.s.stored) (hl : T₀.s.lastSeq < e.seq)
    {D : Int} (hD : D = T₀.now + (2 * cfg.delay + 2 * p.pass + p.batch + 4 * p.lag)) : Nears cfg gc p T₀ D e T := by
  have hb := p.batch_nonneg
  have hlg := p.lag_nonneg
  have hps := p.pass_nonneg
  induction h with
  | refl =>
    refine .inr ⟨rfl, rfl, .inl ?_⟩
    cases hm : T₀.mode with
    | asleep u => have := hT.asleep u hm; simp only [Mode.latest]; omega
    | ready t => have := hT.ready t hm; simp only [Mode.latest]; omega
    | blocked u => have := hT.blocked u hm; simp only [Mode.latest]; omega
    | woken t => have := hT.woken t hm; simp only [Mode.latest]; omega
    | reading t => have := hT.reading t hm; simp only [Mode.latest]; omega
  | step a h hs hh hcl ih =>
    rename_i T T'
    have hT1 := h.timely hd hT
    have hr1 := h.reach hr
    have hin : e ∈ T.s.stored := h.grows.1.subset he
    have hsoon := hT1.soon
    rcases ih with ih | ⟨ih1, ih2, ih3⟩
    · left
      rcases timed_s hs with h1 | ⟨a', _, h1⟩
      · rw [h1]; exact ih
      · exact Nat.lt_of_lt_of_le ih (act_emits a' h1).lastSeq
    by_cases hadv : T₀.s.lastSeq < T'.s.lastSeq
    · exact .inl hadv
    right
    by_cases hf : ∀ a', a ≠ .fire a'
    · have hs1 : T'.s = T.s := by
        rcases timed_s hs with h1 | ⟨a', h1, _⟩
        · exact h1
        · exact absurd h1 (hf a')
      obtain ⟨hm1, hm2⟩ := latest_nonfire hs hT1 hf
      rw [hs1]
      refine ⟨ih1, ih2, ?_⟩
      rcases ih3 with h1 | ⟨t, s₀, h1, h2⟩
      · exact .inl (Int.le_trans hm1 h1)
      · exact .inr ⟨t, s₀, hm2 t h1, h2⟩
    · obtain ⟨b, rfl⟩ : ∃ b, a = .fire b := by
        by_contra hx
        exact hf (fun a' ha' => hx ⟨a', ha'⟩)
      have hnf : (∀ now, b ≠ .fail now) ∧ ∀ now, b ≠ .crash now :=
        ⟨fun now hx => (hcl rfl).1 now (by rw [hx]), fun now hx => (hcl rfl).2 now (by rw [hx])⟩
      obtain ⟨b', hb', hact⟩ : ∃ b', TAct.fire b = .fire b' ∧ act cfg gc T.s b' = some T'.s := by
        rcases timed_s hs with h1 | h1
        · rcases timed_fire hs with ⟨rfl, t, s', hm, hw, rfl⟩ | ⟨ha, _, hc, s', hw, rfl⟩ | ⟨ha, _, hc, s', hw, rfl⟩
          · exact ⟨_, rfl, hw⟩
          · exact ⟨_, rfl, hw⟩
          · refine ⟨_, rfl, ?_⟩
            by_cases hc' : s'.col = .waiting
            · rw [goOn_waiting hc']; exact hw
            · rw [goOn_other hc']; exact hw
        · exact h1
      cases hb'
      have hmono := (act_emits b hact).lastSeq
      have hseq : T'.s.lastSeq = T₀.s.lastSeq := by omega
      have hlev : T'.s.lastEvent = T₀.s.lastEvent := by
        rcases act_lastEvent b hact hnf.1 hnf.2 with h4 | h4
        · rw [h4, ih2]
        · omega
      refine ⟨hseq, hlev, ?_⟩
      rcases timed_fire hs with ⟨rfl, t, s', hm, hw, rfl⟩ | ⟨ha, hk, hc, s', hw, rfl⟩ | ⟨ha, hk, hc, s', hw, rfl⟩
      · by_cases hx : T.now ≤ T₀.now + cfg.delay
        · left
          simp only [Mode.latest]
          omega
        · right
          refine ⟨T.now, T.s, rfl, ?_, by omega, .wake hw, hr1, hin, ih1, ih2⟩
          rcases ih3 with h1 | ⟨t', s₀, h1, _⟩
          · rw [hm] at h1 hsoon
            simp only [Mode.latest] at h1
            simp only [Mode.leaves] at hsoon
            omega
          · rw [hm] at h1; cases h1
      · rcases ih3 with h1 | ⟨t', s₀, h1, _⟩
        · exact .inl h1
        · exact absurd h1 (hT1.col.1 hc t')
      · have hgs : ∀ x : State, (T.goOn p x).s = x := fun x => by
          by_cases q : x.col = .waiting
          · rw [goOn_waiting q]
          · rw [goOn_other q]
        rw [hgs] at hact hseq hlev
        rcases ih3 with h1 | ⟨t, s₀, h1, h2, h3, h4, h5, h6, h7, h8⟩
        · left
          obtain ⟨t, hm⟩ : ∃ t, T.mode = .reading t := by
            by_contra hx
            exact hc (hT1.col.2 (fun t ht => hx ⟨t, ht⟩))
          rw [hm] at h1 hsoon
          simp only [Mode.latest] at h1
          simp only [Mode.leaves] at hsoon
          by_cases q : s'.col = .waiting
          · rw [goOn_waiting q]
            simp only [Mode.latest]
            omega
          · rw [goOn_other q, hm]
            simp only [Mode.latest]
            omega
        · right
          have hround : Round cfg gc true s₀ s' := by
            refine .step b h4 hact hc hnf.2 (fun _ => ⟨hnf.1, fun now hn => ?_⟩)
            subst hn
            have : now = T.now := by rcases hk with h9 | h9 <;> cases h9; rfl
            have := hT1.reading t h1
            omega
          have hnw : s'.col ≠ .waiting := by
            rcases hround.advances h5 h6 (by omega) with h9 | ⟨_, _, h9⟩
            · omega
            · exact h9
          exact ⟨t, s₀, by rw [goOn_other hnw]; exact h1, h2, h3, by rw [hgs]; exact hround, h5, h6, h7, h8⟩

/-- What one number costs at most. -/
def Pace.perNumber (cfg : Cfg) (p : Pace) : Int := 2 * cfg.delay + 2 * p.pass + p.batch + 4 * p.lag

theorem Runs.advance {e : Ev} (h : Runs cfg gc p true T₀ T) (hd : 0 ≤ cfg.delay) (hT : Timely cfg p T₀)
    (hr : Reach cfg gc T₀.s) (hev : T₀.s.lastEvent ≤ T₀.now) (he : e ∈ T₀.s.stored) (hl : T₀.s.lastSeq < e.seq)
    (hn : T₀.now + p.perNumber cfg < T.now) : T₀.s.lastSeq < T.s.lastSeq := by
  have hb := p.batch_nonneg
  have hlg := p.lag_nonneg
  have hps := p.pass_nonneg
  have hsoon := (h.timely hd hT).soon
  unfold Pace.perNumber at hn
  obtain ⟨D, hD⟩ : ∃ D, D = T₀.now + (2 * cfg.delay + 2 * p.pass + p.batch + 4 * p.lag) := ⟨_, rfl⟩
  rw [← hD] at hn
  rcases h.nears hd hT hr hev he hl hD with h1 | ⟨_, _, h1 | ⟨t, _, hm, h1, _⟩⟩
  · exact h1
  · exfalso
    cases hm : T.mode <;> rw [hm] at hsoon h1 <;> simp only [Mode.leaves] at hsoon <;>
      simp only [Mode.latest] at h1 <;> omega
  · exfalso
    rw [hm] at hsoon
    simp only [Mode.leaves] at hsoon
    omega

/-- The moment when the next event was emitted. -/
theorem Runs.next {e : Ev} (h : Runs cfg gc p true T₀ T) (hd : 0 ≤ cfg.delay) (hT : Timely cfg p T₀)
    (hr : Reach cfg gc T₀.s) (hev : T₀.s.lastEvent ≤ T₀.now) (he : e ∈ T₀.s.stored) (hl : T₀.s.lastSeq < e.seq)
    (hn : T₀.s.lastSeq < T.s.lastSeq) : ∃ T₁, Runs cfg gc p true T₀ T₁ ∧ Runs cfg gc p true T₁ T ∧
      T₀.s.lastSeq < T₁.s.lastSeq ∧ T₁.now ≤ T₀.now + p.perNumber cfg := by
  induction h with
  | refl => exact absurd hn (Nat.lt_irrefl _)
  | step a h hs hh hcl ih =>
    rename_i T T'
    by_cases h1 : T₀.s.lastSeq < T.s.lastSeq
    · obtain ⟨T₁, g1, g2, g3⟩ := ih h1
      exact ⟨T₁, g1, .step a g2 hs hh hcl, g3⟩
    · refine ⟨T', .step a h hs hh hcl, .refl, hn, ?_⟩
      have h2 : T'.now = T.now := by
        rcases timed_s hs with h3 | ⟨a', h3, _⟩
        · rw [h3] at hn; exact absurd hn h1
        · exact (timed_now hs).2 ⟨a', h3⟩
      rw [h2]
      by_contra h3
      exact h1 (h.advance hd hT hr hev he hl (by omega))

/-- The moment when the collector has got to the event. -/
theorem Runs.arrive {e : Ev} (hd : 0 ≤ cfg.delay) : ∀ (k : Nat) {T₀ : Timed}, Runs cfg gc p true T₀ T →
    Timely cfg p T₀ → Reach cfg gc T₀.s → T₀.s.lastEvent ≤ T₀.now → e ∈ T₀.s.stored → e.seq ≤ T₀.s.lastSeq + k →
    T₀.now + k * p.perNumber cfg < T.now → ∃ T₁, Runs cfg gc p true T₀ T₁ ∧ Runs cfg gc p true T₁ T ∧
      e.seq ≤ T₁.s.lastSeq ∧ T₁.now ≤ T₀.now + k * p.perNumber cfg
  | 0, T₀, h, _, _, _, _, hk, _ => ⟨T₀, .refl, h, hk, by simp⟩
  | k + 1, T₀, h, hT, hr, hev, he, hk, hn => by
    have hb := p.batch_nonneg
    have hlg := p.lag_nonneg
    have hps := p.pass_nonneg
    have hpos : 0 ≤ p.perNumber cfg := by unfold Pace.perNumber; omega
    have hkpos : 0 ≤ (k : Int) * p.perNumber cfg := Int.mul_nonneg (Int.natCast_nonneg k) hpos
    have hexp : ((k + 1 : Nat) : Int) * p.perNumber cfg = k * p.perNumber cfg + p.perNumber cfg := by
      push_cast; linarith
    rw [hexp] at hn ⊢
    by_cases hdone : e.seq ≤ T₀.s.lastSeq
    · exact ⟨T₀, .refl, h, hdone, by omega⟩
    have hl : T₀.s.lastSeq < e.seq := by omega
    obtain ⟨T₁, g1, g2, g3, g4⟩ := h.next hd hT hr hev he hl (h.advance hd hT hr hev he hl (by omega))
    obtain ⟨T₂, f1, f2, f3, f4⟩ := Runs.arrive hd k g2 (g1.timely hd hT) (g1.reach hr) (g1.lastEvent hev)
      (g1.grows.1.subset he) (by omega) (by omega)
    exact ⟨T₂, g1.trans f1, f2, f3, by omega⟩

/-- The newest event is not passed over. -/
def StillDue (e : Ev) (s : State) : Prop :=
  e ∈ s.hist ∨ (∃ sc, s.col = .taken sc e) ∨ (s.lastSeq < e.seq ∧ ∀ sc f, s.col = .got sc f → f.seq ≤ e.seq)

theorem stillDue_step {e : Ev} {a : Act} {old : List Ev} (hs : act cfg gc s a = some s') (hr : Reach cfg gc s)
    (ho : old <:+ s.stored) (he : e ∈ old) (hnew : ∀ x ∈ old, x.seq ≤ e.seq) (hh : a.honest s)
    (hc : ∀ now, a ≠ .crash now) (h : StillDue e s) : StillDue e s' := by
  rcases h with h | ⟨sc, h⟩ | ⟨h1, h2⟩
  · exact .inl (hist_keeps hs h)
  · rcases (act_emits a hs).taken sc e h with ⟨h3, _⟩ | ⟨_, h3, _⟩ | ⟨now, h3⟩
    · exact .inr (.inl ⟨sc, h3⟩)
    · exact .inl (by rw [h3]; simp)
    · exact absurd h3 (hc now)
  · cases hk : a.collects with
    | false =>
      have h4 := act_leaves a hs hk
      exact .inr (.inr ⟨by rw [h4.lastSeq]; exact h1, by rw [h4.col]; exact h2⟩)
    | true =>
      have fin : s'.lastSeq = s.lastSeq → (∀ sc f, s'.col ≠ .got sc f) → StillDue e s' := fun q1 q2 =>
        .inr (.inr ⟨by rw [q1]; exact h1, fun sc f hf => absurd hf (q2 sc f)⟩)
      cases a <;> first | (cases hk; done) | simp only [Fire.act] at hs
      case read f =>
        split at hs
        · rename_i sc hcol
          split at hs
          · cases hs
            refine .inr (.inr ⟨h1, ?_⟩)
            intro sc' f' hf'
            cases hf'
            obtain ⟨u, hu1, hu2, hu3⟩ := hh f sc rfl hcol
            rcases List.suffix_or_suffix_of_suffix hu1 ho with h5 | h5
            · exact hnew f (h5.subset hu2)
            · exact hu3 e (h5.subset he) (Nat.le_trans (hr.pos sc hcol) h1)
          · cases hs
        · cases hs
      case decide now =>
        split at hs
        · rename_i sc f hcol
          split at hs
          · cases hs; exact fin rfl (fun _ _ h => (nomatch h))
          · cases hs; exact fin rfl (fun _ _ h => (nomatch h))
          · cases hs
            rcases Nat.lt_or_eq_of_le (h2 sc f hcol) with h5 | h5
            · exact .inr (.inr ⟨h5, fun _ _ h => (nomatch h)⟩)
            · have h6 : f = e := eq_of_seq hr.inv.core.distinct (hr.inv.core.got sc f hcol) (ho.subset he) h5
              subst h6
              exact .inr (.inl ⟨sc, rfl⟩)
        · cases hs
      all_goals
        (repeat' (first | (split at hs) | (cases hs; done))
         all_goals (cases hs; exact fin rfl (fun _ _ h => (nomatch h))))

theorem Runs.stillDue {e : Ev} (h : Runs cfg gc p true T₀ T) (hr : Reach cfg gc T₀.s) (he : e ∈ T₀.s.stored)
    (hl : T₀.s.lastSeq < e.seq) (hnew : ∀ x ∈ T₀.s.stored, x.seq ≤ e.seq) : StillDue e T.s := by
  induction h with
  | refl => exact .inr (.inr ⟨hl, fun sc f hf => hnew f (hr.inv.core.got sc f hf)⟩)
  | step a h hs hh hcl ih =>
    rcases timed_s hs with h1 | ⟨a', rfl, h1⟩
    · rw [h1]; exact ih
    · exact stillDue_step h1 (h.reach hr) h.grows.1 he hnew (hh a' rfl)
        (fun now hx => (hcl rfl).2 now (by rw [hx])) ih

/-- An event that has been taken is emitted in the same pass. -/
theorem Runs.hands {e : Ev} {sc : Scan} (h : Runs cfg gc p true T₀ T) (hd : 0 ≤ cfg.delay) (hT : Timely cfg p T₀)
    (hc : T₀.s.col = .taken sc e) (hn : T₀.now + p.pass < T.now) : e ∈ T.s.hist := by
  obtain ⟨t, hm⟩ : ∃ t, T₀.mode = .reading t := by
    by_contra hx
    have := hT.col.2 (fun t ht => hx ⟨t, ht⟩)
    rw [hc] at this; cases this
  have key : e ∈ T.s.hist ∨ (T.s.col = .taken sc e ∧ T.mode = .reading t) := by
    clear hn
    induction h with
    | refl => exact .inr ⟨hc, hm⟩
    | step a h hs hh hcl ih =>
      rename_i T T'
      rcases ih with ih | ⟨ih1, ih2⟩
      · left
        rcases timed_s hs with h1 | ⟨a', _, h1⟩
        · rw [h1]; exact ih
        · exact hist_keeps h1 ih
      · by_cases hf : ∀ a', a ≠ .fire a'
        · right
          have hs1 : T'.s = T.s := by
            rcases timed_s hs with h1 | ⟨a', h1, _⟩
            · exact h1
            · exact absurd h1 (hf a')
          exact ⟨by rw [hs1]; exact ih1, (latest_nonfire hs (h.timely hd hT) hf).2 t ih2⟩
        · obtain ⟨b, rfl⟩ : ∃ b, a = .fire b := by
            by_contra hx
            exact hf (fun a' ha' => hx ⟨a', ha'⟩)
          rcases timed_fire hs with ⟨rfl, t', s', hm', hw, rfl⟩ | ⟨ha, hk, hc', s', hw, rfl⟩ | ⟨ha, hk, hc', s', hw, rfl⟩
          · rw [ih2] at hm'; cases hm'
          · rw [ih1] at hc'; cases hc'
          · rcases (act_emits b hw).taken sc e ih1 with ⟨h3, _⟩ | ⟨_, h3, _⟩ | ⟨now, h3⟩
            · right
              rw [goOn_other (by rw [h3]; exact fun h => (nomatch h))]
              exact ⟨h3, ih2⟩
            · left
              by_cases q : s'.col = .waiting
              · rw [goOn_waiting q]; rw [h3]; simp
              · rw [goOn_other q]; rw [h3]; simp
            · exact absurd (by rw [h3]) ((hcl rfl).2 now)
  rcases key with h1 | ⟨_, h1⟩
  · exact h1
  · have h2 := (h.timely hd hT).soon
    have h3 := hT.reading t hm
    rw [h1] at h2
    simp only [Mode.leaves] at h2
    omega

/-- The newest event is emitted by then, whatever is missing before it. -/
theorem Runs.emittedAnyway {e : Ev} (h : Runs cfg gc p true T₀ T) (hd : 0 ≤ cfg.delay) (hT : Timely cfg p T₀)
    (hr : Reach cfg gc T₀.s) (hev : T₀.s.lastEvent ≤ T₀.now) (he : e ∈ T₀.s.stored) (hl : T₀.s.lastSeq < e.seq)
    (hnew : ∀ x ∈ T₀.s.stored, x.seq ≤ e.seq)
    (hn : T₀.now + ((e.seq - T₀.s.lastSeq : Nat) : Int) * p.perNumber cfg + p.pass < T.now) : e ∈ T.s.hist := by
  have hps := p.pass_nonneg
  obtain ⟨T₁, h1, h2, h3, h4⟩ := Runs.arrive (e := e) hd (e.seq - T₀.s.lastSeq) h hT hr hev he (by omega) (by omega)
  rcases h1.stillDue hr he hl hnew with h5 | ⟨sc, h5⟩ | ⟨h5, _⟩
  · clear hn h4 h3
    induction h2 with
    | refl => exact h5
    | step a h2 hs hh hcl ih =>
      have ih := ih (h1.trans h2)
      rcases timed_s hs with h6 | ⟨a', _, h6⟩
      · rw [h6]; exact ih
      · exact hist_keeps h6 ih
  · exact h2.hands hd (h1.timely hd hT) h5 (by omega)
  · omega

end Arroba.Fire
