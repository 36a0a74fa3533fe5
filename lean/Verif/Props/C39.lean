import Verif.Firehose.PassProofs
import Verif.Props.C36

/-!
# C39: the collector only skips what it may skip
-/

namespace Arroba.Fire

variable {cfg : Cfg} {gc : Bool} {s s' : State}

/-- **C39, per event.** If the collector goes on to emit an event, then every number between the last
emitted one and this is marked lost, or more than the skip delay has passed since the last emission
(or the last exception), or the newest number is more than the skip window ahead. -/
theorem C39_skips (now : Int) (h : act cfg gc s (.decide now) = some s') {sc : Scan} {e : Ev}
    (ht : s'.col = .taken sc e) :
    s.lastSeq < e.seq ∧ ((∀ n, s.lastSeq < n → n < e.seq → n ∈ s.lost) ∨
      now - s.lastEvent > cfg.delay ∨
      ∃ last, s.last = some last ∧ (last : Int) - e.seq > cfg.skipWindow) := by
  rcases (act_emits _ h).takes sc e ht with ⟨h1, h2⟩ | ⟨now', hn, _, hv, _⟩
  · simp only [Fire.act] at h
    rw [h1] at h; cases h
  · cases hn
    exact (verdict_go now e).1 hv

/-- **C39, conversely.** It emits the event when it may. -/
theorem C39_emits (now : Int) {sc : Scan} {e : Ev} (hc : s.col = .got sc e) (hl : s.lastSeq < e.seq)
    (hx : (∀ n, s.lastSeq < n → n < e.seq → n ∈ s.lost) ∨ now - s.lastEvent > cfg.delay ∨
      ∃ last, s.last = some last ∧ (last : Int) - e.seq > cfg.skipWindow) :
    ∃ s', act cfg gc s (.decide now) = some s' ∧ s'.col = .taken sc e := by
  have hv := (verdict_go (cfg := cfg) (s := s) now e).2 ⟨hl, hx⟩
  refine ⟨{ s with col := .taken sc e, lastSeq := e.seq, lastEvent := now }, ?_, rfl⟩
  simp only [Fire.act]
  rw [hc]
  dsimp only
  rw [hv]

/-- **C39, order.** No number is emitted twice or out of order. -/
theorem C39_order (h : Reach cfg gc s) : s.hist.Pairwise (fun a b => a.seq < b.seq) := C36_emitted h

/-- Executions in which the collector never gives up on a number and never crashes between taking an
event and emitting it. `base` is the last number it preloaded. -/
inductive Patient (cfg : Cfg) (gc : Bool) (base : Nat) : State → Prop
  | init (s : State) (h : Reach cfg gc s) (hc : s.col = .waiting) (hb : base = s.lastSeq) :
      Patient cfg gc base s
  | step {s s' : State} (a : Act) (h : Patient cfg gc base s) (hs : act cfg gc s a = some s')
      (h1 : ∀ now, a ≠ .crash now)
      (h2 : ∀ now sc e, a = .decide now → s.col = .got sc e → ¬ Excused cfg s now e) :
      Patient cfg gc base s'

/-- **C39, nothing is passed over silently.** In such an execution every number the collector has gone
past is emitted or marked lost. -/
theorem C39_accounted {base : Nat} (h : Patient cfg gc base s) :
    ∀ n, base < n → n ≤ s.lastSeq →
      n ∈ s.lost ∨ (∃ e ∈ s.hist, e.seq = n) ∨ ∃ sc e, s.col = .taken sc e ∧ e.seq = n := by
  induction h with
  | init s _ _ hb => intro n h1 h2; omega
  | step a _ hs h1 h2 ih =>
    rename_i s0 s1 _
    have he := act_emits a hs
    intro n hn1 hn2
    -- numbers the collector had gone past before
    have old : n ≤ s0.lastSeq → n ∈ s1.lost ∨ (∃ e ∈ s1.hist, e.seq = n) ∨
        ∃ sc e, s1.col = .taken sc e ∧ e.seq = n := by
      intro hle
      rcases ih n hn1 hle with h3 | ⟨e, h3, h4⟩ | ⟨sc, e, h3, h4⟩
      · exact .inl (he.lost n h3)
      · refine .inr (.inl ⟨e, ?_, h4⟩)
        rcases he.hist with h5 | ⟨_, _, _, _, h5⟩
        · rw [h5]; exact h3
        · rw [h5]; exact List.mem_append_left _ h3
      · rcases he.taken sc e h3 with ⟨h5, _⟩ | ⟨_, h5, _⟩ | ⟨now, h5⟩
        · exact .inr (.inr ⟨sc, e, h5, h4⟩)
        · exact .inr (.inl ⟨e, by rw [h5]; simp, h4⟩)
        · exact absurd h5 (h1 now)
    by_cases hle : n ≤ s0.lastSeq
    · exact old hle
    · by_cases ht : ∃ sc e, s1.col = .taken sc e
      · obtain ⟨sc, e, ht⟩ := ht
        rcases he.takes sc e ht with ⟨_, h3⟩ | ⟨now, ha, hg, hv, h3⟩
        · omega
        · by_cases hne : n = e.seq
          · exact .inr (.inr ⟨sc, e, ht, hne.symm⟩)
          · rcases ((verdict_go now e).1 hv).2 with h4 | h4
            · exact .inl (he.lost n (h4 n (by omega) (by omega)))
            · exact absurd h4 (h2 now sc e ha hg)
      · have := he.other (fun sc e hh => ht ⟨sc, e, hh⟩)
        omega

/-- An event the collector has gone past without emitting it is never emitted. -/
theorem C39_gone {e : Ev} : ∀ {as : List Act} {s s' : State}, e ∉ s.hist → e.seq ≤ s.lastSeq →
    (∀ sc, s.col ≠ .taken sc e) → acts cfg gc s as = some s' → e ∉ s'.hist
  | [], s, s', hn, _, _, hs => by cases hs; exact hn
  | a :: as, s, s', hn, hl, ht, hs => by
    unfold Fire.acts at hs
    rw [List.foldlM_cons] at hs
    cases ha : act cfg gc s a with
    | none => rw [ha] at hs; cases hs
    | some s1 =>
      rw [ha] at hs
      have he := act_emits a ha
      refine C39_gone (s := s1) (as := as) ?_ (Nat.le_trans hl he.lastSeq) ?_ hs
      · rcases he.hist with h1 | ⟨sc, e', _, h1, h2⟩
        · rw [h1]; exact hn
        · rw [h2]
          intro hm
          rcases List.mem_append.1 hm with hm | hm
          · exact hn hm
          · simp at hm; subst hm; exact ht sc h1
      · intro sc hc
        rcases he.takes sc e hc with ⟨h1, _⟩ | ⟨now, _, _, hv, _⟩
        · exact ht sc h1
        · have := ((verdict_go now e).1 hv).1
          omega

/-- **C39, what is stored is not skipped.** The collector never goes past an event that was stored when
its pass began, whatever it was excused for: the numbers it skips are missing. -/
theorem C39_missing {clean : Bool} {s₀ : State} (hr : Reach cfg gc s₀) (h : Pass cfg gc clean s₀ s)
    (now : Int) (hs : act cfg gc s (.decide now) = some s') {sc : Scan} {e : Ev}
    (ht : s'.col = .taken sc e) : ∀ x ∈ s₀.stored, s.lastSeq < x.seq → e.seq ≤ x.seq := by
  rcases (act_emits _ hs).takes sc e ht with ⟨h1, _⟩ | ⟨_, _, hc, _, _⟩
  · simp only [Fire.act] at hs
    rw [h1] at hs; cases hs
  · have h1 := (h.reach hr).sound
    have h2 := h.snap
    rw [hc] at h1 h2
    rw [← h2 sc rfl]
    exact h1.2

/-- **C39, what can be emitted is emitted.** When a pass in which no exception is raised ends, every
event has been emitted that was stored when the pass began, and before which there was no number that
was neither stored nor marked lost. -/
theorem C39_complete {s₀ : State} (hr : Reach cfg gc s₀) (h : Pass cfg gc true s₀ s)
    (hw : s.col = .waiting) {e : Ev} (he : e ∈ s₀.stored) (hl : s₀.lastSeq < e.seq)
    (hn : ∀ n, s₀.lastSeq < n → n < e.seq → n ∈ s₀.lost ∨ ∃ x ∈ s₀.stored, x.seq = n) :
    e ∈ s.hist := by
  rcases h.due hr he hl hn with h1 | h1
  · exact h1
  · rw [hw] at h1; exact h1.elim

/-! ### Examples -/

/-- Steps of a pass. -/
def passSteps (cfg : Cfg) (gc : Bool) : State → List Act → Option State
  | s, [] => some s
  | s, a :: as => match a, s.col with
    | .fail _, _ | .crash _, _ | _, .waiting => none
    | _, _ => match act cfg gc s a with
      | some s' => passSteps cfg gc s' as
      | none => none

theorem Pass.steps {s₀ : State} : ∀ {as : List Act} {s s' : State}, Pass cfg gc true s₀ s →
    passSteps cfg gc s as = some s' → Pass cfg gc true s₀ s'
  | [], s, s', h, hs => by cases hs; exact h
  | a :: as, s, s', h, hs => by
    unfold passSteps at hs
    split at hs
    · cases hs
    · cases hs
    · cases hs
    · rename_i h1 h2 h3
      split at hs
      · rename_i s1 ha
        exact Pass.steps (h.step _ ha h3 fun _ => ⟨h1, h2⟩) hs
      · cases hs

def exStored : List Act := [.allot (some 10), .store (ev 10), .store (ev 8), .store (ev 7)]

def exPass : List Act :=
  [.read (ev 7), .decide 1, .append, .store (ev 9), .give, .read (ev 8), .decide 2, .append, .give,
    .read (ev 10), .decide 3]

/-- 7, 8 and 10 are stored when a pass begins, 9 meanwhile: 7 and 8 are emitted, 10 is not. -/
example : ∃ s₀ s, Reach exCfg false s₀ ∧ Pass exCfg false true s₀ s ∧ s.col = .waiting ∧
    ev 8 ∈ s₀.stored ∧ s₀.lastSeq = 6 ∧
    (∀ n, 6 < n → n < 8 → n ∈ s₀.lost ∨ ∃ x ∈ s₀.stored, x.seq = n) ∧
    s.hist.map (·.seq) = [5, 6, 7, 8] := by
  have h0 : (acts exCfg false exInit exStored).isSome = true := by decide +kernel
  obtain ⟨s₀, h0⟩ := Option.isSome_iff_exists.1 h0
  have h : ((acts exCfg false exInit exStored).bind fun s₀ => (act exCfg false s₀ .wake).bind fun s1 =>
      (passSteps exCfg false s1 exPass).map fun s => decide (s.col = .waiting ∧ ev 8 ∈ s₀.stored ∧
        s₀.lastSeq = 6 ∧ ev 7 ∈ s₀.stored ∧ s.hist.map (·.seq) = [5, 6, 7, 8])) = some true := by
    decide +kernel
  rw [h0, Option.bind_some] at h
  obtain ⟨s1, h1, h⟩ := Option.bind_eq_some_iff.1 h
  obtain ⟨s, h2, h⟩ := Option.map_eq_some_iff.1 h
  obtain ⟨a1, a2, a3, a4, a5⟩ := of_decide_eq_true h
  exact ⟨s₀, s, exInit_reach.acts h0, (Pass.wake h1).steps h2, a1, a2, a3,
    fun n n1 n2 => .inr ⟨ev 7, a4, by show 7 = n; omega⟩, a5⟩

/-- Event 8 is stored before 7, and 7 is marked lost or not. -/
def exGap (now : Int) : List Act := [.allot (some 8), .store (ev 8), .wake, .read (ev 8), .decide now]

/-- It waits for 7 when the last emission was recent... -/
example : (acts exCfg false exInit (exGap 60)).map (·.col) = some .waiting := by decide +kernel

/-- ... unless 7 is marked lost. -/
example : (acts exCfg false exInit (.lose 7 :: exGap 60)).map (fun s => (s.lastSeq, s.lost)) =
    some (8, [7]) := by decide +kernel

theorem Patient.acts {base : Nat} : ∀ {as : List Act} {s s' : State}, Patient cfg gc base s →
    (∀ a ∈ as, (∀ now, a ≠ .crash now) ∧ ∀ now, a ≠ .decide now) → Fire.acts cfg gc s as = some s' →
    Patient cfg gc base s'
  | [], s, s', h, _, hs => by cases hs; exact h
  | a :: as, s, s', h, ha, hs => by
    unfold Fire.acts at hs
    rw [List.foldlM_cons] at hs
    cases h1 : act cfg gc s a with
    | none => rw [h1] at hs; cases hs
    | some s1 =>
      rw [h1] at hs
      have h2 := ha a (by simp)
      exact Patient.acts (as := as) (h.step a h1 h2.1 (fun now _ _ he => absurd he (h2.2 now)))
        (fun b hb => ha b (by simp [hb])) hs

/-- A patient execution: 7 is lost, 8 is emitted. -/
example : ∃ s, Patient exCfg false 6 s ∧ s.lastSeq = 8 := by
  have h : ((acts exCfg false exInit [.lose 7, .allot (some 8), .store (ev 8), .wake, .read (ev 8)]).bind
      (fun s => (act exCfg false s (.decide 60)).map (fun s' => (s.col, s.lastEvent, s.last, s'.lastSeq)))) =
      some (.got ⟨evs [8, 1, 2, 3, 4, 5, 6], 9⟩ (ev 8), 0, some 8, 8) := by decide +kernel
  obtain ⟨s, h1, h2⟩ := Option.bind_eq_some_iff.1 h
  obtain ⟨s', h3, h4⟩ := Option.map_eq_some_iff.1 h2
  injection h4 with a1 h4
  injection h4 with a2 h4
  injection h4 with a3 a4
  refine ⟨s', .step _ ((Patient.init exInit exInit_reach rfl (by decide)).acts (by simp) h1) h3
    (by simp) ?_, a4⟩
  intro now sc e hd hc hx
  cases hd
  rw [a1] at hc; cases hc
  rcases hx with hx | ⟨l, hx, hy⟩
  · rw [a2] at hx; exact absurd hx (by decide)
  · rw [a3] at hx; cases hx; exact absurd hy (by decide)

/-- **C39 is false** if "waited" means that the collector has waited for the missing number: the delay
counts from the last emission. After a quiet period it goes past 7, which is merely stored a moment
later than 8, the first time it sees the gap, although 8 is the newest number; and 7 is never
emitted. -/
theorem C39_quiet_false : ∃ s, Reach exCfg false s ∧ ev 7 ∈ s.stored ∧ s.lost = [] ∧
    s.last = some 8 ∧ s.hist.map (·.seq) = [5, 6, 8] ∧
    ∀ as s', acts exCfg false s as = some s' → ev 7 ∉ s'.hist := by
  have h : (acts exCfg false exInit (exGap 200 ++ [.append, .give, .readEnd, .store (ev 7)])).map (fun s =>
      (decide (ev 7 ∈ s.stored ∧ s.lost = [] ∧ s.last = some 8), s.hist.map (·.seq),
        decide (ev 7 ∉ s.hist ∧ (ev 7).seq ≤ s.lastSeq), s.col)) =
      some (true, [5, 6, 8], true, .waiting) := by decide +kernel
  obtain ⟨s, h1, h2⟩ := Option.map_eq_some_iff.1 h
  injection h2 with a1 h2
  injection h2 with a2 h2
  injection h2 with a3 a4
  have a1 := of_decide_eq_true a1
  have a3 := of_decide_eq_true a3
  exact ⟨s, exInit_reach.acts h1, a1.1, a1.2.1, a1.2.2, a2, fun as s' hs =>
    C39_gone a3.1 a3.2 (by rw [a4]; simp) hs⟩

/-- **C39 is false** if the collector raises between taking an event and emitting it (the comment on
lines 324-330 says so): 7 is never emitted. -/
theorem C39_crash_false : ∃ s, Reach exCfg false s ∧ ev 7 ∈ s.stored ∧ s.lost = [] ∧
    ∀ as s', acts exCfg false s as = some s' → ev 7 ∉ s'.hist := by
  have h : (acts exCfg false exInit [.allot (some 7), .store (ev 7), .wake, .read (ev 7), .decide 1,
      .crash 1]).map (fun s => (decide (ev 7 ∈ s.stored ∧ s.lost = []),
        decide (ev 7 ∉ s.hist ∧ (ev 7).seq ≤ s.lastSeq), s.col)) = some (true, true, .waiting) := by
    decide +kernel
  obtain ⟨s, h1, h2⟩ := Option.map_eq_some_iff.1 h
  injection h2 with a1 h2
  injection h2 with a2 a3
  have a1 := of_decide_eq_true a1
  have a2 := of_decide_eq_true a2
  exact ⟨s, exInit_reach.acts h1, a1.1, a1.2, fun as s' hs =>
    C39_gone a2.1 a2.2 (by rw [a3]; simp) hs⟩

end Arroba.Fire
