import Verif.Firehose.CollectProofs
import Verif.Firehose.StepProofs

/-!
# What one pass of the collector does with the events that were stored when it began
-/

namespace Arroba.Fire

variable {cfg : Cfg} {gc : Bool} {s s' : State}

/-- The steps of the collector. -/
def Act.collects : Act → Bool
  | .wake | .read _ | .readEnd | .decide _ | .fail _ | .crash _ | .append | .give => true
  | _ => false

/-- What the others leave as it is. -/
structure Leaves (s s' : State) : Prop where
  lastSeq : s'.lastSeq = s.lastSeq
  hist : s'.hist = s.hist
  col : s'.col = s.col

theorem act_leaves (a : Act) (hs : act cfg gc s a = some s') (ha : a.collects = false) :
    Leaves s s' := by
  cases a <;> first
    | (simp [Act.collects] at ha; done)
    | (simp only [Fire.act] at hs
       repeat' (first | (split at hs) | (cases hs; done))
       all_goals (cases hs; (try unfold State.merge); (try unfold State.handoff); (repeat' split) <;>
         exact ⟨rfl, rfl, rfl⟩))

/-- The scan of the collector has not passed over anything that was stored when it began. -/
def ColLoc.Sound (lastSeq : Nat) : ColLoc → Prop
  | .waiting => True
  | .scanning sc => ∀ m ∈ sc.snap, lastSeq < m.seq → sc.pos ≤ m.seq
  | .got sc e => sc.pos = e.seq + 1 ∧ ∀ m ∈ sc.snap, lastSeq < m.seq → e.seq ≤ m.seq
  | .taken sc e => sc.pos = e.seq + 1 ∧ lastSeq = e.seq
  | .handing sc e _ => sc.pos = e.seq + 1 ∧ lastSeq = e.seq

/-- The scan the collector is in. -/
def ColLoc.scan : ColLoc → Option Scan
  | .waiting => none
  | .scanning sc => some sc
  | .got sc _ => some sc
  | .taken sc _ => some sc
  | .handing sc _ _ => some sc

theorem verdict_skip {now : Int} {e : Ev} (h : verdict cfg s now e = .skip) : e.seq ≤ s.lastSeq := by
  by_contra hn
  unfold verdict at h
  rw [if_neg hn] at h
  dsimp only at h
  repeat' split at h
  all_goals cases h

/-- The steps of the collector keep `Sound`, and the events stored when the scan began. -/
structure Scans (s s' : State) : Prop where
  sound : s.col.Sound s.lastSeq → s'.col.Sound s'.lastSeq
  snap : ∀ sc', s'.col.scan = some sc' →
    (∃ sc, s.col.scan = some sc ∧ sc'.snap = sc.snap) ∨ (s.col = .waiting ∧ sc'.snap = s.stored)

theorem act_scans (a : Act) (hs : act cfg gc s a = some s') : Scans s s' := by
  cases hc : a.collects with
  | false =>
    obtain ⟨h1, _, h3⟩ := act_leaves a hs hc
    refine ⟨fun h => by rw [h1, h3]; exact h, fun sc' h => .inl ⟨sc', by rw [← h3]; exact h, rfl⟩⟩
  | true =>
    cases a <;> first | (cases hc; done) | simp only [Fire.act] at hs
    case wake =>
      split at hs
      · rename_i hcol
        cases hs
        refine ⟨fun _ m _ h => h, fun sc' h => ?_⟩
        cases h
        exact .inr ⟨hcol, rfl⟩
      · cases hs
    case read e =>
      split at hs
      · rename_i sc hcol
        split at hs
        · rename_i hy
          cases hs
          refine ⟨fun h => ⟨rfl, fun m hm hl => ?_⟩, fun sc' h => ?_⟩
          · rw [hcol] at h
            have h1 := h m hm hl
            unfold Scan.yields at hy
            simp only [Bool.and_eq_true, List.all_eq_true, Bool.or_eq_true, decide_eq_true_eq] at hy
            rcases hy.2 m hm with h2 | h2
            · omega
            · exact h2
          · cases h
            exact .inl ⟨sc, by rw [hcol]; rfl, rfl⟩
        · cases hs
      · cases hs
    case readEnd =>
      split at hs
      · split at hs
        · cases hs
          exact ⟨fun _ => trivial, fun sc' h => nomatch h⟩
        · cases hs
      · cases hs
    case decide now =>
      split at hs
      · rename_i sc e hcol
        split at hs
        · rename_i hv
          cases hs
          refine ⟨fun h m hm hl => ?_, fun sc' h => ?_⟩
          · rw [hcol] at h
            have h1 := verdict_skip hv
            have h2 := h.1
            dsimp only at hl
            omega
          · cases h
            exact .inl ⟨sc, by rw [hcol]; rfl, rfl⟩
        · cases hs
          exact ⟨fun _ => trivial, fun sc' h => nomatch h⟩
        · cases hs
          refine ⟨fun h => ?_, fun sc' h => ?_⟩
          · rw [hcol] at h
            exact ⟨h.1, rfl⟩
          · cases h
            exact .inl ⟨sc, by rw [hcol]; rfl, rfl⟩
      · cases hs
    case fail now =>
      split at hs
      · cases hs
        exact ⟨fun _ => trivial, fun sc' h => nomatch h⟩
      · cases hs
        exact ⟨fun _ => trivial, fun sc' h => nomatch h⟩
      · cases hs
    case crash now =>
      split at hs
      · cases hs
        exact ⟨fun _ => trivial, fun sc' h => nomatch h⟩
      · cases hs
    case append =>
      split at hs
      · rename_i sc e hcol
        cases hs
        refine ⟨fun h => ?_, fun sc' h => ?_⟩
        · rw [hcol] at h
          exact h
        · cases h
          exact .inl ⟨sc, by rw [hcol]; rfl, rfl⟩
      · cases hs
    case give =>
      split at hs
      · rename_i sc e k hcol
        split at hs
        · cases hs
          refine ⟨fun h => ?_, fun sc' h => ?_⟩
          · rw [hcol] at h
            exact h
          · cases h
            exact .inl ⟨sc, by rw [hcol]; rfl, rfl⟩
        · cases hs
          refine ⟨fun h m hm hl => ?_, fun sc' h => ?_⟩
          · rw [hcol] at h
            have h1 := h.1
            have h2 := h.2
            dsimp only at hl
            omega
          · cases h
            exact .inl ⟨sc, by rw [hcol]; rfl, rfl⟩
      · cases hs

theorem Reach.sound (h : Reach cfg gc s) : s.col.Sound s.lastSeq := by
  induction h with
  | init => trivial
  | step a _ hs ih => exact (act_scans a hs).sound ih

theorem act_stored (a : Act) (hs : act cfg gc s a = some s') : ∀ e ∈ s.stored, e ∈ s'.stored := by
  cases a <;>
    (simp only [Fire.act] at hs
     repeat' (first | (split at hs) | (cases hs; done))
     all_goals (cases hs; (try unfold State.merge); (try unfold State.handoff); (repeat' split) <;>
       first | exact fun _ h => h | exact fun _ h => List.mem_cons_of_mem _ h))

/-- The states of one pass of the collector that began when the state was `s₀`: from waking up until
it goes back to waiting. If `clean`, no exception is raised. -/
inductive Pass (cfg : Cfg) (gc clean : Bool) (s₀ : State) : State → Prop
  | wake {s : State} (hs : act cfg gc s₀ .wake = some s) : Pass cfg gc clean s₀ s
  | step {s s' : State} (a : Act) (h : Pass cfg gc clean s₀ s) (hs : act cfg gc s a = some s')
      (hw : s.col ≠ .waiting)
      (hc : clean = true → (∀ now, a ≠ .fail now) ∧ ∀ now, a ≠ .crash now) : Pass cfg gc clean s₀ s'

variable {clean : Bool} {s₀ : State}

theorem Pass.reach (h : Pass cfg gc clean s₀ s) (hr : Reach cfg gc s₀) : Reach cfg gc s := by
  induction h with
  | wake hs => exact hr.step _ hs
  | step a _ hs _ _ ih => exact ih.step a hs

theorem Pass.snap (h : Pass cfg gc clean s₀ s) : ∀ sc, s.col.scan = some sc → sc.snap = s₀.stored := by
  induction h with
  | wake hs =>
    intro sc hsc
    rcases (act_scans _ hs).snap sc hsc with ⟨sc', h1, _⟩ | ⟨_, h2⟩
    · simp only [Fire.act] at hs
      split at hs
      · rename_i hcol
        rw [hcol] at h1; cases h1
      · cases hs
    · exact h2
  | step a _ hs hw _ ih =>
    intro sc hsc
    rcases (act_scans a hs).snap sc hsc with ⟨sc', h1, h2⟩ | ⟨h2, _⟩
    · rw [h2]; exact ih sc' h1
    · exact absurd h2 hw

theorem Pass.grows (h : Pass cfg gc clean s₀ s) : s₀.lastSeq ≤ s.lastSeq ∧
    (∀ n ∈ s₀.lost, n ∈ s.lost) ∧ ∀ e ∈ s₀.stored, e ∈ s.stored := by
  induction h with
  | wake hs => exact ⟨(act_emits _ hs).lastSeq, (act_emits _ hs).lost, act_stored _ hs⟩
  | step a _ hs _ _ ih =>
    exact ⟨Nat.le_trans ih.1 (act_emits a hs).lastSeq, fun n hn => (act_emits a hs).lost n (ih.2.1 n hn),
      fun e he => act_stored a hs e (ih.2.2 e he)⟩

/-- The event is still to come in this pass. -/
def ColLoc.Due (lastSeq : Nat) (e : Ev) : ColLoc → Prop
  | .waiting => False
  | .taken _ e' => e = e' ∨ lastSeq < e.seq
  | _ => lastSeq < e.seq

theorem Pass.due (h : Pass cfg gc true s₀ s) (hr : Reach cfg gc s₀) {e : Ev} (he : e ∈ s₀.stored)
    (hl : s₀.lastSeq < e.seq)
    (hn : ∀ n, s₀.lastSeq < n → n < e.seq → n ∈ s₀.lost ∨ ∃ x ∈ s₀.stored, x.seq = n) :
    e ∈ s.hist ∨ s.col.Due s.lastSeq e := by
  induction h with
  | wake hs =>
    simp only [Fire.act] at hs
    split at hs
    · cases hs; exact .inr hl
    · cases hs
  | step a h hs hw hcl ih =>
    rename_i s s'
    rcases ih with ih | ih
    · left
      rcases (act_emits a hs).hist with h1 | ⟨_, _, _, _, h1⟩
      · rw [h1]; exact ih
      · rw [h1]; exact List.mem_append_left _ ih
    cases hc : a.collects with
    | false =>
      obtain ⟨h1, h2, h3⟩ := act_leaves a hs hc
      rw [h1, h2, h3]
      exact .inr ih
    | true =>
      have hsound := (h.reach hr).sound
      have hsnap := h.snap
      have hgrow := h.grows
      cases a <;> first | (cases hc; done) | simp only [Fire.act] at hs
      case wake => cases hs
      case read e' =>
        split at hs
        · rename_i sc hcol
          split at hs
          · cases hs
            rw [hcol] at ih
            exact .inr ih
          · cases hs
        · cases hs
      case readEnd =>
        split at hs
        · rename_i sc hcol
          split at hs
          · rename_i hend
            rw [hcol] at ih hsound hsnap
            have h1 := hsnap sc rfl
            unfold Scan.ends at hend
            simp only [List.all_eq_true, decide_eq_true_eq] at hend
            have h2 := hend e (by rw [h1]; exact he)
            have h3 := hsound e (by rw [h1]; exact he) ih
            omega
          · cases hs
        · cases hs
      case decide now =>
        split at hs
        · rename_i sc e' hcol
          have hst := (h.reach hr).inv.core.got sc e' hcol
          rw [hcol] at ih hsound hsnap
          have h1 := hsnap sc rfl
          have h2 := hsound.2 e (by rw [h1]; exact he) ih
          split at hs
          · cases hs
            exact .inr ih
          · rename_i hv
            by_cases hlt : s.lastSeq < e'.seq
            · have : verdict cfg s now e' = .go := by
                refine (verdict_go now e').2 ⟨hlt, .inl fun n hn1 hn2 => ?_⟩
                rcases hn n (by omega) (by omega) with h3 | ⟨x, h3, h4⟩
                · exact hgrow.2.1 n h3
                · have := hsound.2 x (by rw [h1]; exact h3) (by omega)
                  omega
              rw [this] at hv; cases hv
            · unfold verdict at hv
              rw [if_pos (by omega)] at hv
              cases hv
          · cases hs
            right
            show e = e' ∨ e'.seq < e.seq
            rcases Nat.lt_or_eq_of_le h2 with h3 | h3
            · exact .inr h3
            · exact .inl (eq_of_seq (h.reach hr).inv.core.distinct (hgrow.2.2 e he) hst h3.symm)
        · cases hs
      case fail now => exact absurd rfl ((hcl rfl).1 now)
      case crash now => exact absurd rfl ((hcl rfl).2 now)
      case append =>
        split at hs
        · rename_i sc e' hcol
          cases hs
          rw [hcol] at ih
          rcases ih with ih | ih
          · exact .inl (by rw [ih]; simp)
          · exact .inr ih
        · cases hs
      case give =>
        split at hs
        · rename_i sc e' k hcol
          rw [hcol] at ih
          split at hs
          · cases hs; exact .inr ih
          · cases hs; exact .inr ih
        · cases hs

end Arroba.Fire
