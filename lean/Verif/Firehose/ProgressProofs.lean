import Verif.Firehose.PassProofs

/-!
# The collector and the subscribers get on
-/

namespace Arroba.Fire

variable {cfg : Cfg} {gc : Bool} {s s' : State}

/-! ### The scans read what is stored -/

/-- The scan a subscriber is in. -/
def SubLoc.scan : SubLoc → Option Scan
  | .pre _ sc _ _ => some sc
  | .check _ sc _ _ => some sc
  | _ => none

theorem Reach.snap (h : Reach cfg gc s) : ∀ sc, s.col.scan = some sc → ∀ m ∈ sc.snap, m ∈ s.stored := by
  induction h with
  | init => intro sc h; cases h
  | step a _ hs ih =>
    intro sc hsc m hm
    rcases (act_scans a hs).snap sc hsc with ⟨sc', h1, h2⟩ | ⟨_, h2⟩
    · exact act_stored a hs m (ih sc' h1 m (h2 ▸ hm))
    · exact act_stored a hs m (h2 ▸ hm)

/-- A scan that cannot end can yield. -/
theorem Scan.next {sc : Scan} {stored : List Ev} (h : ∀ m ∈ sc.snap, m ∈ stored)
    (he : sc.ends = false) : ∃ e, sc.yields stored e = true := by
  have : ∃ m ∈ sc.snap, sc.pos ≤ m.seq := by
    by_contra hn
    have : sc.ends = true := by
      unfold Scan.ends
      rw [List.all_eq_true]
      intro m hm
      have : ¬ sc.pos ≤ m.seq := fun h1 => hn ⟨m, hm, h1⟩
      simp only [decide_eq_true_eq]
      omega
    rw [this] at he; cases he
  -- the first of them
  have key : ∀ n, (∃ m ∈ sc.snap, sc.pos ≤ m.seq ∧ m.seq ≤ n) →
      ∃ m ∈ sc.snap, sc.pos ≤ m.seq ∧ ∀ x ∈ sc.snap, sc.pos ≤ x.seq → m.seq ≤ x.seq := by
    intro n
    induction n with
    | zero =>
      rintro ⟨m, h1, h2, h3⟩
      exact ⟨m, h1, h2, fun x _ _ => by omega⟩
    | succ n ih =>
      rintro ⟨m, h1, h2, h3⟩
      by_cases hx : ∃ x ∈ sc.snap, sc.pos ≤ x.seq ∧ x.seq ≤ n
      · exact ih hx
      · refine ⟨m, h1, h2, fun x h4 h5 => ?_⟩
        by_contra hlt
        exact hx ⟨x, h4, h5, by omega⟩
  obtain ⟨m, h1, h2⟩ := this
  obtain ⟨m, h1, h2, h3⟩ := key m.seq ⟨m, h1, h2, Nat.le_refl _⟩
  refine ⟨m, ?_⟩
  unfold Scan.yields
  simp only [Bool.and_eq_true, List.all_eq_true, Bool.or_eq_true, decide_eq_true_eq]
  refine ⟨⟨by simpa using h m h1, h2⟩, fun x hx => ?_⟩
  by_cases hp : x.seq < sc.pos
  · exact .inl hp
  · exact .inr (h3 x hx (by omega))

/-! ### How many steps are left -/

/-- How many stored events a scan can still yield. -/
def Scan.left (sc : Scan) (stored : List Ev) : Nat := stored.countP (fun e => decide (sc.pos ≤ e.seq))

theorem Scan.left_yields {sc : Scan} {stored : List Ev} {e : Ev} (h : sc.yields stored e = true) :
    ({ sc with pos := e.seq + 1 } : Scan).left stored + 1 ≤ sc.left stored := by
  unfold Scan.yields at h
  simp only [Bool.and_eq_true, decide_eq_true_eq] at h
  obtain ⟨⟨h1, h2⟩, _⟩ := h
  have h1 : e ∈ stored := by simpa using h1
  unfold Scan.left
  dsimp only
  clear * - h1 h2
  have mono : ∀ l : List Ev, l.countP (fun x => decide (e.seq + 1 ≤ x.seq)) ≤
      l.countP (fun x => decide (sc.pos ≤ x.seq)) := fun l =>
    List.countP_mono_left fun x _ hx => by
      simp only [decide_eq_true_eq] at hx ⊢; omega
  induction stored with
  | nil => cases h1
  | cons x l ih =>
    rw [List.countP_cons, List.countP_cons]
    rcases List.mem_cons.1 h1 with h1 | h1
    · subst h1
      have := mono l
      rw [if_neg (by simp), if_pos (by simpa using h2)]
      omega
    · have := ih h1
      have h3 : (if decide (e.seq + 1 ≤ x.seq) = true then 1 else 0) ≤
          (if decide (sc.pos ≤ x.seq) = true then 1 else 0) := by
        simp only [decide_eq_true_eq]
        split <;> split <;> omega
      omega

theorem Scan.left_le (sc : Scan) (stored : List Ev) : sc.left stored ≤ stored.length :=
  List.countP_le_length

/-- How many steps the collector can make before it waits, if there are never more than `n` subscribers. -/
def ColLoc.left (n : Nat) (stored : List Ev) : ColLoc → Nat
  | .waiting => 0
  | .scanning sc => 1 + sc.left stored * (n + 4)
  | .got sc _ => 1 + sc.left stored * (n + 4) + (n + 3)
  | .taken sc _ => 1 + sc.left stored * (n + 4) + (n + 2)
  | .handing sc _ k => 2 + sc.left stored * (n + 4) + (n - k)

/-- The step that adds a subscriber. -/
def Act.joins : Act → Bool
  | .goLive _ => true
  | _ => false

/-- A step that begins something new: an event is stored, or the collector wakes up. -/
def Act.starts : Act → Bool
  | .store _ | .wake => true
  | _ => false

theorem act_subs (a : Act) (hs : act cfg gc s a = some s') :
    s'.subs.length ≤ s.subs.length + if a.joins then 1 else 0 := by
  cases a <;>
    (simp only [Fire.act] at hs
     repeat' (first | (split at hs) | (cases hs; done))
     all_goals (cases hs; (try unfold State.merge); (try unfold State.handoff); (repeat' split) <;>
       first
       | exact Nat.le_add_right _ _
       | exact Nat.le_of_eq List.length_append
       | exact Nat.le_trans (List.length_erase_le ..) (Nat.le_add_right _ _)
       | (rename_i hj; exact absurd rfl hj)))

theorem act_same_stored (a : Act) (hs : act cfg gc s a = some s') (ha : ∀ e, a ≠ .store e) :
    s'.stored = s.stored := by
  cases a <;>
    (simp only [Fire.act] at hs
     repeat' (first | (split at hs) | (cases hs; done))
     all_goals (cases hs; (try unfold State.merge); (try unfold State.handoff); (repeat' split) <;>
       first | rfl | exact absurd rfl (ha _)))

/-- A step of the collector other than waking up leaves it fewer. -/
theorem act_left {n : Nat} (a : Act) (hs : act cfg gc s a = some s') (hn : s.subs.length ≤ n)
    (ha : a.starts = false) (hc : a.collects = true) :
    s'.col.left n s'.stored + 1 ≤ s.col.left n s.stored := by
  cases a <;> first | (cases hc; done) | (cases ha; done) | simp only [Fire.act] at hs
  case read e =>
    split at hs
    · rename_i sc hcol
      split at hs
      · rename_i hy
        cases hs
        rw [hcol]
        have h1 := Scan.left_yields hy
        have := Nat.mul_le_mul_right (n + 4) h1
        rw [Nat.add_mul, Nat.one_mul] at this
        show 1 + ({ sc with pos := e.seq + 1 } : Scan).left s.stored * (n + 4) + (n + 3) + 1 ≤
          1 + sc.left s.stored * (n + 4)
        omega
      · cases hs
    · cases hs
  case readEnd =>
    split at hs
    · rename_i sc hcol
      split at hs
      · cases hs
        rw [hcol]
        show 0 + 1 ≤ 1 + _
        omega
      · cases hs
    · cases hs
  case decide now =>
    split at hs
    · rename_i sc e hcol
      rw [hcol]
      split at hs
      · cases hs
        show 1 + sc.left s.stored * (n + 4) + 1 ≤ 1 + sc.left s.stored * (n + 4) + (n + 3)
        omega
      · cases hs
        show 0 + 1 ≤ 1 + _ + (n + 3)
        omega
      · cases hs
        show 1 + sc.left s.stored * (n + 4) + (n + 2) + 1 ≤ 1 + sc.left s.stored * (n + 4) + (n + 3)
        omega
    · cases hs
  case fail now =>
    split at hs
    · rename_i hcol
      cases hs; rw [hcol]
      show 0 + 1 ≤ 1 + _
      omega
    · rename_i hcol
      cases hs; rw [hcol]
      show 0 + 1 ≤ 1 + _ + _
      omega
    · cases hs
  case crash now =>
    split at hs
    · rename_i hcol
      cases hs; rw [hcol]
      show 0 + 1 ≤ 1 + _ + _
      omega
    · cases hs
  case append =>
    split at hs
    · rename_i sc e hcol
      cases hs; rw [hcol]
      show 2 + sc.left s.stored * (n + 4) + (n - 0) + 1 ≤ 1 + sc.left s.stored * (n + 4) + (n + 2)
      omega
    · cases hs
  case give =>
    split at hs
    · rename_i sc e k hcol
      rw [hcol]
      split at hs
      · rename_i i hi
        cases hs
        have hk : k < s.subs.length := by
          by_contra hge
          rw [List.getElem?_eq_none (by omega)] at hi; cases hi
        show 2 + sc.left s.stored * (n + 4) + (n - (k + 1)) + 1 ≤ 2 + sc.left s.stored * (n + 4) + (n - k)
        omega
      · rename_i hi
        cases hs
        show 1 + sc.left s.stored * (n + 4) + 1 ≤ 2 + sc.left s.stored * (n + 4) + (n - k)
        omega
    · cases hs


/-! ### The subscribers -/

theorem Reach.window (h : Reach cfg gc s) : s.rollback.length ≤ cfg.window := by
  induction h with
  | init now h =>
    show (lastN _ _).length ≤ _
    unfold lastN
    rw [List.length_drop]
    omega
  | step a h hs ih =>
    rename_i s s'
    cases a
    case append =>
      simp only [Fire.act] at hs
      split at hs
      · cases hs
        show (push _ _ _).length ≤ _
        unfold push
        rw [List.length_drop, List.length_append, List.length_singleton]
        have := h.inv.core.win
        omega
      · cases hs
    case look i =>
      simp only [Fire.act] at hs
      repeat' (first | (split at hs) | (cases hs; done))
      · cases hs
        unfold State.merge
        split
        · rw [handoff_rollback]; exact ih
        · show (_ ++ (s.handoff _ _).rollback).length ≤ _
          rw [handoff_rollback, List.length_append]
          unfold State.extra lastN
          rw [List.length_drop]
          omega
      · cases hs; exact ih
    all_goals
      (simp only [Fire.act] at hs
       repeat' (first | (split at hs) | (cases hs; done))
       all_goals (cases hs; (try unfold State.handoff); (repeat' split) <;> exact ih))

/-- The steps of subscriber `i` on its way to the live events. -/
def Act.serves (i : Nat) : Act → Bool
  | .begin j | .scan j _ | .scanEnd j | .look j | .copyRollback j | .replay j | .goLive j => j == i
  | _ => false

/-- How many steps subscriber `i` can make before it is live, with a window of `w` events. -/
def SubLoc.left (w : Nat) (stored : List Ev) : SubLoc → Nat
  | .idle => 0
  | .ready _ => 2 * stored.length + w + 4
  | .pre _ sc _ _ => 2 * sc.left stored + w + 3
  | .check _ sc _ _ => 2 * sc.left stored + w + 4
  | .copy _ => w + 2
  | .hand _ _ todo => todo.length + 1
  | .join => 1
  | .live => 0
  | .dead => 0

theorem handoff_left {i c : Nat} (hw : s.rollback.length ≤ cfg.window) (stored : List Ev) :
    ((s.handoff i c).loc i).left cfg.window stored ≤ cfg.window + 1 := by
  unfold State.handoff
  split
  · simp [State.goto, SubLoc.left]
  · simp [State.goto, SubLoc.left, hw]

theorem merge_loc (pre : List Ev) : (s.merge pre).loc = s.loc := by
  unfold State.merge; split <;> rfl

/-- A step of a subscriber on its way leaves it fewer. -/
theorem act_serve_left {i : Nat} (a : Act) (hs : act cfg gc s a = some s')
    (hw : s.rollback.length ≤ cfg.window) (ha : a.serves i = true) :
    (s'.loc i).left cfg.window s'.stored + 1 ≤ (s.loc i).left cfg.window s.stored := by
  have hst := act_same_stored a hs (by rintro e rfl; cases ha)
  rw [hst]
  cases a <;> first | (cases ha; done) | (simp only [Act.serves, beq_iff_eq] at ha; subst ha; simp only [Fire.act] at hs)
  case begin j =>
    split at hs
    · rename_i hl
      cases hs
      rw [hl]
      simp [State.goto, SubLoc.left]
    · rename_i c hl
      rw [hl]
      split at hs
      · cases hs
        have := Scan.left_le ⟨s.stored, c⟩ s.stored
        simp only [State.goto, Function.update_self, SubLoc.left]
        omega
      · cases hs
        simp only [State.goto, Function.update_self, SubLoc.left]
        omega
    · cases hs
  case scan j e =>
    split at hs
    · rename_i c sc last pre hl
      rw [hl]
      split at hs
      · rename_i hy
        have h1 := Scan.left_yields hy
        repeat' split at hs
        all_goals
          (cases hs
           simp only [State.goto, Function.update_self, SubLoc.left]
           omega)
      · cases hs
    · cases hs
  case scanEnd j =>
    split at hs
    · rename_i c sc last pre hl
      rw [hl]
      split at hs
      · cases hs
        simp only [State.goto, Function.update_self, SubLoc.left]
        omega
      · cases hs
    · cases hs
  case look j =>
    split at hs
    · cases hs
    · split at hs
      · rename_i c sc pre e hl
        rw [hl]
        split at hs
        · cases hs
          rw [merge_loc]
          have := handoff_left (i := j) (c := c) hw s.stored
          show _ ≤ 2 * sc.left s.stored + cfg.window + 4
          omega
        · cases hs
          simp only [State.goto, Function.update_self, SubLoc.left]
          omega
      · cases hs
  case copyRollback j =>
    split at hs
    · rename_i c hl
      rw [hl]
      cases hs
      have := handoff_left (i := j) (c := c) hw s.stored
      show _ ≤ cfg.window + 2
      omega
    · cases hs
  case replay j =>
    split at hs
    · rename_i c last e todo hl
      rw [hl]
      split at hs
      all_goals
        (cases hs
         simp [State.goto, SubLoc.left])
    · cases hs
  case goLive j =>
    split at hs
    · cases hs
    · split at hs
      · rename_i hl
        rw [hl]
        cases hs
        simp [State.register, State.goto, SubLoc.left]
      · rename_i hl
        rw [hl]
        split at hs
        all_goals
          (cases hs
           simp [State.register, State.goto, SubLoc.left])
      · cases hs

/-- What the others do to a subscriber. -/
theorem act_loc {i : Nat} (a : Act) (hs : act cfg gc s a = some s') (ha : a.serves i = false)
    (hcall : ∀ c, a ≠ .call i c) : s'.loc i = s.loc i ∨ s'.loc i = .dead := by
  have other : ∀ (t : State) (j : Nat) (l : SubLoc), t.loc = s.loc → j ≠ i → (t.goto j l).loc i = s.loc i := by
    intro t j l ht hj
    simp only [State.goto]
    rw [Function.update_of_ne hj.symm, ht]
  cases a
  case call j c =>
    have hj : j ≠ i := by rintro rfl; exact hcall c rfl
    simp only [Fire.act] at hs
    split at hs
    · cases hs; exact .inl (other _ _ _ rfl hj)
    · cases hs
  case close j =>
    simp only [Fire.act] at hs
    by_cases hj : j = i
    · subst hj
      repeat' (first | (split at hs) | (cases hs; done))
      all_goals (cases hs; exact .inr (by simp [State.goto]))
    · repeat' (first | (split at hs) | (cases hs; done))
      all_goals (cases hs; exact .inl (other _ _ _ rfl hj))
  case reap j =>
    simp only [Fire.act] at hs
    by_cases hj : j = i
    · subst hj
      repeat' (first | (split at hs) | (cases hs; done))
      all_goals (cases hs; exact .inr (by simp [State.goto]))
    · repeat' (first | (split at hs) | (cases hs; done))
      all_goals (cases hs; exact .inl (other _ _ _ rfl hj))
  case look j =>
    have hj : j ≠ i := by simpa [Act.serves] using ha
    simp only [Fire.act] at hs
    repeat' (first | (split at hs) | (cases hs; done))
    · cases hs
      rw [merge_loc]
      unfold State.handoff
      split
      · exact .inl (other _ _ _ rfl hj)
      · exact .inl (other _ _ _ rfl hj)
    · cases hs; exact .inl (other _ _ _ rfl hj)
  case copyRollback j =>
    have hj : j ≠ i := by simpa [Act.serves] using ha
    simp only [Fire.act] at hs
    split at hs
    · cases hs
      unfold State.handoff
      split
      · exact .inl (other _ _ _ rfl hj)
      · exact .inl (other _ _ _ rfl hj)
    · cases hs
  all_goals
    (simp only [Fire.act] at hs
     repeat' (first | (split at hs) | (cases hs; done))
     all_goals (cases hs; first
       | exact .inl rfl
       | (refine .inl (other _ _ _ rfl ?_); simpa [Act.serves] using ha)))

theorem Reach.subSnap (h : Reach cfg gc s) (i : Nat) :
    ∀ sc, (s.loc i).scan = some sc → ∀ m ∈ sc.snap, m ∈ s.stored := by
  induction h with
  | init => intro sc h; cases h
  | step a _ hs ih =>
    rename_i s s' hr
    intro sc hsc m hm
    refine act_stored a hs m ?_
    by_cases ha : a.serves i = true
    · cases a <;> first | (cases ha; done) | (simp only [Act.serves, beq_iff_eq] at ha; subst ha; simp only [Fire.act] at hs)
      case begin j =>
        repeat' (first | (split at hs) | (cases hs; done))
        all_goals
          (cases hs
           simp only [State.goto, Function.update_self, SubLoc.scan] at hsc
           cases hsc; try exact hm)
      case scan j e =>
        split at hs
        · rename_i c sc0 last pre hl
          have hih := ih sc0 (by rw [hl]; rfl)
          split at hs
          · repeat' split at hs
            all_goals
              (cases hs
               simp only [State.goto, Function.update_self, SubLoc.scan] at hsc
               cases hsc
               exact hih m hm)
          · cases hs
        · cases hs
      case look j =>
        split at hs
        · cases hs
        · split at hs
          · rename_i c sc0 pre e hl
            have hih := ih sc0 (by rw [hl]; rfl)
            split at hs
            · cases hs
              rw [merge_loc] at hsc
              unfold State.handoff at hsc
              split at hsc <;> simp [State.goto, SubLoc.scan] at hsc
            · cases hs
              simp only [State.goto, Function.update_self, SubLoc.scan] at hsc
              cases hsc
              exact hih m hm
          · cases hs
      case scanEnd j =>
        repeat' (first | (split at hs) | (cases hs; done))
        all_goals (cases hs; simp [State.goto, SubLoc.scan] at hsc)
      case copyRollback j =>
        split at hs
        · cases hs
          unfold State.handoff at hsc
          split at hsc <;> simp [State.goto, SubLoc.scan] at hsc
        · cases hs
      case replay j =>
        repeat' (first | (split at hs) | (cases hs; done))
        all_goals (cases hs; simp [State.goto, SubLoc.scan] at hsc)
      case goLive j =>
        repeat' (first | (split at hs) | (cases hs; done))
        all_goals (cases hs; simp [State.register, State.goto, SubLoc.scan] at hsc)
    · have ha : a.serves i = false := by simpa using ha
      by_cases hcall : ∃ c, a = .call i c
      · obtain ⟨c, rfl⟩ := hcall
        simp only [Fire.act] at hs
        split at hs
        · cases hs
          simp [State.goto, SubLoc.scan] at hsc
        · cases hs
      · rcases act_loc a hs ha (fun c hc => hcall ⟨c, hc⟩) with h1 | h1
        · rw [h1] at hsc; exact ih sc hsc m hm
        · rw [h1] at hsc; cases hsc

/-! ### Rounds of the collector -/

/-- The states of one pass of the collector that began when the state was `s₀`, in which it does not
raise between taking an event and emitting it. If `good`, it does not raise at all, and it takes place
more than the skip delay after the last emission (or exception) before it. -/
inductive Round (cfg : Cfg) (gc good : Bool) (s₀ : State) : State → Prop
  | wake {s : State} (hs : act cfg gc s₀ .wake = some s) : Round cfg gc good s₀ s
  | step {s s' : State} (a : Act) (h : Round cfg gc good s₀ s) (hs : act cfg gc s a = some s')
      (hw : s.col ≠ .waiting) (hc : ∀ now, a ≠ .crash now)
      (hg : good = true → (∀ now, a ≠ .fail now) ∧ ∀ now, a = .decide now → now - s₀.lastEvent > cfg.delay) :
      Round cfg gc good s₀ s'

/-- Executions that begin and end with the collector waiting, in which it does not raise between taking
an event and emitting it; `n` is the number of good rounds in it. -/
inductive Rounds (cfg : Cfg) (gc : Bool) (s₀ : State) : Nat → State → Prop
  | start (hw : s₀.col = .waiting) : Rounds cfg gc s₀ 0 s₀
  | other {n : Nat} {s s' : State} (h : Rounds cfg gc s₀ n s) (a : Act) (ha : a.collects = false)
      (hs : act cfg gc s a = some s') : Rounds cfg gc s₀ n s'
  | round {n : Nat} {s s' : State} (good : Bool) (h : Rounds cfg gc s₀ n s) (hr : Round cfg gc good s s')
      (hw : s'.col = .waiting) : Rounds cfg gc s₀ (n + good.toNat) s'

variable {good : Bool} {s₀ : State}

theorem Round.pass (h : Round cfg gc good s₀ s) : Pass cfg gc false s₀ s := by
  induction h with
  | wake hs => exact .wake hs
  | step a _ hs hw _ _ ih => exact .step a ih hs hw (fun h => nomatch h)

theorem Rounds.waiting {n : Nat} (h : Rounds cfg gc s₀ n s) : s.col = .waiting := by
  induction h with
  | start hw => exact hw
  | other _ a ha hs ih => rw [(act_leaves a hs ha).col]; exact ih
  | round _ _ _ hw => exact hw

theorem Rounds.reach {n : Nat} (h : Rounds cfg gc s₀ n s) (hr : Reach cfg gc s₀) : Reach cfg gc s := by
  induction h with
  | start => exact hr
  | other _ a _ hs ih => exact ih.step a hs
  | round _ _ h _ ih => exact h.pass.reach ih

/-- Whether the event is emitted, or being emitted, or yet to come. -/
def State.Awaits (s : State) (e : Ev) : Prop :=
  e ∈ s.hist ∨ (∃ sc, s.col = .taken sc e) ∨ s.lastSeq < e.seq

/-- A round does not pass over an event that was stored when it began. -/
theorem Round.awaits (h : Round cfg gc good s₀ s) (hr : Reach cfg gc s₀) {e : Ev} (he : e ∈ s₀.stored)
    (hl : s₀.lastSeq < e.seq) : s.Awaits e := by
  induction h with
  | wake hs =>
    simp only [Fire.act] at hs
    split at hs
    · cases hs; exact .inr (.inr hl)
    · cases hs
  | step a h hs hw hcr hgd ih =>
    rename_i s s'
    have hem := act_emits a hs
    rcases ih with ih | ⟨sc, ih⟩ | ih
    · left
      rcases hem.hist with h1 | ⟨_, _, _, _, h1⟩
      · rw [h1]; exact ih
      · rw [h1]; exact List.mem_append_left _ ih
    · rcases hem.taken sc e ih with ⟨h1, _⟩ | ⟨_, h1, _⟩ | ⟨now, h1⟩
      · exact .inr (.inl ⟨sc, h1⟩)
      · exact .inl (by rw [h1]; simp)
      · exact absurd h1 (hcr now)
    · by_cases ht : ∃ sc e', s'.col = .taken sc e'
      · obtain ⟨sc, e', ht⟩ := ht
        rcases hem.takes sc e' ht with ⟨_, h1⟩ | ⟨now, _, hgot, _, h1⟩
        · exact .inr (.inr (by rw [h1]; exact ih))
        · have hsound := (h.pass.reach hr).sound
          have hsnap := h.pass.snap
          rw [hgot] at hsound hsnap
          have h2 := hsound.2 e (by rw [hsnap sc rfl]; exact he) ih
          rcases Nat.lt_or_eq_of_le h2 with h3 | h3
          · exact .inr (.inr (by omega))
          · have : e' = e := eq_of_seq (h.pass.reach hr).inv.core.distinct
              ((h.pass.reach hr).inv.core.got sc e' hgot) (h.pass.grows.2.2 e he) h3
            exact .inr (.inl ⟨sc, by rw [ht, this]⟩)
      · have := hem.other (fun sc e' h1 => ht ⟨sc, e', h1⟩)
        exact .inr (.inr (by omega))

theorem act_lastEvent (a : Act) (hs : act cfg gc s a = some s') (h1 : ∀ now, a ≠ .fail now)
    (h2 : ∀ now, a ≠ .crash now) : s'.lastEvent = s.lastEvent ∨ s.lastSeq < s'.lastSeq := by
  cases a
  case decide now =>
    simp only [Fire.act] at hs
    split at hs
    · rename_i sc e hcol
      split at hs
      · cases hs; exact .inl rfl
      · cases hs; exact .inl rfl
      · rename_i hv
        cases hs
        exact .inr ((verdict_go now e).1 hv).1
    · cases hs
  case fail now => exact absurd rfl (h1 now)
  case crash now => exact absurd rfl (h2 now)
  all_goals
    (simp only [Fire.act] at hs
     repeat' (first | (split at hs) | (cases hs; done))
     all_goals (cases hs; (try unfold State.merge); (try unfold State.handoff); (repeat' split) <;>
       exact .inl rfl))

/-- A good round emits something, if there is something to emit. -/
theorem Round.advances (h : Round cfg gc true s₀ s) (hr : Reach cfg gc s₀) {e : Ev} (he : e ∈ s₀.stored)
    (hl : s₀.lastSeq < e.seq) : s₀.lastSeq < s.lastSeq ∨
      (s.lastSeq = s₀.lastSeq ∧ s.lastEvent = s₀.lastEvent ∧ s.col ≠ .waiting) := by
  induction h with
  | wake hs =>
    simp only [Fire.act] at hs
    split at hs
    · cases hs; exact .inr ⟨rfl, rfl, by simp⟩
    · cases hs
  | step a h hs hw hcr hgd ih =>
    rename_i s s'
    have hmono := (act_emits a hs).lastSeq
    rcases ih with ih | ⟨h1, h2, _⟩
    · exact .inl (by omega)
    · by_cases hlt : s₀.lastSeq < s'.lastSeq
      · exact .inl hlt
      · right
        have h3 : s'.lastSeq = s₀.lastSeq := by omega
        refine ⟨h3, ?_, fun hwait => ?_⟩
        · rcases act_lastEvent a hs (hgd rfl).1 hcr with h4 | h4
          · rw [h4, h2]
          · omega
        · -- how could it have stopped?
          have hsound := (h.pass.reach hr).sound
          have hsnap := h.pass.snap
          cases hc : a.collects with
          | false => rw [(act_leaves a hs hc).col] at hwait; exact hw hwait
          | true =>
            cases a <;> first | (cases hc; done) | simp only [Fire.act] at hs
            case wake => cases hs
            case read e' =>
              repeat' (first | (split at hs) | (cases hs; done))
              cases hs; cases hwait
            case readEnd =>
              split at hs
              · rename_i sc hcol
                split at hs
                · rename_i hend
                  rw [hcol] at hsound hsnap
                  have h4 := hsnap sc rfl
                  unfold Scan.ends at hend
                  simp only [List.all_eq_true, decide_eq_true_eq] at hend
                  have h5 := hend e (by rw [h4]; exact he)
                  have h6 := hsound e (by rw [h4]; exact he) (by omega)
                  omega
                · cases hs
              · cases hs
            case decide now =>
              split at hs
              · rename_i sc e' hcol
                split at hs
                · cases hs; cases hwait
                · rename_i hv
                  have hlate := (hgd rfl).2 now rfl
                  by_cases h5 : s.lastSeq < e'.seq
                  · have := (verdict_go (cfg := cfg) (s := s) now e').2 ⟨h5, .inr (.inl (by rw [h2]; exact hlate))⟩
                    rw [this] at hv; cases hv
                  · unfold verdict at hv
                    rw [if_pos (by omega)] at hv
                    cases hv
                · cases hs; cases hwait
              · cases hs
            case fail now => exact absurd rfl ((hgd rfl).1 now)
            case crash now => exact absurd rfl (hcr now)
            case append =>
              split at hs
              · cases hs; cases hwait
              · cases hs
            case give =>
              repeat' (first | (split at hs) | (cases hs; done))
              all_goals (cases hs; cases hwait)

theorem Rounds.stored {n : Nat} (h : Rounds cfg gc s₀ n s) : ∀ e ∈ s₀.stored, e ∈ s.stored := by
  induction h with
  | start => exact fun _ h => h
  | other _ a _ hs ih => exact fun e he => act_stored a hs e (ih e he)
  | round _ _ h _ ih => exact fun e he => h.pass.grows.2.2 e (ih e he)

theorem Round.hist (h : Round cfg gc good s₀ s) : ∀ e ∈ s₀.hist, e ∈ s.hist := by
  have key : ∀ {a : Act} {s s' : State}, act cfg gc s a = some s' → ∀ e ∈ s.hist, e ∈ s'.hist := by
    intro a s s' hs e he
    rcases (act_emits a hs).hist with h1 | ⟨_, _, _, _, h1⟩
    · rw [h1]; exact he
    · rw [h1]; exact List.mem_append_left _ he
  induction h with
  | wake hs => exact key hs
  | step a _ hs _ _ _ ih => exact fun e he => key hs e (ih e he)

/-- After `n` good rounds an event is emitted, or the collector has got `n` numbers closer to it. -/
theorem Rounds.closer {n : Nat} (h : Rounds cfg gc s₀ n s) (hr : Reach cfg gc s₀) {e : Ev}
    (he : e ∈ s₀.stored) (hl : s₀.lastSeq < e.seq) :
    e ∈ s.hist ∨ (s.lastSeq < e.seq ∧ s₀.lastSeq + n ≤ s.lastSeq) := by
  induction h with
  | start => exact .inr ⟨hl, Nat.le_refl _⟩
  | other _ a ha hs ih =>
    obtain ⟨h1, h2, _⟩ := act_leaves a hs ha
    rw [h1, h2]; exact ih
  | round good h hrd hw ih =>
    rename_i n s s'
    rcases ih with ih | ⟨ih1, ih2⟩
    · exact .inl (hrd.hist e ih)
    · have hreach := h.reach hr
      rcases hrd.awaits hreach (h.stored e he) ih1 with h1 | ⟨sc, h1⟩ | h1
      · exact .inl h1
      · rw [hw] at h1; cases h1
      · refine .inr ⟨h1, ?_⟩
        cases good with
        | false =>
          have := hrd.pass.grows.1
          simpa using Nat.le_trans ih2 this
        | true =>
          rcases hrd.advances hreach (h.stored e he) ih1 with h2 | ⟨_, _, h2⟩
          · show s₀.lastSeq + (n + 1) ≤ _
            omega
          · exact absurd hw h2

end Arroba.Fire
