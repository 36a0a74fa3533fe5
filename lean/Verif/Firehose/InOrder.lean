import Verif.Firehose.PassProofs

/-!
# Executions in which the log is written in order

In these every event that is stored has a larger sequence number than all before, as when one request after the other
is served. Numbers may still be skipped (C29).
-/

namespace Arroba.Fire

variable {cfg : Cfg} {p : Nat} {s s' : State}

/-- The executions of `Reach` in which the log is written in order. `stored` has the newest event first; the collector
has preloaded the events from `p` on.

* Unless there are no events at all, one has been preloaded.
* A new event has a larger number than all before, and than the one the collector had seen allocated when it started.
* The collector reads from snapshots of the storage (`t`: as it was at some time), as C34 shows.
* There is no exception while the collector hands out an event (firehose.py 324-330), and no garbage collection (C37). -/
inductive InOrder (cfg : Cfg) (p : Nat) : State → Prop
  | init {stored events : List Ev} {last : Nat} (now : Int) (h : Starts cfg stored events)
      (hd : stored.Pairwise (fun a b => b.seq < a.seq)) (hp : p ≤ last + 1)
      (hm : ∀ e, e ∈ events ↔ e ∈ stored ∧ p ≤ e.seq) (hn : events = [] → stored = []) :
      InOrder cfg p (.init cfg.window stored events last now)
  | step {s s' : State} (a : Act) (h : InOrder cfg p s) (hs : act cfg false s a = some s')
      (h1 : ∀ e, a = .store e → s.lastSeq < e.seq ∧ ∀ x ∈ s.stored, x.seq < e.seq)
      (h2 : ∀ e sc, a = .read e → s.col = .scanning sc →
        ∃ t, t <:+ s.stored ∧ e ∈ t ∧ ∀ m ∈ t, sc.pos ≤ m.seq → e.seq ≤ m.seq)
      (h3 : ∀ now, a ≠ .crash now) : InOrder cfg p s'

theorem InOrder.reach (h : InOrder cfg p s) : Reach cfg false s := by
  induction h with
  | init now h => exact .init now h
  | step a _ hs _ _ _ ih => exact .step a ih hs

/-! ### The collector -/

/-- The collector emits what is stored, without gaps. -/
structure Gapless (p : Nat) (s : State) : Prop where
  low : p ≤ s.lastSeq + 1
  desc : s.stored.Pairwise (fun a b => b.seq < a.seq)
  emitted : ∀ e ∈ s.stored, p ≤ e.seq → e.seq ≤ s.lastSeq → e ∈ s.hist ∨ ∃ sc, s.col = .taken sc e
  scanning : ∀ sc, s.col = .scanning sc → sc.pos ≤ s.lastSeq + 1
  got : ∀ sc e, s.col = .got sc e → ∀ x ∈ s.stored, s.lastSeq < x.seq → e.seq ≤ x.seq

/-- Only `store` changes what is stored. -/
theorem act_stored_eq (a : Act) (hs : act cfg false s a = some s') (ha : ∀ e, a ≠ .store e) : s'.stored = s.stored := by
  cases a <;> first
    | (exact absurd rfl (ha _))
    | (simp only [Fire.act] at hs
       repeat' (first | (split at hs) | (cases hs; done))
       all_goals (cases hs; (try unfold State.merge); (try unfold State.handoff); (repeat' split) <;> rfl))

theorem Gapless.step (h : Gapless p s) (hr : Reach cfg false s) (a : Act) (hs : act cfg false s a = some s')
    (h1 : ∀ e, a = .store e → s.lastSeq < e.seq ∧ ∀ x ∈ s.stored, x.seq < e.seq)
    (h2 : ∀ e sc, a = .read e → s.col = .scanning sc →
      ∃ t, t <:+ s.stored ∧ e ∈ t ∧ ∀ m ∈ t, sc.pos ≤ m.seq → e.seq ≤ m.seq)
    (h3 : ∀ now, a ≠ .crash now) : Gapless p s' := by
  by_cases hst : ∃ e, a = .store e
  · obtain ⟨e, rfl⟩ := hst
    obtain ⟨g1, g2⟩ := h1 e rfl
    simp only [Fire.act] at hs
    split at hs
    · cases hs
      refine ⟨h.low, List.pairwise_cons.2 ⟨g2, h.desc⟩, ?_, h.scanning, ?_⟩
      · intro x hx hp hl
        rcases List.mem_cons.1 hx with rfl | hx
        · exact absurd hl (Nat.not_le.2 g1)
        · exact h.emitted x hx hp hl
      · intro sc x hc y hy hl
        rcases List.mem_cons.1 hy with rfl | hy
        · exact Nat.le_of_lt (g2 x (hr.inv.core.got sc x hc))
        · exact h.got sc x hc y hy hl
    · cases hs
  · have hne : ∀ e, a ≠ .store e := fun e he => hst ⟨e, he⟩
    have hstored := act_stored_eq a hs hne
    by_cases hcol : a.collects = false
    · obtain ⟨k1, k2, k3⟩ := act_leaves a hs hcol
      exact ⟨by rw [k1]; exact h.low, by rw [hstored]; exact h.desc, by rw [hstored, k1, k2, k3]; exact h.emitted,
        by rw [k1, k3]; exact h.scanning, by rw [hstored, k1, k3]; exact h.got⟩
    · cases a <;> first | (exact absurd rfl hcol) | skip
      case wake =>
        simp only [Fire.act] at hs
        split at hs
        · rename_i hc
          cases hs
          refine ⟨h.low, h.desc, fun e he hp hl => ?_, fun sc hsc => by cases hsc; exact Nat.le_refl _,
            (fun _ _ hsc => nomatch hsc)⟩
          rcases h.emitted e he hp hl with g | ⟨sc, g⟩
          · exact .inl g
          · rw [hc] at g; cases g
        · cases hs
      case read e =>
        simp only [Fire.act] at hs
        split at hs
        · rename_i sc hc
          obtain ⟨t, t1, t2, t3⟩ := h2 e sc rfl hc
          split at hs
          · cases hs
            refine ⟨h.low, h.desc, fun e' he hp hl => ?_, (fun _ hsc => nomatch hsc), fun sc' e' hsc x hx hl => ?_⟩
            · rcases h.emitted e' he hp hl with g | ⟨sc', g⟩
              · exact .inl g
              · rw [hc] at g; cases g
            · cases hsc
              have hx : x ∈ s.stored := hx
              have hl : s.lastSeq < x.seq := hl
              have hpos := h.scanning sc hc
              obtain ⟨r, rt⟩ := t1
              have hd := h.desc
              rw [← rt] at hx hd
              rcases List.mem_append.1 hx with hx | hx
              · exact Nat.le_of_lt ((List.pairwise_append.1 hd).2.2 x hx e t2)
              · exact t3 x hx (by omega)
          · cases hs
        · cases hs
      case readEnd =>
        simp only [Fire.act] at hs
        split at hs
        · rename_i sc hc
          split at hs
          · cases hs
            refine ⟨h.low, h.desc, fun e' he hp hl => ?_, (fun _ hsc => nomatch hsc), (fun _ _ hsc => nomatch hsc)⟩
            rcases h.emitted e' he hp hl with g | ⟨sc', g⟩
            · exact .inl g
            · rw [hc] at g; cases g
          · cases hs
        · cases hs
      case decide now =>
        simp only [Fire.act] at hs
        split at hs
        · rename_i sc e hc
          have hem : ∀ e ∈ s.stored, p ≤ e.seq → e.seq ≤ s.lastSeq → e ∈ s.hist := by
            intro e' he hp hl
            rcases h.emitted e' he hp hl with g | ⟨sc', g⟩
            · exact g
            · rw [hc] at g; cases g
          have hsound := hr.sound
          rw [hc] at hsound
          split at hs
          · rename_i hv
            cases hs
            refine ⟨h.low, h.desc, fun e' he hp hl => .inl (hem e' he hp hl), fun sc' hsc => ?_,
              (fun _ _ hsc => nomatch hsc)⟩
            cases hsc
            have := verdict_skip hv
            have := hsound.1
            show sc.pos ≤ s.lastSeq + 1
            omega
          · cases hs
            exact ⟨h.low, h.desc, fun e' he hp hl => .inl (hem e' he hp hl), (fun _ hsc => nomatch hsc),
              (fun _ _ hsc => nomatch hsc)⟩
          · rename_i hv
            cases hs
            have hlt := ((verdict_go now e).1 hv).1
            refine ⟨?_, h.desc, fun e' he hp hl => ?_, (fun _ hsc => nomatch hsc), (fun _ _ hsc => nomatch hsc)⟩
            · have := h.low
              show p ≤ e.seq + 1
              omega
            · have hl : e'.seq ≤ e.seq := hl
              have he : e' ∈ s.stored := he
              by_cases hle : e'.seq ≤ s.lastSeq
              · exact .inl (hem e' he hp hle)
              · have := h.got sc e hc e' he (by omega)
                have : e' = e := eq_of_seq hr.inv.core.distinct he (hr.inv.core.got sc e hc) (by omega)
                exact .inr ⟨sc, by rw [this]⟩
        · cases hs
      case fail now =>
        simp only [Fire.act] at hs
        split at hs
        · rename_i sc hc
          cases hs
          refine ⟨h.low, h.desc, fun e' he hp hl => ?_, (fun _ hsc => nomatch hsc), (fun _ _ hsc => nomatch hsc)⟩
          rcases h.emitted e' he hp hl with g | ⟨sc', g⟩
          · exact .inl g
          · rw [hc] at g; cases g
        · rename_i sc e hc
          cases hs
          refine ⟨h.low, h.desc, fun e' he hp hl => ?_, (fun _ hsc => nomatch hsc), (fun _ _ hsc => nomatch hsc)⟩
          rcases h.emitted e' he hp hl with g | ⟨sc', g⟩
          · exact .inl g
          · rw [hc] at g; cases g
        · cases hs
      case crash now => exact absurd rfl (h3 now)
      case append =>
        simp only [Fire.act] at hs
        split at hs
        · rename_i sc e hc
          cases hs
          refine ⟨h.low, h.desc, fun e' he hp hl => .inl ?_, (fun _ hsc => nomatch hsc), (fun _ _ hsc => nomatch hsc)⟩
          rcases h.emitted e' he hp hl with g | ⟨sc', g⟩
          · exact List.mem_append_left _ g
          · rw [hc] at g; cases g
            exact List.mem_append_right _ (by simp)
        · cases hs
      case give =>
        simp only [Fire.act] at hs
        split at hs
        · rename_i sc e k hc
          have hem : ∀ e ∈ s.stored, p ≤ e.seq → e.seq ≤ s.lastSeq → e ∈ s.hist := by
            intro e' he hp hl
            rcases h.emitted e' he hp hl with g | ⟨sc', g⟩
            · exact g
            · rw [hc] at g; cases g
          have hsound := hr.sound
          rw [hc] at hsound
          split at hs
          · cases hs
            exact ⟨h.low, h.desc, fun e' he hp hl => .inl (hem e' he hp hl), (fun _ hsc => nomatch hsc),
              (fun _ _ hsc => nomatch hsc)⟩
          · cases hs
            refine ⟨h.low, h.desc, fun e' he hp hl => .inl (hem e' he hp hl), fun sc' hsc => ?_,
              (fun _ _ hsc => nomatch hsc)⟩
            cases hsc
            have := hsound.1
            have := hsound.2
            show sc.pos ≤ s.lastSeq + 1
            omega
        · cases hs

theorem lastSeq_init {w : Nat} {stored events : List Ev} {last : Nat} {now : Int} (hw : 0 < w) (hp : p ≤ last + 1)
    (hm : ∀ e, e ∈ events ↔ e ∈ stored ∧ p ≤ e.seq) : p ≤ (State.init w stored events last now).lastSeq + 1 := by
  show p ≤ (match (lastN w events).getLast? with
    | some e => e.seq
    | none => last) + 1
  split
  · rename_i e he
    have := ((hm e).1 ((lastN_suffix w events).mem (List.mem_of_getLast? he))).2
    omega
  · exact hp

theorem InOrder.gapless (h : InOrder cfg p s) : Gapless p s := by
  induction h with
  | @init stored events last now h hd hp hm hn =>
    refine ⟨lastSeq_init h.window hp hm, hd, fun e he hpe _ => .inl ((hm e).2 ⟨he, hpe⟩), (fun _ hsc => nomatch hsc),
      (fun _ _ hsc => nomatch hsc)⟩
  | step a h hs h1 h2 h3 ih => exact ih.step h.reach a hs h1 h2 h3

/-! ### The events before `p` -/

/-- What a subscriber has of the events before `p`. -/
def Kept (p : Nat) (g : Env) (v : View) : Prop :=
  match v.loc with
  | .pre _ _ _ _ => ∀ x ∈ g.stored, x.seq < p → x ∈ v.seen
  | .check _ _ _ _ => ∀ x ∈ g.stored, x.seq < p → x ∈ v.seen
  | .copy c => (∀ x ∈ v.out, x ∈ g.stored) ∧
      (v.since.1 = g.evictions → ∀ x ∈ g.stored, x.seq < p → c ≤ x.seq → x ∈ g.rollback ∨ x ∈ v.out)
  | .hand c _ todo => (∀ x ∈ v.out ++ todo, x ∈ g.stored) ∧
      (v.unevicted = true → ∀ x ∈ g.stored, x.seq < p → c ≤ x.seq → x ∈ v.out ++ todo)
  | .live => (∀ x ∈ v.replayed, x ∈ g.stored) ∧ ∀ c, v.cursor = some c → v.unevicted = true →
      ∀ x ∈ g.stored, x.seq < p → c ≤ x.seq → x ∈ v.replayed
  | _ => True

/-- The window begins after them, or goes on with them. -/
structure Old (p : Nat) (s : State) : Prop where
  empty : s.rollback = [] → ∀ x ∈ s.stored, p ≤ x.seq
  window : ∀ x ∈ s.stored, x.seq < p → s.start ≤ x.seq → x ∈ s.rollback
  kept : ∀ i, Kept p s.env (s.view i)

theorem Kept.env {g g' : Env} {v : View} (h : Kept p g v) (hs : Sub g v) (h1 : ∀ x ∈ g.stored, x ∈ g'.stored)
    (h2 : ∀ x ∈ g'.stored, x.seq < p → x ∈ g.stored) (h3 : g.evictions ≤ g'.evictions)
    (h4 : g'.evictions = g.evictions → ∀ x ∈ g.rollback, x ∈ g'.rollback) : Kept p g' v := by
  unfold Kept at h ⊢
  unfold Sub at hs
  split at h
  · exact fun x hx hp => h x (h2 x hx hp) hp
  · exact fun x hx hp => h x (h2 x hx hp) hp
  · rename_i c hl
    rw [hl] at hs
    have hs : Copy g v c := hs
    refine ⟨fun x hx => h1 x (h.1 x hx), fun he x hx hp hc => ?_⟩
    have := hs.sinceE
    rcases h.2 (by omega) x (h2 x hx hp) hp hc with k | k
    · exact .inl (h4 (by omega) x k)
    · exact .inr k
  · exact ⟨fun x hx => h1 x (h.1 x hx), fun he x hx hp hc => h.2 he x (h2 x hx hp) hp hc⟩
  · exact ⟨fun x hx => h1 x (h.1 x hx), fun c hc he x hx hp hcx => h.2 c hc he x (h2 x hx hp) hp hcx⟩
  · trivial

/-- A subscriber moves. -/
theorem Old.local (h : Old p s) {i : Nat} (henv : s'.env = s.env) (hv : ∀ j, j ≠ i → s'.view j = s.view j)
    (hk : Kept p s.env (s'.view i)) : Old p s' := by
  have h1 : s'.rollback = s.rollback := congrArg Env.rollback henv
  have h2 : s'.stored = s.stored := congrArg Env.stored henv
  refine ⟨by rw [h1, h2]; exact h.empty, ?_, fun j => ?_⟩
  · have := h.window
    unfold State.start at this ⊢
    rw [h1, h2]; exact this
  · rw [henv]
    by_cases hj : j = i
    · subst hj; exact hk
    · rw [hv j hj]; exact h.kept j

theorem Old.handoff (h : Old p s) (hr : Reach cfg false s) {i c : Nat} (h1 : ∀ x ∈ s.out i, x ∈ s.stored)
    (h2 : (s.since i).1 = s.evictions → ∀ x ∈ s.stored, x.seq < p → c ≤ x.seq → x ∈ s.rollback ∨ x ∈ s.out i) :
    Old p (s.handoff i c) := by
  have hroll : ∀ x ∈ s.rollback, x ∈ s.stored := fun x hx =>
    hr.inv.core.inStored x (hr.inv.core.suffix.mem hx)
  unfold State.handoff
  split
  · refine h.local (i := i) rfl (fun j hj => ?_) ?_
    · simp [State.view, State.goto, Function.update_of_ne hj]
    · have hv : (s.goto i .dead).view i = { s.view i with loc := .dead } := by
        simp [State.view, State.goto]
      rw [hv]
      trivial
  · rename_i l hl'
    refine h.local (i := i) rfl (fun j hj => ?_) ?_
    · simp [State.view, State.goto, Function.update_of_ne hj]
    · have hv : (({ s with
            unevicted := Function.update s.unevicted i (s.since i == (s.evictions, (s.since i).2))
            unmerged := Function.update s.unmerged i (s.since i == ((s.since i).1, s.merges)) } :
              State).goto i (.hand c l.seq s.rollback)).view i = { s.view i with
            loc := .hand c l.seq s.rollback
            unevicted := s.since i == (s.evictions, (s.since i).2)
            unmerged := s.since i == ((s.since i).1, s.merges) } := by
        simp [State.view, State.goto]
      rw [hv]
      refine ⟨fun x hx => ?_, fun hu x hx hp hc => ?_⟩
      · rcases List.mem_append.1 hx with hx | hx
        · exact h1 x hx
        · exact hroll x hx
      · have hu : (s.since i == (s.evictions, (s.since i).2)) = true := hu
        have hu : (s.since i).1 = s.evictions := by
          rw [beq_iff_eq] at hu
          exact congrArg Prod.fst hu
        rcases h2 hu x hx hp hc with g | g
        · exact List.mem_append_right _ g
        · exact List.mem_append_left _ g

theorem mem_lastN {l : List Ev} (hs : Sorted l) {n : Nat} {x y : Ev} (hx : x ∈ l) (hy : y ∈ lastN n l)
    (h : y.seq ≤ x.seq) : x ∈ lastN n l := by
  obtain ⟨q, hq⟩ := lastN_suffix n l
  rw [← hq] at hx hs
  rcases List.mem_append.1 hx with hx | hx
  · have := (List.pairwise_append.1 hs).2.2 x hx y hy
    omega
  · exact hx

/-- The events that a subscriber merges into the window end where the window begins. -/
theorem Old.merge (h : Old p s) (hsub : ∀ i, Sub s.env (s.view i)) {w : Nat} {pre : List Ev} {c : Nat}
    (hs : Sorted pre) (hc : ∀ x ∈ pre, c ≤ x.seq)
    (hpre : ∀ x ∈ s.stored, x.seq < p → c ≤ x.seq → x.seq < s.start → x ∈ pre) :
    Old p (s.merge (s.extra w pre)) := by
  unfold State.merge
  split
  · exact h
  · rename_i hne
    have hw : s.rollback.length < w := by
      obtain ⟨x, hx⟩ := List.exists_mem_of_ne_nil _ hne
      exact (mem_extra hx).2.2
    refine ⟨fun hn => ?_, fun x hx hp hst => ?_, fun i => ?_⟩
    · exact absurd (List.append_eq_nil_iff.1 hn).1 hne
    · have hx : x ∈ s.stored := hx
      show x ∈ s.extra w pre ++ s.rollback
      by_cases hlt : s.start ≤ x.seq
      · exact List.mem_append_right _ (h.window x hx hp hlt)
      · refine List.mem_append_left _ ?_
        obtain ⟨y, ys, hy⟩ := List.exists_cons_of_ne_nil hne
        have hst : y.seq ≤ x.seq := by
          have hst : State.start { s with rollback := s.extra w pre ++ s.rollback, merged := _, merges := _ } ≤ x.seq := hst
          unfold State.start at hst
          rw [hy] at hst
          exact hst
        have hym : y ∈ s.extra w pre := by rw [hy]; simp
        have hcx := hc y (mem_extra hym).1
        have hxp := hpre x hx hp (by omega) (by omega)
        unfold State.extra at hym ⊢
        rw [if_pos hw] at hym ⊢
        exact mem_lastN (hs.filter _) (List.mem_filter.2 ⟨hxp, by simpa using hlt⟩) hym hst
    · exact (h.kept i).env (hsub i) (fun _ h => h) (fun _ h _ => h) (Nat.le_refl _)
        (fun _ x hx => List.mem_append_right _ hx)

theorem Old.step (h : Old p s) (hr : Reach cfg false s) (hg : Gapless p s) (a : Act)
    (hs : act cfg false s a = some s')
    (h1 : ∀ e, a = .store e → s.lastSeq < e.seq ∧ ∀ x ∈ s.stored, x.seq < e.seq) : Old p s' := by
  have hi := hr.inv
  have hsub := hi.sub
  have same : s'.env = s.env → s'.view = s.view → Old p s' := by
    intro e1 e2
    exact h.local (i := 0) e1 (fun j _ => by rw [e2]) (by rw [e2]; exact h.kept 0)
  cases a with
  | store e =>
    have hlow := hg.low
    obtain ⟨g1, g2⟩ := h1 e rfl
    simp only [Fire.act] at hs
    split at hs
    · cases hs
      refine ⟨fun hn x hx => ?_, fun x hx hp hst => ?_, fun i => ?_⟩
      · rcases List.mem_cons.1 hx with rfl | hx
        · omega
        · exact h.empty hn x hx
      · rcases List.mem_cons.1 hx with rfl | hx
        · omega
        · exact h.window x hx hp hst
      · refine (h.kept i).env (hsub i) (fun x hx => List.mem_cons_of_mem _ hx) (fun x hx hp => ?_) (Nat.le_refl _)
          (fun _ _ h => h)
        rcases List.mem_cons.1 hx with rfl | hx
        · omega
        · exact hx
    · cases hs
  | allot n => simp only [Fire.act] at hs; cases hs; exact same rfl rfl
  | lose n => simp only [Fire.act] at hs; cases hs; exact same rfl rfl
  | wake => simp only [Fire.act] at hs; split at hs <;> cases hs; exact same rfl rfl
  | read e =>
    simp only [Fire.act] at hs
    split at hs
    · split at hs <;> cases hs; exact same rfl rfl
    · cases hs
  | readEnd =>
    simp only [Fire.act] at hs
    split at hs
    · split at hs <;> cases hs; exact same rfl rfl
    · cases hs
  | decide now =>
    simp only [Fire.act] at hs
    split at hs
    · split at hs <;> cases hs <;> exact same rfl rfl
    · cases hs
  | fail now => simp only [Fire.act] at hs; split at hs <;> cases hs <;> exact same rfl rfl
  | crash now => simp only [Fire.act] at hs; split at hs <;> cases hs; exact same rfl rfl
  | append =>
    simp only [Fire.act] at hs
    split at hs
    · rename_i sc e hc
      cases hs
      obtain ⟨-, -, hlt⟩ := hi.core.taken sc e hc
      have hsr := hi.core.sorted.of_suffix hi.core.suffix
      have hlt' : ∀ x ∈ s.rollback, x.seq < e.seq := fun x hx => hlt x (hi.core.suffix.mem hx)
      have hse : Sorted (s.rollback ++ [e]) := List.pairwise_append.2 ⟨hsr, by simp, fun a ha b hb => by
        simp at hb; subst hb; exact hlt' a ha⟩
      have hmem := mem_push hi.core.win s.rollback e
      refine ⟨fun hn => ?_, fun x hx hp hst => ?_, fun i => ?_⟩
      · rw [show push cfg.window s.rollback e = [] from hn] at hmem; cases hmem
      · have hx : x ∈ s.stored := hx
        show x ∈ push cfg.window s.rollback e
        have hrne : s.rollback ≠ [] := by
          intro hn
          have := h.empty hn x hx
          omega
        obtain ⟨y, ys, hy⟩ := List.exists_cons_of_ne_nil (List.ne_nil_of_mem hmem)
        have hst : y.seq ≤ x.seq := by
          have hst : (match push cfg.window s.rollback e with
            | [] => 0
            | r :: _ => r.seq) ≤ x.seq := hst
          rw [hy] at hst
          exact hst
        have hym : y ∈ push cfg.window s.rollback e := by rw [hy]; simp
        have hxr : x ∈ s.rollback := by
          refine h.window x hx hp (Nat.le_trans ?_ hst)
          rcases List.mem_append.1 ((push_suffix _ _ _).mem hym) with g | g
          · exact start_le hi.core g
          · simp at g; subst g
            obtain ⟨r, hr1, hr2⟩ := start_mem hrne
            have := hlt' r hr1
            omega
        obtain ⟨q, hq⟩ := push_suffix cfg.window s.rollback e
        have hx2 : x ∈ s.rollback ++ [e] := List.mem_append_left _ hxr
        rw [← hq] at hx2 hse
        rcases List.mem_append.1 hx2 with g | g
        · have := (List.pairwise_append.1 hse).2.2 x g y hym
          omega
        · exact g
      · refine (h.kept i).env (hsub i) (fun x hx => hx) (fun x hx _ => hx) (Nat.le_add_right _ _) (fun he x hx => ?_)
        have he : s.evictions + (s.rollback.length + 1 - cfg.window) = s.evictions := he
        show x ∈ push cfg.window s.rollback e
        rw [push_keep (by omega)]
        exact List.mem_append_left _ hx
    · cases hs
  | give =>
    simp only [Fire.act] at hs
    split at hs
    · split at hs
      · cases hs
        exact ⟨h.empty, h.window, fun i => h.kept i⟩
      · cases hs
        exact same rfl rfl
    · cases hs
  | call i c =>
    simp only [Fire.act] at hs
    split at hs
    · cases hs
      refine h.local (i := i) rfl (fun j hj => ?_) ?_
      · simp [State.view, State.goto, Function.update_of_ne hj]
      · have hv : (({ s with cursor := Function.update s.cursor i c } : State).goto i (.ready c)).view i =
            { s.view i with loc := .ready c, cursor := c } := by simp [State.view, State.goto]
        rw [hv]
        trivial
    · cases hs
  | begin i =>
    simp only [Fire.act] at hs
    split at hs
    · cases hs
      refine h.local (i := i) rfl (fun j hj => ?_) ?_
      · simp [State.view, State.goto, Function.update_of_ne hj]
      · have hv : (s.goto i .join).view i = { s.view i with loc := .join } := by
          simp [State.view, State.goto]
        rw [hv]
        trivial
    · rename_i c hl
      have hsi := hsub i
      unfold Sub at hsi
      rw [show (s.view i).loc = .ready (some c) from hl] at hsi
      split at hs
      · rename_i hlt
        cases hs
        refine h.local (i := i) rfl (fun j hj => ?_) ?_
        · simp [State.view, State.goto, Function.update_of_ne hj]
        · have hv : (({ s with
                since := Function.update s.since i (s.evictions, s.merges)
                seen := Function.update s.seen i s.stored
                front := Function.update s.front i s.start } : State).goto i
                  (.pre c ⟨s.stored, c⟩ none [])).view i = { s.view i with
                loc := .pre c ⟨s.stored, c⟩ none [], since := (s.evictions, s.merges)
                seen := s.stored, front := s.start } := by simp [State.view, State.goto]
          rw [hv]
          exact fun x hx _ => hx
      · rename_i hlt
        cases hs
        refine h.local (i := i) rfl (fun j hj => ?_) ?_
        · simp [State.view, State.goto, Function.update_of_ne hj]
        · have hv : (({ s with
                since := Function.update s.since i (s.evictions, s.merges)
                seen := Function.update s.seen i s.stored
                front := Function.update s.front i s.start } : State).goto i (.copy c)).view i =
                { s.view i with
                  loc := .copy c, since := (s.evictions, s.merges)
                  seen := s.stored, front := s.start } := by simp [State.view, State.goto]
          rw [hv]
          refine ⟨fun x hx => ?_, fun _ x hx hp hc => .inl (h.window x hx hp (by omega))⟩
          have hx : x ∈ s.out i := hx
          rw [show s.out i = [] from hsi.1] at hx
          cases hx
    · cases hs
  | scan i e =>
    simp only [Fire.act] at hs
    split at hs
    · rename_i c sc last pre hl
      have hk := h.kept i
      unfold Kept at hk
      rw [show (s.view i).loc = .pre c sc last pre from hl] at hk
      split at hs
      · have hnew : ∀ l', (∃ a b d, l' = SubLoc.pre a b d pre) ∨ (∃ a b d, l' = SubLoc.check a b pre d) →
            Old p (s.goto i l') := by
          intro l' hl'
          refine h.local (i := i) rfl (fun j hj => ?_) ?_
          · simp [State.view, State.goto, Function.update_of_ne hj]
          · have hv : (s.goto i l').view i = { s.view i with loc := l' } := by
              simp [State.view, State.goto]
            rw [hv]
            rcases hl' with ⟨a, b, d, rfl⟩ | ⟨a, b, d, rfl⟩ <;> exact hk
        split at hs
        · split at hs
          · cases hs; exact hnew _ (.inl ⟨_, _, _, rfl⟩)
          · cases hs; exact hnew _ (.inr ⟨_, _, _, rfl⟩)
        · cases hs; exact hnew _ (.inr ⟨_, _, _, rfl⟩)
      · cases hs
    · cases hs
  | scanEnd i =>
    simp only [Fire.act] at hs
    split at hs
    · rename_i c sc last pre hl
      have hk := h.kept i
      unfold Kept at hk
      rw [show (s.view i).loc = .pre c sc last pre from hl] at hk
      have hsi := hsub i
      unfold Sub at hsi
      rw [show (s.view i).loc = .pre c sc last pre from hl] at hsi
      obtain ⟨hp, -, -⟩ := hsi
      split at hs
      · rename_i he
        cases hs
        refine h.local (i := i) rfl (fun j hj => ?_) ?_
        · simp [State.view, State.goto, Function.update_of_ne hj]
        · have hv : (s.goto i (.copy c)).view i = { s.view i with loc := .copy c } := by
            simp [State.view, State.goto]
          rw [hv]
          refine ⟨hp.stored, fun _ x hx hlt hc => .inr ?_⟩
          have hm : x ∈ sc.snap := by rw [hp.seen]; exact hk x hx hlt
          exact hp.complete x hm hc (by simpa using List.all_eq_true.1 he x hm)
      · cases hs
    · cases hs
  | look i =>
    simp only [Fire.act] at hs
    split at hs
    · cases hs
    · split at hs
      · rename_i c sc pre e hl
        have hk := h.kept i
        unfold Kept at hk
        rw [show (s.view i).loc = .check c sc pre e from hl] at hk
        have hsi := hsub i
        unfold Sub at hsi
        rw [show (s.view i).loc = .check c sc pre e from hl] at hsi
        obtain ⟨hp, ho, hes, hpos⟩ := hsi
        have ho : s.out i = pre := ho
        have hcomp : ∀ x ∈ s.stored, x.seq < p → c ≤ x.seq → x.seq < e.seq → x ∈ s.out i := fun x hx hlt hc hl =>
          hp.complete x (by rw [hp.seen]; exact hk x hx hlt) hc hl
        split at hs
        · rename_i hge
          cases hs
          have ho' := h.handoff hr (i := i) (c := c) hp.stored (fun _ x hx hlt hc => by
            by_cases hle : x.seq < e.seq
            · exact .inr (hcomp x hx hlt hc hle)
            · exact .inl (h.window x hx hlt (by omega)))
          have hih : Inv cfg false (s.handoff i c) := hi.handoff (by rw [hl]; simp) (hi.reached hp hge)
          have hext : s.extra cfg.window pre = (s.handoff i c).extra cfg.window pre := by
            unfold State.extra State.start
            rw [handoff_rollback]
          have hst : (s.handoff i c).stored = s.stored := by
            unfold State.handoff; split <;> rfl
          have hstart : (s.handoff i c).start = s.start := by
            unfold State.start
            rw [handoff_rollback]
          rw [hext]
          refine ho'.merge hih.sub (c := c) (by rw [← ho]; exact hp.sorted) (by rw [← ho]; exact hp.ge)
            (fun x hx hlt hc hl => ?_)
          rw [hst] at hx
          rw [hstart] at hl
          rw [← ho]
          exact hcomp x hx hlt hc (by omega)
        · cases hs
          refine h.local (i := i) rfl (fun j hj => ?_) ?_
          · simp [State.view, State.goto, State.yield, Function.update_of_ne hj]
          · have hv : ((s.yield i e).goto i (.pre c sc (some e.seq) (pre ++ [e]))).view i = { s.view i with
                out := s.out i ++ [e], loc := .pre c sc (some e.seq) (pre ++ [e]) } := by
              simp [State.view, State.goto, State.yield]
            rw [hv]
            exact hk
      · cases hs
  | copyRollback i =>
    simp only [Fire.act] at hs
    split at hs
    · rename_i c hl
      cases hs
      have hk := h.kept i
      unfold Kept at hk
      rw [show (s.view i).loc = .copy c from hl] at hk
      exact h.handoff hr hk.1 hk.2
    · cases hs
  | replay i =>
    simp only [Fire.act] at hs
    split at hs
    · rename_i c last e todo hl
      have hk := h.kept i
      unfold Kept at hk
      rw [show (s.view i).loc = .hand c last (e :: todo) from hl] at hk
      obtain ⟨k1, k2⟩ := hk
      have k1 : ∀ x ∈ s.out i ++ e :: todo, x ∈ s.stored := k1
      have k2 : s.unevicted i = true → ∀ x ∈ s.stored, x.seq < p → c ≤ x.seq → x ∈ s.out i ++ e :: todo := k2
      split at hs
      · cases hs
        refine h.local (i := i) rfl (fun j hj => ?_) ?_
        · simp [State.view, State.goto, State.yield, Function.update_of_ne hj]
        · have hv : ((s.yield i e).goto i (.hand c last todo)).view i = { s.view i with
              out := s.out i ++ [e], loc := .hand c last todo } := by
            simp [State.view, State.goto, State.yield]
          rw [hv]
          have happ : s.out i ++ [e] ++ todo = s.out i ++ e :: todo := by simp
          unfold Kept
          dsimp only
          rw [happ]
          exact ⟨k1, k2⟩
      · rename_i hlt
        cases hs
        refine h.local (i := i) rfl (fun j hj => ?_) ?_
        · simp [State.view, State.goto, Function.update_of_ne hj]
        · have hv : (s.goto i (.hand c last todo)).view i = { s.view i with loc := .hand c last todo } := by
            simp [State.view, State.goto]
          rw [hv]
          refine ⟨fun x hx => k1 x ?_, fun hu x hx hp hc => ?_⟩
          · rcases List.mem_append.1 hx with hx | hx
            · exact List.mem_append_left _ hx
            · exact List.mem_append_right _ (List.mem_cons_of_mem _ hx)
          · rcases List.mem_append.1 (k2 hu x hx hp hc) with g | g
            · exact List.mem_append_left _ g
            · rcases List.mem_cons.1 g with rfl | g
              · omega
              · exact List.mem_append_right _ g
    · cases hs
  | goLive i =>
    have hreg : ∀ q, (∀ x ∈ s.out i ++ q, x ∈ s.stored) → (∀ c, s.cursor i = some c → s.unevicted i = true →
        ∀ x ∈ s.stored, x.seq < p → c ≤ x.seq → x ∈ s.out i ++ q) → Old p (s.register i q) := by
      intro q k1 k2
      refine h.local (i := i) rfl (fun j hj => ?_) ?_
      · simp [State.view, State.goto, State.register, Function.update_of_ne hj]
      · have hv : (s.register i q).view i = { s.view i with
            loc := .live, queue := q, joined := s.hist.length, replayed := s.out i ++ q } := by
          simp [State.view, State.goto, State.register]
        rw [hv]
        exact ⟨k1, k2⟩
    have hroll : ∀ x ∈ s.rollback, x ∈ s.stored := fun x hx => hi.core.inStored x (hi.core.suffix.mem hx)
    simp only [Fire.act] at hs
    split at hs
    · cases hs
    · split at hs
      · rename_i hl
        cases hs
        have hsi := hsub i
        unfold Sub at hsi
        rw [show (s.view i).loc = .join from hl] at hsi
        refine hreg [] ?_ ?_
        · rw [show s.out i = [] from hsi.1]; simp
        · intro c hc
          rw [show s.cursor i = none from hsi.2.2] at hc
          cases hc
      · rename_i c last hl
        have hk := h.kept i
        unfold Kept at hk
        rw [show (s.view i).loc = .hand c last [] from hl] at hk
        have hsi := hsub i
        unfold Sub at hsi
        rw [show (s.view i).loc = .hand c last [] from hl] at hsi
        have hcur : s.cursor i = some c := Hand.cursor hsi
        split at hs
        · cases hs
          refine hreg _ ?_ ?_
          · intro x hx
            rcases List.mem_append.1 hx with hx | hx
            · exact hk.1 x (List.mem_append_left _ hx)
            · rw [catchUp_eq (hi.core.sorted.of_suffix hi.core.suffix)] at hx
              exact hroll x (List.mem_filter.1 hx).1
          · intro c' hc' hu x hx hp hcx
            rw [hcur] at hc'; cases hc'
            have := hk.2 hu x hx hp hcx
            rw [List.append_nil] at this
            exact List.mem_append_left _ this
        · cases hs
          refine h.local (i := i) rfl (fun j hj => ?_) ?_
          · simp [State.view, State.goto, Function.update_of_ne hj]
          · have hv : (s.goto i .dead).view i = { s.view i with loc := .dead } := by
              simp [State.view, State.goto]
            rw [hv]
            trivial
      · cases hs
  | pull i =>
    simp only [Fire.act] at hs
    split at hs
    · rename_i e q hl hq
      cases hs
      have hk := h.kept i
      unfold Kept at hk
      rw [show (s.view i).loc = .live from hl] at hk
      refine h.local (i := i) rfl (fun j hj => ?_) ?_
      · simp [State.view, State.yield, Function.update_of_ne hj]
      · unfold Kept
        rw [show ((({ s with queue := Function.update s.queue i q } : State).yield i e).view i).loc = .live from hl]
        exact hk
    · cases hs
  | close i =>
    have hdead : ∀ s1 : State, s1.env = s.env → s1.view = s.view → Old p (s1.goto i .dead) := by
      intro s1 e1 e2
      refine h.local (i := i) e1 (fun j hj => ?_) ?_
      · rw [← e2]
        simp [State.view, State.goto, Function.update_of_ne hj]
      · have hv : (s1.goto i .dead).view i = { s1.view i with loc := .dead } := by
          simp [State.view, State.goto]
        rw [hv]
        trivial
    simp only [Fire.act] at hs
    split at hs
    · cases hs
    · split at hs <;> cases hs
      exact hdead _ rfl rfl
    · cases hs
      exact hdead _ rfl rfl
  | reap i =>
    simp only [Fire.act] at hs
    split at hs
    · split at hs
      · rename_i hx; simp at hx
      · cases hs
    · cases hs

theorem InOrder.old (h : InOrder cfg p s) : Old p s := by
  induction h with
  | @init stored events last now h hd hp hm hn =>
    have hne : events ≠ [] → lastN cfg.window events ≠ [] := by
      intro he hc
      have : (lastN cfg.window events).length = 0 := by rw [hc]; rfl
      unfold lastN at this
      rw [List.length_drop] at this
      have := List.length_pos_iff.2 he
      have := h.window
      omega
    refine ⟨fun hr x hx => ?_, fun x hx hlt hst => ?_, fun i => trivial⟩
    · by_cases he : events = []
      · rw [show (State.init cfg.window stored events last now).stored = stored from rfl, hn he] at hx
        cases hx
      · exact absurd hr (hne he)
    · have hx : x ∈ stored := hx
      have he : events ≠ [] := fun he => by rw [hn he] at hx; cases hx
      obtain ⟨y, hy1, hy2⟩ := start_mem (s := State.init cfg.window stored events last now) (hne he)
      have := ((hm y).1 ((lastN_suffix cfg.window events).mem hy1)).2
      omega
  | step a h hs h1 h2 h3 ih => exact ih.step h.reach h.gapless a hs h1

end Arroba.Fire
