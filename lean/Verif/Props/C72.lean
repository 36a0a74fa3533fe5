import Verif.Firehose.ProgressProofs
import Verif.Firehose.CollectLog
import Verif.Firehose.JointProofs
import Verif.Props.C39
import Verif.Xrpc.Example

/-!
# C72: the firehose does not get stuck

`Round` and `Rounds` (Firehose/ProgressProofs.lean) say what passes of the collector are; `collectPass`
(Firehose/Collect.lean) is one pass over the log.
-/

namespace Arroba.Fire

variable {cfg : Cfg} {gc : Bool} {s s' : State}

/-- **C72, the collector can always go on**, whatever the others are doing, and at any time: there is always a next
step, and it is not an exception. -/
theorem C72_collector (h : Reach cfg gc s) (now : Int) : ∃ a s', act cfg gc s a = some s' ∧
    (a = .wake ∨ (∃ e, a = .read e) ∨ a = .readEnd ∨ a = .decide now ∨ a = .append ∨ a = .give) := by
  have hsnap := h.snap
  cases hc : s.col with
  | waiting => exact ⟨.wake, _, by simp only [act, hc]; rfl, .inl rfl⟩
  | scanning sc =>
    cases he : sc.ends with
    | true => exact ⟨.readEnd, _, by simp only [act, hc, he, if_true]; rfl, by simp⟩
    | false =>
      obtain ⟨e, hy⟩ := Scan.next (hsnap sc (by rw [hc]; rfl)) he
      exact ⟨.read e, _, by simp only [act, hc, hy, if_true]; rfl, .inr (.inl ⟨e, rfl⟩)⟩
  | got sc e =>
    cases hv : verdict cfg s now e with
    | skip => exact ⟨.decide now, _, by simp only [act, hc, hv]; rfl, by simp⟩
    | wait => exact ⟨.decide now, _, by simp only [act, hc, hv]; rfl, by simp⟩
    | go => exact ⟨.decide now, _, by simp only [act, hc, hv]; rfl, by simp⟩
  | taken sc e => exact ⟨.append, _, by simp only [act, hc]; rfl, by simp⟩
  | handing sc e k =>
    cases hk : s.subs[k]? with
    | none => exact ⟨.give, _, by simp only [act, hc, hk]; rfl, by simp⟩
    | some i => exact ⟨.give, _, by simp only [act, hc, hk]; rfl, by simp⟩

/-- How often the actions of a list are of some sort. -/
theorem countP_cons {p : Act → Bool} {a : Act} {as : List Act} :
    (a :: as).countP p = as.countP p + if p a = true then 1 else 0 := List.countP_cons

theorem passes_aux {n : Nat} : ∀ {as : List Act} {s s' : State}, acts cfg gc s as = some s' →
    (∀ a ∈ as, a.starts = false) → s.subs.length + as.countP Act.joins ≤ n →
    as.countP Act.collects ≤ s.col.left n s.stored
  | [], s, s', _, _, _ => by simp
  | a :: as, s, s', h, hn, hl => by
    unfold Fire.acts at h
    rw [List.foldlM_cons] at h
    cases ha : act cfg gc s a with
    | none => rw [ha] at h; cases h
    | some s1 =>
      rw [ha] at h
      have h1 := act_subs a ha
      rw [countP_cons] at hl
      have ih := passes_aux (n := n) (as := as) (s := s1) h (fun b hb => hn b (List.mem_cons_of_mem _ hb)) (by omega)
      have hst := hn a List.mem_cons_self
      rw [countP_cons]
      cases hc : a.collects with
      | true =>
        have := act_left (n := n) a ha (by omega) hst hc
        simp only [if_true]
        omega
      | false =>
        have h2 := act_same_stored a ha (by rintro e rfl; cases hst)
        have h3 := (act_leaves a ha hc).col
        rw [h2, h3] at ih
        simpa using ih

theorem left_bound (n : Nat) (stored : List Ev) (c : ColLoc) : c.left n stored ≤ (stored.length + 2) * (n + 4) := by
  have h : ∀ sc : Scan, sc.left stored * (n + 4) ≤ stored.length * (n + 4) := fun sc =>
    Nat.mul_le_mul_right _ (sc.left_le stored)
  have e : (stored.length + 2) * (n + 4) = stored.length * (n + 4) + 2 * (n + 4) := Nat.add_mul ..
  rw [e]
  cases c with
  | waiting => exact Nat.zero_le _
  | scanning sc => have := h sc; simp only [ColLoc.left]; omega
  | got sc e => have := h sc; simp only [ColLoc.left]; omega
  | taken sc e => have := h sc; simp only [ColLoc.left]; omega
  | handing sc e k => have := h sc; simp only [ColLoc.left]; omega

/-- **C72, passes end.** In an execution in which nothing is stored and the collector does not wake up, it makes at most as many
steps as there are events and subscribers to go through, however the steps of the subscribers are interleaved with it. -/
theorem C72_passes {as : List Act} (h : acts cfg gc s as = some s') (h1 : ∀ e, .store e ∉ as) (h2 : .wake ∉ as) :
    as.countP Act.collects ≤ (s.stored.length + 2) * (s.subs.length + as.countP Act.joins + 4) := by
  refine Nat.le_trans (passes_aux h (fun a ha => ?_) (Nat.le_refl _)) (left_bound _ _ _)
  cases a <;> first | rfl | exact absurd ha (h1 _) | exact absurd ha h2

/-- **C72, everything stored is emitted.** An event that is stored and not emitted yet, when the collector waits, is emitted
after at most as many good passes as it is ahead in number: passes without an exception, more than the skip delay after
the last emission before. In between anything can happen: other passes (in which exceptions may be raised, except while an
event is handed out), events that are stored, subscribers that come and go. -/
theorem C72_emitted (hr : Reach cfg gc s) {e : Ev} (he : e ∈ s.stored) (hl : s.lastSeq < e.seq) {n : Nat}
    (h : Rounds cfg gc s n s') (hn : e.seq - s.lastSeq ≤ n) : e ∈ s'.hist := by
  rcases h.closer hr he hl with h1 | ⟨h1, h2⟩
  · exact h1
  · omega

/-- **C72, a subscriber can always go on** until it gets the live events, except that it waits while the collector hands
out an event. -/
theorem C72_subscriber (h : Reach cfg gc s) {i : Nat} (h1 : s.loc i ≠ .idle) (h2 : s.loc i ≠ .live) (h3 : s.loc i ≠ .dead)
    (hlock : s.col.locked = false) : ∃ a s', act cfg gc s a = some s' ∧ a.serves i = true := by
  have hsnap := h.subSnap i
  cases hc : s.loc i with
  | idle => exact absurd hc h1
  | live => exact absurd hc h2
  | dead => exact absurd hc h3
  | ready c =>
    cases c with
    | none => exact ⟨.begin i, _, by simp only [act, hc]; rfl, by simp [Act.serves]⟩
    | some c =>
      by_cases hlt : c < s.start
      · exact ⟨.begin i, _, by simp only [act, hc]; rw [if_pos hlt], by simp [Act.serves]⟩
      · exact ⟨.begin i, _, by simp only [act, hc]; rw [if_neg hlt], by simp [Act.serves]⟩
  | pre c sc last pre =>
    cases he : sc.ends with
    | true => exact ⟨.scanEnd i, _, by simp only [act, hc, he, if_true]; rfl, by simp [Act.serves]⟩
    | false =>
      obtain ⟨e, hy⟩ := Scan.next (hsnap sc (by rw [hc]; rfl)) he
      have : (act cfg gc s (.scan i e)).isSome = true := by
        simp only [act, hc, hy, if_true]
        split
        · split <;> rfl
        · rfl
      obtain ⟨s', hs⟩ := Option.isSome_iff_exists.1 this
      exact ⟨.scan i e, s', hs, by simp [Act.serves]⟩
  | check c sc pre e =>
    have : (act cfg gc s (.look i)).isSome = true := by
      simp only [act, hc, hlock]
      split
      · contradiction
      · split <;> rfl
    obtain ⟨s', hs⟩ := Option.isSome_iff_exists.1 this
    exact ⟨.look i, s', hs, by simp [Act.serves]⟩
  | copy c => exact ⟨.copyRollback i, _, by simp only [act, hc]; rfl, by simp [Act.serves]⟩
  | hand c last todo =>
    cases todo with
    | nil =>
      have : (act cfg gc s (.goLive i)).isSome = true := by
        simp only [act, hc, hlock]
        split
        · contradiction
        · split <;> rfl
      obtain ⟨s', hs⟩ := Option.isSome_iff_exists.1 this
      exact ⟨.goLive i, s', hs, by simp [Act.serves]⟩
    | cons e todo =>
      have : (act cfg gc s (.replay i)).isSome = true := by
        simp only [act, hc]
        split <;> rfl
      obtain ⟨s', hs⟩ := Option.isSome_iff_exists.1 this
      exact ⟨.replay i, s', hs, by simp [Act.serves]⟩
  | join =>
    have : (act cfg gc s (.goLive i)).isSome = true := by
      simp only [act, hc, hlock]
      rfl
    obtain ⟨s', hs⟩ := Option.isSome_iff_exists.1 this
    exact ⟨.goLive i, s', hs, by simp [Act.serves]⟩

theorem serves_aux {i : Nat} : ∀ {as : List Act} {s s' : State}, Reach cfg gc s → acts cfg gc s as = some s' →
    (∀ e, .store e ∉ as) → (∀ c, .call i c ∉ as) →
    as.countP (Act.serves i) + (s'.loc i).left cfg.window s'.stored ≤ (s.loc i).left cfg.window s.stored
  | [], s, s', _, h, _, _ => by cases h; simp
  | a :: as, s, s', hr, h, h1, h2 => by
    unfold Fire.acts at h
    rw [List.foldlM_cons] at h
    cases ha : act cfg gc s a with
    | none => rw [ha] at h; cases h
    | some s1 =>
      rw [ha] at h
      have ih := serves_aux (i := i) (as := as) (hr.step a ha) h (fun e he => h1 e (List.mem_cons_of_mem _ he))
        (fun c hc => h2 c (List.mem_cons_of_mem _ hc))
      rw [countP_cons]
      cases hs : a.serves i with
      | true =>
        have := act_serve_left a ha hr.window hs
        simp only [if_true]
        omega
      | false =>
        have h3 := act_same_stored a ha (by rintro e rfl; exact h1 e List.mem_cons_self)
        have h4 : (s1.loc i).left cfg.window s1.stored ≤ (s.loc i).left cfg.window s.stored := by
          rw [h3]
          rcases act_loc a ha hs (by rintro c rfl; exact h2 c List.mem_cons_self) with h5 | h5
          · rw [h5]
          · rw [h5]; exact Nat.zero_le _
        simp only [Bool.false_eq_true, if_false]
        omega

theorem loc_bound (w : Nat) (stored : List Ev) (l : SubLoc) (h : ∀ c last todo, l = .hand c last todo → todo.length ≤ w) :
    l.left w stored ≤ 2 * stored.length + w + 4 := by
  cases l with
  | pre c sc last pre => have := sc.left_le stored; simp only [SubLoc.left]; omega
  | check c sc pre e => have := sc.left_le stored; simp only [SubLoc.left]; omega
  | hand c last todo => have := h c last todo rfl; simp only [SubLoc.left]; omega
  | _ => simp only [SubLoc.left]; omega

/-- **C72, a subscriber gets to the live events.** In an execution in which nothing is stored, a subscriber that has called
`subscribe` makes at most as many steps as there are events to read and to replay, before it is live (or its generator has
ended), however the steps of the others are interleaved with it. -/
theorem C72_serves {as : List Act} {i : Nat} {c : Option Nat} (hr : Reach cfg gc s) (hc : s.loc i = .ready c)
    (h : acts cfg gc s as = some s') (h1 : ∀ e, .store e ∉ as) :
    as.countP (Act.serves i) ≤ 2 * s.stored.length + cfg.window + 4 := by
  have h2 : ∀ c, .call i c ∉ as := by
    -- it is called only once
    have : ∀ {as : List Act} {s s' : State}, acts cfg gc s as = some s' → s.loc i ≠ .idle → ∀ c, .call i c ∉ as := by
      intro as
      induction as with
      | nil => intro s s' _ _ c hm; cases hm
      | cons a as ih =>
        intro s s' h hl c hm
        unfold Fire.acts at h
        rw [List.foldlM_cons] at h
        cases ha : act cfg gc s a with
        | none => rw [ha] at h; cases h
        | some s1 =>
          rw [ha] at h
          have hcall : ∀ c, a ≠ .call i c := by
            rintro c rfl
            cases hi : s.loc i with
            | idle => exact hl hi
            | _ => simp only [act, hi] at ha; cases ha
          rcases List.mem_cons.1 hm with h3 | hm
          · exact hcall c h3.symm
          · refine ih (s := s1) h ?_ c hm
            cases hs : a.serves i with
            | false =>
              rcases act_loc a ha hs hcall with h5 | h5
              · rw [h5]; exact hl
              · rw [h5]; simp
            | true =>
              intro hidle
              cases a <;> first | (cases hs; done) | (simp only [Act.serves, beq_iff_eq] at hs; subst hs; simp only [act] at ha)
              case look j =>
                repeat' (first | (split at ha) | (cases ha; done))
                · cases ha
                  rw [merge_loc] at hidle
                  unfold State.handoff at hidle
                  split at hidle <;> simp [State.goto] at hidle
                · cases ha; simp [State.goto] at hidle
              case copyRollback j =>
                repeat' (first | (split at ha) | (cases ha; done))
                cases ha
                unfold State.handoff at hidle
                split at hidle <;> simp [State.goto] at hidle
              all_goals
                (repeat' (first | (split at ha) | (cases ha; done))
                 all_goals (cases ha; simp [State.goto, State.register] at hidle))
    exact this h (by rw [hc]; simp)
  have := serves_aux hr h h1 h2
  rw [hc] at this
  simp only [SubLoc.left] at this
  omega

/-- **C72, a live subscriber gets what it is handed**: the next event in its queue, with its next step. -/
theorem C72_pull {i : Nat} {e : Ev} {q : List Ev} (hl : s.loc i = .live) (hq : s.queue i = e :: q) :
    ∃ s', act cfg gc s (.pull i) = some s' ∧ s'.out i = s.out i ++ [e] ∧ s'.queue i = q := by
  refine ⟨_, by simp only [act, hl, hq]; rfl, ?_, ?_⟩
  · simp [State.yield]
  · simp [State.yield]

/-! ### An example -/

/-- Steps of a good round. -/
def roundSteps (cfg : Cfg) (gc : Bool) (from_ : Int) : State → List Act → Option State
  | s, [] => some s
  | s, a :: as => match a, s.col with
    | .fail _, _ | .crash _, _ | _, .waiting => none
    | .decide now, _ => if now - from_ > cfg.delay then
        match act cfg gc s (.decide now) with
        | some s' => roundSteps cfg gc from_ s' as
        | none => none
      else none
    | _, _ => match act cfg gc s a with
      | some s' => roundSteps cfg gc from_ s' as
      | none => none

theorem Round.steps {s₀ : State} : ∀ {as : List Act} {s s' : State}, Round cfg gc true s₀ s →
    roundSteps cfg gc s₀.lastEvent s as = some s' → Round cfg gc true s₀ s'
  | [], s, s', h, hs => by cases hs; exact h
  | a :: as, s, s', h, hs => by
    unfold roundSteps at hs
    split at hs
    · cases hs
    · cases hs
    · cases hs
    · rename_i now h1
      split at hs
      · rename_i hlate
        split at hs
        · rename_i s1 ha
          refine Round.steps (h.step _ ha h1 (by simp) fun _ => ⟨by simp, ?_⟩) hs
          intro now' he
          cases he
          exact hlate
        · cases hs
      · cases hs
    · rename_i h1 h2 h4 h3
      split at hs
      · rename_i s1 ha
        exact Round.steps (h.step _ ha h3 h2 fun _ => ⟨h1, fun now he => absurd he (h4 now)⟩) hs
      · cases hs

/-- 8 and 9 are stored, 7 is missing. A pass soon after the last emission (time 0) emits nothing; one after the skip delay emits
both. -/
example : ∃ s s', Reach exCfg false s ∧ ev 9 ∈ s.stored ∧ s.lastSeq = 6 ∧ Rounds exCfg false s 1 s' ∧
    s'.hist.map (·.seq) = [5, 6, 8, 9] := by
  have h : ((acts exCfg false exInit [.allot (some 9), .store (ev 9), .store (ev 8)]).bind fun s =>
      (acts exCfg false s [.wake, .read (ev 8), .decide 60]).bind fun s1 =>
        (act exCfg false s1 .wake).bind fun s2 =>
          (roundSteps exCfg false s1.lastEvent s2 [.read (ev 8), .decide 200, .append, .give, .read (ev 9), .decide 201, .append, .give,
            .readEnd]).map fun s3 => decide (ev 9 ∈ s.stored ∧ s.lastSeq = 6 ∧ s.col = .waiting ∧ s1.col = .waiting ∧
              s3.col = .waiting ∧ s3.hist.map (·.seq) = [5, 6, 8, 9])) = some true := by
    decide +kernel
  obtain ⟨s, h0, h⟩ := Option.bind_eq_some_iff.1 h
  obtain ⟨s1, h1, h⟩ := Option.bind_eq_some_iff.1 h
  obtain ⟨s2, h2, h⟩ := Option.bind_eq_some_iff.1 h
  obtain ⟨s3, h3, h⟩ := Option.map_eq_some_iff.1 h
  obtain ⟨a1, a2, a3, a4, a5, a6⟩ := of_decide_eq_true h
  refine ⟨s, s3, exInit_reach.acts h0, a1, a2, ?_, a6⟩
  have r1 : Round exCfg false false s s1 := by
    unfold Fire.acts at h1
    obtain ⟨t1, g1, h1⟩ := Option.bind_eq_some_iff.1 h1
    obtain ⟨t2, g2, h1⟩ := Option.bind_eq_some_iff.1 h1
    obtain ⟨t3, g3, h1⟩ := Option.bind_eq_some_iff.1 h1
    cases h1
    have w1 : t1.col ≠ .waiting := by
      intro hw; simp only [act, hw] at g2; cases g2
    have w2 : t2.col ≠ .waiting := by
      intro hw; simp only [act, hw] at g3; cases g3
    exact ((Round.wake (good := false) g1).step _ g2 w1 (by simp) (by simp)).step _ g3 w2 (by simp) (by simp)
  exact ((Rounds.start a3).round false r1 a4).round true ((Round.wake h2).steps h3) a5

end Arroba.Fire

namespace Arroba.Store

variable {C R : Type} [DecidableEq C] {L : Lib C R} {Z : Nat} {be : Backend} {al : Allow} {w w' : World C R}
  {field : R → Option Nat} {goes : Nat → Nat → Bool}

/-! ### What makes passes raise -/

/-- **C72, passes do not raise** (partial: the hypotheses are those of C57, see there and `C72_lookalike_false`). Reading the
log, and making the messages, raises nothing, wherever the pass begins; and if it does not wait for missing numbers, it
emits everything from there on. -/
theorem C72_log_partial (hL : L.OK Z) (ht : ¬ al.torn) (hp : ¬ al.partway) (hplain : PlainRecords L) (h : Reach L be al w)
    {last : Nat} {q : List (Block C R)} (hq : Query L w (last + 1) none q) :
    (∀ goes, (collectPass L w field goes last q).2.2 = none) ∧
    ∃ ms : List (Block C R), (∀ b, b ∈ ms ↔ Logged L w (last + 1) none b) ∧
      List.Forall₂ (Announces L w) ms (collectPass L w field (fun _ _ => true) last q).2.1 ∧
      (collectPass L w field (fun _ _ => true) last q).1 = (ms.getLast?.map (·.seq)).getD last := by
  obtain ⟨h1, ms', h2', h3', h4'⟩ := C30_log_partial hL hp hplain h (fun _ => Nat.le_add_left _ _) hq
  obtain ⟨ms, h2, h3, h4⟩ := C57_messages_partial hL ht hp hplain h (fun _ _ h => h) h (fun _ => Nat.le_add_left _ _) hq
  obtain rfl : ms = ms' := eq_of_ascending h2 h2' fun x => by rw [h3, h3']
  have hev := (Reach.plain hL h).1.core.blocks.events
  have hcur : List.Forall₂ (fun b e => e.curSeq field = some b.seq ∧
      ∃ msg, processEvent L w none e = .ok msg ∧ Announces L w b msg) ms (readEvents L w q).1 := by
    have hm : ∀ b ∈ ms, Logged L w (last + 1) none b := fun b hb => (h3 b).1 hb
    clear h1 h2 h2' h3 h3'
    generalize (readEvents L w q).1 = ss at h4 h4'
    induction h4 with
    | nil => exact .nil
    | @cons b e ms ss h5 _ ih =>
      cases h4' with
      | cons h6 h7 =>
        refine .cons ⟨?_, h5⟩ (ih (fun b hb => hm b (List.mem_cons_of_mem _ hb)) h7)
        obtain ⟨g1, g2, _⟩ := hm b List.mem_cons_self
        unfold Delivers at h6
        rcases g2 with ⟨co, g2⟩ | ⟨x, g2⟩
        · rw [g2] at h6
          obtain ⟨d, rfl, _⟩ := h6
          rfl
        · rw [g2] at h6
          rw [h6]
          exact congrArg some (hev _ b x g1 g2).1
  refine ⟨fun goes => ?_, ms, h3, ?_⟩
  · unfold collectPass
    rw [h1]
    refine passOver_raises _ _ fun e he => ?_
    obtain ⟨b, _, g1, msg, g2, _⟩ := forall₂_mem_right hcur he
    exact ⟨by rw [g1]; rfl, msg, g2⟩
  · unfold collectPass
    rw [h1]
    exact passOver_all hcur h2 last fun b hb => by
      have := ((h3 b).1 hb).2.2.1
      omega

/-- **C72 is false** if a record looks like an event: its `$type` is one of `com.atproto.sync.subscribeRepos#…`, and it has no
`seq`. From then on, for ever, whatever else is stored, every pass of the collector ends there with a KeyError: nothing with that
number or a later one is emitted. -/
theorem C72_lookalike_false (hL : L.OK Z) (hp : ¬ al.partway) {b : Block C R} {r : R} (hb : w.read (L.hash b.val) = some b)
    (hv : b.val = .record r) (he : L.eventLike r = true) (hf : ∀ r, L.eventLike r = true → field r = none)
    (hw : Reach L be al w) (hs : Relation.ReflTransGen (Step L be al) w w') {last : Nat} (hl : last < b.seq)
    {q : List (Block C R)} (hq : Query L w' (last + 1) none q) :
    (collectPass L w' field goes last q).1 < b.seq ∧
      ∀ msg ∈ (collectPass L w' field goes last q).2.1, ∃ k, msg.seq = some k ∧ k < b.seq := by
  have hr' : Reach L be al w' ∧ Grows w.blocks w'.blocks := by
    clear hq hl
    induction hs with
    | refl => exact ⟨hw, fun _ _ h => h⟩
    | tail _ hstep ih => exact ⟨.step ih.1 hstep, Grows.trans ih.2 hstep.puts.grows⟩
  have hb' := hr'.2 _ _ hb
  have hev := (Reach.plain hL hr'.1).1.core.blocks.events
  have hsq := Reach.pseqs hL hp hr'.1
  refine scan_below hv he hf q _ ((hq.mem b).2 ⟨hb', hl, .inl rfl⟩) hq.sorted (by simp) (by simp)
    (fun x hx e hxe => ?_) last hl
  obtain ⟨g1, g2, _⟩ := (hq.mem x).1 hx
  refine ⟨(hev _ x e g1 hxe).1, fun heq => ?_⟩
  have h1 := hsq.alone _ _ _ _ g1 hb' (by unfold Block.isEvent; rw [hxe]; trivial) (by omega) heq.symm
  have h2 : w'.read (L.hash b.val) = some x := h1 ▸ g1
  unfold World.read at h2
  rw [hb'] at h2
  cases h2
  rw [hv] at hxe
  cases hxe

theorem exLE_ok : exLE.OK 128 := ⟨exL_ok.inj, exL_ok.zeros, exL_ok.fuel, exL_ok.touch⟩

/-- The block of the record with an event's `$type` (C30). -/
theorem exFake_block : ∃ b, exFake.read (exLE.hash b.val) = some b ∧ b.val = .record 7 ∧ b.seq = 5 := by
  have h : ((exFake.read (exLE.hash (.record 7))).map fun b => decide (b.val = .record 7 ∧ b.seq = 5)) = some true := by
    decide +kernel
  obtain ⟨b, h1, h2⟩ := Option.map_eq_some_iff.1 h
  have h2 := of_decide_eq_true h2
  exact ⟨b, by rw [h2.1]; exact h1, h2⟩

/-- Its hypotheses can be met: after a new record with such a `$type` has been created in a new repo, with the number 5, the
firehose never gets any further than 4. -/
example : ∀ w', Relation.ReflTransGen (Step exLE .memory .orderly) exFake w' → ∀ goes last q, last < 5 →
    Query exLE w' (last + 1) none q → (collectPass exLE w' (fun _ => none) goes last q).1 < 5 := by
  intro w' hw goes last q hl hq
  obtain ⟨b, h1, h2, h3⟩ := exFake_block
  rw [← h3] at hl ⊢
  exact (C72_lookalike_false exLE_ok (fun h => h) h1 h2 (by decide) (fun _ _ => rfl) C30_lookalike_false.1 hw hl hq).1

/-- Any client that may write can do that. -/
example : (Xrpc.createRecord Xrpc.exCfg exLE .memory
      (repoCreate exLE .memory .empty exDid (some exHandle) 0 true 5 lucky false).1 Xrpc.exHeader
      ⟨some exHandle, some "coll".toList, some "a".toList, some 7, false⟩ [] lucky false).2.isOk = true ∧
    ((Xrpc.createRecord Xrpc.exCfg exLE .memory
      (repoCreate exLE .memory .empty exDid (some exHandle) 0 true 5 lucky false).1 Xrpc.exHeader
      ⟨some exHandle, some "coll".toList, some "a".toList, some 7, false⟩ [] lucky false).1.read
        (exLE.hash (.record 7))).map (·.seq) = some 5 := by decide +kernel

/-- A pass in the log before it. -/
example : ∃ q, Query exLE exFake 1 none q ∧ (collectPass exLE exFake (fun _ => none) (fun _ _ => true) 0 q).1 = 4 ∧
    (collectPass exLE exFake (fun _ => none) (fun _ _ => true) 0 q).2.1.length = 4 ∧
    (collectPass exLE exFake (fun _ => none) (fun _ _ => true) 0 q).2.2 = some .key :=
  ⟨blocksFrom exFake 1, Query.of_perm C30_lookalike_false.1 (by decide +kernel) (List.Perm.refl _), by decide +kernel⟩

/-- **C72 is false** if a record looks like an event and brings a number of its own, here a million: it is emitted with that number
(once the collector does not wait for the missing ones any more), and then nothing else is, until a million numbers have been
allocated. -/
theorem C72_forged_false : Reach exLE .memory .orderly exFake ∧
    (∃ q msg, Query exLE exFake 5 none q ∧
      collectPass exLE exFake (fun _ => some 1000000) (fun _ _ => true) 4 q = (1000000, [msg], none)) ∧
    ∀ w', Relation.ReflTransGen (Step exLE .memory .orderly) exFake w' → w'.last ≤ 1000000 → ∀ goes q,
      Query exLE w' (1000000 + 1) none q →
      collectPass exLE w' (fun _ => some 1000000) goes 1000000 q = (1000000, [], none) := by
  refine ⟨C30_lookalike_false.1, ?_, fun w' hw hle goes q hq => ?_⟩
  · have h : (match collectPass exLE exFake (fun _ => some 1000000) (fun _ _ => true) 4 (blocksFrom exFake 5) with
      | (n, [_], none) => decide (n = 1000000)
      | _ => false) = true := by decide +kernel
    refine ⟨blocksFrom exFake 5, ?_⟩
    split at h
    · rename_i n msg he
      rw [of_decide_eq_true h] at he
      exact ⟨msg, Query.of_perm C30_lookalike_false.1 (by decide +kernel) (List.Perm.refl _), he⟩
    · cases h
  · have hr : Reach exLE .memory .orderly w' := by
      clear hq hle
      induction hw with
      | refl => exact C30_lookalike_false.1
      | tail _ hs ih => exact .step ih hs
    have hseq := (Reach.plain exLE_ok hr).1.core.blocks.seqs
    cases q with
    | nil => rfl
    | cons b q =>
      obtain ⟨h1, h2, _⟩ := (hq.mem b).1 List.mem_cons_self
      have := hseq _ b h1
      omega

end Arroba.Store
