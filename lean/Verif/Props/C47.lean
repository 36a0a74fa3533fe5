import Verif.Memcache.LeaseProofs

/-!
# C47: lease mutual exclusion

"Two Lease objects for the same key never both believe they hold the lease, and release never removes a
lease someone else acquired."

Both halves are false. A lease believes in `expires_at`, which the client computes after the server has
answered; the server's entry ends earlier: it was added earlier, the server got the expiration rounded
down to whole seconds, and it counts in whole seconds. And `release` deletes whatever entry is there.
`C47_coarse_false`, `C47_latency_false`, `C47_release_false`, `C47_month_false` and `C47_evict_false`
are executions in which only one thing goes wrong each.

What holds: leases that stop believing early enough, by the sum of those differences, exclude each
other, provided that the server doesn't lose entries and everyone deletes early enough as well.
-/

namespace Arroba.Lease

/-- A lease whose object has been acquired and not yet released, with `expires_at`. -/
def Loc.expiring : Loc → Option (Int × Int)
  | .held since _ expiresAt => some (since, expiresAt)
  | .deleting since _ expiresAt => some (since, expiresAt)
  | _ => none

/-- The lease has been acquired and is used, or released, in time: its clock has at least `lat`, plus a
second, plus the fraction of a second in `expiration`, left until `expires_at`. And `lat` bounds the
time that the server's answer took, plus what the clock has lost since then: the time since the server
added the entry is at most `lat` more than the time since `expires_at` was computed. -/
def InTime (conf : Nat → Conf) (lat : Int) (s : State) (i : Nat) : Prop :=
  ∃ since expiresAt, (s.loc i).expiring = some (since, expiresAt) ∧
    s.now - since ≤ s.clock i - (expiresAt - (conf i).expiration) + lat ∧
    s.clock i + lat + sec + ((conf i).expiration % 1000000 : Nat) ≤ expiresAt

/-- The server keeps its entries, and leases are released in time. -/
def Calm (conf : Nat → Conf) (lat : Int) (s : State) (a : Act) : Prop :=
  a ≠ .evict ∧ ∀ i, a = .delete i → InTime conf lat s i

theorem InTime.live {conf : Nat → Conf} {lat : Int} {s : State} {i : Nat} (h : InTime conf lat s i)
    (hinv : Inv conf s) (hm : (conf i).expiration ≤ 2592000 * 1000000) :
    ∃ p, (s.loc i).mine = some p ∧ (Entry.mk i p.1 p.2).live s.now := by
  obtain ⟨since, expiresAt, hl, h1, h2⟩ := h
  have hmine : ∃ ends, (s.loc i).mine = some (since, ends) := by
    cases hloc : s.loc i <;> rw [hloc] at hl <;> simp [Loc.expiring] at hl <;>
      exact ⟨_, by rw [Loc.mine, hl.1]⟩
  obtain ⟨ends, hp⟩ := hmine
  refine ⟨_, hp, fun t ht => ?_⟩
  obtain ⟨early, he, hends⟩ := (hinv.owned i _ hp).fromAdd
  simp only at hends ht
  have hq : (conf i).expire ≤ 2592000 := by unfold Conf.expire; omega
  rw [hends] at ht
  unfold endOf at ht
  split at ht
  · cases ht
  · cases ht
    have hd : ((conf i).expiration : Int) = (conf i).expire * sec + ((conf i).expiration % 1000000 : Nat) := by
      unfold Conf.expire sec
      omega
    unfold sec at *
    omega

theorem Reach.inv {conf : Nat → Conf} {lat : Int} {s : State} (h : Reach conf (Calm conf lat) s)
    (hm : ∀ i, (conf i).expiration ≤ 2592000 * 1000000) : Inv conf s := by
  induction h with
  | init h => exact Inv.fresh h
  | @step s s' a _ hok ha ih =>
    refine ih.act ⟨hok.1, fun i hi e he => ?_⟩ ha
    obtain ⟨p, hp, hlive⟩ := (hok.2 i hi).live ih (hm i)
    have := (ih.owned i p hp).there hlive
    rw [Option.mem_def.mp he] at this
    exact congrArg Entry.owner (Option.some.inj this)

/-- No two leases are in time at once: any number of leases, any interleaving, any clocks. -/
theorem C47_exclusive_partial {conf : Nat → Conf} {lat : Int} {s : State}
    (hm : ∀ i, (conf i).expiration ≤ 2592000 * 1000000) (h : Reach conf (Calm conf lat) s)
    {i j : Nat} (hi : InTime conf lat s i) (hj : InTime conf lat s j) : i = j := by
  have hinv := h.inv hm
  obtain ⟨p, hp, lp⟩ := hi.live hinv (hm i)
  obtain ⟨q, hq, lq⟩ := hj.live hinv (hm j)
  exact hinv.unique hp hq lp lq

/-- A release that reaches the server in time removes the lease's own entry. -/
theorem C47_release_partial {conf : Nat → Conf} {lat : Int} {s s' : State}
    (hm : ∀ i, (conf i).expiration ≤ 2592000 * 1000000) (h : Reach conf (Calm conf lat) s)
    {i : Nat} (hi : InTime conf lat s i) (hd : act conf s (.delete i) = some s') :
    (∃ e, s.entry = some e ∧ e.owner = i) ∧ s'.entry = none := by
  obtain ⟨p, hp, lp⟩ := hi.live (h.inv hm) (hm i)
  refine ⟨⟨_, ((h.inv hm).owned i p hp).there lp, rfl⟩, ?_⟩
  simp only [act] at hd
  split at hd
  · cases hd; rfl
  · cases hd

/-- While a lease is in time, nobody else gets the lease: the server refuses. -/
theorem C47_refused_partial {conf : Nat → Conf} {lat : Int} {s s' : State}
    (hm : ∀ i, (conf i).expiration ≤ 2592000 * 1000000) (h : Reach conf (Calm conf lat) s)
    {i j early : Nat} (hi : InTime conf lat s i) (ha : act conf s (.add j early) = some s') :
    s'.entry = s.entry ∧ (s'.loc j).mine = none := by
  obtain ⟨p, hp, lp⟩ := hi.live (h.inv hm) (hm i)
  have ht : s.taken := ⟨_, ((h.inv hm).owned i p hp).there lp, lp⟩
  simp only [act] at ha
  split at ha
  · split at ha
    · split at ha <;> · cases ha; exact ⟨rfl, by rw [loc_goto, if_pos rfl]; rfl⟩
    · cases ha
  · cases ha

/-- A lease of at least a second and at most thirty days that is never released ends on the server
within its expiration, in every execution. -/
theorem C47_expires_partial {conf : Nat → Conf} {ok : State → Act → Prop} {s : State}
    (hm : ∀ i, 1000000 ≤ (conf i).expiration ∧ (conf i).expiration ≤ 2592000 * 1000000)
    (h : Reach conf ok s) {e : Entry} (he : s.entry = some e)
    (hlate : e.since + (conf e.owner).expiration ≤ s.now) : ¬ s.taken := by
  have key : ∀ e, s.entry = some e →
      ∃ t, e.ends = some t ∧ t ≤ e.since + (conf e.owner).expiration := by
    clear he hlate
    induction h with
    | init h => intro e he; rw [h.1] at he; cases he
    | @step s s' a _ hok ha ih =>
      cases a with
      | tick d => simp only [act, Option.some.injEq] at ha; subst ha; exact ih
      | adjust i d => simp only [act, Option.some.injEq] at ha; subst ha; exact ih
      | evict => simp only [act, Option.some.injEq] at ha; subst ha; intro e he; cases he
      | acquire i =>
        simp only [act] at ha
        split at ha <;> cases ha
        exact ih
      | add i early =>
        simp only [act] at ha
        split at ha
        · split at ha
          · split at ha
            · split at ha <;> cases ha <;> exact ih
            · cases ha
              intro e he
              cases he
              have := hm i
              refine ⟨s.now + (conf i).expire * sec - early, ?_, ?_⟩
              · show endOf _ _ _ = _
                unfold endOf
                rw [if_neg (by unfold Conf.expire; omega), if_pos (by unfold Conf.expire; omega)]
              · show s.now + (conf i).expire * sec - early ≤ s.now + (conf i).expiration
                unfold Conf.expire sec
                omega
          · cases ha
        · cases ha
      | reply i => simp only [act] at ha; split at ha <;> cases ha; exact ih
      | wake i =>
        simp only [act] at ha
        split at ha
        · split at ha <;> cases ha; exact ih
        · cases ha
      | release i =>
        simp only [act] at ha
        split at ha
        · split at ha <;> cases ha <;> exact ih
        · cases ha
      | delete i =>
        simp only [act] at ha
        split at ha
        · cases ha; intro e he; cases he
        · cases ha
      | fail i => simp only [act, Option.some.injEq] at ha; subst ha; exact ih
  rintro ⟨e', he', hlive⟩
  rw [he] at he'
  cases he'
  obtain ⟨t, ht, hle⟩ := key e he
  have := hlive t ht
  omega

/-- How many `add`s of the current `acquire` the server has refused, as far as it goes on. -/
def Loc.refused : Loc → Nat
  | .trying n => n
  | .sleeping n _ => n
  | _ => 0

/-- `acquire` sends `add` at most `retries + 1` times: it never goes on after as many refusals, and
gives up exactly with that many. -/
theorem C47_attempts {conf : Nat → Conf} {ok : State → Act → Prop} {s : State} (h : Reach conf ok s)
    (i : Nat) : (s.loc i).refused ≤ (conf i).retries ∧
      ∀ n early s', s.loc i = .trying n → act conf s (.add i early) = some s' →
        (s'.loc i = .idle ↔ s.taken ∧ n + 1 = (conf i).retries + 1) := by
  have hle : ∀ i, (s.loc i).refused ≤ (conf i).retries := by
    clear i
    induction h with
    | init h => intro i; rw [h.2 i]; exact Nat.zero_le _
    | @step s s' a _ hok ha ih =>
      have move : ∀ (u : State) i l, u.loc = s.loc → l.refused ≤ (conf i).retries →
          ∀ j, ((u.goto i l).loc j).refused ≤ (conf j).retries := by
        intro u i l hu hl j
        rw [loc_goto]
        split
        · rename_i hj; subst hj; exact hl
        · rw [hu]; exact ih j
      cases a with
      | tick d => simp only [act, Option.some.injEq] at ha; subst ha; exact ih
      | adjust i d => simp only [act, Option.some.injEq] at ha; subst ha; exact ih
      | evict => simp only [act, Option.some.injEq] at ha; subst ha; exact ih
      | acquire i =>
        simp only [act] at ha
        split at ha <;> cases ha
        exact move _ i _ rfl (Nat.zero_le _)
      | add i early =>
        simp only [act] at ha
        split at ha
        · split at ha
          · split at ha
            · split at ha
              · rename_i hlt; cases ha; exact move _ i _ rfl hlt
              · cases ha; exact move _ i _ rfl (Nat.zero_le _)
            · cases ha; exact move _ i _ rfl (Nat.zero_le _)
          · cases ha
        · cases ha
      | reply i =>
        simp only [act] at ha
        split at ha <;> cases ha
        exact move _ i _ rfl (Nat.zero_le _)
      | wake i =>
        simp only [act] at ha
        split at ha
        · rename_i hi
          split at ha <;> cases ha
          have := ih i
          rw [hi] at this
          exact move _ i _ rfl this
        · cases ha
      | release i =>
        simp only [act] at ha
        split at ha
        · split at ha <;> cases ha <;> exact move _ i _ rfl (Nat.zero_le _)
        · cases ha
      | delete i =>
        simp only [act] at ha
        split at ha <;> cases ha
        exact move _ i _ rfl (Nat.zero_le _)
      | fail i =>
        simp only [act, Option.some.injEq] at ha
        subst ha
        exact move _ i _ rfl (Nat.zero_le _)
  refine ⟨hle i, fun n early s' hn ha => ?_⟩
  have hi := hle i
  rw [hn] at hi
  simp only [Loc.refused] at hi
  simp only [act, hn] at ha
  split at ha
  · split at ha
    · rename_i ht
      split at ha
      · cases ha
        rw [loc_goto, if_pos rfl]
        exact ⟨fun h => (by cases h), fun h => absurd h.2 (by omega)⟩
      · cases ha
        rw [loc_goto, if_pos rfl]
        exact ⟨fun _ => ⟨ht, by omega⟩, fun _ => rfl⟩
    · rename_i ht
      cases ha
      rw [loc_goto, if_pos rfl]
      exact ⟨fun h => (by cases h), fun h => absurd h.1 ht⟩
  · cases ha

/-! ## Executions -/

/-- Runs a list of steps. -/
def acts (conf : Nat → Conf) : State → List Act → Option State
  | s, [] => some s
  | s, a :: as => (act conf s a).bind (acts conf · as)

theorem Reach.acts {conf : Nat → Conf} {ok : State → Act → Prop} {s s' : State} (h : Reach conf ok s) :
    ∀ {as}, (∀ s a, a ∈ as → ok s a) → acts conf s as = some s' → Reach conf ok s'
  | [], _, ha => by cases ha; exact h
  | a :: as, hok, ha => by
    simp only [Lease.acts, Option.bind_eq_some_iff] at ha
    obtain ⟨u, hu, ha⟩ := ha
    exact Reach.acts (.step h (hok _ a List.mem_cons_self) hu) (fun s b hb => hok s b (.tail _ hb)) ha

/-- The lease that a step is of. -/
def Act.who : Act → Option Nat
  | .tick _ | .adjust _ _ | .evict => none
  | .acquire i | .add i _ | .reply i | .wake i | .release i | .delete i | .fail i => some i

theorem act_other {conf : Nat → Conf} {s s' : State} {a : Act} {i : Nat} (hi : a.who ≠ some i)
    (ha : act conf s a = some s') : s'.loc i = s.loc i := by
  cases a <;> simp only [Act.who, ne_eq, Option.some.injEq] at hi <;> simp only [act] at ha <;>
    (repeat' (split at ha)) <;> cases ha <;> first
      | rfl
      | (rw [loc_goto, if_neg (fun h => hi h.symm)])

theorem acts_other {conf : Nat → Conf} {s s' : State} {i : Nat} :
    ∀ {as : List Act}, (∀ a ∈ as, a.who ≠ some i) → acts conf s as = some s' → s'.loc i = s.loc i
  | [], _, ha => by cases ha; rfl
  | a :: as, hi, ha => by
    simp only [Lease.acts, Option.bind_eq_some_iff] at ha
    obtain ⟨u, hu, ha⟩ := ha
    rw [acts_other (fun b hb => hi b (.tail _ hb)) ha, act_other (hi a List.mem_cons_self) hu]

/-- Some moment in 2026, on all clocks. -/
def exState : State := ⟨1790000000 * sec, fun _ => 1790000000 * sec, none, fun _ => .idle⟩

theorem exState_fresh : exState.fresh := ⟨rfl, fun _ => rfl⟩

/-- Five seconds, three attempts. -/
def exConf : Nat → Conf := fun _ => ⟨5000000, 2, 2000000⟩

def got (i early : Nat) : List Act := [.acquire i, .add i early, .reply i]

/-- What an execution leads to: the leases that believe they hold the lease among the first three, and
the entry's owner. -/
def outcome (o : Option State) : Option (List Nat × Option Nat) :=
  o.map fun s => ((List.range 3).filter fun i =>
    match s.loc i with
    | .held _ _ t => decide (s.clock i ≤ t)
    | _ => false, s.entry.map (·.owner))

theorem believes_of_outcome {s : State} {l : List Nat} {o : Option Nat}
    (h : outcome (some s) = some (l, o)) {i : Nat} (hi : i ∈ l) : s.believes i := by
  simp only [outcome, Option.map_some, Option.some.injEq, Prod.mk.injEq] at h
  rw [← h.1, List.mem_filter] at hi
  obtain ⟨_, hi⟩ := hi
  split at hi
  · rename_i a b t hl
    exact ⟨a, b, t, hl, of_decide_eq_true hi⟩
  · cases hi

theorem outcome_some {o : Option State} {r} (h : outcome o = some r) :
    ∃ s, o = some s ∧ outcome (some s) = some r := by
  cases o with
  | none => cases h
  | some s => exact ⟨s, rfl, h⟩

/-- The two beliefs and the entry after a list of steps, as an existential. -/
theorem both {conf : Nat → Conf} {ok : State → Act → Prop} {as : List Act} {l : List Nat} {o}
    (h : outcome (acts conf exState as) = some (l, o)) (hok : ∀ s a, a ∈ as → ok s a) {i j : Nat}
    (hi : i ∈ l) (hj : j ∈ l) : ∃ s, Reach conf ok s ∧ s.believes i ∧ s.believes j := by
  obtain ⟨s, hs, hout⟩ := outcome_some h
  exact ⟨s, (Reach.init exState_fresh).acts hok hs, believes_of_outcome hout hi, believes_of_outcome hout hj⟩

/-- The hypotheses of the theorems are met: two leases, one after the other, the first released after two
seconds and the second used for two. -/
theorem exCalm : ∃ s, Reach exConf (Calm exConf 1000000) s ∧ InTime exConf 1000000 s 1 ∧
    s.loc 0 = .released := by
  let as1 := got 0 0 ++ [.acquire 1, .add 1 0, .tick 2000000, .release 0]
  have e1 : (acts exConf exState as1).isSome = true := by decide +kernel
  obtain ⟨s1, h1⟩ := Option.isSome_iff_exists.mp e1
  have r1 : Reach exConf (Calm exConf 1000000) s1 :=
    (Reach.init exState_fresh).acts (ok := Calm exConf 1000000) (as := as1) (by
      intro s a ha
      constructor
      · rintro rfl; exact absurd ha (by decide)
      · rintro i rfl
        simp [as1, got] at ha) h1
  have f1 : ((acts exConf exState as1).map fun s =>
      ((s.loc 0).expiring, s.now, s.clock 0)) =
      some (some (1790000000 * sec, 1790000005 * sec), 1790000002 * sec, 1790000002 * sec) := by
    decide +kernel
  rw [h1] at f1
  simp only [Option.map_some, Option.some.injEq, Prod.mk.injEq] at f1
  obtain ⟨fl, fn, fc⟩ := f1
  have e2 : ((acts exConf exState as1).bind (act exConf · (.delete 0))).isSome = true := by decide +kernel
  rw [h1] at e2
  obtain ⟨s2, h2⟩ := Option.isSome_iff_exists.mp e2
  rw [Option.bind_some] at h2
  have r2 : Reach exConf (Calm exConf 1000000) s2 := by
    refine .step r1 ⟨by simp, ?_⟩ h2
    rintro i hi
    cases hi
    refine ⟨_, _, fl, ?_, ?_⟩
    · rw [fn, fc]; decide
    · rw [fc]; decide
  let as3 : List Act := [.wake 1, .add 1 999999, .tick 5, .reply 1, .tick 2000000]
  have e3 : ((acts exConf exState (as1 ++ [.delete 0] ++ as3)).map fun s =>
      ((s.loc 1).expiring, s.now, s.clock 1, s.loc 0)) =
      some (some (1790000002 * sec, 1790000007 * sec + 5), 1790000004 * sec + 5,
        1790000004 * sec + 5, .released) := by decide +kernel
  have hcat : ∀ (s : State) (as bs : List Act), acts exConf s (as ++ bs) =
      (acts exConf s as).bind (acts exConf · bs) := by
    intro s as
    induction as generalizing s with
    | nil => intro bs; rfl
    | cons a as ih =>
      intro bs
      simp only [List.cons_append, acts]
      cases act exConf s a with
      | none => rfl
      | some u => exact ih u bs
  rw [hcat, hcat, h1] at e3
  have h2' : acts exConf s1 [.delete 0] = some s2 := by
    simp only [acts]
    rw [show act exConf s1 (.delete 0) = some s2 from h2]
    rfl
  simp only [Option.bind_some] at e3
  rw [h2', Option.bind_some] at e3
  obtain ⟨s3, h3, e3⟩ := Option.map_eq_some_iff.mp e3
  simp only [Prod.mk.injEq] at e3
  refine ⟨s3, r2.acts (as := as3) ?_ h3, ⟨_, _, e3.1, ?_, ?_⟩, e3.2.2.2⟩
  · intro s a ha
    constructor
    · rintro rfl; exact absurd ha (by decide)
    · rintro i rfl
      simp [as3] at ha
  · rw [e3.2.1, e3.2.2.1]; decide
  · rw [e3.2.2.1]; decide

/-- No losses, no adjusted clocks, no failures, and the server's clock is exact up to `early`. -/
def Plain (early : Nat) : Act → Prop
  | .evict => False
  | .adjust _ _ => False
  | .fail _ => False
  | .add _ e => e ≤ early
  | _ => True

instance (early : Nat) (a : Act) : Decidable (Plain early a) := by
  cases a <;> unfold Plain <;> infer_instance

/-- The server's clock ticks once per second: with accurate clocks, no latency, no losses and an
expiration of whole seconds, two leases believe they hold the lease. -/
theorem C47_coarse_false : ∃ s, Reach exConf (fun _ a => Plain 999999 a) s ∧
    s.believes 0 ∧ s.believes 1 :=
  both (as := got 0 500000 ++ [.tick 4600000] ++ got 1 0) (l := [0, 1]) (o := some 1)
    (by decide +kernel) (fun _ => by decide +kernel) (by decide) (by decide)

/-- The answer takes a while: the same with a server whose clock is exact. -/
theorem C47_latency_false : ∃ s, Reach exConf (fun _ a => Plain 0 a) s ∧ s.believes 0 ∧ s.believes 1 :=
  both (as := [.acquire 0, .add 0 0, .tick 1000000, .reply 0, .tick 4000000] ++ got 1 0)
    (l := [0, 1]) (o := some 1) (by decide +kernel) (fun _ => by decide +kernel) (by decide) (by decide)

/-- An expiration with a fraction of a second is rounded down for the server only. -/
theorem C47_fraction_false : ∃ s, Reach (fun _ => ⟨1900000, 2, 1000000⟩) (fun _ a => Plain 0 a) s ∧
    s.believes 0 ∧ s.believes 1 :=
  both (as := got 0 0 ++ [.tick 1000000] ++ got 1 0)
    (l := [0, 1]) (o := some 1) (by decide +kernel) (fun _ => by decide +kernel) (by decide) (by decide)

/-- memcached takes an expiration of more than thirty days for a date, which has long passed. -/
theorem C47_month_false : ∃ s, Reach (fun _ => ⟨2678400000000, 2, 1000000⟩) (fun _ a => Plain 0 a) s ∧
    s.believes 0 ∧ s.believes 1 :=
  both (as := got 0 0 ++ got 1 0)
    (l := [0, 1]) (o := some 1) (by decide +kernel) (fun _ => by decide +kernel) (by decide) (by decide)

/-- The server loses the entry. -/
theorem C47_evict_false : ∃ s, Reach exConf (fun _ a => a = .evict ∨ Plain 0 a) s ∧
    s.believes 0 ∧ s.believes 1 :=
  both (as := got 0 0 ++ [.evict] ++ got 1 0)
    (l := [0, 1]) (o := some 1) (by decide +kernel) (fun _ => by decide +kernel) (by decide) (by decide)

/-- A release whose `delete` takes a while removes another lease, and lets a third one in: accurate
clocks, an exact server, no losses, and `acquire` answered at once. -/
theorem C47_release_false : ∃ s s' s'', Reach exConf (fun _ a => Plain 0 a) s ∧
    (∃ e, s.entry = some e ∧ e.owner = 1) ∧ act exConf s (.delete 0) = some s' ∧ s'.entry = none ∧
    Reach exConf (fun _ a => Plain 0 a) s'' ∧ s''.believes 1 ∧ s''.believes 2 := by
  let as1 := got 0 0 ++ [.tick 4900000, .release 0, .tick 200000] ++ got 1 0
  have e1 : (acts exConf exState as1).map (fun s => s.entry.map (·.owner)) = some (some 1) := by
    decide +kernel
  obtain ⟨s, hs, e1⟩ := Option.map_eq_some_iff.mp e1
  obtain ⟨e, he, ho⟩ := Option.map_eq_some_iff.mp e1
  have e2 : ((acts exConf exState as1).bind (act exConf · (.delete 0))).map (fun s => s.entry) =
      some none := by decide +kernel
  rw [hs, Option.bind_some] at e2
  obtain ⟨s', hs', e2⟩ := Option.map_eq_some_iff.mp e2
  obtain ⟨s'', h1, h2, h3⟩ := both (conf := exConf) (ok := fun _ a => Plain 0 a)
    (as := as1 ++ [.delete 0] ++ got 2 0) (l := [1, 2]) (o := some 2)
    (by decide +kernel) (fun _ => by decide +kernel) (i := 1) (j := 2) (by decide) (by decide)
  exact ⟨s, s', s'', (Reach.init exState_fresh).acts (as := as1) (fun _ => by decide +kernel) hs, ⟨e, he, ho⟩, hs', e2,
    h1, h2, h3⟩

/-- Steps other than a loss. -/
inductive Later (conf : Nat → Conf) : State → State → Prop
  | refl {s} : Later conf s s
  | step {s s' s'' a} : Later conf s s' → a ≠ .evict → act conf s' a = some s'' → Later conf s s''

/-- An expiration of less than a second is rounded down to 0, which memcached takes for "never": once
the process of a lease dies, nobody ever gets the lease again, until the server loses the entry. -/
theorem C47_subsecond_false : ∃ s, Reach (fun _ => ⟨900000, 2, 1000000⟩) (fun _ a => a ≠ .evict) s ∧
    ∀ s', Later (fun _ => ⟨900000, 2, 1000000⟩) s s' → s'.taken ∧ ∀ i, (s'.loc i).mine = none := by
  let conf : Nat → Conf := fun _ => ⟨900000, 2, 1000000⟩
  have e1 : (acts conf exState (got 0 0 ++ [.fail 0])).map (fun s => s.entry) =
      some (some ⟨0, 1790000000 * sec, none⟩) := by decide +kernel
  obtain ⟨s, hs, e1⟩ := Option.map_eq_some_iff.mp e1
  refine ⟨s, (Reach.init exState_fresh).acts (as := got 0 0 ++ [.fail 0]) (fun _ => by decide +kernel) hs, fun s' hl => ?_⟩
  have hloc : ∀ i, (s.loc i).mine = none := by
    intro i
    by_cases hi : i = 0
    · subst hi
      have : (acts conf exState (got 0 0 ++ [.fail 0])).map (fun s => (s.loc 0).mine) = some none := by
        decide +kernel
      rw [hs] at this
      exact Option.some.inj this
    · rw [acts_other (i := i) (as := got 0 0 ++ [.fail 0]) ?_ hs]
      · rfl
      · intro a ha
        simp only [got, List.cons_append, List.nil_append, List.mem_cons, List.not_mem_nil, or_false] at ha
        rcases ha with rfl | rfl | rfl | rfl <;> exact fun h => hi (Option.some.inj h).symm
  have key : s'.entry = some ⟨0, 1790000000 * sec, none⟩ ∧ ∀ i, (s'.loc i).mine = none := by
    induction hl with
    | refl => exact ⟨e1, hloc⟩
    | @step s' s'' a _ hne ha ih =>
      obtain ⟨he, hl⟩ := ih
      have ht : s'.taken := ⟨_, he, fun t ht => by cases ht⟩
      have move : ∀ (u : State) i l, u.loc = s'.loc → u.entry = s'.entry → l.mine = none →
          (u.goto i l).entry = some ⟨0, 1790000000 * sec, none⟩ ∧
            ∀ j, ((u.goto i l).loc j).mine = none := by
        intro u i l hu hen hl' 
        refine ⟨hen.trans he, fun j => ?_⟩
        rw [loc_goto]
        split
        · exact hl'
        · rw [hu]; exact hl j
      have no : ∀ {i p}, (s'.loc i).mine = some p → False := by
        intro i p h; rw [hl i] at h; cases h
      cases a with
      | tick d => simp only [act, Option.some.injEq] at ha; subst ha; exact ⟨he, hl⟩
      | adjust i d => simp only [act, Option.some.injEq] at ha; subst ha; exact ⟨he, hl⟩
      | evict => exact absurd rfl hne
      | acquire i =>
        simp only [act] at ha
        split at ha <;> cases ha
        exact move _ i _ rfl rfl rfl
      | add i early =>
        simp only [act] at ha
        split at ha
        · split at ha
          · split at ha <;> cases ha <;> exact move _ i _ rfl rfl rfl
          · cases ha
        · cases ha
      | reply i =>
        simp only [act] at ha
        split at ha
        · rename_i hi; exact (no (i := i) (by rw [hi]; rfl)).elim
        · cases ha
      | wake i =>
        simp only [act] at ha
        split at ha
        · split at ha <;> cases ha
          exact move _ i _ rfl rfl rfl
        · cases ha
      | release i =>
        simp only [act] at ha
        split at ha
        · rename_i hi; exact (no (i := i) (by rw [hi]; rfl)).elim
        · cases ha
      | delete i =>
        simp only [act] at ha
        split at ha
        · rename_i hi; exact (no (i := i) (by rw [hi]; rfl)).elim
        · cases ha
      | fail i =>
        simp only [act, Option.some.injEq] at ha
        subst ha
        exact move _ i _ rfl rfl rfl
  exact ⟨⟨_, key.1, fun t ht => by cases ht⟩, key.2⟩

end Arroba.Lease
