import Verif.Firehose.ConcurrentProofs
import Verif.Props.C66

/-!
# C67: the log when commits are made at the same time

Any number of calls of `commit` run concurrently on one Datastore, as in C58.
-/

namespace Arroba.Store

open Arroba.Tree

section
variable {C R : Type} [DecidableEq C] {L : Lib C R} {Z : Nat} {al : Allow} {w : World C R}
  {job : Nat → Job R} {as : List (Act C)} {s : CState C R} {lo : Nat}

/-- **C67 (messages), partial.** At any moment of any schedule of concurrent commits, status changes and events, with the
blocks in any order in which Datastore may return them: reading the log from the number on that was next when it all
began raises nothing. It yields a message for each commit and event that has been written since, by number, each number
once, and each the right one for its commit or event.

Partial: excludes schedules in which a call is aborted or fails after it has written its blocks (`C67_retry_false`), and
records that look like events or commits (C30). -/
theorem C67_messages_partial (hL : L.OK Z) (hplain : PlainRecords L) (hr : Reach L .datastore al w)
    (hj : ∀ i, isDid (job i).did) (ht : Tidy L job (.init w) as) (hs : (CState.init w).run L job as = some s)
    {q : List (Block C R)} (hq : Query L s.w ((lastSeq w.seqs subscribeRepos).getD 0 + 1) none q) :
    (readEvents L s.w q).2 = none ∧ ∃ ms : List (Block C R), ms.Pairwise (fun a b => a.seq < b.seq) ∧
      (∀ b, b ∈ ms ↔ Logged L s.w ((lastSeq w.seqs subscribeRepos).getD 0 + 1) none b) ∧
      List.Forall₂ (fun b e => ∃ msg, processEvent L s.w none e = .ok msg ∧ Announces L s.w b msg) ms
        (readEvents L s.w q).1 := by
  have hc := (CInv.init hL hr job).run hL hj hs
  have hl := (LInv.init hL hr job).run hL hj (CInv.init hL hr job) ht hs
  rw [← (next_eq hL hr).1] at hq ⊢
  have ho := hl.orderly hL hplain hc (next_eq hL hr).2 hq
  obtain ⟨h1, h2⟩ := readEvents_spec ho
  have hmem : ∀ b, b ∈ q.filter Block.isLog ↔ Logged L s.w w.next none b := by
    intro b
    rw [List.mem_filter, hq.mem b, isLog_marker]
    unfold Logged Block.marker
    constructor
    · rintro ⟨⟨g1, g2, g3⟩, g4⟩
      refine ⟨g1, ?_, g2, g3⟩
      cases hv : b.val with
      | commit co => exact .inl ⟨co, rfl⟩
      | event e => exact .inr ⟨e, rfl⟩
      | node d => rw [hv] at g4; exact g4.elim
      | record r => rw [hv] at g4; exact g4.elim
    · rintro ⟨g1, g2, g3, g4⟩
      refine ⟨⟨g1, g3, g4⟩, ?_⟩
      rcases g2 with ⟨co, g2⟩ | ⟨e, g2⟩ <;> rw [g2] <;> trivial
  refine ⟨h1, q.filter Block.isLog, ?_, hmem, announced hL (fun _ _ h => h) hc.addr (pc := fun _ => none)
    (fun _ _ _ _ h => nomatch h) h2 (fun b hb co hv => ?_)
    (scan_nodup (by simp))⟩
  · have h3 := (ho.sorted.and ho.nodup).filter Block.isLog
    refine h3.imp_of_mem ?_
    intro a b ha hb ⟨h4, h5⟩
    rw [List.mem_filter] at ha hb
    refine lt_of_le_of_ne h4 fun he => h5 (ho.unique a ha.1 b hb.1 ha.2 hb.2 he)
  · obtain ⟨g1, _, g3, _⟩ := (hmem b).1 hb
    obtain ⟨i, cd, k1, rfl⟩ := hl.caller g1 hv g3
    exact hl.told hL hc k1 hv

/-- **C67 (commits), partial.** These are the commits of the calls that have returned, or will as soon as their
transactions commit; and no others. Partial: as above. -/
theorem C67_commits_partial (hL : L.OK Z) (hr : Reach L .datastore al w)
    (hj : ∀ i, isDid (job i).did) (ht : Tidy L job (.init w) as) (hs : (CState.init w).run L job as = some s)
    (b : Block C R) (hb : b.isCommit = true) :
    Logged L s.w ((lastSeq w.seqs subscribeRepos).getD 0 + 1) none b ↔
      ∃ i cd, b = cd.commit ∧ (s.pc i = .done cd ∨ ∃ row ver, s.pc i = .written row ver cd) := by
  have hc := (CInv.init hL hr job).run hL hj hs
  have hl := (LInv.init hL hr job).run hL hj (CInv.init hL hr job) ht hs
  rw [← (next_eq hL hr).1]
  obtain ⟨co, hv⟩ := isCommit_iff.1 hb
  constructor
  · rintro ⟨g1, _, g3, _⟩
    obtain ⟨i, cd, k1, rfl⟩ := hl.caller g1 hv g3
    refine ⟨i, cd, rfl, ?_⟩
    cases hp : s.pc i with
    | done cd' => rw [hp] at k1; cases k1; exact .inl rfl
    | written row ver cd' => rw [hp] at k1; cases k1; exact .inr ⟨row, ver, rfl⟩
    | _ => rw [hp] at k1; cases k1
  · rintro ⟨i, cd, rfl, hp⟩
    have k1 : (s.pc i).wrote = some cd := by
      rcases hp with hp | ⟨_, _, hp⟩ <;> rw [hp] <;> rfl
    exact ⟨(hl.com i cd k1).1, .inl ⟨co, hv⟩, (hc.seqs i _ (Pc.wrote_seq k1)).1, .inl rfl⟩

/-- **C67 (events), partial.** Every event that is written in between is among them, with its number. Partial: as
above. -/
theorem C67_events_partial (hL : L.OK Z) (hr : Reach L .datastore al w)
    (hj : ∀ i, isDid (job i).did) {as' : List (Act C)} {s₁ : CState C R} {d : Did} {kind : EventKind C}
    {time : Nat}
    (ht : Tidy L job (.init w) (as ++ .event d kind time :: as'))
    (hs₁ : (CState.init w).run L job as = some s₁)
    (hs : (CState.init w).run L job (as ++ .event d kind time :: as') = some s) :
    ∃ b, Logged L s.w ((lastSeq w.seqs subscribeRepos).getD 0 + 1) none b ∧ b.seq = s₁.w.alloc.1 ∧
      b.val = .event ⟨kind, s₁.w.alloc.1, d, time⟩ := by
  have hc₁ := (CInv.init hL hr job).run hL hj hs₁
  have hl := (LInv.init hL hr job).run hL hj (CInv.init hL hr job) ht hs
  rw [← (next_eq hL hr).1]
  rw [CState.run_append hs₁] at hs
  have hact : s₁.act L job (.event d kind time) = some (storeEvent L s₁ d kind time) := rfl
  unfold CState.run at hs
  rw [hact] at hs
  have hs : (storeEvent L s₁ d kind time).run L job as' = some s := hs
  obtain ⟨hc₂, _⟩ := hc₁.act hL hj hact
  let v : Val C R := .event ⟨kind, s₁.w.alloc.1, d, time⟩
  have hput : Has L (storeEvent L s₁ d kind time).w.blocks v :=
    (has_put hL.inj hc₁.addr [⟨v, s₁.w.alloc.1, none, d⟩] v).2 (.inr ⟨_, .head _, rfl⟩)
  obtain ⟨b, hb, hv⟩ := CInv.retains hL hj hc₂ hs v hput
  have hb' : s.w.read (L.hash b.val) = some b := by rw [hv]; exact hb
  obtain ⟨e1, _⟩ := hl.evs _ b _ hb' hv
  have e1 : s₁.w.alloc.1 = b.seq := e1
  refine ⟨b, ⟨hb', .inr ⟨_, hv⟩, ?_, .inl rfl⟩, e1.symm, hv⟩
  rw [← e1, (alloc_fresh s₁.w).1]
  exact hc₁.next

/-- **C67 (mirror), partial.** Let a consumer's mirror be right when it all begins, and let it go on with the messages
from the next sequence number on. If no call is between writing its blocks and the end of its transaction, and for each
repo the transactions committed in the order of the calls' sequence numbers (for example, because the calls are for
different repos), then after applying the messages in order the mirror is right again.

Partial: `C66_concurrent_false` shows that this is false if the transactions commit in another order; and otherwise as
above. -/
theorem C67_mirror_partial (hL : L.OK Z) (hplain : PlainRecords L) (hr : Reach L .datastore al w)
    (hj : ∀ i, isDid (job i).did) (ht : Tidy L job (.init w) as) (hs : (CState.init w).run L job as = some s)
    (hidle : ∀ i row ver cd, s.pc i ≠ .written row ver cd)
    (hord : s.log.Pairwise fun a b => (job a.1).did = (job b.1).did → a.2.commit.seq < b.2.commit.seq)
    {mir : Mirror R} (hm : Mirrors L .datastore w mir)
    {q : List (Block C R)} (hq : Query L s.w ((lastSeq w.seqs subscribeRepos).getD 0 + 1) none q) :
    ∃ msgs, List.Forall₂ (fun e msg => processEvent L s.w none e = .ok msg) (readEvents L s.w q).1 msgs ∧
      Mirrors L .datastore s.w (msgs.foldl Mirror.next mir) := by
  have hi := CInv.init hL hr job
  have hc := hi.run hL hj hs
  have hl := (LInv.init hL hr job).run hL hj hi ht hs
  obtain ⟨_, ms, h1, h2, h3⟩ := C67_messages_partial hL hplain hr hj ht hs hq
  have hcom := fun b hb => C67_commits_partial hL hr hj ht hs (b := b) hb
  have hlog := C58_acknowledged hL hr hj hs
  have hco : ∀ i cd, (i, cd) ∈ s.log → ∃ co, cd.commit.val = .commit co ∧ co.did = (job i).did := by
    intro i cd hm
    have hp : (s.pc i).wrote = some cd := by rw [(hlog.2 i cd).2 hm]; rfl
    obtain ⟨_, ⟨_, _, _, co, _, _, _, e4, e5, _⟩, _⟩ := hl.com i cd hp
    exact ⟨co, by rw [e4], e5⟩
  have hlink := linked_run hL hj (H := headOf L .datastore w) hi (.nil _) hs
  have hk := CInv.retains hL hj hi hs
  have hL' : Linked L (headOf L .datastore w) (ms.filter Block.isCommit) (headOf L .datastore s.w) := by
    refine .of_chains (fun b hb => (List.mem_filter.1 hb).2) fun d => ?_
    have : (ms.filter Block.isCommit).filter (·.inDid d) = (s.log.map (·.2.commit)).filter (·.inDid d) := by
      refine eq_of_ascending ((h1.filter _).filter _) ?_ fun b => ?_
      · rw [List.pairwise_filter, List.pairwise_map]
        refine hord.imp_of_mem ?_
        rintro ⟨i, cd⟩ ⟨k, cd'⟩ ha hb hlt hd hd'
        obtain ⟨co, e1, e2⟩ := hco i cd ha
        obtain ⟨co', e1', e2'⟩ := hco k cd' hb
        refine hlt ?_
        simp only [Block.inDid, e1, e1', decide_eq_true_eq] at hd hd'
        rw [← e2, ← e2', hd, hd']
      · rw [List.mem_filter, List.mem_filter, List.mem_filter, List.mem_map, h2]
        constructor
        · rintro ⟨⟨g1, g2⟩, g3⟩
          obtain ⟨i, cd, rfl, g4 | ⟨row, ver, g4⟩⟩ := (hcom b g2).1 g1
          · exact ⟨⟨(i, cd), (hlog.2 i cd).1 g4, rfl⟩, g3⟩
          · exact absurd g4 (hidle i row ver cd)
        · rintro ⟨⟨⟨i, cd⟩, g1, rfl⟩, g3⟩
          obtain ⟨co, e1, _⟩ := hco i cd g1
          have g2 : Block.isCommit cd.commit = true := isCommit_iff.2 ⟨co, e1⟩
          exact ⟨⟨(hcom _ g2).2 ⟨i, cd, rfl, .inl ((hlog.2 i cd).2 g1)⟩, g2⟩, g3⟩
    rw [this]
    exact hlink.chain d
  have hm' : MirrorsHeads L s.w (headOf L .datastore w) mir := by
    intro d hd m
    refine (hm d hd m).trans ((hi.shows_iff hL hd m).trans ?_)
    constructor
    · rintro ⟨row, g1, g2⟩
      exact ⟨row.head, by have g1 : dictGet w.rows d = some row := g1; simp [headOf, g1], (g2.keeps hk).commitShows hL hc.addr⟩
    · rintro ⟨c, g1, g2⟩
      obtain ⟨row, g3, rfl⟩ := Option.map_eq_some_iff.1 (show (dictGet w.rows d).map (·.head) = some c from g1)
      obtain ⟨_, m', g4⟩ := hi.rows d row (dictGet_mem g3)
      have := ((g4.keeps hk).commitShows hL hc.addr).unique g2
      subst this
      exact ⟨row, g3, g4⟩
  obtain ⟨msgs, k1, k2⟩ := mirrored hL h3 (fun b hb co hv => by
    obtain ⟨g1, _, g3, _⟩ := (h2 b).1 hb
    rw [← (next_eq hL hr).1] at g3
    obtain ⟨i, cd, e1, rfl⟩ := hl.caller g1 hv g3
    obtain ⟨_, ⟨_, _, _, co', _, _, _, e4, e5, _⟩, _⟩ := hl.com i cd e1
    rw [e4] at hv
    cases hv
    rw [e5]
    exact hj i) hL' hm'
  refine ⟨msgs, k1, fun d hd m => (k2 d hd m).trans ?_⟩
  rw [hc.shows_iff hL hd m]
  constructor
  · rintro ⟨c, g1, g2⟩
    obtain ⟨row, g3, rfl⟩ := Option.map_eq_some_iff.1 (show (dictGet s.w.rows d).map (·.head) = some c from g1)
    obtain ⟨_, m', g4⟩ := hc.rows d row (dictGet_mem g3)
    have := (g4.commitShows hL hc.addr).unique g2
    subst this
    exact ⟨row, g3, g4⟩
  · rintro ⟨row, g1, g2⟩
    exact ⟨row.head, by simp [headOf, g1], g2.commitShows hL hc.addr⟩

end

/-! ### A case that meets the hypotheses, and why they are needed -/

/-- Whether the schedule is `Tidy`. -/
def tidy (job : Nat → Job Nat) : CState SC Nat → List (Act SC) → Bool
  | _, [] => true
  | s, a :: as =>
    (match a with
      | .abort i => match s.pc i with
        | .written _ _ _ => false
        | _ => true
      | .fail i _ => match s.pc i with
        | .written _ _ _ => false
        | _ => true
      | _ => true) &&
    match s.act exL job a with
    | none => true
    | some s' => tidy job s' as

theorem tidy_spec {job : Nat → Job Nat} : ∀ {as : List (Act SC)} {s : CState SC Nat}, tidy job s as = true → Tidy exL job s as
  | [], _, _ => trivial
  | a :: as, s, h => by
    unfold tidy at h
    rw [Bool.and_eq_true] at h
    refine ⟨fun i row ver cd hp => ⟨?_, ?_⟩, fun s' hs => tidy_spec ?_⟩
    · rintro rfl
      have := h.1
      dsimp only at this
      rw [hp] at this
      cases this
    · rintro e rfl
      have := h.1
      dsimp only at this
      rw [hp] at this
      cases this
    · have := h.2
      rw [hs] at this
      exact this

/-- The call that an action is about. -/
def Act.call {C : Type} : Act C → Option Nat
  | .step i _ => some i
  | .abort i => some i
  | .fail i _ => some i
  | _ => none

theorem act_pc {C R : Type} [DecidableEq C] {L : Lib C R} {job : Nat → Job R} {s s' : CState C R} {a : Act C} {i : Nat}
    (hi : a.call ≠ some i) (hs : s.act L job a = some s') : s'.pc i = s.pc i := by
  have hat : ∀ (s : CState C R) k p, k ≠ i → (s.at k p).pc i = s.pc i := by
    intro s k p hk
    simp only [CState.at]
    rw [Function.update_of_ne (Ne.symm hk)]
  cases a with
  | step k nonce =>
    have hk : k ≠ i := fun h => hi (congrArg some h)
    simp only [CState.act] at hs
    unfold stepCall at hs
    dsimp only at hs
    split at hs
    · cases hs; exact hat _ _ _ hk
    · split at hs
      · cases hs; exact hat _ _ _ hk
      · split at hs <;> (cases hs; exact hat _ _ _ hk)
    · split at hs
      · cases hs; exact hat _ _ _ hk
      · split at hs <;> (cases hs; exact hat _ _ _ hk)
    · split at hs <;> (cases hs; exact hat _ _ _ hk)
    · cases hs; exact hat _ _ _ hk
    · cases hs; exact hat _ _ _ hk
    · split at hs
      · cases hs; exact hat _ _ _ hk
      · cases hs
    · cases hs
    · cases hs
  | abort k =>
    have hk : k ≠ i := fun h => hi (congrArg some h)
    simp only [CState.act, abortCall] at hs
    split at hs <;> first | (cases hs; exact hat _ _ _ hk) | cases hs
  | fail k e =>
    have hk : k ≠ i := fun h => hi (congrArg some h)
    simp only [CState.act, failCall] at hs
    split at hs <;> first | (cases hs; exact hat _ _ _ hk) | cases hs
  | setStatus d st =>
    simp only [CState.act, setStatusRow] at hs
    split at hs
    · cases hs
    · cases hs; rfl
  | event d kind t =>
    simp only [CState.act] at hs
    cases hs; rfl

theorem run_pc {C R : Type} [DecidableEq C] {L : Lib C R} {job : Nat → Job R} {i : Nat} :
    ∀ {as : List (Act C)} {s s' : CState C R}, (∀ a ∈ as, a.call ≠ some i) → s.run L job as = some s' → s'.pc i = s.pc i
  | [], s, s', _, hs => by cases hs; rfl
  | a :: as, s, s', h, hs => by
    unfold CState.run at hs
    cases ha : s.act L job a with
    | none => rw [ha] at hs; cases hs
    | some s1 =>
      rw [ha] at hs
      exact (run_pc (fun a ha => h a (.tail _ ha)) hs).trans (act_pc (h a (.head _)) ha)

/-- Calls for two repos, both of which create the same record. The first one is retried; both find that the record is not
stored yet, and both write it; and there is an event in between. -/
def exTidy : List (Act SC) :=
  steps 0 2 ++ [.abort 0] ++ steps 0 4 ++ steps 2 5 ++ [.event exDid (.account true none) 9] ++ steps 0 2 ++ steps 2 2

/-- The mirror of a consumer that has read everything before goes on to be right. -/
example : ∃ s mir msgs, (CState.init (exW1 .datastore)).run exL exJob exTidy = some s ∧
    Mirrors exL .datastore (exW1 .datastore) mir ∧
    List.Forall₂ (fun e msg => processEvent exL s.w none e = .ok msg)
      (readEvents exL s.w (blocksBySeq s.w ((lastSeq (exW1 .datastore).seqs subscribeRepos).getD 0 + 1))).1 msgs ∧
    Mirrors exL .datastore s.w (msgs.foldl Mirror.next mir) ∧
    readRecord s.w .datastore exDid "c" = some (some (.record 3)) ∧
    readRecord s.w .datastore exDid2 "c" = some (some (.record 3)) ∧
    ((readEvents exL s.w (blocksBySeq s.w ((lastSeq (exW1 .datastore).seqs subscribeRepos).getD 0 + 1))).1.length = 3) := by
  have hr := exW1_reach .datastore
  have h1 : ((CState.init (exW1 .datastore)).run exL exJob exTidy).map (fun s =>
      checkLog s.w ((lastSeq (exW1 .datastore).seqs subscribeRepos).getD 0 + 1) &&
      decide (readRecord s.w .datastore exDid "c" = some (some (.record 3))) &&
      decide (readRecord s.w .datastore exDid2 "c" = some (some (.record 3))) &&
      decide ((readEvents exL s.w (blocksBySeq s.w ((lastSeq (exW1 .datastore).seqs subscribeRepos).getD 0 + 1))).1.length = 3)) =
      some true := by decide +kernel
  have h2 : ((CState.init (exW1 .datastore)).run exL exJob exTidy).map (fun s => s.log.map (·.1)) = some [0, 2] := by
    decide +kernel
  obtain ⟨s, hs, h1⟩ := Option.map_eq_some_iff.1 h1
  rw [hs, Option.map_some, Option.some.injEq] at h2
  simp only [Bool.and_eq_true, decide_eq_true_eq] at h1
  obtain ⟨⟨⟨a1, a2⟩, a3⟩, a4⟩ := h1
  obtain ⟨msgs₀, _, hm⟩ := C60_from_start_partial exL_ok (fun h => h) (fun h => h) (fun h => h) (fun h => h)
    (fun _ _ => ⟨rfl, rfl⟩) hr (Query.of_perm (q := blocksFrom (exW1 .datastore) 1) hr (by decide +kernel) (List.Perm.refl _))
  have h3 : ((CState.init (exW1 .datastore)).run exL exJob exTidy).map (fun s =>
      match s.pc 0, s.pc 2 with
      | .done _, .done _ => true
      | _, _ => false) = some true := by decide +kernel
  rw [hs, Option.map_some, Option.some.injEq] at h3
  obtain ⟨msgs, k1, k2⟩ := C67_mirror_partial exL_ok (fun _ _ => ⟨rfl, rfl⟩) hr exJob_did
    (tidy_spec (by decide +kernel)) hs (fun i row ver cd hi => by
      by_cases h : i = 0 ∨ i = 2
      · rcases h with rfl | rfl <;> (rw [hi] at h3; revert h3; split <;> simp_all)
      · have := run_pc (i := i) (fun a ha => by
          have : ∀ a ∈ exTidy, a.call = none ∨ a.call = some 0 ∨ a.call = some 2 := by decide
          rcases this a ha with e | e | e <;> rw [e]
          · exact fun h => nomatch h
          · exact fun e => h (.inl (Option.some.inj e).symm)
          · exact fun e => h (.inr (Option.some.inj e).symm)) hs
        rw [hi] at this
        cases this) (by
      revert h2
      cases s.log with
      | nil => intro h; cases h
      | cons a l =>
        cases l with
        | nil => intro h; simp at h
        | cons b l =>
          cases l with
          | cons c l => intro h; simp at h
          | nil =>
            intro h
            simp only [List.map_cons, List.map_nil, List.cons.injEq, and_true] at h
            simp only [List.pairwise_cons, List.mem_singleton, forall_eq, h.1, h.2, List.not_mem_nil, false_implies,
              implies_true, List.Pairwise.nil, and_true]
            intro e
            exact absurd e (by decide +kernel)) hm (checkLog_spec a1).1
  exact ⟨s, _, msgs, hs, hm, k1, k2, a2, a3, a4⟩

/-- Both create the same path. -/
def exBoth (i : Nat) : Job Nat :=
  if i = 0 then ⟨exDid, [wr .create "c" (some 3)]⟩ else ⟨exDid, [wr .create "c" (some 5)]⟩

/-- Call 1 takes its sequence number, and then call 0 does. Call 0 writes its blocks, but call 1's transaction commits
first; so call 0's is aborted, and retried, and now fails, as the path exists. -/
def exRetry : Option (CState SC Nat) :=
  (CState.init (exW1 .datastore)).run exL exBoth (steps 1 1 ++ steps 0 6 ++ steps 1 6 ++ [.abort 0] ++ steps 0 2)

/-- **C67 is false** if a call is aborted after it has written its blocks: here the call then fails, so its record is
never created. But its commit is in the log, and a consumer that gets all messages in order ends up with another record
than the server. -/
theorem C67_retry_false : ∃ s, exRetry = some s ∧ Query exL s.w 1 none (blocksBySeq s.w 1) ∧
    (readEvents exL s.w (blocksBySeq s.w 1)).2 = none ∧
    List.Forall₂ (fun e msg => processEvent exL s.w none e = .ok msg) (readEvents exL s.w (blocksBySeq s.w 1)).1
      (messagesBySeq s.w 1) ∧
    (∃ e, s.pc 0 = .failed e) ∧ s.log.map (·.1) = [1] ∧
    readRecord s.w .datastore exDid "c" = some (some (.record 5)) ∧
    (((messagesBySeq s.w 1).foldl Mirror.next fun _ => none) exDid).map (fun m => m (key "coll/c")) = some (some 3) := by
  have h1 : (exRetry.map fun s => decide (readRecord s.w .datastore exDid "c" = some (some (.record 5))) &&
      decide ((((messagesBySeq s.w 1).foldl Mirror.next fun _ => none) exDid).map (fun m => m (key "coll/c")) =
        some (some 3))) = some true := by decide +kernel
  have h2 : (exRetry.map fun s => checkLog s.w 1) = some true := by decide +kernel
  have h3 : (exRetry.map fun s => (match s.pc 0 with
      | .failed _ => true
      | _ => false) && decide (s.log.map (·.1) = [1])) = some true := by decide +kernel
  cases hs : exRetry with
  | none => rw [hs] at h1; cases h1
  | some s =>
    rw [hs] at h1 h2 h3
    simp only [Option.map_some, Option.some.injEq, Bool.and_eq_true, decide_eq_true_eq] at h1 h2 h3
    obtain ⟨k1, k2, k3⟩ := checkLog_spec h2
    refine ⟨s, rfl, k1, k2, k3, ?_, h3.2, h1⟩
    have := h3.1
    split at this
    · exact ⟨_, by assumption⟩
    · cases this

end Arroba.Store
