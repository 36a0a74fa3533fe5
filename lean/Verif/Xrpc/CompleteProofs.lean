import Verif.Xrpc.TogetherProofs

/-! Helper lemmas: a request that runs alone is answered. -/

namespace Arroba.Xrpc

open Arroba.Store Arroba.Tree

variable {C R : Type} [DecidableEq C] {L : Lib C R} {Z : Nat} {cfg : Config R} {out : Surroundings}
  {req : Nat → Request R} {A0 : Accounts R} {names : Did → Option Key}

/-- Which requests come to which places. -/
def Typed (q : Request R) : Stage C R → Prop
  | .checked => ∃ header inp tid, q = .createRecord header inp tid
  | .changing | .changed => ∃ did change, q = .setStatus did change
  | _ => True

theorem Typed.planPut (q : Request R) (w : World C R) (header : Option Key) (inp : Input R) :
    Typed q (Xrpc.planPut cfg L w header inp) := by
  unfold Xrpc.planPut
  repeat' split
  all_goals trivial

theorem Typed.planDelete (q : Request R) (w : World C R) (header : Option Key) (inp : Input R) :
    Typed q (Xrpc.planDelete cfg L w header inp) := by
  unfold Xrpc.planDelete
  repeat' split
  all_goals trivial

theorem Typed.act {s s' : TState C R} {a : TAct} (hs : s.act cfg out L req a = some s')
    (h : ∀ i, Typed (req i) (s.stage i)) : ∀ i, Typed (req i) (s'.stage i) := by
  have goes : ∀ (s1 : TState C R) (i : Nat) (p : Stage C R), s1.stage = s.stage → Typed (req i) p →
      ∀ k, Typed (req k) ((s1.to i p).stage k) := by
    intro s1 i p h1 hp k
    by_cases he : k = i
    · subst he; rw [TState.to_self]; exact hp
    · rw [TState.to_other i p k he, h1]; exact h k
  cases a <;> simp only [TState.act] at hs
  case arrive i =>
    split at hs <;> cases hs
    exact goes _ _ _ rfl trivial
  case check i =>
    split at hs <;> cases hs
    rename_i header inp tid hst hr
    refine goes _ _ _ rfl ?_
    unfold checkCreate
    dsimp only
    repeat' split
    all_goals first | trivial | exact ⟨_, _, _, hr⟩
  case read i =>
    split at hs <;> cases hs
    · exact goes _ _ _ rfl (.planPut _ _ _ _)
    · exact goes _ _ _ rfl (.planPut _ _ _ _)
    · exact goes _ _ _ rfl (.planDelete _ _ _ _)
    · rename_i did change hst hr
      refine goes _ _ _ rfl ?_
      unfold planChange
      repeat' split
      all_goals first | trivial | exact ⟨_, _, hr⟩
    · exact goes _ _ _ rfl trivial
  case change i =>
    split at hs
    · rename_i did change hst hr
      obtain ⟨c, _, rfl⟩ := Option.map_eq_some_iff.1 hs
      exact goes _ _ _ rfl ⟨_, _, hr⟩
    · cases hs
  case finish i time =>
    split at hs <;> cases hs
    exact goes _ _ _ rfl trivial
  case reply i =>
    split at hs <;> cases hs <;> exact goes _ _ _ rfl trivial
  case create i key nonce time =>
    split at hs
    · unfold TState.create at hs
      split at hs
      · cases hs; exact goes _ _ _ rfl trivial
      · split at hs <;> cases hs <;> exact goes _ _ _ rfl trivial
      · cases hs; exact goes _ _ _ rfl trivial
      · cases hs; exact goes _ _ _ rfl trivial
      · split at hs <;> cases hs <;> exact goes _ _ _ rfl trivial
      · cases hs
    · cases hs
  case step i nonce =>
    split at hs
    · obtain ⟨c, _, rfl⟩ := Option.map_eq_some_iff.1 hs
      exact h
    · cases hs
  case abort i =>
    split at hs
    · obtain ⟨c, _, rfl⟩ := Option.map_eq_some_iff.1 hs
      exact h
    · unfold TState.again at hs
      split at hs <;> cases hs <;> exact goes _ _ _ rfl trivial
  case fail i e =>
    split at hs
    · obtain ⟨c, _, rfl⟩ := Option.map_eq_some_iff.1 hs
      exact h
    · unfold TState.gives at hs
      split at hs <;> cases hs <;> exact goes _ _ _ rfl trivial

theorem Typed.run : ∀ {as : List TAct} {s s' : TState C R}, s.run cfg out L req as = some s' →
    (∀ i, Typed (req i) (s.stage i)) → ∀ i, Typed (req i) (s'.stage i)
  | [], s, s', hs, h => by cases hs; exact h
  | a :: as, s, s', hs, h => by
    obtain ⟨s1, h1, h2⟩ := Option.bind_eq_some_iff.1 hs
    exact Typed.run h2 (Typed.act h1 h)

/-- At most `n` actions of its own, and it is answered. -/
def Ends (cfg : Config R) (out : Surroundings) (L : Lib C R) (req : Nat → Request R) (i n : Nat) (s : TState C R) :
    Prop :=
  ∃ as : List TAct, as.length ≤ n ∧ (∀ a ∈ as, a.of = i ∧ ∀ e, a ≠ .fail i e) ∧
    ∃ s' ans, s.run cfg out L req as = some s' ∧ s'.stage i = .answered ans

variable {i n : Nat} {s s' : TState C R}

theorem Ends.now {ans : Answer C R} (h : s.stage i = .answered ans) : Ends cfg out L req i n s :=
  ⟨[], Nat.zero_le _, fun _ h => (nomatch h), s, ans, rfl, h⟩

theorem Ends.act {a : TAct} (ha : a.of = i) (hn : ∀ e, a ≠ .fail i e) (hs : s.act cfg out L req a = some s')
    (h : Ends cfg out L req i n s') : Ends cfg out L req i (n + 1) s := by
  obtain ⟨as, h1, h2, s2, ans, h3, h4⟩ := h
  refine ⟨a :: as, Nat.succ_le_succ h1, fun b hb => ?_, s2, ans, ?_, h4⟩
  · rcases List.mem_cons.1 hb with rfl | hb
    · exact ⟨ha, hn⟩
    · exact h2 b hb
  · show (s.act cfg out L req a).bind _ = _
    rw [hs]
    exact h3

theorem Ends.le {m : Nat} (h : Ends cfg out L req i n s) (hm : n ≤ m) : Ends cfg out L req i m s := by
  obtain ⟨as, h1, h2⟩ := h
  exact ⟨as, h1.trans hm, h2⟩

variable {j : Job R} {ans : Answer C R}

theorem Ends.step (hst : s.stage i = .writing j ans) {c : CState C R}
    (hc : stepCall L (fun _ => j) s.c i 0 = some c) (h : Ends cfg out L req i n ⟨c, s.stage⟩) :
    Ends cfg out L req i (n + 1) s := by
  refine h.act (a := .step i 0) rfl (fun _ h => nomatch h) ?_
  simp only [TState.act]
  rw [hst]
  dsimp only
  show (stepCall L (fun _ => j) s.c i 0).map _ = _
  rw [hc]
  rfl

theorem Ends.failed (hst : s.stage i = .writing j ans) {e : Err} (hp : s.c.pc i = .failed e) :
    Ends cfg out L req i 1 s := by
  refine .act (a := .reply i) rfl (fun _ h => nomatch h) ?_ (.now (s := s.to i (.answered (.failed e))) (TState.to_self i _))
  simp only [TState.act]
  rw [hst, hp]

theorem Ends.done (hst : s.stage i = .writing j ans) {cd : CommitData C R} (hp : s.c.pc i = .done cd) :
    Ends cfg out L req i 1 s := by
  refine .act (a := .reply i) rfl (fun _ h => nomatch h) ?_ (.now (s := s.to i (.answered ans)) (TState.to_self i _))
  simp only [TState.act]
  rw [hst, hp]

theorem Ends.written (hst : s.stage i = .writing j ans) {row : Row C} {cd : CommitData C R}
    (hp : s.c.pc i = .written row (s.c.ver j.did) cd) : Ends cfg out L req i 2 s := by
  exact .step hst (c := CState.at { s.c with
      w := { s.c.w with rows := dictSet s.c.w.rows j.did { row with head := L.hash cd.commit.val } }
      ver := Function.update s.c.ver j.did (s.c.ver j.did + 1)
      log := s.c.log ++ [(i, cd)] } i (.done cd))
    (by unfold stepCall; rw [hp]; dsimp only; rw [if_pos rfl]) (.done hst (at_pc _ _ _))

theorem Ends.queried (hst : s.stage i = .writing j ans) {row : Row C} {cd : CommitData C R} {new : List (Block C R)}
    (hp : s.c.pc i = .queried row (s.c.ver j.did) cd new) : Ends cfg out L req i 3 s := by
  exact .step hst (c := CState.at { s.c with w := { s.c.w with blocks := overwrite L s.c.w.blocks new } } i
    (.written row (s.c.ver j.did) cd)) (by unfold stepCall; rw [hp]) (.written hst (at_pc _ _ _))

theorem Ends.built (hst : s.stage i = .writing j ans) {row : Row C} {cd : CommitData C R}
    (hp : s.c.pc i = .built row (s.c.ver j.did) cd) : Ends cfg out L req i 4 s := by
  exact .step hst (c := s.c.at i (.queried row (s.c.ver j.did) cd (missing s.c.w.blocks cd.blocks)))
    (by unfold stepCall; rw [hp]) (.queried hst (at_pc _ _ _))

theorem Ends.applied (hst : s.stage i = .writing j ans) {seq : Nat} {row : Row C} {st : LoopState C R}
    (hp : s.c.pc i = .applied seq row (s.c.ver j.did) st) : Ends cfg out L req i 5 s := by
  cases hb : buildCommit L s.c.w.rd st row.key 0 seq j.did (some row.head) with
  | error e =>
    exact (Ends.step hst (c := s.c.at i (.failed e)) (by unfold stepCall; rw [hp]; dsimp only; rw [hb])
      (.failed hst (at_pc _ _ _))).le (by omega)
  | ok cd =>
    exact .step hst (c := s.c.at i (.built row (s.c.ver j.did) cd)) (by unfold stepCall; rw [hp]; dsimp only; rw [hb]) (.built hst (at_pc _ _ _))

theorem Ends.loaded (hst : s.stage i = .writing j ans) {seq : Nat} {row : Row C} {co : Commit C}
    (hp : s.c.pc i = .loaded seq row (s.c.ver j.did) co) : Ends cfg out L req i 6 s := by
  by_cases hm : maxOps < j.writes.length
  · exact (Ends.step hst (c := s.c.at i (.failed .value)) (by unfold stepCall; rw [hp]; dsimp only; rw [if_pos hm])
      (.failed hst (at_pc _ _ _))).le (by omega)
  · cases hb : Store.applyWrites L s.c.w.rd seq j.did ⟨Arroba.load co.data, [], []⟩ j.writes with
    | error e =>
      exact (Ends.step hst (c := s.c.at i (.failed e.2)) (by unfold stepCall; rw [hp]; dsimp only; rw [if_neg hm, hb])
        (.failed hst (at_pc _ _ _))).le (by omega)
    | ok st =>
      exact .step hst (c := s.c.at i (.applied seq row (s.c.ver j.did) st)) (by unfold stepCall; rw [hp]; dsimp only; rw [if_neg hm, hb]) (.applied hst (at_pc _ _ _))

theorem Ends.ready (hst : s.stage i = .writing j ans) {seq : Nat} (hp : s.c.pc i = .ready seq) :
    Ends cfg out L req i 7 s := by
  cases hr : findRow s.c.w j.did with
  | none =>
    exact (Ends.step hst (c := s.c.at i (.failed .attribute)) (by unfold stepCall; rw [hp]; dsimp only; rw [hr])
      (.failed hst (at_pc _ _ _))).le (by omega)
  | some row =>
    cases hb : commitAt s.c.w row.head with
    | error e =>
      exact (Ends.step hst (c := s.c.at i (.failed e)) (by unfold stepCall; rw [hp]; dsimp only; rw [hr]; dsimp only; rw [hb])
        (.failed hst (at_pc _ _ _))).le (by omega)
    | ok x =>
      exact .step hst (c := s.c.at i (.loaded seq row (s.c.ver j.did) x.2)) (by unfold stepCall; rw [hp]; dsimp only; rw [hr]; dsimp only; rw [hb])
        (.loaded hst (at_pc _ _ _))

theorem Ends.again (hst : s.stage i = .writing j ans) {seq : Nat} (hc : abortCall s.c i = some (s.c.at i (.ready seq))) :
    Ends cfg out L req i 8 s := by
  refine .act (a := .abort i) rfl (fun _ h => nomatch h) (s' := ⟨s.c.at i (.ready seq), s.stage⟩) ?_
    (.ready hst (at_pc _ _ _))
  simp only [TState.act]
  rw [hst]
  dsimp only
  show (abortCall s.c i).map _ = _
  rw [hc]
  rfl

theorem Ends.writing (hst : s.stage i = .writing j ans) : Ends cfg out L req i 8 s := by
  cases hp : s.c.pc i with
  | start => exact .step hst (c := CState.at { s.c with w := s.c.w.alloc.2 } i (.ready s.c.w.alloc.1)) (by unfold stepCall; rw [hp]) (.ready hst (at_pc _ _ _))
  | ready seq => exact (Ends.ready hst hp).le (by omega)
  | loaded seq row ver co => exact .again hst (by unfold abortCall; rw [hp])
  | applied seq row ver st => exact .again hst (by unfold abortCall; rw [hp])
  | built row ver cd => exact .again hst (by unfold abortCall; rw [hp])
  | queried row ver cd new => exact .again hst (by unfold abortCall; rw [hp])
  | written row ver cd => exact .again hst (by unfold abortCall; rw [hp])
  | done cd => exact (Ends.done hst hp).le (by omega)
  | failed e => exact (Ends.failed hst hp).le (by omega)

theorem Ends.changed {did : Did} {change : Change} (hst : s.stage i = .changed) (hr : req i = .setStatus did change) :
    Ends cfg out L req i 1 s := by
  refine .act (a := .finish i 0) rfl (fun _ h => nomatch h) (s' := TState.to
    { s with c := storeEvent L s.c did (changeKind change) 0 } i (.answered .done)) ?_ (.now (TState.to_self i _))
  simp only [TState.act]
  rw [hst, hr]

theorem Ends.changing {did : Did} {change : Change} (hst : s.stage i = .changing) (hr : req i = .setStatus did change)
    (hd : dictGet s.c.w.rows did ≠ none) : Ends cfg out L req i 2 s := by
  obtain ⟨row, hrow⟩ := Option.ne_none_iff_exists'.1 hd
  obtain ⟨c, hc⟩ : ∃ c, setStatusRow s.c did change.status = some c := by
    unfold setStatusRow
    rw [hrow]
    exact ⟨_, rfl⟩
  refine .act (a := .change i) rfl (fun _ h => nomatch h) (s' := TState.to ⟨c, s.stage⟩ i .changed) ?_
    (.changed (TState.to_self i _) hr)
  simp only [TState.act]
  rw [hst, hr]
  dsimp only
  rw [hc]
  rfl

theorem Ends.planPut {header : Option Key} {inp : Input R}
    (hst : s.stage i = planPut cfg L s.c.w header inp) : Ends cfg out L req i 8 s := by
  unfold Xrpc.planPut at hst
  repeat' split at hst
  all_goals first | exact .now hst | exact .writing hst

theorem Ends.planDelete {header : Option Key} {inp : Input R}
    (hst : s.stage i = planDelete cfg L s.c.w header inp) : Ends cfg out L req i 8 s := by
  unfold Xrpc.planDelete at hst
  repeat' split at hst
  all_goals first | exact .now hst | exact .writing hst

theorem Ends.checked {header : Option Key} {inp : Input R} {tid : Key} (hst : s.stage i = .checked)
    (hr : req i = .createRecord header inp tid) : Ends cfg out L req i 9 s := by
  refine .act (a := .read i) rfl (fun _ h => nomatch h) (s' := s.to i (Xrpc.planPut cfg L s.c.w header
    { inp with rkey := some (inp.rkey.getD tid) })) ?_ (.planPut (TState.to_self i _))
  simp only [TState.act]
  rw [hst, hr]

theorem Ends.create {did : Did} {handle : Option Key} (hr : req i = .newRepo did handle)
    (hs : s.create L i did handle 0 0 0 = some s') (h : Ends cfg out L req i n s') : Ends cfg out L req i (n + 1) s := by
  refine h.act (a := .create i 0 0 0) rfl (fun _ h => nomatch h) ?_
  simp only [TState.act]
  rw [hr]
  exact hs

theorem Ends.stored {did : Did} {handle : Option Key} (hr : req i = .newRepo did handle) {key : Nat}
    {cd : CommitData C R} : ∀ (m : Nat) {s : TState C R} {k : Nat}, s.stage i = .stored key cd k → 3 ≤ k + m →
    Ends cfg out L req i (m + 1) s
  | 0, s, k, hst, hk => by
    refine .create hr (s' := TState.to { s with c := putRow s.c did ⟨handle, L.hash cd.commit.val, none, key⟩ } i
      (.answered .done)) ?_ (.now (TState.to_self i _))
    unfold TState.create
    rw [hst]
    dsimp only
    rw [if_neg (by omega)]
  | m + 1, s, k, hst, hk => by
    by_cases h3 : k < 3
    · refine .create hr (s' := TState.to { s with c := storeEvent L s.c did (birthEvent L handle cd k) 0 } i
        (.stored key cd (k + 1))) ?_ (Ends.stored hr m (TState.to_self i _) (by omega))
      unfold TState.create
      rw [hst]
      dsimp only
      rw [if_pos h3]
    · exact (Ends.stored hr 0 hst (by omega)).le (by omega)

theorem Ends.asked {did : Did} {handle : Option Key} (hr : req i = .newRepo did handle) {key : Nat}
    {cd : CommitData C R} {new : List (Block C R)} (hst : s.stage i = .asked key cd new) : Ends cfg out L req i 5 s := by
  refine .create hr (s' := TState.to { s with c := { s.c with w := { s.c.w with
    blocks := overwrite L s.c.w.blocks new } } } i (.stored key cd 0)) ?_ (.stored hr 3 (TState.to_self i _) (by omega))
  unfold TState.create
  rw [hst]

theorem Ends.made {did : Did} {handle : Option Key} (hr : req i = .newRepo did handle) {key : Nat}
    {cd : CommitData C R} (hst : s.stage i = .made key cd) : Ends cfg out L req i 6 s := by
  refine .create hr (s' := s.to i (.asked key cd (missing s.c.w.blocks cd.blocks))) ?_
    (.asked hr (TState.to_self i _))
  unfold TState.create
  rw [hst]

theorem Ends.creating {did : Did} {handle : Option Key} (hr : req i = .newRepo did handle) {seq : Nat}
    (hst : s.stage i = .creating seq) : Ends cfg out L req i 7 s := by
  cases hc : firstCommit L s.c.w did 0 0 seq with
  | error e =>
    refine (Ends.create (n := 0) hr (s' := s.to i (.answered (.failed e))) ?_ (.now (TState.to_self i _))).le (by omega)
    unfold TState.create
    rw [hst]
    dsimp only
    rw [hc]
  | ok cd =>
    refine .create hr (s' := s.to i (.made 0 cd)) ?_ (.made hr (TState.to_self i _))
    unfold TState.create
    rw [hst]
    dsimp only
    rw [hc]

theorem Ends.arrived (hst : s.stage i = .arrived)
    (hc : ∀ did change, req i = .setStatus did change → planChange s.c.w did = .changing →
      dictGet s.c.w.rows did ≠ none) : Ends cfg out L req i 10 s := by
  cases hr : req i with
  | createRecord header inp tid =>
    refine .act (a := .check i) rfl (fun _ h => nomatch h) (s' := s.to i (checkCreate cfg s.c.w header inp)) ?_ ?_
    · simp only [TState.act]
      rw [hst, hr]
    · have h := TState.to_self (s := s) i (checkCreate cfg s.c.w header inp)
      unfold checkCreate at h ⊢
      dsimp only at h ⊢
      repeat' split at h
      all_goals first | exact .now h | exact .checked h hr
  | putRecord header inp =>
    refine (Ends.act (a := .read i) rfl (fun _ h => nomatch h) (s' := s.to i (Xrpc.planPut cfg L s.c.w header inp)) ?_
      (.planPut (TState.to_self i _))).le (by omega)
    simp only [TState.act]
    rw [hst, hr]
  | deleteRecord header inp =>
    refine (Ends.act (a := .read i) rfl (fun _ h => nomatch h)
      (s' := s.to i (Xrpc.planDelete cfg L s.c.w header inp)) ?_ (.planDelete (TState.to_self i _))).le (by omega)
    simp only [TState.act]
    rw [hst, hr]
  | setStatus did change =>
    refine (Ends.act (n := 2) (a := .read i) rfl (fun _ h => nomatch h) (s' := s.to i (planChange s.c.w did)) ?_ ?_).le
      (by omega)
    · simp only [TState.act]
      rw [hst, hr]
    · have h := TState.to_self (s := s) i (planChange s.c.w did)
      have hc := hc did change hr
      cases hp : planChange s.c.w did <;> rw [hp] at h hc
      case answered => exact .now h
      case changing => exact .changing h hr (hc rfl)
      all_goals
        unfold planChange at hp
        repeat' split at hp
        all_goals cases hp
  | newRepo did handle =>
    refine (Ends.create (n := 7) hr (s' := TState.to { s with c := { s.c with w := s.c.w.alloc.2 } } i
      (.creating s.c.w.alloc.1)) ?_ (.creating hr (TState.to_self i _))).le (by omega)
    unfold TState.create
    rw [hst]
  | _ =>
    refine (Ends.act (n := 0) (a := .read i) rfl (fun _ h => nomatch h) (s' := s.to i (.answered
      (serve cfg out L .datastore s.c.w ⟨[], 0, false, 0, false⟩ (req i)).2)) ?_ (.now (TState.to_self i _))).le (by omega)
    simp only [TState.act]
    rw [hst, hr]

variable {lo : Nat} {job : Nat → Job R} {F : Nat → Prop} {P : Nat → Nat → Prop} {h : List (Point C R)}

theorem TInv.ends (hL : L.OK Z) (hi : TInv cfg out L Z req names A0 lo job F P s h) (hq : Proper (req i))
    (hst : s.stage i ≠ .idle) (ht : Typed (req i) (s.stage i)) :
    Ends cfg out L req i 10 s := by
  have hrow : ∀ did, cur A0 h did ≠ none → dictGet s.c.w.rows did ≠ none := by
    intro did hd
    obtain ⟨a, ha⟩ := Option.ne_none_iff_exists'.1 hd
    obtain ⟨row, h1, _⟩ := hi.kept.held did a ha
    rw [h1]
    exact fun h => nomatch h
  have hb := hi.birth i
  cases hs : s.stage i with
  | idle => exact absurd hs hst
  | arrived =>
    refine .arrived hs fun did change hr hp => hrow did fun hnone => ?_
    rw [hr] at hq
    rcases planChange_ok (cfg := cfg) (out := out) hL hi.kept hi.cinv.addr hq change with ⟨h1, _⟩ | ⟨_, a, h2⟩
    · rw [hp] at h1; cases h1
    · rw [hnone] at h2; cases h2
  | checked =>
    rw [hs] at ht
    obtain ⟨_, _, _, hr⟩ := ht
    exact (Ends.checked hs hr).le (by omega)
  | writing j ans => exact (Ends.writing hs).le (by omega)
  | changing =>
    rw [hs] at ht
    obtain ⟨did, change, hr⟩ := ht
    exact (Ends.changing hs hr (hrow did (hi.present i did change hs hr))).le (by omega)
  | changed =>
    rw [hs] at ht
    obtain ⟨did, change, hr⟩ := ht
    exact (Ends.changed hs hr).le (by omega)
  | answered ans => exact .now hs
  | creating seq =>
    rw [hs] at hb
    obtain ⟨⟨_, _, hr⟩, _⟩ := hb
    exact (Ends.creating hr hs).le (by omega)
  | made key cd =>
    rw [hs] at hb
    obtain ⟨_, _, _, hr, _⟩ := hb
    exact (Ends.made hr hs).le (by omega)
  | asked key cd new =>
    rw [hs] at hb
    obtain ⟨_, _, _, hr, _⟩ := hb
    exact (Ends.asked hr hs).le (by omega)
  | stored key cd n =>
    rw [hs] at hb
    obtain ⟨_, _, _, hr, _⟩ := hb
    exact (Ends.stored hr 3 hs (by omega)).le (by omega)

end Arroba.Xrpc
