import Verif.Storage.AloneProofs
import Verif.Storage.Example

/-!
# C58: concurrent commits

Any number of calls of `commit` run concurrently on one Datastore (`Concurrent.lean`), while others
change the repos' statuses and write events. `C58_serial`: each repo's history is that of the calls
that succeeded, applied one after the other in the order in which their transactions committed; no
call's writes are lost, applied twice, or applied to anything but the latest state.

Two things that hold when commits run one after the other do not hold then, and for `MemoryStorage`
in several threads not even the main claim does: see the counterexamples.
-/

namespace Arroba.Store

variable {C R : Type} [DecidableEq C] {L : Lib C R} {Z : Nat} {al : Allow} {w : World C R}
  {job : Nat → Job R} {as : List (Act C)} {s : CState C R}

open Arroba.Tree

/-- Starting with the head `c₀` and the records `m₀` of the repo `d`, the calls in the list, one
after the other, lead to the head and the records given last. `shown` says which records a commit
holds. Each commit names the one before it as its `prev`, and reports the operations that lead from
that one's records to its own. -/
inductive Serial (L : Lib C R) (job : Nat → Job R) (shown : C → (Key → Option R) → Prop) (d : Did)
    (c₀ : C) (m₀ : Key → Option R) :
    List (Nat × CommitData C R) → C → (Key → Option R) → Prop
  | nil : Serial L job shown d c₀ m₀ [] c₀ m₀
  | mine {l : List (Nat × CommitData C R)} {c : C} {m m' : Key → Option R} {i : Nat}
      {cd : CommitData C R} {co : Commit C} (h : Serial L job shown d c₀ m₀ l c m)
      (hd : (job i).did = d) (hlen : (job i).writes.length ≤ 200)
      (hw : specWrites L m (job i).writes = .ok m') (hp : cd.prev = some c)
      (hc : cd.commit.val = .commit co) (hco : co.did = d ∧ co.prev = some c)
      (hrev : Tid.intToTid 0 cd.commit.seq (some 0) = .ok co.rev)
      (ho : cd.commit.ops = some (opsOf L m (job i).writes))
      (hs : shown (L.hash cd.commit.val) m') :
      Serial L job shown d c₀ m₀ (l ++ [(i, cd)]) (L.hash cd.commit.val) m'
  | other {l : List (Nat × CommitData C R)} {c : C} {m : Key → Option R} {i : Nat}
      {cd : CommitData C R} (h : Serial L job shown d c₀ m₀ l c m) (hd : (job i).did ≠ d) :
      Serial L job shown d c₀ m₀ (l ++ [(i, cd)]) c m

theorem Serial.imp {shown shown' : C → (Key → Option R) → Prop} {d : Did} {c₀ c : C}
    {m₀ m : Key → Option R} {l : List (Nat × CommitData C R)}
    (hs : ∀ c m, shown c m → shown' c m) (h : Serial L job shown d c₀ m₀ l c m) :
    Serial L job shown' d c₀ m₀ l c m := by
  induction h with
  | nil => exact .nil
  | mine _ hd hlen hw hp hc hco hrev ho h ih =>
    exact .mine ih hd hlen hw hp hc hco hrev ho (hs _ _ h)
  | other _ hd ih => exact .other ih hd

/-! ### What can be read in a state -/

section
variable {lo : Nat}

theorem Holds.objRep (hL : L.OK Z) (ha : Addressed L w.blocks) {d : Did} {c : C}
    {m : Key → Option R} (h : Holds L Z w.blocks d c m) {handle : Option Key}
    (hh : ∀ h, handle = some h → ¬ isDid h) (status : Option Status) (key : Nat) (cb : Bool) :
    ∃ o, repoLoad w c handle status key cb =
        ({ w with heap := w.heap ++ [o] }, .ok w.heap.length) ∧
      o.head.map (fun b => L.hash b.val) = some c ∧ o.status = status ∧
      ObjShows L { w with heap := w.heap ++ [o] } o m := by
  obtain ⟨b, co, h1, h2, h3, h4, h5⟩ := h.commitAt hL ha
  obtain ⟨l, t, g1, g2, g3⟩ := (h5.root ha).2.load
  refine ⟨⟨load co.data, some b, handle, status, key, cb⟩, ?_, ?_, rfl, ?_⟩
  · unfold repoLoad World.newObj
    rw [h1]
  · simp [h2, h3]
  · refine ObjRep.shows hL ⟨⟨l, t, g1, g2, fun b' hb => ?_⟩, hh⟩
    cases hb
    obtain ⟨b', hb', hv⟩ := (h5.root ha).1
    exact ⟨b', co, by rw [h2]; exact hb', by rw [hv, h2], h2, g3.symm⟩

theorem CInv.shows (hL : L.OK Z) (h : CInv L Z job lo s) {d : Did} (hd : isDid d) {row : Row C}
    (hr : dictGet s.w.rows d = some row) {m : Key → Option R}
    (hm : Holds L Z s.w.blocks d row.head m) :
    ∃ o, loadRepo .datastore s.w d =
        ({ s.w with heap := s.w.heap ++ [o] }, .ok (some s.w.heap.length)) ∧
      o.head.map (fun b => L.hash b.val) = some row.head ∧ o.status = row.status ∧
      ObjShows L { s.w with heap := s.w.heap ++ [o] } o m := by
  obtain ⟨o, h1, h2, h3, h4⟩ := hm.objRep hL h.addr (h.rows d row (dictGet_mem hr)).1 row.status
    row.key false
  refine ⟨o, ?_, h2, h3, h4⟩
  have hne : d ≠ [] := by
    rintro rfl
    exact absurd hd (by unfold isDid; decide)
  unfold loadRepo
  rw [if_neg hne]
  dsimp only
  rw [findRow_did (fun d row hr => (h.rows d row hr).1) hd, hr]
  dsimp only
  rw [h1]

theorem Holds.commitShows (hL : L.OK Z) (ha : Addressed L w.blocks) {d : Did} {c : C}
    {m : Key → Option R} (h : Holds L Z w.blocks d c m) : CommitShows L w c m := by
  obtain ⟨o, h1, _, _, h2⟩ := h.objRep hL ha (handle := none) (fun _ h => nomatch h) none 0 false
  exact ⟨_, _, o, h1, by simp, h2⟩

/-! ### The order of commits -/

theorem act_log {s s' : CState C R} {a : Act C} (hs : s.act L job a = some s') :
    (s'.log = s.log ∧ ∀ d, (dictGet s'.w.rows d).map (·.head) = (dictGet s.w.rows d).map (·.head)) ∨
    ∃ i row ver cd, s.pc i = .written row ver cd ∧ s.ver (job i).did = ver ∧
      s'.log = s.log ++ [(i, cd)] ∧ s'.w.blocks = s.w.blocks ∧
      s'.w.rows = dictSet s.w.rows (job i).did { row with head := L.hash cd.commit.val } := by
  cases a with
  | step i nonce =>
    simp only [CState.act] at hs
    unfold stepCall at hs
    dsimp only at hs
    cases hpc : s.pc i with
    | start => rw [hpc] at hs; cases hs; exact .inl ⟨rfl, fun _ => rfl⟩
    | ready seq =>
      rw [hpc] at hs
      dsimp only at hs
      split at hs
      · cases hs; exact .inl ⟨rfl, fun _ => rfl⟩
      · split at hs <;> (cases hs; exact .inl ⟨rfl, fun _ => rfl⟩)
    | loaded seq row ver co =>
      rw [hpc] at hs
      dsimp only at hs
      split at hs
      · cases hs; exact .inl ⟨rfl, fun _ => rfl⟩
      · split at hs <;> (cases hs; exact .inl ⟨rfl, fun _ => rfl⟩)
    | applied seq row ver st =>
      rw [hpc] at hs
      dsimp only at hs
      split at hs <;> (cases hs; exact .inl ⟨rfl, fun _ => rfl⟩)
    | built row ver cd => rw [hpc] at hs; cases hs; exact .inl ⟨rfl, fun _ => rfl⟩
    | queried row ver cd new => rw [hpc] at hs; cases hs; exact .inl ⟨rfl, fun _ => rfl⟩
    | written row ver cd =>
      rw [hpc] at hs
      dsimp only at hs
      split at hs
      · cases hs
        exact .inr ⟨i, row, ver, cd, hpc, by assumption, rfl, rfl, rfl⟩
      · cases hs
    | done cd => rw [hpc] at hs; cases hs
    | failed e => rw [hpc] at hs; cases hs
  | abort i =>
    simp only [CState.act, abortCall] at hs
    split at hs <;> first | (cases hs; exact .inl ⟨rfl, fun _ => rfl⟩) | cases hs
  | fail i e =>
    simp only [CState.act, failCall] at hs
    split at hs <;> first | (cases hs; exact .inl ⟨rfl, fun _ => rfl⟩) | cases hs
  | setStatus d st =>
    simp only [CState.act, setStatusRow] at hs
    cases hr : dictGet s.w.rows d with
    | none => rw [hr] at hs; cases hs
    | some row =>
      rw [hr] at hs
      cases hs
      refine .inl ⟨rfl, fun d' => ?_⟩
      simp only [dictGet_dictSet]
      split
      · rename_i he; rw [he, hr]; rfl
      · rfl
  | event d kind t =>
    simp only [CState.act] at hs
    cases hs
    exact .inl ⟨rfl, fun _ => rfl⟩

/-- The history of the repo `d`. -/
def LogOK (L : Lib C R) (Z : Nat) (job : Nat → Job R) (d : Did) (c₀ : C) (m₀ : Key → Option R)
    (s : CState C R) : Prop :=
  ∃ row m, dictGet s.w.rows d = some row ∧ Holds L Z s.w.blocks d row.head m ∧
    Serial L job (Holds L Z s.w.blocks d) d c₀ m₀ s.log row.head m

theorem LogOK.act (hL : L.OK Z) (hj : ∀ i, isDid (job i).did) {d : Did} {c₀ : C}
    {m₀ : Key → Option R} {s s' : CState C R} (hc : CInv L Z job lo s)
    (h : LogOK L Z job d c₀ m₀ s) {a : Act C} (hs : s.act L job a = some s') :
    LogOK L Z job d c₀ m₀ s' := by
  obtain ⟨row, m, h1, h2, h3⟩ := h
  obtain ⟨hc', hf⟩ := hc.act hL hj hs
  have hk : ∀ c m, Holds L Z s.w.blocks d c m → Holds L Z s'.w.blocks d c m :=
    fun c m h => h.keeps hf.keeps
  rcases act_log hs with ⟨g1, g2⟩ | ⟨i, row', ver, cd, g1, g2, g3, g4, g5⟩
  · have := g2 d
    rw [h1] at this
    obtain ⟨row', hr', he⟩ := Option.map_eq_some_iff.1 this
    exact ⟨row', m, hr', by rw [he]; exact hk _ _ h2, by rw [g1, he]; exact h3.imp hk⟩
  · have hp := hc.pcs i
    rw [g1] at hp
    obtain ⟨hsn, m1, m2, co, e1, e2, e3, e4, e5, e6, e7, e8, e9⟩ := hp
    have hrow := hsn.2 g2.symm
    by_cases hd : (job i).did = d
    · subst hd
      rw [h1] at hrow
      cases hrow
      have := h2.unique hL hc.addr hc.addr e1
      subst this
      have hh : Holds L Z s'.w.blocks (job i).did (L.hash cd.commit.val) m2 :=
        hk _ _ ⟨co, by rw [e4], e5, e9⟩
      refine ⟨{ row with head := L.hash cd.commit.val }, m2, ?_, hh, ?_⟩
      · rw [g5, dictGet_dictSet, if_pos rfl]
      · rw [g3]
        exact .mine (h3.imp hk) rfl e3 e2 e7 (by rw [e4]) ⟨e5, e6⟩ e8 (by rw [e4]) hh
    · refine ⟨row, m, ?_, hk _ _ h2, ?_⟩
      · rw [g5, dictGet_dictSet, if_neg (Ne.symm hd)]; exact h1
      · rw [g3]; exact .other (h3.imp hk) hd

theorem LogOK.run (hL : L.OK Z) (hj : ∀ i, isDid (job i).did) {d : Did} {c₀ : C}
    {m₀ : Key → Option R} : ∀ {as : List (Act C)} {s s' : CState C R}, CInv L Z job lo s →
    LogOK L Z job d c₀ m₀ s → s.run L job as = some s' → LogOK L Z job d c₀ m₀ s'
  | [], s, s', _, h, hs => by cases hs; exact h
  | a :: as, s, s', hc, h, hs => by
    unfold CState.run at hs
    cases ha : s.act L job a with
    | none => rw [ha] at hs; cases hs
    | some s1 => rw [ha] at hs; exact LogOK.run hL hj (hc.act hL hj ha).1 (h.act hL hj hc ha) hs

end

/-- No lost updates: at any moment, the head and the records of a repo are those that the calls
whose transactions have committed so far lead to, one after the other. Every one of their commits
can still be loaded. -/
theorem C58_serial (hL : L.OK Z) (hr : Reach L .datastore al w) (hj : ∀ i, isDid (job i).did)
    (hs : (CState.init w).run L job as = some s) {d : Did} (hd : isDid d) {c₀ : C}
    {m₀ : Key → Option R} (hc : readHead L .datastore w d = some c₀)
    (hm : Shows L .datastore w d m₀) :
    ∃ c m, readHead L .datastore s.w d = some c ∧ Shows L .datastore s.w d m ∧
      Serial L job (CommitShows L s.w) d c₀ m₀ s.log c m := by
  have hi := CInv.init hL hr job
  have hend := hi.run hL hj hs
  have hlog : LogOK L Z job d c₀ m₀ (.init w) := by
    obtain ⟨w1, r, o, h1, h2, h3⟩ := hm
    cases hrow : dictGet w.rows d with
    | none =>
      exfalso
      have hne : d ≠ [] := by
        rintro rfl
        exact absurd hd (by unfold isDid; decide)
      unfold loadRepo at h1
      rw [if_neg hne] at h1
      dsimp only at h1
      have hrows : ∀ d row, (d, row) ∈ w.rows → ∀ h, row.handle = some h → ¬ isDid h :=
        fun d row hr => (hi.rows d row hr).1
      rw [findRow_did hrows hd, hrow] at h1
      cases h1
    | some row =>
      obtain ⟨_, m, hm⟩ := hi.rows d row (dictGet_mem hrow)
      obtain ⟨o', g1, g2, _, g3⟩ := hi.shows hL hd hrow hm
      have g1' : loadRepo .datastore w d = _ := g1
      rw [g1'] at h1
      cases h1
      have ho : some o' = some o := by rw [← h2]; simp [CState.init]
      cases ho
      have := g3.unique h3
      subst this
      have hc' : row.head = c₀ := by
        unfold readHead at hc
        rw [g1'] at hc
        simp only [CState.init, List.length_append, List.length_cons, List.length_nil,
          Nat.zero_add, Nat.lt_add_one, List.getElem?_append_right, le_refl, Nat.sub_self,
          List.getElem?_cons_zero, Option.bind_some] at hc
        rw [g2] at hc
        exact Option.some.inj hc
      subst hc'
      exact ⟨row, m, hrow, hm, .nil⟩
  obtain ⟨row, m, h1, h2, h3⟩ := hlog.run hL hj hi hs
  obtain ⟨o, g1, g2, _, g3⟩ := hend.shows hL hd h1 h2
  refine ⟨row.head, m, ?_, ⟨_, _, o, g1, by simp, g3⟩, h3.imp fun c m h => h.commitShows hL hend.addr⟩
  unfold readHead
  rw [g1]
  simpa using g2

/-- The calls that have returned are exactly those whose transactions have committed, each once;
`commit` returns the commit that was made. -/
theorem C58_acknowledged (hL : L.OK Z) (hr : Reach L .datastore al w)
    (hj : ∀ i, isDid (job i).did) (hs : (CState.init w).run L job as = some s) :
    (s.log.map (·.1)).Nodup ∧ ∀ i cd, s.pc i = .done cd ↔ (i, cd) ∈ s.log := by
  have h := (CInv.init hL hr job).run hL hj hs
  refine ⟨h.once, fun i cd => ⟨fun hi => ?_, h.finished i cd⟩⟩
  have := h.pcs i
  rw [hi] at this
  exact this

/-- Commits of different calls have different sequence numbers, none of which was used before. -/
theorem C58_seqs (hL : L.OK Z) (hr : Reach L .datastore al w)
    (hj : ∀ i, isDid (job i).did) (hs : (CState.init w).run L job as = some s) {i k : Nat}
    {cd cd' : CommitData C R} (hi : s.pc i = .done cd) (hk : s.pc k = .done cd') :
    (∀ n, lastSeq w.seqs subscribeRepos = some n → n < cd.commit.seq) ∧
      (i ≠ k → cd.commit.seq ≠ cd'.commit.seq) := by
  have h := (CInv.init hL hr job).run hL hj hs
  constructor
  · intro n hn
    have := (h.seqs i cd.commit.seq (by rw [hi]; rfl)).1
    unfold World.next at this
    unfold lastSeq at hn
    split at hn
    · rename_i n' he
      cases hn
      rw [he] at this
      simp only [Option.getD_some] at this
      omega
    · cases hn
  · intro hne he
    exact hne (h.distinct i k cd.commit.seq (by rw [hi]; rfl) (by rw [hk, he]; rfl))

/-! ### Statuses -/

/-- The status of a stored repo. -/
def storedStatus (w : World C R) (d : Did) : Option (Option Status) :=
  match loadRepo .datastore w d with
  | (w1, .ok (some r)) => (w1.heap[r]?).map (·.status)
  | _ => none

/-- The last status that was set. -/
def lastStatus (d : Did) : Option Status → List (Act C) → Option Status
  | st, [] => st
  | st, .setStatus d' st' :: as => lastStatus d (if d' = d then st' else st) as
  | st, _ :: as => lastStatus d st as

section
variable {lo : Nat}

theorem CInv.status (hL : L.OK Z) (h : CInv L Z job lo s) {d : Did} (hd : isDid d) :
    storedStatus s.w d = (dictGet s.w.rows d).map (·.status) := by
  unfold storedStatus
  cases hr : dictGet s.w.rows d with
  | none =>
    have hne : d ≠ [] := by
      rintro rfl
      exact absurd hd (by unfold isDid; decide)
    have : loadRepo .datastore s.w d = (s.w, .ok none) := by
      unfold loadRepo
      rw [if_neg hne]
      dsimp only
      rw [findRow_did (fun d row hr => (h.rows d row hr).1) hd, hr]
    rw [this]; rfl
  | some row =>
    obtain ⟨_, m, hm⟩ := h.rows d row (dictGet_mem hr)
    obtain ⟨o, g1, _, g2, _⟩ := h.shows hL hd hr hm
    rw [g1]
    simp [g2]

theorem act_status (hc : CInv L Z job lo s) {s' : CState C R} {a : Act C}
    (hs : s.act L job a = some s') (d : Did) {row : Row C} (hr : dictGet s.w.rows d = some row) :
    ∃ row', dictGet s'.w.rows d = some row' ∧ row'.status = lastStatus d row.status [a] := by
  have same : s'.w.rows = s.w.rows → (∀ d' st, a ≠ .setStatus d' st) →
      ∃ row', dictGet s'.w.rows d = some row' ∧ row'.status = lastStatus d row.status [a] := by
    intro h1 h2
    refine ⟨row, by rw [h1]; exact hr, ?_⟩
    cases a with
    | setStatus d' st => exact absurd rfl (h2 d' st)
    | _ => rfl
  cases a with
  | setStatus d' st =>
    simp only [CState.act, setStatusRow] at hs
    cases hr' : dictGet s.w.rows d' with
    | none => rw [hr'] at hs; cases hs
    | some row' =>
      rw [hr'] at hs
      cases hs
      simp only [dictGet_dictSet, lastStatus]
      by_cases he : d = d'
      · subst he
        rw [if_pos rfl, if_pos rfl]
        exact ⟨_, rfl, rfl⟩
      · rw [if_neg he, if_neg (Ne.symm he)]
        exact ⟨row, hr, rfl⟩
  | step i nonce =>
    by_cases hw : s'.w.rows = s.w.rows
    · exact same hw (fun _ _ h => nomatch h)
    · simp only [CState.act] at hs
      unfold stepCall at hs
      dsimp only at hs
      have hp := hc.pcs i
      cases hpc : s.pc i with
      | written row' ver cd =>
        rw [hpc] at hs hp
        dsimp only at hs
        split at hs
        · rename_i hv
          cases hs
          have hrow := hp.1.2 hv.symm
          simp only [CState.at, dictGet_dictSet]
          by_cases he : d = (job i).did
          · subst he
            rw [hr] at hrow
            cases hrow
            rw [if_pos rfl]
            exact ⟨_, rfl, rfl⟩
          · rw [if_neg he]; exact ⟨row, hr, rfl⟩
        · cases hs
      | start => rw [hpc] at hs; cases hs; exact absurd rfl hw
      | ready seq =>
        rw [hpc] at hs
        dsimp only at hs
        split at hs
        · cases hs; exact absurd rfl hw
        · split at hs <;> (cases hs; exact absurd rfl hw)
      | loaded seq row ver co =>
        rw [hpc] at hs
        dsimp only at hs
        split at hs
        · cases hs; exact absurd rfl hw
        · split at hs <;> (cases hs; exact absurd rfl hw)
      | applied seq row ver st =>
        rw [hpc] at hs
        dsimp only at hs
        split at hs <;> (cases hs; exact absurd rfl hw)
      | built row ver cd => rw [hpc] at hs; cases hs; exact absurd rfl hw
      | queried row ver cd new => rw [hpc] at hs; cases hs; exact absurd rfl hw
      | done cd => rw [hpc] at hs; cases hs
      | failed e => rw [hpc] at hs; cases hs
  | abort i =>
    refine same ?_ (fun _ _ h => nomatch h)
    simp only [CState.act, abortCall] at hs
    split at hs <;> first | (cases hs; rfl) | cases hs
  | fail i e =>
    refine same ?_ (fun _ _ h => nomatch h)
    simp only [CState.act, failCall] at hs
    split at hs <;> first | (cases hs; rfl) | cases hs
  | event d kind t =>
    refine same ?_ (fun _ _ h => nomatch h)
    simp only [CState.act] at hs
    cases hs; rfl

theorem lastStatus_cons (d : Did) (st : Option Status) (a : Act C) (as : List (Act C)) :
    lastStatus d st (a :: as) = lastStatus d (lastStatus d st [a]) as := by
  cases a <;> rfl

theorem run_status (hL : L.OK Z) (hj : ∀ i, isDid (job i).did) {d : Did} :
    ∀ {as : List (Act C)} {s s' : CState C R}, CInv L Z job lo s → s.run L job as = some s' →
    ∀ {row : Row C}, dictGet s.w.rows d = some row →
    ∃ row', dictGet s'.w.rows d = some row' ∧ row'.status = lastStatus d row.status as
  | [], s, s', _, hs, row, hr => by cases hs; exact ⟨row, hr, rfl⟩
  | a :: as, s, s', hc, hs, row, hr => by
    unfold CState.run at hs
    cases ha : s.act L job a with
    | none => rw [ha] at hs; cases hs
    | some s1 =>
      rw [ha] at hs
      obtain ⟨row1, h1, h2⟩ := act_status hc ha d hr
      rw [lastStatus_cons, ← h2]
      exact run_status hL hj (hc.act hL hj ha).1 hs h1

end

/-- Commits do not undo status changes made while they run: a repo's status is always the one set
last. -/
theorem C58_status (hL : L.OK Z) (hr : Reach L .datastore al w) (hj : ∀ i, isDid (job i).did)
    (hs : (CState.init w).run L job as = some s) {d : Did} (hd : isDid d) {st : Option Status}
    (hst : storedStatus w d = some st) : storedStatus s.w d = some (lastStatus d st as) := by
  have hi := CInv.init hL hr job
  have hst' : storedStatus (CState.init (R := R) w).w d = some st := hst
  rw [hi.status hL hd] at hst'
  obtain ⟨row, h1, rfl⟩ := Option.map_eq_some_iff.1 hst'
  obtain ⟨row', h2, h3⟩ := run_status hL hj hi hs h1
  rw [(hi.run hL hj hs).status hL hd, h2, ← h3]
  rfl

/-- When nothing else happens, a call does what it does in the model that makes one call at a
time. -/
theorem C58_alone (hL : L.OK Z) (hr : Reach L .datastore al w) {w' : World C R} {r : Ref}
    {o : RepoObj C R} {d : Did} {writes : List (Write R)} {nonce : Nat} {cd : CommitData C R}
    (ho : w.heap[r]? = some o) (hd : o.did = some d) (hdid : isDid d)
    (h : commit L .datastore w r writes none [{ nonce := nonce }] false = (w', .ok cd)) :
    ∃ s, (CState.init w).run L (fun _ => ⟨d, writes⟩) (List.replicate 7 (.step 0 nonce)) = some s ∧
      s.pc 0 = .done cd ∧ s.w.blocks = w'.blocks ∧ s.w.rows = w'.rows ∧ s.w.seqs = w'.seqs :=
  run_alone hL hr ho hd hdid h

/-! ### Examples -/

/-- Two calls for one repo and one for another. -/
def exJob : Nat → Job Nat
  | 0 => ⟨exDid, [wr .create "c" (some 3)]⟩
  | 1 => ⟨exDid, [wr .create "d" (some 5), wr .delete "a" none]⟩
  | _ => ⟨exDid2, [wr .create "c" (some 3)]⟩

def steps (i n : Nat) : List (Act SC) := List.replicate n (.step i 0)

/-- Call 0 takes its sequence number and loads the repo; then call 1 does all its work; call 0 goes
on, but has to be retried, as call 1 has changed the repo. Meanwhile the repo is deactivated. -/
def exSchedule : List (Act SC) :=
  steps 0 2 ++ steps 1 7 ++ steps 0 4 ++ [.abort 0, .setStatus exDid (some .deactivated)] ++ steps 0 6

def exEnd : Option (CState SC Nat) := (CState.init (exW1 .datastore)).run exL exJob exSchedule

theorem exJob_did (i : Nat) : isDid (exJob i).did := by
  unfold isDid
  match i with
  | 0 => decide +kernel
  | 1 => decide +kernel
  | _ + 2 => show startsWith exDid2 "did:".toList = true; decide +kernel

/-- Both calls succeed, call 1 first. -/
example : exEnd.map (fun s => s.log.map (fun x => (x.1, x.2.commit.seq))) =
    some [(1, 11), (0, 10)] := by decide +kernel

/-- The hypotheses of the theorems are met, and the repo has the writes of both calls. -/
example : ∃ s c m, exEnd = some s ∧ Shows exL .datastore s.w exDid m ∧
    readHead exL .datastore s.w exDid = some c ∧
    storedStatus s.w exDid = some (some .deactivated) ∧
    ∃ c₀ m₀, Serial exL exJob (CommitShows exL s.w) exDid c₀ m₀ s.log c m := by
  have hr := exW1_reach .datastore
  have hd : isDid exDid := by unfold isDid; decide +kernel
  have hs : exEnd.isSome = true := by decide +kernel
  obtain ⟨s, hs⟩ := Option.isSome_iff_exists.1 hs
  have hi := CInv.init exL_ok hr exJob
  have hc : (readHead exL .datastore (exW1 .datastore) exDid).isSome = true := by decide +kernel
  obtain ⟨c₀, hc⟩ := Option.isSome_iff_exists.1 hc
  have hrow : (dictGet (exW1 .datastore).rows exDid).isSome = true := by decide +kernel
  obtain ⟨row, hrow⟩ := Option.isSome_iff_exists.1 hrow
  obtain ⟨_, m₀, hm⟩ := hi.rows exDid row (dictGet_mem hrow)
  obtain ⟨o, g1, _, _, g3⟩ := hi.shows exL_ok hd hrow hm
  have hsh : Shows exL .datastore (exW1 .datastore) exDid m₀ := ⟨_, _, o, g1, by simp, g3⟩
  obtain ⟨c, m, h1, h2, h3⟩ := C58_serial exL_ok hr exJob_did hs hd hc hsh
  have hst := C58_status exL_ok hr exJob_did hs hd (st := none) (by decide +kernel)
  exact ⟨s, c, m, hs, h2, h1, hst, c₀, m₀, h3⟩

/-- `get_record` on the stored repo. -/
def readRecord (w : World SC Nat) (be : Backend) (d : Did) (rkey : String) :
    Option (Option (Val SC Nat)) :=
  match loadRepo be w d with
  | (w1, .ok (some r)) => match w1.heap[r]? with
    | some o => match getRecord exL w1 o "coll".toList rkey.toList with
      | .ok v => some v
      | .error _ => none
    | none => none
  | _ => none

example : exEnd.map (fun s => ["a", "b", "c", "d"].map (readRecord s.w .datastore exDid)) =
    some [some none, some (some (.record 2)), some (some (.record 3)), some (some (.record 5))] := by
  decide +kernel

/-! ### Counterexamples -/

/-- The `rev` of a commit. -/
def revOf (cd : CommitData SC Nat) : Key :=
  match cd.commit.val with
  | .commit co => co.rev
  | _ => []

/-- When commits are made one after the other, each has a larger sequence number and `rev` than
the one before it (C27). Not so here: the sequence number is allocated before the transaction
begins, so a commit can have a smaller sequence number and `rev` than its own `prev`. -/
theorem C58_order_false : ∃ s, exEnd = some s ∧ ∃ i k cd cd', s.pc i = .done cd ∧ s.pc k = .done cd' ∧
    cd'.prev = some (exL.hash cd.commit.val) ∧ cd'.commit.seq < cd.commit.seq ∧
    revOf cd' < revOf cd := by
  have h : (exEnd.bind fun s => match s.pc 1, s.pc 0 with
      | .done cd, .done cd' => some (decide (cd'.prev = some (exL.hash cd.commit.val) ∧
          cd'.commit.seq < cd.commit.seq ∧ revOf cd' < revOf cd))
      | _, _ => none) = some true := by decide +kernel
  cases hs : exEnd with
  | none => rw [hs] at h; cases h
  | some s =>
    rw [hs, Option.bind_some] at h
    split at h
    · rename_i cd cd' h1 h2
      rw [Option.some.injEq, decide_eq_true_eq] at h
      exact ⟨s, rfl, 1, 0, cd, cd', h1, h2, h⟩
    · cases h

/-- Two calls have both found out that a block is not stored yet. -/
def exRace : List (Act SC) := steps 0 5 ++ steps 2 5

/-- Stored blocks do not change when calls are made one after the other (C26). Here they do: two
calls that write the same block at the same time each find that it is not stored yet, and the one
that writes later replaces the first one's block, with its sequence number and repo. -/
theorem C58_immutable_false : ∃ s s' c b b',
    (CState.init (exW1 .datastore)).run exL exJob (exRace ++ steps 0 2) = some s ∧
    (CState.init (exW1 .datastore)).run exL exJob (exRace ++ steps 0 2 ++ steps 2 2) = some s' ∧
    s.w.read c = some b ∧ s'.w.read c = some b' ∧ b.val = b'.val ∧ b.seq < b'.seq ∧
    b.repo ≠ b'.repo := by
  let c := exL.hash (.record 3)
  have h : (match (CState.init (exW1 .datastore)).run exL exJob (exRace ++ steps 0 2),
        (CState.init (exW1 .datastore)).run exL exJob (exRace ++ steps 0 2 ++ steps 2 2) with
      | some s, some s' => match s.w.read c, s'.w.read c with
        | some b, some b' => some (decide (b.val = b'.val ∧ b.seq < b'.seq ∧ b.repo ≠ b'.repo))
        | _, _ => none
      | _, _ => none) = some true := by decide +kernel
  split at h
  · rename_i s s' hs hs'
    split at h
    · rename_i b b' hb hb'
      rw [Option.some.injEq, decide_eq_true_eq] at h
      exact ⟨s, s', c, b, b', hs, hs', hb, hb', h⟩
    · cases h
  · cases h

/-- Two threads that use one `MemoryStorage`, both creating a record in the same repo. -/
def exMem : Option (MState SC Nat) :=
  MState.run exL 0 (fun i => if i = 0 then ⟨exDid, [wr .create "c" (some 3)]⟩
    else ⟨exDid, [wr .create "d" (some 5)]⟩) ⟨exW1 .memory, fun _ => .start⟩ [0, 0, 1, 1, 1, 1, 0, 0]

/-- `MemoryStorage` loses updates: both calls return their commits, and the head is the commit of the call that returned
last, but only one of the two records is there afterwards. -/
theorem C58_memory_false : ∃ s, exMem = some s ∧
    (∃ cd, s.pc 0 = .done cd ∧ readHead exL .memory s.w exDid = some (exL.hash cd.commit.val)) ∧
    (∃ cd, s.pc 1 = .done cd) ∧ readRecord s.w .memory exDid "c" = some (some (.record 3)) ∧
    readRecord s.w .memory exDid "d" = some none := by
  have h : (exMem.bind fun s => match s.pc 0, s.pc 1 with
      | .done cd, .done _ => some (decide (readHead exL .memory s.w exDid = some (exL.hash cd.commit.val) ∧
          readRecord s.w .memory exDid "c" = some (some (.record 3)) ∧
          readRecord s.w .memory exDid "d" = some none))
      | _, _ => none) = some true := by decide +kernel
  cases hs : exMem with
  | none => rw [hs] at h; cases h
  | some s =>
    rw [hs, Option.bind_some] at h
    split at h
    · rename_i cd cd' h1 h2
      rw [Option.some.injEq, decide_eq_true_eq] at h
      exact ⟨s, rfl, ⟨cd, h1, h.1⟩, ⟨cd', h2⟩, h.2⟩
    · cases h

end Arroba.Store
