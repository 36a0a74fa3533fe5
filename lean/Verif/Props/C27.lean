import Verif.Props.C23
import Verif.Props.C25

/-! # C27: commit operations describe the commit -/

namespace Arroba.Store

variable {C R : Type} [DecidableEq C]

open Arroba.Tree

section
variable {L : Lib C R} {Z : Nat} {be : Backend} {al : Allow} {w : World C R}

/-- The records of a stored commit, as `Repo.load` shows them. -/
theorem RootOK.shown (hL : L.OK Z) (haw : Addressed L w.blocks) {c : C} {b : Block C R}
    {co : Commit C} (hb : w.read c = some b) (hv : b.val = .commit co) {m : Key → Option R}
    (h : RootOK L Z w.blocks co.data m) : CommitShows L w c m := by
  obtain ⟨l, t, g1, g2, g3⟩ := h.load
  have ha := haw _ _ hb
  refine ⟨{ w with heap := w.heap ++ [⟨Arroba.load co.data, some b, none, none, 0, false⟩] }, w.heap.length,
    ⟨Arroba.load co.data, some b, none, none, 0, false⟩, ?_, by simp, ?_⟩
  · unfold repoLoad commitAt
    rw [hb]
    simp only [hv]
    rfl
  · have hso : ObjRep L Z w.blocks ⟨Arroba.load co.data, some b, none, none, 0, false⟩ m := by
      refine ⟨⟨l, t, g1, g2, ?_⟩, fun h hh => by cases hh⟩
      intro x hx
      simp only [Option.some.injEq] at hx
      subst hx
      exact ⟨b, co, by rw [ha]; exact hb, rfl, hv, g3.symm⟩
    exact ObjRep.shows hL (w := { w with heap := w.heap ++ [_] }) hso

theorem RootOK.commitShows (hL : L.OK Z) {seq : Nat} (hw : Core L Z seq w) {c : C} {b : Block C R}
    {co : Commit C} (hb : w.read c = some b) (hv : b.val = .commit co) {m : Key → Option R}
    (h : RootOK L Z w.blocks co.data m) : CommitShows L w c m := h.shown hL hw.blocks.addr hb hv

/-- The operations of a list of writes are truthful, in order and complete. -/
theorem opsOf_trace (hL : L.OK Z) : ∀ {writes : List (Write R)} {m m' : Key → Option R},
    specWrites L m writes = .ok m' →
    OpsTrace (fun k => (m k).map L.rcid) (opsOf L m writes) (fun k => (m' k).map L.rcid) := by
  intro writes
  induction writes with
  | nil => intro m m' h; simp only [specWrites, Except.ok.injEq] at h; subst h; exact .nil _
  | cons x xs ih =>
    intro m m' h
    simp only [specWrites] at h
    cases h1 : specWrite L m x with
    | error e => rw [h1] at h; cases h
    | ok m1 =>
      rw [h1] at h
      have ih' := ih h
      simp only [opsOf, h1]
      have upd : ∀ v : Option R, (fun k => (Function.update m x.path v k).map L.rcid) =
          Function.update (fun k => (m k).map L.rcid) x.path (v.map L.rcid) := by
        intro v
        funext k
        by_cases hk : k = x.path
        · subst hk; simp
        · simp [Function.update_of_ne hk]
      have hrec : ∀ {r}, specRecord L x = .ok r → x.record = some r := by
        intro r hr
        unfold specRecord at hr
        split at hr
        · cases hr
        · split at hr
          · cases hr
          · split at hr <;> cases hr
            assumption
      unfold specWrite at h1
      unfold opOf
      cases ha : x.action with
      | create =>
        simp only [ha] at h1 ⊢
        cases hs : specRecord L x with
        | error e => rw [hs] at h1; cases h1
        | ok r =>
          rw [hs] at h1
          simp only at h1
          split at h1
          · cases h1
          · split at h1
            · cases h1
            · rename_i hn
              cases h1
              simp only [ne_eq, not_not] at hn
              rw [upd] at ih'
              rw [hrec hs]
              exact .create (by simp [hn]) ih'
      | update =>
        simp only [ha] at h1 ⊢
        split at h1
        · cases h1
        · rename_i hn
          cases hs : specRecord L x with
          | error e => rw [hs] at h1; cases h1
          | ok r =>
            rw [hs] at h1
            cases h1
            rw [upd] at ih'
            rw [hrec hs]
            cases hm : m x.path with
            | none => exact absurd hm hn
            | some r0 =>
              simp only [Option.map_some, Option.some.injEq]
              split
              · rename_i he
                have he' := hL.rcidInj he
                subst he'
                have : Function.update (fun k => (m k).map L.rcid) x.path ((some r0).map L.rcid) =
                    fun k => (m k).map L.rcid := by
                  rw [← hm]; exact Function.update_eq_self x.path (fun k => (m k).map L.rcid)
                rw [this] at ih'
                exact ih'
              · rename_i he
                exact .update (by simp [hm]) (fun h => he h.symm) ih'
      | delete =>
        simp only [ha] at h1 ⊢
        split at h1
        · cases h1
        · rename_i hn
          cases h1
          rw [upd] at ih'
          cases hm : m x.path with
          | none => exact absurd hm hn
          | some r0 => exact .delete (by simp [hm]) ih'

/-- **C27 (returned).** The operations of a successful commit are those of the writes, one per write
that changes something, in order (`opsOf`). In terms of CIDs they are truthful and lead from the
records before to those after (`OpsTrace`).

Partial: excludes `MemoryStorage` histories with a torn commit (see C23). -/
theorem C27_returned_partial (hL : L.OK Z) (ht : ¬ al.torn) (hr : Reach L be al w) {r : Ref}
    {o : RepoObj C R} {d : Did} (ho : w.heap[r]? = some o) (hd : o.did = some d)
    {m : Key → Option R} (hm : Shows L be w d m)
    {writes : List (Write R)} {xs : List Luck} {cbFails : Bool} {w' : World C R}
    {cd : CommitData C R} (hok : commit L be w r writes none xs cbFails = (w', .ok cd)) :
    ∃ m', Shows L be w' d m' ∧ cd.commit.ops = some (opsOf L m writes) ∧
      OpsTrace (fun k => (m k).map L.rcid) (opsOf L m writes) (fun k => (m' k).map L.rcid) := by
  obtain ⟨m', h1, h2, -⟩ := C23_effect_partial hL ht hr ho hd hm hok
  refine ⟨m', h2, ?_, opsOf_trace hL h1⟩
  obtain ⟨hw, hl⟩ := hr.inv hL ht
  rcases commit_cases hL (be := be) hw r writes xs cbFails with
    ⟨e, w1', w1, wk, h1, _⟩ | ⟨w1', w1, wk, x, did, m0, m1, s, n, cd', co, h1, h2, h3, h4, h5, h6, _⟩
  · rw [hok] at h1; cases h1
  · rw [hok] at h1
    obtain ⟨rfl, h1'⟩ := Prod.mk.inj h1
    have hcd : cd' = cd := by
      split at h1' <;> simp only [Except.ok.injEq, reduceCtorEq] at h1'
      exact h1'.symm
    subst hcd
    have hdid := h6.isDid h4.core
    obtain ⟨wl, so, b, g1, g2, g3, g4, g5, g6, hb, _⟩ := h6.stored
    obtain ⟨co', b', o', k1, _, k2, _⟩ := C25_commit hL hr ho hd hok
    rw [hb.commit] at k1
    cases k1
    have hdd : did = d := hb.codid.symm.trans k2
    subst hdd
    have hmm := hm.unique hL hw.core hdid ((h4.shows hL hw hdid _).1 (h6.before hL h4.core))
    subst hmm
    rw [hb.commit]

/-- **C27 (stored).** In every reachable state the operations stored with any commit of this server (imported
ones have the sequence number 0) are those of some list of at most 200 writes that leads from the records of the previous commit (nothing, for a
first commit) to the records of this one, as `Repo.load` shows them; and in terms of CIDs they are
truthful. -/
theorem C27_stored_partial (hL : L.OK Z) (ht : ¬ al.torn) (hr : Reach L be al w) {c : C}
    {b : Block C R} {co : Commit C} (hb : w.read c = some b) (hv : b.val = .commit co) (hs : 1 ≤ b.seq) :
    ∃ ops writes m m', b.ops = some ops ∧ CommitShows L w c m' ∧
      (match co.prev with
        | none => m = fun _ => none
        | some p => CommitShows L w p m) ∧
      writes.length ≤ 200 ∧ specWrites L m writes = .ok m' ∧ ops = opsOf L m writes ∧
      OpsTrace (fun k => (m k).map L.rcid) ops (fun k => (m' k).map L.rcid) := by
  obtain ⟨hw, hl⟩ := hr.inv hL ht
  have hc := hw.core.blocks.own hb hv hs
  obtain ⟨ops, m', h1, h2, m, writes, h3, h4, h5, h6⟩ := hc.ops
  refine ⟨ops, writes, m, m', h1, h2.commitShows hL hw.core hb hv, ?_, h4, h5, h6, ?_⟩
  · cases hp : co.prev with
    | none => rw [hp] at h3; exact h3
    | some p =>
      rw [hp] at h3
      obtain ⟨b', co', g1, g2, g3⟩ := h3
      exact g3.commitShows hL hw.core g1 g2
  · rw [h6]; exact opsOf_trace hL h5

/-- **C27 (Datastore).** Both hold for `DatastoreStorage` in every reachable state. -/
theorem C27_datastore (hL : L.OK Z) (hr : Reach L .datastore al w) :
    (∀ r o d, w.heap[r]? = some o → o.did = some d → ∀ m, Shows L .datastore w d m →
      ∀ writes xs cbFails w' cd, commit L .datastore w r writes none xs cbFails = (w', .ok cd) →
      ∃ m', Shows L .datastore w' d m' ∧ cd.commit.ops = some (opsOf L m writes) ∧
      OpsTrace (fun k => (m k).map L.rcid) (opsOf L m writes) (fun k => (m' k).map L.rcid)) ∧
    (∀ c b co, w.read c = some b → b.val = .commit co → 1 ≤ b.seq →
      ∃ ops writes m m', b.ops = some ops ∧ CommitShows L w c m' ∧
      (match co.prev with
        | none => m = fun _ => none
        | some p => CommitShows L w p m) ∧
      writes.length ≤ 200 ∧ specWrites L m writes = .ok m' ∧ ops = opsOf L m writes ∧
      OpsTrace (fun k => (m k).map L.rcid) ops (fun k => (m' k).map L.rcid)) :=
  ⟨fun _ _ _ ho hd _ hm _ _ _ _ _ hok =>
      C27_returned_partial hL (fun h => h) hr.datastore ho hd hm hok,
    fun _ _ _ h h' hs => C27_stored_partial hL (fun h => h) hr.datastore h h' hs⟩

end

/-! ### Examples -/

/-- Four writes, three operations: the update of `b` with the same record is left out, and its
later delete is in. -/
example (be : Backend) : (match commit exL be (exW1 be) 0 exWrites2 none lucky false with
      | (_, .ok cd) => cd.commit.ops.map (·.map (fun op => (op.action, op.cid, op.prevCid)))
      | _ => none) =
    some [(.create, some (.record 3), none), (.update, some (.record 4), some (.record 1)),
      (.delete, none, some (.record 2))] := by
  cases be <;> decide +kernel

end Arroba.Store
