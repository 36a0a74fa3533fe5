import Verif.Xrpc.SurviveProofs
import Verif.Storage.LogProofs

/-! Helper lemmas: requests that are served from the Datastore call no callback. -/

namespace Arroba.Xrpc

open Arroba.Store

variable {C R : Type} [DecidableEq C] {L : Lib C R} {w : World C R} {cfg : Config R} {out : Surroundings}

theorem logIf_false (w : World C R) (c : CbCall C) : w.logIf false c = w := rfl

/-- A commit with an object that has no callback. -/
theorem commit_log {be : Backend} {r : Ref} {o : RepoObj C R} (ho : w.heap[r]? = some o) (hcb : o.callback = false)
    (writes : List (Write R)) (repoDid : Option Did) (xs : List Luck) (cbFails : Bool) :
    (Store.commit L be w r writes repoDid xs cbFails).1.log = w.log := by
  unfold Store.commit
  rw [ho]
  simp only [Option.map_some, Option.getD_some, hcb, logIf_false]
  have h1 := (commitTx_still (L := L) be r writes w.alloc.1 repoDid xs w.alloc.2).1
  have h2 := (alloc_next w).2.2
  split
  · rename_i hx; rw [hx] at h1; exact h1.trans h2
  · rename_i hx
    rw [hx] at h1
    simpa using h1.trans h2

theorem load_log (cfg : Config R) (be : Backend) (w : World C R) (q : Key) : (Xrpc.load cfg be w q).1.log = w.log := by
  unfold Xrpc.load
  split
  · rfl
  · rename_i name _
    have h := (loadRepo_still be w name).1
    split <;> rename_i hx <;> rw [hx] at h
    · exact h
    · exact h
    · split
      · exact h
      · split <;> exact h

theorem putRead_log (cfg : Config R) (be : Backend) (w : World C R) (header : Option Key) (inp : Input R) :
    (putRead cfg L be w header inp).1.log = w.log := by
  unfold putRead
  split
  · rfl
  · rfl
  · rfl
  · rename_i q _ _ _
    have h := load_log cfg be w q
    split <;> rename_i hx <;> rw [hx] at h
    · exact h
    · split
      · split <;> exact h
      all_goals exact h

theorem putCommit_log {be : Backend} {r : Ref} {o : RepoObj C R} (ho : w.heap[r]? = some o) (hcb : o.callback = false)
    (existing : Option (Val C R)) (inp : Input R) (xs : List Luck) (cbFails : Bool) :
    (putCommit L be w r existing inp xs cbFails).1.log = w.log := by
  unfold putCommit
  split
  · rename_i collection rkey record _ _ _
    have h := commit_log (L := L) (be := be) ho hcb
      [⟨if existing.isNone then .create else .update, collection, rkey, some record⟩] none xs cbFails
    split <;> rename_i hx <;> rw [hx] at h
    · exact h
    · split
      · exact h
      · split <;> exact h
  all_goals rfl

/-- The object that `putRead` has found is there. -/
theorem putRead_obj {be : Backend} {header : Option Key} {inp : Input R} {w1 : World C R} {r : Ref}
    {v : Option (Val C R)} (h : putRead cfg L be w header inp = (w1, .ok (r, v))) : ∃ o, w1.heap[r]? = some o := by
  unfold putRead at h
  split at h
  · cases (Prod.mk.inj h).2
  · cases (Prod.mk.inj h).2
  · cases (Prod.mk.inj h).2
  · split at h
    · cases (Prod.mk.inj h).2
    · split at h
      · rename_i o _ _ ho
        split at h
        · cases (Prod.mk.inj h).2
        · obtain ⟨rfl, h2⟩ := Prod.mk.inj h
          cases h2
          exact ⟨o, ho⟩
      · cases (Prod.mk.inj h).2
      · cases (Prod.mk.inj h).2
      · cases (Prod.mk.inj h).2

theorem putRecord_log (w : World C R) (header : Option Key) (inp : Input R) (xs : List Luck) (cbFails : Bool) :
    (putRecord cfg L .datastore w header inp xs cbFails).1.log = w.log := by
  unfold putRecord
  have h := putRead_log (L := L) cfg .datastore w header inp
  split <;> rename_i hx <;> rw [hx] at h
  · exact h
  · obtain ⟨o, ho⟩ := putRead_obj hx
    exact (putCommit_log ho (putRead_silent hx ho) _ inp xs cbFails).trans h

theorem reply_log {α : Type} (f : α → Answer C R) (x : World C R × Except Err α) : (reply f x).1 = x.1 := by
  obtain ⟨w, y⟩ := x
  cases y <;> rfl

theorem loadRepo_silent {q : Key} {w1 : World C R} {r : Ref} {o : RepoObj C R}
    (h : loadRepo .datastore w q = (w1, .ok (some r))) (ho : w1.heap[r]? = some o) : o.callback = false := by
  unfold loadRepo at h
  by_cases hn : q = []
  · rw [if_pos hn] at h; cases (Prod.mk.inj h).2
  rw [if_neg hn] at h
  dsimp only at h
  cases hf : findRow w q with
  | none => rw [hf] at h; cases (Prod.mk.inj h).2
  | some row =>
    rw [hf] at h
    dsimp only at h
    unfold repoLoad at h
    cases hc : commitAt w row.head with
    | error e => rw [hc] at h; cases (Prod.mk.inj h).2
    | ok bc =>
      obtain ⟨b, co⟩ := bc
      rw [hc] at h
      unfold World.newObj at h
      obtain ⟨rfl, h2⟩ := Prod.mk.inj h
      cases h2
      dsimp only at ho
      rw [List.getElem?_append_right (Nat.le_refl _), Nat.sub_self, List.getElem?_cons_zero] at ho
      cases ho
      rfl

theorem setStatusEvent_log {r : Ref} {o : RepoObj C R} (ho : w.heap[r]? = some o) (hcb : o.callback = false)
    (be : Backend) (s : Option Status) (kind : EventKind C) (time : Nat) :
    (setStatusEvent L be w r s kind time).1.log = w.log := by
  have hlt : r < w.heap.length := by
    exact (List.getElem?_eq_some_iff.1 ho).1
  have h1 : (setRepoStatus be w r s).1.log = w.log ∧ (setRepoStatus be w r s).1.heap[r]? = some { o with status := s } := by
    have hset : (w.setObj r { o with status := s }).heap[r]? = some { o with status := s } := by
      unfold World.setObj
      dsimp only
      rw [List.getElem?_set_self hlt]
    unfold setRepoStatus
    rw [ho]
    dsimp only
    cases be with
    | memory => exact ⟨rfl, hset⟩
    | datastore =>
      dsimp only
      repeat' split
      all_goals exact ⟨rfl, hset⟩
  unfold setStatusEvent
  split <;> rename_i hx <;> rw [hx] at h1
  · exact h1.1
  · rename_i w1
    have h2 : (writeEvent L be w1 r kind time).1.log = w1.log := by
      have ha := (alloc_next w1).2.2
      unfold writeEvent
      rw [h1.2]
      dsimp only
      split
      · exact ha
      · rename_i d _
        have hw := (write_still (L := L) be w1.alloc.2 d (.event ⟨kind, w1.alloc.1, d, time⟩) w1.alloc.1).1
        split <;> rename_i hy <;> rw [hy] at hw
        · exact hw.trans ha
        · rw [hcb, logIf_false]; exact hw.trans ha
    split <;> rename_i hy <;> rw [hy] at h2
    · exact h2.trans h1.1
    · exact h2.trans h1.1

/-- Every request but the creation of a repo. -/
theorem serve_log (w : World C R) (x : Chance) (q : Request R) (hq : ∀ did handle, q ≠ .newRepo did handle) :
    (serve cfg out L .datastore w x q).1.log = w.log := by
  cases q with
  | newRepo did handle => exact absurd rfl (hq did handle)
  | getRecord repo collection rkey cid =>
    unfold serve
    rw [reply_log]
    unfold Xrpc.getRecord
    split
    · rfl
    · split
      · rfl
      · have h := load_log cfg .datastore w repo
        split <;> rename_i hx <;> rw [hx] at h
        · exact h
        · split
          · exact h
          · split
            · exact h
            · split
              · exact h
              · split
                · split <;> exact h
                · exact h
  | listRecords repo collection limit cursor =>
    unfold serve
    rw [reply_log]
    unfold listRecords
    split
    · rfl
    · split
      · rfl
      · split
        · rfl
        · have h := load_log cfg .datastore w repo
          split <;> rename_i hx <;> rw [hx] at h
          · exact h
          · split
            · exact h
            · split <;> exact h
  | describeRepo repo =>
    unfold serve
    rw [reply_log]
    unfold describeRepo
    split
    · rfl
    · have h := load_log cfg .datastore w repo
      split <;> rename_i hx <;> rw [hx] at h
      · exact h
      · split
        · exact h
        · split
          · exact h
          · split
            · exact h
            · split
              · exact h
              · split <;> exact h
  | getRepoStatus did =>
    unfold serve
    rw [reply_log]
    unfold getRepoStatus
    have h := load_log cfg .datastore w did
    split <;> rename_i hx <;> rw [hx] at h
    · split <;> exact h
    · exact h
    · exact h
  | putRecord header inp =>
    unfold serve
    rw [reply_log]
    exact putRecord_log w header inp x.xs x.raises
  | createRecord header inp tid =>
    unfold serve
    rw [reply_log]
    unfold createRecord
    dsimp only
    split
    · rfl
    · rfl
    · rfl
    · rename_i q _ _ _
      have h := load_log cfg .datastore w q
      split <;> rename_i hx <;> rw [hx] at h
      · exact h
      · exact (putRecord_log _ _ _ _ _).trans h
  | deleteRecord header inp =>
    unfold serve
    rw [reply_log]
    unfold deleteRecord
    have h := putRead_log (L := L) cfg .datastore w header inp
    split <;> rename_i hx <;> rw [hx] at h
    · exact h
    · obtain ⟨o, ho⟩ := putRead_obj hx
      have hs := putRead_silent hx ho
      split
      · rename_i collection rkey _ _
        have h2 := commit_log (L := L) (be := .datastore) ho hs [⟨.delete, collection, rkey, none⟩] none x.xs x.raises
        split <;> rename_i hy <;> rw [hy] at h2 <;> exact h2.trans h
      · exact h
  | applyWrites header inp =>
    unfold serve
    rw [reply_log]
    unfold Xrpc.applyWrites
    split <;> rfl
  | uploadBlob header =>
    unfold serve
    rw [reply_log]
    unfold uploadBlob Xrpc.applyWrites
    split <;> rfl
  | setStatus did change =>
    simp only [serve]
    have h := (loadRepo_still .datastore w did).1
    split <;> rename_i hx <;> rw [hx] at h
    · exact h
    · exact h
    · rename_i w1 r
      rw [reply_log]
      cases ho : w1.heap[r]? with
      | none =>
        refine Eq.trans ?_ h
        cases change <;>
          simp only [changeStatus, activateRepo, deactivateRepo, tombstoneRepo, setStatusEvent, setRepoStatus, ho]
      | some o =>
        have hs := loadRepo_silent hx ho
        cases change
        · exact (setStatusEvent_log ho hs _ _ _ _).trans h
        · exact (setStatusEvent_log ho hs _ _ _ _).trans h
        · exact (setStatusEvent_log ho hs _ _ _ _).trans h

end Arroba.Xrpc
