import Verif.Storage.StatusProofs
import Verif.Mst.DiffProofs2

/-! Helper lemmas: the repo tables have one entry per DID. -/

namespace Arroba.Store

variable {C R : Type} [DecidableEq C] {L : Lib C R} {be : Backend} {w w' : World C R}

/-- One entry per DID. -/
structure Tables (w : World C R) : Prop where
  repos : (w.repos.map (·.1)).Nodup
  rows : (w.rows.map (·.1)).Nodup

theorem Tables.of_eq (h : Tables w) (h1 : w'.repos = w.repos) (h2 : w'.rows = w.rows) : Tables w' :=
  ⟨by rw [h1]; exact h.repos, by rw [h2]; exact h.rows⟩

theorem dictGet_of_mem {α β : Type} [DecidableEq α] {l : List (α × β)} {k : α} {v : β}
    (hn : (l.map (·.1)).Nodup) (h : (k, v) ∈ l) : dictGet l k = some v := by
  induction l with
  | nil => cases h
  | cons x xs ih =>
    obtain ⟨k', v'⟩ := x
    simp only [List.map_cons, List.nodup_cons] at hn
    simp only [dictGet]
    rcases List.mem_cons.mp h with h | h
    · cases h; rw [if_pos rfl]
    · have : k' ≠ k := by
        rintro rfl
        exact hn.1 (List.mem_map_of_mem (f := Prod.fst) h)
      rw [if_neg this]
      exact ih hn.2 h

theorem Tables.alloc (h : Tables w) : Tables w.alloc.2 := h.of_eq rfl rfl

theorem Tables.setObj (h : Tables w) (r : Ref) (o : RepoObj C R) : Tables (w.setObj r o) := h.of_eq rfl rfl

theorem Tables.modObj (h : Tables w) (r : Ref) (f : RepoObj C R → RepoObj C R) : Tables (w.modObj r f) :=
  h.of_eq (modObj_repos _ _ _).1 (modObj_repos _ _ _).2

theorem Tables.logIf (h : Tables w) (b : Bool) (c : CbCall C) : Tables (w.logIf b c) := by
  unfold World.logIf; split
  · exact h.of_eq rfl rfl
  · exact h

theorem Tables.repoLoad (h : Tables w) (c : C) (handle : Option Key) (status : Option Status) (key : Nat)
    (callback : Bool) : Tables (repoLoad w c handle status key callback).1 := by
  unfold Store.repoLoad; split
  · exact h
  · exact h.of_eq rfl rfl

theorem Tables.loadRepo (h : Tables w) (q : Key) : Tables (loadRepo be w q).1 := by
  unfold Store.loadRepo
  split
  · exact h
  · split
    · exact h
    · split
      · exact h
      · rename_i row _
        have := h.repoLoad row.head row.handle row.status row.key false
        split <;> (rename_i he; rw [he] at this; exact this)

theorem Tables.storeRepo (h : Tables w) (r : Ref) : Tables (storeRepo L be w r).1 := by
  unfold Store.storeRepo
  split
  · exact h
  · split
    · split
      · exact ⟨dictSet_nodup h.repos, h.rows⟩
      · split
        · exact h
        · exact ⟨h.repos, dictSet_nodup h.rows⟩
    · exact h

theorem Tables.createRepo (h : Tables w) (r : Ref) : Tables (createRepo L be w r).1 := by
  unfold Store.createRepo
  split
  · exact h
  · split
    · split
      · exact ⟨dictSet_nodup h.repos, h.rows⟩
      · exact ⟨h.repos, dictSet_nodup h.rows⟩
    · exact h

theorem Tables.beginCommit (h : Tables w) (r : Ref) (o : RepoObj C R) (repoDid : Option Did) :
    Tables (beginCommit L be w r o repoDid).1 := by
  unfold Store.beginCommit
  split
  · split
    · exact h
    · split
      · split
        · exact h.setObj _ _
        · exact h
      · exact h
  · split
    · exact h
    · rename_i d _
      have := h.loadRepo (be := be) d
      split
      · rename_i he; rw [he] at this; exact this
      · rename_i he; rw [he] at this; exact this
      · rename_i he; rw [he] at this; split <;> exact this

theorem Tables.finishCommit (h : Tables w) (r s : Ref) (mst : Node C) (existing : Bool)
    (cd : CommitData C R) (x : Luck) : Tables (finishCommit L be w r s mst existing cd x).1 := by
  unfold Store.finishCommit
  split
  · exact h
  · have h1 : Tables { w with blocks := putBlocks L w.blocks (cd.blocks.map (·.2)) } := h.of_eq rfl rfl
    dsimp only
    split
    · split
      · exact h1.modObj _ _
      · have := (h1.modObj s (fun o => { o with head := some cd.commit })).storeRepo (L := L) (be := be) s
        split
        · rename_i he; rw [he] at this; exact this
        · rename_i he; rw [he] at this; exact this.modObj _ _
    · exact h1.modObj _ _

theorem Tables.commitBody (h : Tables w) (r : Ref) (writes : List (Write R)) (seq : Nat)
    (repoDid : Option Did) (x : Luck) : Tables (commitBody L be w r writes seq repoDid x).1 := by
  unfold Store.commitBody
  split
  · exact h
  · rename_i o _
    split
    · exact h
    · split
      · exact h
      · have := h.beginCommit (L := L) (be := be) r o repoDid
        split
        · rename_i he; rw [he] at this; exact this
        · rename_i he
          rw [he] at this
          split
          · exact this
          · split
            · exact this
            · split
              · exact this.setObj _ _
              · dsimp only
                split
                · exact this.setObj _ _
                · split
                  · exact this.setObj _ _
                  · exact (this.setObj _ _).finishCommit _ _ _ _ _ _

theorem Tables.commitTx (r : Ref) (writes : List (Write R)) (seq : Nat) (repoDid : Option Did) :
    ∀ {xs : List Luck} {w : World C R}, Tables w → Tables (commitTx L be r writes seq repoDid w xs).1
  | [], _, h => h
  | x :: xs, w, h => by
    unfold Store.commitTx
    have h1 := h.commitBody (L := L) (be := be) r writes seq repoDid x
    split
    · rename_i he
      rw [he] at h1
      split
      · exact Tables.commitTx r writes seq repoDid (xs := xs) ⟨h1.repos, h.rows⟩
      · exact ⟨h1.repos, h.rows⟩
    · rename_i he
      rw [he] at h1
      split
      · exact Tables.commitTx r writes seq repoDid (xs := xs) ⟨h1.repos, h.rows⟩
      · exact h1.of_eq rfl rfl

theorem Tables.commit (h : Tables w) (r : Ref) (writes : List (Write R)) (repoDid : Option Did)
    (xs : List Luck) (cbFails : Bool) : Tables (commit L be w r writes repoDid xs cbFails).1 := by
  unfold Store.commit
  have h1 := Tables.commitTx (L := L) (be := be) r writes w.alloc.1 repoDid (xs := xs) h.alloc
  dsimp only
  split
  · rename_i he; rw [he] at h1; exact h1.logIf _ _
  · rename_i he
    rw [he] at h1
    split
    · exact (h1.logIf _ _).logIf _ _
    · exact h1.logIf _ _

theorem Tables.writeEvent (h : Tables w) (r : Ref) (kind : EventKind C) (time : Nat) :
    Tables (writeEvent L be w r kind time).1 := by
  unfold Store.writeEvent
  dsimp only
  split
  · exact h.alloc
  · split
    · exact h.alloc
    · rename_i d _
      have h1 : ∀ v seq, Tables (write L be w.alloc.2 d v seq).1 := by
        intro v seq
        unfold Store.write
        dsimp only
        split
        · exact h.alloc.of_eq rfl rfl
        · split
          · exact h.alloc
          · split
            · exact h.alloc.of_eq rfl rfl
            · split <;> exact h.alloc.of_eq rfl rfl
      have h2 := h1 (.event ⟨kind, w.alloc.1, d, time⟩) w.alloc.1
      split <;> (rename_i he; rw [he] at h2)
      · exact h2
      · exact h2.logIf _ _

theorem Tables.writeEvents (r : Ref) (time : Nat) : ∀ {ks : List (EventKind C)} {w : World C R},
    Tables w → Tables (writeEvents L be r time w ks).1
  | [], _, h => h
  | k :: ks, w, h => by
    unfold Store.writeEvents
    have h1 := h.writeEvent (L := L) (be := be) r k time
    split
    · rename_i he; rw [he] at h1; exact h1
    · rename_i he; rw [he] at h1; exact Tables.writeEvents r time h1

theorem Tables.setRepoStatus (h : Tables w) (r : Ref) (s : Option Status) :
    Tables (setRepoStatus be w r s).1 := by
  unfold Store.setRepoStatus
  split
  · exact h
  · dsimp only
    split
    · exact h.setObj _ _
    · split
      · exact h.setObj _ _
      · split
        · exact h.setObj _ _
        · exact ⟨h.repos, dictSet_nodup h.rows⟩

theorem Tables.setStatusEvent (h : Tables w) (r : Ref) (s : Option Status) (kind : EventKind C)
    (time : Nat) : Tables (setStatusEvent L be w r s kind time).1 := by
  have h1 := h.setRepoStatus (be := be) r s
  unfold Store.setStatusEvent
  split
  · rename_i he; rw [he] at h1; exact h1
  · rename_i he
    rw [he] at h1
    have h2 := h1.writeEvent (L := L) (be := be) r kind time
    split <;> (rename_i he2; rw [he2] at h2; exact h2)

theorem Tables.repoCreate (h : Tables w) (did : Did) (handle : Option Key) (key : Nat) (callback : Bool)
    (time : Nat) (xs : List Luck) (cbFails : Bool) :
    Tables (repoCreate L be w did handle key callback time xs cbFails).1 := by
  unfold Store.repoCreate
  split
  · exact h
  · rename_i root _
    have h0 : Tables (w.newObj ⟨root, none, handle, none, key, callback⟩).2 := h.of_eq rfl rfl
    have h1 := h0.commit (L := L) (be := be) (w.newObj ⟨root, none, handle, none, key, callback⟩).1 []
      (some did) xs cbFails
    dsimp only
    split
    · rename_i he; rw [he] at h1; exact h1.of_eq rfl rfl
    · rename_i he
      rw [he] at h1
      split
      · rename_i cd _ co _
        have h3 := Tables.writeEvents (L := L) (be := be)
          (w.newObj ⟨root, none, handle, none, key, callback⟩).1 time
          (ks := [.identity handle, .account true none, .sync (L.hash cd.commit.val) co.rev]) h1
        split
        · rename_i he2; rw [he2] at h3; exact h3.of_eq rfl rfl
        · rename_i he2
          rw [he2] at h3
          have h4 := h3.createRepo (L := L) (be := be) (w.newObj ⟨root, none, handle, none, key, callback⟩).1
          split
          · rename_i he3; rw [he3] at h4; exact h4.of_eq rfl rfl
          · rename_i he3; rw [he3] at h4; exact h4.logIf _ _
      · exact h1.of_eq rfl rfl

/-- In every history, one entry per DID. -/
theorem Reach.tables {al : Allow} (h : Reach L be al w) : Tables w := by
  induction h with
  | empty => exact ⟨List.nodup_nil, List.nodup_nil⟩
  | step _ h ih =>
    cases h with
    | create did handle key callback time xs cbFails => exact ih.repoCreate _ _ _ _ _ _ _
    | commit r writes xs cbFails => exact ih.commit _ _ _ _ _
    | allocate => exact ⟨ih.repos, ih.rows⟩
    | setStatus r s => exact ih.setRepoStatus _ _
    | importBlocks => exact ⟨ih.repos, ih.rows⟩
    | setCallback r b => exact ih.modObj _ _
    | deactivate r t => exact ih.setStatusEvent _ _ _ _
    | activate r t => exact ih.setStatusEvent _ _ _ _
    | tombstone r t => exact ih.setStatusEvent _ _ _ _
    | event r k t hr => exact ih.writeEvent _ _ _
    | loadRepo q => exact ih.loadRepo _
    | repoLoad c ha st k cb hh => exact ih.repoLoad _ _ _ _ _
    | cache r o n ho hn => exact ih.setObj _ _
    | «import» co handle key new =>
      rw [importInto_eq]
      cases be
      · exact ⟨dictSet_nodup ih.repos, ih.rows⟩
      · exact ⟨ih.repos, dictSet_nodup ih.rows⟩

end Arroba.Store
