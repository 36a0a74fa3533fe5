import Verif.Storage.LogProofs
import Verif.Storage.WorldProofs

/-! Helper lemmas: the sequence counter never goes back. -/

namespace Arroba.Store

variable {C R : Type} [DecidableEq C]

/-- The next sequence number is at least `n`. -/
def AtLeast (n : Nat) (w : World C R) : Prop := n ≤ w.nextSeq

section
variable {L : Lib C R} {n : Nat}

omit [DecidableEq C] in
theorem AtLeast.still {w w' : World C R} (h : AtLeast n w) (hs : Still w w') : AtLeast n w' := by
  unfold AtLeast World.nextSeq at *; rw [hs.2]; exact h

theorem AtLeast.alloc {w : World C R} (h : AtLeast n w) : AtLeast n w.alloc.2 := by
  obtain ⟨_, h2, _⟩ := alloc_next w
  unfold AtLeast at *; omega

omit [DecidableEq C] in
theorem AtLeast.log {w : World C R} (h : AtLeast n w) (b : Bool) (c : CbCall C) : AtLeast n (w.logIf b c) := by
  unfold World.logIf; split <;> exact h

theorem AtLeast.commit {w : World C R} (h : AtLeast n w) (be : Backend) (r : Ref)
    (writes : List (Write R)) (repoDid : Option Did) (xs : List Luck) (cbFails : Bool) :
    AtLeast n (commit L be w r writes repoDid xs cbFails).1 := by
  unfold Store.commit
  have h2 := h.alloc.still (commitTx_still (L := L) be r writes w.alloc.1 repoDid xs w.alloc.2)
  simp only
  split
  · rename_i hb
    rw [hb] at h2
    exact h2.log _ _
  · rename_i w1 cd hb
    rw [hb] at h2
    split
    · exact (h2.log _ _).log _ _
    · exact h2.log _ _

theorem AtLeast.event {w : World C R} (h : AtLeast n w) (be : Backend) (r : Ref) (kind : EventKind C)
    (time : Nat) : AtLeast n (writeEvent L be w r kind time).1 := by
  unfold writeEvent
  simp only
  split
  · exact h.alloc
  · split
    · exact h.alloc
    · rename_i d _
      have h2 := h.alloc.still
        (write_still (L := L) be w.alloc.2 d (.event ⟨kind, w.alloc.1, d, time⟩) w.alloc.1)
      split
      · rename_i hb; rw [hb] at h2; exact h2
      · rename_i hb; rw [hb] at h2; exact h2.log _ _

theorem AtLeast.statusEvent {w : World C R} (h : AtLeast n w) (be : Backend) (r : Ref)
    (s : Option Status) (kind : EventKind C) (time : Nat) :
    AtLeast n (setStatusEvent L be w r s kind time).1 := by
  unfold setStatusEvent
  have h1 := h.still (setRepoStatus_still be w r s)
  split
  · rename_i hb; rw [hb] at h1; exact h1
  · rename_i w1 hb; rw [hb] at h1
    have h2 := AtLeast.event (L := L) h1 be r kind time
    split <;> (rename_i hc; rw [hc] at h2; exact h2)

theorem AtLeast.events (be : Backend) (r : Ref) (time : Nat) : ∀ (ks : List (EventKind C))
    {w : World C R}, AtLeast n w → AtLeast n (writeEvents L be r time w ks).1
  | [], _, h => h
  | k :: ks, w, h => by
    unfold writeEvents
    have h1 := AtLeast.event (L := L) h be r k time
    split
    · rename_i hb; rw [hb] at h1; exact h1
    · rename_i hb; rw [hb] at h1; exact AtLeast.events be r time ks h1

theorem AtLeast.create {w : World C R} (h : AtLeast n w) (be : Backend) (did : Did)
    (handle : Option Key) (key : Nat) (callback : Bool) (time : Nat) (xs : List Luck)
    (cbFails : Bool) : AtLeast n (repoCreate L be w did handle key callback time xs cbFails).1 := by
  unfold repoCreate
  split
  · exact h
  · simp only
    rename_i root _
    have h1 := AtLeast.commit (L := L) (h.still (w' := (w.newObj ⟨root, none, handle, none, key, callback⟩).2) ⟨rfl, rfl⟩)
      be (w.newObj ⟨root, none, handle, none, key, callback⟩).1 [] (some did) xs cbFails
    split
    · rename_i hb; rw [hb] at h1; exact h1.still ⟨rfl, rfl⟩
    · rename_i w' cd hb; rw [hb] at h1
      split
      · rename_i co _
        have h2 := AtLeast.events (L := L) be (w.newObj ⟨root, none, handle, none, key, callback⟩).1 time
          [.identity handle, .account true none, .sync (L.hash cd.commit.val) co.rev] h1
        split
        · rename_i hc; rw [hc] at h2; exact h2.still ⟨rfl, rfl⟩
        · rename_i w2 hc; rw [hc] at h2
          have h3 := h2.still (createRepo_still (L := L) be w2
            (w.newObj ⟨root, none, handle, none, key, callback⟩).1)
          split
          · rename_i hd; rw [hd] at h3; exact h3.still ⟨rfl, rfl⟩
          · rename_i hd; rw [hd] at h3; exact h3.log _ _
      · exact h1.still ⟨rfl, rfl⟩

/-- No API call turns the sequence counter back. -/
theorem Step.last_le {be : Backend} {al : Allow} {w w' : World C R} (h : Step L be al w w') : w.last ≤ w'.last := by
  have ih : AtLeast w.nextSeq w := le_refl _
  have : AtLeast w.nextSeq w' := by
    cases h with
    | create => exact ih.create _ _ _ _ _ _ _ _
    | commit => exact ih.commit _ _ _ _ _ _
    | allocate => exact ih.alloc
    | setStatus => exact ih.still (setRepoStatus_still _ _ _ _)
    | importBlocks => exact ih.still ⟨rfl, rfl⟩
    | setCallback => exact ih.still (modObj_still _ _ _)
    | deactivate => exact ih.statusEvent _ _ _ _ _
    | activate => exact ih.statusEvent _ _ _ _ _
    | tombstone => exact ih.statusEvent _ _ _ _ _
    | event => exact ih.event _ _ _ _
    | loadRepo => exact ih.still (loadRepo_still _ _ _)
    | repoLoad => exact ih.still (repoLoad_still _ _ _ _ _ _)
    | cache => exact ih.still ⟨rfl, rfl⟩
    | «import» => exact ih.still (importInto_still _ _ _ _ _ _)
  unfold AtLeast World.nextSeq at this
  unfold World.last
  omega

end

end Arroba.Store
