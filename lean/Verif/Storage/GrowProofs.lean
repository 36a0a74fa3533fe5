import Verif.Storage.ReachProofs

/-! Helper lemmas: no API call ever removes or changes a stored block, whatever happened before. -/

namespace Arroba.Store

variable {C R : Type} [DecidableEq C]

open Arroba.Tree

/-- Blocks have been written. -/
def Puts (L : Lib C R) (a b : List (C × Block C R)) : Prop := ∃ bs, b = putBlocks L a bs

section
variable {L : Lib C R}

theorem Puts.refl (a : List (C × Block C R)) : Puts L a a := ⟨[], rfl⟩

theorem Puts.of_eq {a b : List (C × Block C R)} (h : b = a) : Puts L a b := by
  subst h; exact .refl _

theorem Puts.trans {a b c : List (C × Block C R)} (h : Puts L a b) (h' : Puts L b c) :
    Puts L a c := by
  obtain ⟨x, rfl⟩ := h
  obtain ⟨y, rfl⟩ := h'
  exact ⟨x ++ y, by unfold putBlocks; rw [List.foldl_append]⟩

theorem Puts.grows {a b : List (C × Block C R)} (h : Puts L a b) : Grows a b := by
  obtain ⟨x, rfl⟩ := h; exact putBlocks_grows _ _

theorem modObj_blocks (w : World C R) (r : Ref) (f : RepoObj C R → RepoObj C R) :
    (w.modObj r f).blocks = w.blocks := by
  unfold World.modObj; split <;> rfl

theorem logIf_blocks (w : World C R) (b : Bool) (c : CbCall C) : (w.logIf b c).blocks = w.blocks := by
  unfold World.logIf; split <;> rfl

theorem repoLoad_blocks (w : World C R) (c : C) (handle : Option Key) (status : Option Status)
    (key : Nat) (callback : Bool) :
    (repoLoad w c handle status key callback).1.blocks = w.blocks := by
  unfold repoLoad; split <;> rfl

theorem loadRepo_blocks (be : Backend) (w : World C R) (q : Key) :
    (loadRepo be w q).1.blocks = w.blocks := by
  unfold loadRepo
  split
  · rfl
  · cases be with
    | memory => rfl
    | datastore =>
      simp only
      split
      · rfl
      · rename_i row _
        have := repoLoad_blocks w row.head row.handle row.status row.key false
        split <;> (rename_i h; rw [h] at this; exact this)

theorem storeRepo_blocks (be : Backend) (w : World C R) (r : Ref) :
    (storeRepo L be w r).1.blocks = w.blocks := by
  unfold storeRepo
  split
  · rfl
  · split
    · cases be with
      | memory => rfl
      | datastore => simp only; split <;> rfl
    · rfl

theorem createRepo_blocks (be : Backend) (w : World C R) (r : Ref) :
    (createRepo L be w r).1.blocks = w.blocks := by
  unfold createRepo
  split
  · rfl
  · split
    · cases be <;> rfl
    · rfl

theorem beginCommit_blocks (be : Backend) (w : World C R) (r : Ref) (o : RepoObj C R)
    (repoDid : Option Did) : (beginCommit L be w r o repoDid).1.blocks = w.blocks := by
  unfold beginCommit
  cases repoDid with
  | some d =>
    simp only
    split
    · rfl
    · split
      · split <;> rfl
      · rfl
  | none =>
    simp only
    split
    · rfl
    · rename_i d _
      have := loadRepo_blocks be w d
      split
      · rename_i h; rw [h] at this; exact this
      · rename_i h; rw [h] at this; exact this
      · rename_i h; rw [h] at this
        split <;> exact this

theorem finishCommit_puts (be : Backend) (w : World C R) (r s : Ref) (mst : Node C) (existing : Bool)
    (cd : CommitData C R) (x : Luck) :
    Puts L w.blocks (finishCommit L be w r s mst existing cd x).1.blocks := by
  unfold finishCommit
  split
  · exact .refl _
  · simp only
    split
    · split
      · exact ⟨_, modObj_blocks _ _ _⟩
      · have := storeRepo_blocks (L := L) be (({ w with blocks := putBlocks L w.blocks (cd.blocks.map (·.2)) } : World C R).modObj s
          (fun o => { o with head := some cd.commit })) s
        split
        · rename_i h; rw [h] at this; exact ⟨_, this.trans (modObj_blocks _ _ _)⟩
        · rename_i h; rw [h] at this
          exact ⟨_, (modObj_blocks _ _ _).trans (this.trans (modObj_blocks _ _ _))⟩
    · exact ⟨_, modObj_blocks _ _ _⟩

theorem commitBody_puts (be : Backend) (w : World C R) (r : Ref) (writes : List (Write R)) (seq : Nat)
    (repoDid : Option Did) (x : Luck) :
    Puts L w.blocks (commitBody L be w r writes seq repoDid x).1.blocks := by
  unfold commitBody
  split
  · exact .refl _
  · split
    · exact .refl _
    · split
      · exact .refl _
      · rename_i o _ _ _
        have hb := beginCommit_blocks (L := L) be w r o repoDid
        split
        · rename_i h; rw [h] at hb; exact .of_eq hb
        · rename_i h; rw [h] at hb
          simp only at hb
          split
          · exact .of_eq hb
          · split
            · exact .of_eq hb
            · split
              · exact .of_eq hb
              · simp only
                split
                · exact .of_eq hb
                · split
                  · exact .of_eq hb
                  · have := finishCommit_puts (L := L) be
                    rw [← hb]
                    exact this _ _ _ _ _ _ _

theorem commitTx_puts (be : Backend) (r : Ref) (writes : List (Write R)) (seq : Nat)
    (repoDid : Option Did) : ∀ (xs : List Luck) (w : World C R),
    Puts L w.blocks (commitTx L be r writes seq repoDid w xs).1.blocks
  | [], w => .refl _
  | x :: xs, w => by
    unfold commitTx
    have h := commitBody_puts (L := L) be w r writes seq repoDid x
    split
    · rename_i hb; rw [hb] at h
      split
      · exact h.trans (commitTx_puts be r writes seq repoDid xs _)
      · exact h
    · rename_i hb; rw [hb] at h
      split
      · exact h.trans (commitTx_puts be r writes seq repoDid xs _)
      · exact h

theorem commit_puts (be : Backend) (w : World C R) (r : Ref) (writes : List (Write R))
    (repoDid : Option Did) (xs : List Luck) (cbFails : Bool) :
    Puts L w.blocks (commit L be w r writes repoDid xs cbFails).1.blocks := by
  unfold commit
  have h := commitTx_puts (L := L) be r writes w.alloc.1 repoDid xs w.alloc.2
  simp only
  split
  · rename_i hb; rw [hb] at h; rw [logIf_blocks]; exact h
  · rename_i hb; rw [hb] at h
    split
    · rw [logIf_blocks, logIf_blocks]; exact h
    · rw [logIf_blocks]; exact h

theorem write_puts (be : Backend) (w : World C R) (did : Did) (v : Val C R) (seq : Nat) :
    Puts L w.blocks (write L be w did v seq).1.blocks := by
  unfold write
  cases be with
  | memory => exact ⟨[⟨v, seq, none, did⟩], rfl⟩
  | datastore =>
    simp only
    split
    · exact .refl _
    · split
      · exact ⟨[⟨v, seq, none, did⟩], rfl⟩
      · split <;> exact ⟨[⟨v, seq, none, did⟩], rfl⟩

theorem writeEvent_puts (be : Backend) (w : World C R) (r : Ref) (kind : EventKind C) (time : Nat) :
    Puts L w.blocks (writeEvent L be w r kind time).1.blocks := by
  unfold writeEvent
  simp only
  split
  · exact .refl _
  · split
    · exact .refl _
    · rename_i d _
      have h := write_puts (L := L) be w.alloc.2 d (.event ⟨kind, w.alloc.1, d, time⟩) w.alloc.1
      split
      · rename_i hb; rw [hb] at h; exact h
      · rename_i hb; rw [hb] at h; rw [logIf_blocks]; exact h

theorem setRepoStatus_blocks (be : Backend) (w : World C R) (r : Ref) (s : Option Status) :
    (setRepoStatus be w r s).1.blocks = w.blocks := by
  unfold setRepoStatus
  split
  · rfl
  · cases be with
    | memory => rfl
    | datastore =>
      simp only
      split
      · rfl
      · split <;> rfl

theorem setStatusEvent_puts (be : Backend) (w : World C R) (r : Ref) (s : Option Status)
    (kind : EventKind C) (time : Nat) :
    Puts L w.blocks (setStatusEvent L be w r s kind time).1.blocks := by
  unfold setStatusEvent
  have h := setRepoStatus_blocks be w r s
  split
  · rename_i hb; rw [hb] at h; exact .of_eq h
  · rename_i w1 hb; rw [hb] at h
    have h2 := writeEvent_puts (L := L) be w1 r kind time
    rw [show w1.blocks = w.blocks from h] at h2
    split <;> (rename_i hc; rw [hc] at h2; exact h2)

theorem writeEvents_puts (be : Backend) (r : Ref) (time : Nat) : ∀ (ks : List (EventKind C))
    (w : World C R), Puts L w.blocks (writeEvents L be r time w ks).1.blocks
  | [], w => .refl _
  | k :: ks, w => by
    unfold writeEvents
    have h := writeEvent_puts (L := L) be w r k time
    split
    · rename_i hb; rw [hb] at h; exact h
    · rename_i hb; rw [hb] at h; exact h.trans (writeEvents_puts be r time ks _)

theorem repoCreate_puts (be : Backend) (w : World C R) (did : Did) (handle : Option Key) (key : Nat)
    (callback : Bool) (time : Nat) (xs : List Luck) (cbFails : Bool) :
    Puts L w.blocks (repoCreate L be w did handle key callback time xs cbFails).1.blocks := by
  unfold repoCreate
  split
  · exact .refl _
  · rename_i root _
    simp only
    have h := commit_puts (L := L) be (w.newObj ⟨root, none, handle, none, key, callback⟩).2
      (w.newObj ⟨root, none, handle, none, key, callback⟩).1 [] (some did) xs cbFails
    rw [show (w.newObj ⟨root, none, handle, none, key, callback⟩).2.blocks = w.blocks from rfl] at h
    split
    · rename_i hb; rw [hb] at h; exact h
    · rename_i w' cd hb; rw [hb] at h
      split
      · rename_i co _
        have h2 := h.trans (writeEvents_puts (L := L) be w.heap.length time
          [.identity handle, .account true none, .sync (L.hash cd.commit.val) co.rev] w')
        split
        · rename_i hc; rw [show (w.newObj ⟨root, none, handle, none, key, callback⟩).1 =
            w.heap.length from rfl] at hc; rw [hc] at h2; exact h2
        · rename_i w2 hc; rw [show (w.newObj ⟨root, none, handle, none, key, callback⟩).1 =
            w.heap.length from rfl] at hc; rw [hc] at h2
          have h3 := createRepo_blocks (L := L) be w2 w.heap.length
          split
          · rename_i hd; rw [show (w.newObj ⟨root, none, handle, none, key, callback⟩).1 =
              w.heap.length from rfl] at hd; rw [hd] at h3; exact h2.trans (.of_eq h3)
          · rename_i hd; rw [show (w.newObj ⟨root, none, handle, none, key, callback⟩).1 =
              w.heap.length from rfl] at hd; rw [hd] at h3
            rw [logIf_blocks]; exact h2.trans (.of_eq h3)
      · exact h

theorem importBlocks_put {did : Did} : ∀ {new : List (C × Val C R)} {blocks : List (C × Block C R)},
    (∀ x ∈ new, L.hash x.2 = x.1) → importBlocks did blocks new =
      putBlocks L blocks (new.map fun x => ⟨x.2, 0, none, did⟩)
  | [], _, _ => rfl
  | x :: new, blocks, h => by
    have := importBlocks_put (did := did) (blocks := dictSetDefault blocks x.1 ⟨x.2, 0, none, did⟩)
      (fun y hy => h y (.tail _ hy))
    rw [List.map_cons, putBlocks_cons]
    dsimp only
    rw [h x List.mem_cons_self, ← this]
    rfl

/-- Every API call only ever adds blocks. -/
theorem Step.puts {be : Backend} {al : Allow} {w w' : World C R} (h : Step L be al w w') :
    Puts L w.blocks w'.blocks := by
  cases h with
  | create => exact repoCreate_puts _ _ _ _ _ _ _ _ _
  | commit => exact commit_puts _ _ _ _ _ _ _
  | allocate => exact .refl _
  | setStatus => exact .of_eq (setRepoStatus_blocks _ _ _ _)
  | importBlocks did new _ _ hnew =>
    exact ⟨new.map fun x => ⟨x.2, 0, none, did⟩, importBlocks_put hnew.cids⟩
  | setCallback => exact .of_eq (modObj_blocks _ _ _)
  | deactivate => exact setStatusEvent_puts _ _ _ _ _ _
  | activate => exact setStatusEvent_puts _ _ _ _ _ _
  | tombstone => exact setStatusEvent_puts _ _ _ _ _ _
  | event => exact writeEvent_puts _ _ _ _ _
  | loadRepo => exact .of_eq (loadRepo_blocks _ _ _)
  | repoLoad => exact .of_eq (repoLoad_blocks _ _ _ _ _ _)
  | cache => exact .refl _
  | «import» co handle key new _ hnew =>
    refine ⟨new.map fun x => ⟨x.2, 0, none, co.did⟩, ?_⟩
    rw [← importBlocks_put hnew.cids]
    exact createRepo_blocks (L := L) be _ _

theorem Reach.addressed {be : Backend} {al : Allow} {w : World C R} (h : Reach L be al w) :
    Addressed L w.blocks := by
  induction h with
  | empty => intro c b h; simp [World.empty, dictGet] at h
  | step _ h ih =>
    obtain ⟨bs, hbs⟩ := h.puts
    rw [hbs]; exact ih.put bs

end

end Arroba.Store
