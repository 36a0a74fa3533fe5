import Verif.Storage.GrowProofs

/-! Helper lemmas: the callback log and the sequence counter, whatever happened before. -/

namespace Arroba.Store

variable {C R : Type} [DecidableEq C]

open Arroba.Tree

/-- Neither the callback nor the sequence counter was used. -/
def Still (w w' : World C R) : Prop := w'.log = w.log ∧ w'.seqs = w.seqs

/-- The next sequence number. -/
def World.nextSeq (w : World C R) : Nat := (dictGet w.seqs subscribeRepos).getD 1

section
variable {L : Lib C R}

omit [DecidableEq C] in
theorem Still.refl (w : World C R) : Still w w := ⟨rfl, rfl⟩

omit [DecidableEq C] in
theorem Still.trans {a b c : World C R} (h : Still a b) (h' : Still b c) : Still a c :=
  ⟨h'.1.trans h.1, h'.2.trans h.2⟩

omit [DecidableEq C] in
theorem modObj_still (w : World C R) (r : Ref) (f : RepoObj C R → RepoObj C R) :
    Still w (w.modObj r f) := by
  unfold World.modObj; split <;> exact .refl _

theorem repoLoad_still (w : World C R) (c : C) (handle : Option Key) (status : Option Status)
    (key : Nat) (callback : Bool) : Still w (repoLoad w c handle status key callback).1 := by
  unfold repoLoad; split <;> exact .refl _

theorem loadRepo_still (be : Backend) (w : World C R) (q : Key) : Still w (loadRepo be w q).1 := by
  unfold loadRepo
  split
  · exact .refl _
  · cases be with
    | memory => exact .refl _
    | datastore =>
      simp only
      split
      · exact .refl _
      · rename_i row _
        have := repoLoad_still w row.head row.handle row.status row.key false
        split <;> (rename_i h; rw [h] at this; exact this)

theorem storeRepo_still (be : Backend) (w : World C R) (r : Ref) :
    Still w (storeRepo L be w r).1 := by
  unfold storeRepo
  split
  · exact .refl _
  · split
    · cases be with
      | memory => exact .refl _
      | datastore => simp only; split <;> exact .refl _
    · exact .refl _

theorem createRepo_still (be : Backend) (w : World C R) (r : Ref) :
    Still w (createRepo L be w r).1 := by
  unfold createRepo
  split
  · exact .refl _
  · split
    · cases be <;> exact .refl _
    · exact .refl _

theorem importInto_still (be : Backend) (w : World C R) (co : Commit C) (handle : Option Key) (key : Nat)
    (new : List (C × Val C R)) : Still w (importInto L be w co handle key new).1 :=
  createRepo_still (L := L) be ({ w with blocks := importBlocks co.did w.blocks new }.newObj
    ⟨Arroba.load co.data, some ⟨.commit co, 0, none, co.did⟩, handle, some .deactivated, key, false⟩).2 _

theorem beginCommit_still (be : Backend) (w : World C R) (r : Ref) (o : RepoObj C R)
    (repoDid : Option Did) : Still w (beginCommit L be w r o repoDid).1 := by
  unfold beginCommit
  cases repoDid with
  | some d =>
    simp only
    split
    · exact .refl _
    · split
      · split <;> exact .refl _
      · exact .refl _
  | none =>
    simp only
    split
    · exact .refl _
    · rename_i d _
      have := loadRepo_still be w d
      split
      · rename_i h; rw [h] at this; exact this
      · rename_i h; rw [h] at this; exact this
      · rename_i h; rw [h] at this
        split <;> exact this

theorem finishCommit_still (be : Backend) (w : World C R) (r s : Ref) (mst : Node C) (existing : Bool)
    (cd : CommitData C R) (x : Luck) : Still w (finishCommit L be w r s mst existing cd x).1 := by
  unfold finishCommit
  split
  · exact .refl _
  · simp only
    have h0 : Still w ({ w with blocks := putBlocks L w.blocks (cd.blocks.map (·.2)) } : World C R) :=
      ⟨rfl, rfl⟩
    split
    · split
      · exact h0.trans (modObj_still _ _ _)
      · have := storeRepo_still (L := L) be (({ w with blocks := putBlocks L w.blocks (cd.blocks.map (·.2)) } : World C R).modObj s
          (fun o => { o with head := some cd.commit })) s
        split
        · rename_i h; rw [h] at this; exact (h0.trans (modObj_still _ _ _)).trans this
        · rename_i h; rw [h] at this
          exact ((h0.trans (modObj_still _ _ _)).trans this).trans (modObj_still _ _ _)
    · exact h0.trans (modObj_still _ _ _)

theorem commitBody_still (be : Backend) (w : World C R) (r : Ref) (writes : List (Write R)) (seq : Nat)
    (repoDid : Option Did) (x : Luck) : Still w (commitBody L be w r writes seq repoDid x).1 := by
  unfold commitBody
  split
  · exact .refl _
  · split
    · exact .refl _
    · split
      · exact .refl _
      · rename_i o _ _ _
        have hb := beginCommit_still (L := L) be w r o repoDid
        split
        · rename_i h; rw [h] at hb; exact hb
        · rename_i h; rw [h] at hb
          simp only at hb
          split
          · exact hb
          · split
            · exact hb
            · split
              · exact hb
              · simp only
                split
                · exact hb
                · split
                  · exact hb
                  · refine hb.trans ?_
                    exact Still.trans ⟨rfl, rfl⟩ (finishCommit_still (L := L) be _ _ _ _ _ _ _)

theorem commitTx_still (be : Backend) (r : Ref) (writes : List (Write R)) (seq : Nat)
    (repoDid : Option Did) : ∀ (xs : List Luck) (w : World C R),
    Still w (commitTx L be r writes seq repoDid w xs).1
  | [], w => .refl _
  | x :: xs, w => by
    unfold commitTx
    have h := commitBody_still (L := L) be w r writes seq repoDid x
    split
    · rename_i hb; rw [hb] at h
      split
      · exact Still.trans h (Still.trans ⟨rfl, rfl⟩ (commitTx_still be r writes seq repoDid xs _))
      · exact h
    · rename_i hb; rw [hb] at h
      split
      · exact Still.trans h (Still.trans ⟨rfl, rfl⟩ (commitTx_still be r writes seq repoDid xs _))
      · exact h

/-- The numbers reported as lost are below the next one, and reported once. -/
structure LostOK (w : World C R) : Prop where
  bound : ∀ n, CbCall.lost n ∈ w.log → 1 ≤ n ∧ n < w.nextSeq
  once : ∀ n, w.log.count (.lost n) ≤ 1
  pos : 1 ≤ w.nextSeq

theorem LostOK.still {w w' : World C R} (h : LostOK w) (hs : Still w w') : LostOK w' := by
  refine ⟨?_, ?_, ?_⟩
  · unfold World.nextSeq; rw [hs.1, hs.2]; exact h.bound
  · rw [hs.1]; exact h.once
  · unfold World.nextSeq; rw [hs.2]; exact h.pos

theorem alloc_next (w : World C R) : w.alloc.1 = w.nextSeq ∧ w.alloc.2.nextSeq = w.nextSeq + 1 ∧
    w.alloc.2.log = w.log := by
  unfold World.alloc World.nextSeq allocate
  simp only [dictGet_dictSet, dictGet_dictSetDefault]
  cases dictGet w.seqs subscribeRepos <;> simp

theorem LostOK.alloc {w : World C R} (h : LostOK w) : LostOK w.alloc.2 := by
  obtain ⟨_, h2, h3⟩ := alloc_next w
  refine ⟨fun n hn => ?_, fun n => by rw [h3]; exact h.once n, by omega⟩
  rw [h3] at hn
  have := h.bound n hn
  omega

/-- Calls that do not report a loss. -/
theorem LostOK.logOther {w : World C R} (h : LostOK w) (b : Bool) {c : CbCall C}
    (hc : ∀ n, c ≠ .lost n) : LostOK (w.logIf b c) := by
  unfold World.logIf
  split
  · refine ⟨fun n hn => ?_, fun n => ?_, h.pos⟩
    · simp only [List.mem_append, List.mem_singleton] at hn
      rcases hn with hn | hn
      · exact h.bound n hn
      · exact absurd hn.symm (hc n)
    · simp only [List.count_append, List.count_singleton]
      have : (c == CbCall.lost n) = false := by simpa using hc n
      rw [this]
      simpa using h.once n
  · exact h

/-- Reporting a fresh number. -/
theorem LostOK.logLost {w : World C R} (h : LostOK w) (b : Bool) {n : Nat}
    (hn : CbCall.lost n ∉ w.log) (h1 : 1 ≤ n) (h2 : n < w.nextSeq) : LostOK (w.logIf b (.lost n)) := by
  unfold World.logIf
  split
  · refine ⟨fun k hk => ?_, fun k => ?_, h.pos⟩
    · simp only [List.mem_append, List.mem_singleton, CbCall.lost.injEq] at hk
      rcases hk with hk | rfl
      · exact h.bound k hk
      · exact ⟨h1, h2⟩
    · simp only [List.count_append, List.count_singleton]
      by_cases hk : k = n
      · subst hk
        rw [List.count_eq_zero.2 hn]
        simp
      · have : (CbCall.lost n == (CbCall.lost k : CbCall C)) = false := by
          simp; exact fun h => hk h.symm
        rw [this]
        simpa using h.once k
  · exact h

theorem LostOK.commit {w : World C R} (h : LostOK w) (be : Backend) (r : Ref)
    (writes : List (Write R)) (repoDid : Option Did) (xs : List Luck) (cbFails : Bool) :
    LostOK (commit L be w r writes repoDid xs cbFails).1 := by
  unfold Store.commit
  have ha := h.alloc
  obtain ⟨e1, e2, e3⟩ := alloc_next w
  have hs := commitTx_still (L := L) be r writes w.alloc.1 repoDid xs w.alloc.2
  have h2 := ha.still hs
  have hfresh : CbCall.lost w.alloc.1 ∉
      (commitTx L be r writes w.alloc.1 repoDid w.alloc.2 xs).1.log := by
    rw [hs.1, e3]
    intro hm
    have := h.bound _ hm
    omega
  have hlt : w.alloc.1 < (commitTx L be r writes w.alloc.1 repoDid w.alloc.2 xs).1.nextSeq := by
    unfold World.nextSeq at e1 e2 ⊢
    rw [hs.2]; omega
  have hp := h.pos
  simp only
  split
  · rename_i hb
    rw [hb] at h2 hfresh hlt
    exact h2.logLost _ hfresh (by omega) hlt
  · rename_i w1 cd hb
    rw [hb] at h2 hfresh hlt
    have h3 := h2.logOther (((w.heap[r]?).map (·.callback)).getD false)
      (c := .commit (L.hash cd.commit.val) w.alloc.1) (by simp)
    split
    · refine h3.logLost _ ?_ (by omega) ?_
      · unfold World.logIf
        split
        · simpa using hfresh
        · exact hfresh
      · have : (w1.logIf (((w.heap[r]?).map (·.callback)).getD false)
          (.commit (L.hash cd.commit.val) w.alloc.1)).nextSeq = w1.nextSeq := by
          unfold World.logIf; split <;> rfl
        rw [this]; exact hlt
    · exact h3

theorem write_still (be : Backend) (w : World C R) (did : Did) (v : Val C R) (seq : Nat) :
    Still w (write L be w did v seq).1 := by
  unfold write
  cases be with
  | memory => exact ⟨rfl, rfl⟩
  | datastore =>
    simp only
    split
    · exact .refl _
    · split
      · exact ⟨rfl, rfl⟩
      · split <;> exact ⟨rfl, rfl⟩

theorem LostOK.event {w : World C R} (h : LostOK w) (be : Backend) (r : Ref) (kind : EventKind C)
    (time : Nat) : LostOK (writeEvent L be w r kind time).1 := by
  unfold writeEvent
  simp only
  split
  · exact h.alloc
  · split
    · exact h.alloc
    · rename_i d _
      have hs := write_still (L := L) be w.alloc.2 d (.event ⟨kind, w.alloc.1, d, time⟩) w.alloc.1
      have h2 := h.alloc.still hs
      split
      · rename_i hb; rw [hb] at h2; exact h2
      · rename_i hb; rw [hb] at h2; exact h2.logOther _ (by simp)

theorem setRepoStatus_still (be : Backend) (w : World C R) (r : Ref) (s : Option Status) :
    Still w (setRepoStatus be w r s).1 := by
  unfold setRepoStatus
  split
  · exact .refl _
  · cases be with
    | memory => exact ⟨rfl, rfl⟩
    | datastore =>
      simp only
      split
      · exact ⟨rfl, rfl⟩
      · split <;> exact ⟨rfl, rfl⟩

theorem LostOK.statusEvent {w : World C R} (h : LostOK w) (be : Backend) (r : Ref)
    (s : Option Status) (kind : EventKind C) (time : Nat) :
    LostOK (setStatusEvent L be w r s kind time).1 := by
  unfold setStatusEvent
  have h1 := h.still (setRepoStatus_still be w r s)
  split
  · rename_i hb; rw [hb] at h1; exact h1
  · rename_i w1 hb; rw [hb] at h1
    have h2 := LostOK.event (L := L) h1 be r kind time
    split <;> (rename_i hc; rw [hc] at h2; exact h2)

theorem LostOK.events (be : Backend) (r : Ref) (time : Nat) : ∀ (ks : List (EventKind C))
    {w : World C R}, LostOK w → LostOK (writeEvents L be r time w ks).1
  | [], _, h => h
  | k :: ks, w, h => by
    unfold writeEvents
    have h1 := LostOK.event (L := L) h be r k time
    split
    · rename_i hb; rw [hb] at h1; exact h1
    · rename_i hb; rw [hb] at h1; exact LostOK.events be r time ks h1

theorem LostOK.create {w : World C R} (h : LostOK w) (be : Backend) (did : Did)
    (handle : Option Key) (key : Nat) (callback : Bool) (time : Nat) (xs : List Luck)
    (cbFails : Bool) : LostOK (repoCreate L be w did handle key callback time xs cbFails).1 := by
  unfold repoCreate
  split
  · exact h
  · simp only
    rename_i root _
    have h1 := LostOK.commit (L := L) (h.still (w' := (w.newObj ⟨root, none, handle, none, key, callback⟩).2) ⟨rfl, rfl⟩)
      be (w.newObj ⟨root, none, handle, none, key, callback⟩).1 [] (some did) xs cbFails
    split
    · rename_i hb; rw [hb] at h1; exact h1.still ⟨rfl, rfl⟩
    · rename_i w' cd hb; rw [hb] at h1
      split
      · rename_i co _
        have h2 := LostOK.events (L := L) be (w.newObj ⟨root, none, handle, none, key, callback⟩).1 time
          [.identity handle, .account true none, .sync (L.hash cd.commit.val) co.rev] h1
        split
        · rename_i hc; rw [hc] at h2; exact h2.still ⟨rfl, rfl⟩
        · rename_i w2 hc; rw [hc] at h2
          have h3 := h2.still (createRepo_still (L := L) be w2
            (w.newObj ⟨root, none, handle, none, key, callback⟩).1)
          split
          · rename_i hd; rw [hd] at h3; exact h3.still ⟨rfl, rfl⟩
          · rename_i hd; rw [hd] at h3; exact h3.logOther _ (by simp)
      · exact h1.still ⟨rfl, rfl⟩

/-- In every reachable state. -/
theorem Reach.lostOK {be : Backend} {al : Allow} {w : World C R} (h : Reach L be al w) :
    LostOK w := by
  induction h with
  | empty => exact ⟨fun n hn => by simp [World.empty] at hn, fun n => by simp [World.empty],
      by simp [World.nextSeq, World.empty, dictGet]⟩
  | step _ h ih =>
    cases h with
    | create => exact ih.create _ _ _ _ _ _ _ _
    | commit => exact ih.commit _ _ _ _ _ _
    | allocate => exact ih.alloc
    | setStatus => exact ih.still (setRepoStatus_still _ _ _ _)
    | importBlocks => exact ih.still ⟨rfl, rfl⟩
    | setCallback => exact ih.still (modObj_still _ _ _)
    | deactivate => exact ih.statusEvent _ _ _ _ _
    | activate => exact ih.statusEvent _ _ _ _ _
    | tombstone => exact ih.statusEvent _ _ _ _ _
    | event => exact ih.event _ _ _ _
    | loadRepo => exact ih.still (loadRepo_still _ _ _)
    | repoLoad => exact ih.still (repoLoad_still _ _ _ _ _ _)
    | cache => exact ih.still ⟨rfl, rfl⟩
    | «import» => exact ih.still (importInto_still _ _ _ _ _ _)

end

end Arroba.Store
