import Verif.Storage.StatusProofs

/-!
Helper lemmas: every call stores only blocks with the sequence numbers it has allocated, and only
commits with at most 200 operations.
-/

namespace Arroba.Store

variable {C R : Type} [DecidableEq C]

open Arroba.Tree

/-- The number of operations of a block is within the limit. -/
def Block.Small (x : Block C R) : Prop := ∀ ops, x.ops = some ops → ops.length ≤ maxOps

/-- Blocks have been written, all of which satisfy `P`. -/
def Makes (L : Lib C R) (P : Block C R → Prop) (a b : List (C × Block C R)) : Prop :=
  ∃ bs, (∀ x ∈ bs, P x) ∧ b = putBlocks L a bs

/-- The blocks written by a call that allocates `seq`. -/
def Made (seq : Nat) (x : Block C R) : Prop := x.seq = seq ∧ x.Small

/-- The blocks written after `lo` had been allocated. -/
def After (lo : Nat) (x : Block C R) : Prop := lo < x.seq ∧ x.Small

section
variable {L : Lib C R} {P : Block C R → Prop}

theorem Makes.refl (a : List (C × Block C R)) : Makes L P a a := ⟨[], by simp, rfl⟩

theorem Makes.of_eq {a b : List (C × Block C R)} (h : b = a) : Makes L P a b := by
  subst h; exact .refl _

theorem Makes.trans {a b c : List (C × Block C R)} (h : Makes L P a b) (h' : Makes L P b c) :
    Makes L P a c := by
  obtain ⟨x, hx, rfl⟩ := h
  obtain ⟨y, hy, rfl⟩ := h'
  refine ⟨x ++ y, ?_, by unfold putBlocks; rw [List.foldl_append]⟩
  intro z hz
  rcases List.mem_append.1 hz with h | h
  · exact hx z h
  · exact hy z h

theorem Makes.mono {Q : Block C R → Prop} {a b : List (C × Block C R)} (h : Makes L P a b)
    (hq : ∀ x, P x → Q x) : Makes L Q a b := by
  obtain ⟨x, hx, rfl⟩ := h
  exact ⟨x, fun z hz => hq z (hx z hz), rfl⟩

/-- Every block stored now was stored before or satisfies `P`. -/
theorem Makes.get {a b : List (C × Block C R)} (h : Makes L P a b) {c : C} {x : Block C R}
    (hx : dictGet b c = some x) : dictGet a c = some x ∨ (dictGet a c = none ∧ P x) := by
  obtain ⟨bs, hb, rfl⟩ := h
  rcases putBlocks_get bs a hx with h | ⟨h1, h2, _⟩
  · exact .inl h
  · exact .inr ⟨h1, hb x h2⟩

/-! ### The write loop -/

theorem applyWrite_makes {rd : C → Option (NodeData C)} {seq : Nat} {did : Did} {st st' : LoopState C R}
    {w : Write R} (hs : ∀ cb ∈ st.blocks, cb.2.seq = seq ∧ cb.2.ops = none)
    (h : applyWrite L rd seq did st w = .ok st') :
    (∀ cb ∈ st'.blocks, cb.2.seq = seq ∧ cb.2.ops = none) ∧ st'.ops.length ≤ st.ops.length + 1 := by
  have hset : ∀ (c : C) (r : R), ∀ cb ∈ dictSet st.blocks c ⟨.record r, seq, none, did⟩,
      cb.2.seq = seq ∧ cb.2.ops = none := by
    intro c r cb hcb
    rcases mem_dictSet hcb with rfl | hcb
    · exact ⟨rfl, rfl⟩
    · exact hs cb hcb
  unfold applyWrite at h
  obtain ⟨p, _, h⟩ := bind_ok h
  split at h
  · obtain ⟨n, _, h⟩ := bind_ok h
    cases h
    exact ⟨hs, by simp⟩
  · obtain ⟨r, _, h⟩ := bind_ok h
    obtain ⟨n, _, h⟩ := bind_ok h
    cases h
    exact ⟨hset _ _, by simp⟩
  · obtain ⟨r, _, h⟩ := bind_ok h
    obtain ⟨q, _, h⟩ := bind_ok h
    obtain ⟨n, _, h⟩ := bind_ok h
    obtain ⟨q', _, h⟩ := bind_ok h
    cases h
    refine ⟨hset _ _, ?_⟩
    dsimp only
    split <;> simp

theorem applyWrites_makes {rd : C → Option (NodeData C)} {seq : Nat} {did : Did} :
    ∀ {ws : List (Write R)} {st st' : LoopState C R},
    (∀ cb ∈ st.blocks, cb.2.seq = seq ∧ cb.2.ops = none) →
    applyWrites L rd seq did st ws = .ok st' →
    (∀ cb ∈ st'.blocks, cb.2.seq = seq ∧ cb.2.ops = none) ∧
      st'.ops.length ≤ st.ops.length + ws.length
  | [], st, st', hs, h => by cases h; exact ⟨hs, by simp⟩
  | w :: ws, st, st', hs, h => by
    obtain ⟨s1, h1, h2⟩ := bind_ok h
    obtain ⟨a1, a2⟩ := applyWrite_makes hs h1
    obtain ⟨b1, b2⟩ := applyWrites_makes a1 h2
    exact ⟨b1, by simp only [List.length_cons]; omega⟩

theorem buildCommit_makes {rd : C → Option (NodeData C)} {seq : Nat} {did : Did} {st : LoopState C R}
    {key nonce : Nat} {prev : Option C} {cd : CommitData C R}
    (hs : ∀ cb ∈ st.blocks, cb.2.seq = seq ∧ cb.2.ops = none) (hn : st.ops.length ≤ maxOps)
    (h : buildCommit L rd st key nonce seq did prev = .ok cd) :
    ∀ x ∈ cd.blocks.map (·.2), Made seq x := by
  unfold buildCommit at h
  obtain ⟨u, _, h⟩ := bind_ok h
  obtain ⟨co, _, h⟩ := bind_ok h
  cases h
  intro x hx
  obtain ⟨cb, hcb, rfl⟩ := List.mem_map.1 hx
  rcases mem_dictSet hcb with rfl | hcb
  · exact ⟨rfl, fun ops h => by cases h; exact hn⟩
  · rcases mem_dictUpdate hcb with hcb | hcb
    · obtain ⟨h1, h2⟩ := hs cb hcb
      exact ⟨h1, fun ops h => by rw [h2] at h; cases h⟩
    · unfold mstBlocks at hcb
      obtain ⟨y, _, rfl⟩ := List.mem_map.1 hcb
      exact ⟨rfl, fun ops h => by cases h⟩

theorem finishCommit_makes (be : Backend) (w : World C R) (r s : Ref) (mst : Node C) (existing : Bool)
    (cd : CommitData C R) (x : Luck) (hP : ∀ x ∈ cd.blocks.map (·.2), P x) :
    Makes L P w.blocks (finishCommit L be w r s mst existing cd x).1.blocks := by
  unfold finishCommit
  split
  · exact .refl _
  · simp only
    split
    · split
      · exact ⟨_, hP, modObj_blocks _ _ _⟩
      · have := storeRepo_blocks (L := L) be (({ w with blocks := putBlocks L w.blocks (cd.blocks.map (·.2)) } : World C R).modObj s
          (fun o => { o with head := some cd.commit })) s
        split
        · rename_i h; rw [h] at this; exact ⟨_, hP, this.trans (modObj_blocks _ _ _)⟩
        · rename_i h; rw [h] at this
          exact ⟨_, hP, (modObj_blocks _ _ _).trans (this.trans (modObj_blocks _ _ _))⟩
    · exact ⟨_, hP, modObj_blocks _ _ _⟩

theorem commitBody_makes (be : Backend) (w : World C R) (r : Ref) (writes : List (Write R)) (seq : Nat)
    (repoDid : Option Did) (x : Luck) :
    Makes L (Made seq) w.blocks (commitBody L be w r writes seq repoDid x).1.blocks := by
  unfold commitBody
  split
  · exact .refl _
  · split
    · exact .refl _
    · split
      · exact .refl _
      · rename_i o _ _ _
        have hb := beginCommit_blocks (L := L) be w r o repoDid
        split
        · rename_i h; rw [h] at hb; exact .of_eq hb
        · rename_i h; rw [h] at hb
          simp only at hb
          split
          · exact .of_eq hb
          · split
            · exact .of_eq hb
            · split
              · exact .of_eq hb
              · rename_i hn _ st hst
                simp only
                split
                · exact .of_eq hb
                · split
                  · exact .of_eq hb
                  · rename_i cd hcd
                    have := finishCommit_makes (L := L) (P := Made seq) be
                    rw [← hb]
                    obtain ⟨h1, h2⟩ := applyWrites_makes (by simp) hst
                    simp only [List.length_nil, Nat.zero_add] at h2
                    exact this _ _ _ _ _ _ _ (buildCommit_makes h1 (by omega) hcd)

theorem commitTx_makes (be : Backend) (r : Ref) (writes : List (Write R)) (seq : Nat)
    (repoDid : Option Did) : ∀ (xs : List Luck) (w : World C R),
    Makes L (Made seq) w.blocks (commitTx L be r writes seq repoDid w xs).1.blocks
  | [], w => .refl _
  | x :: xs, w => by
    unfold commitTx
    have h := commitBody_makes (L := L) be w r writes seq repoDid x
    split
    · rename_i hb; rw [hb] at h
      split
      · exact h.trans (commitTx_makes be r writes seq repoDid xs _)
      · exact h
    · rename_i hb; rw [hb] at h
      split
      · exact h.trans (commitTx_makes be r writes seq repoDid xs _)
      · exact h

theorem commit_makes (be : Backend) (w : World C R) (r : Ref) (writes : List (Write R))
    (repoDid : Option Did) (xs : List Luck) (cbFails : Bool) :
    Makes L (Made w.alloc.1) w.blocks (commit L be w r writes repoDid xs cbFails).1.blocks := by
  unfold commit
  have h := commitTx_makes (L := L) be r writes w.alloc.1 repoDid xs w.alloc.2
  simp only
  split
  · rename_i hb; rw [hb] at h; rw [logIf_blocks]; exact h
  · rename_i hb; rw [hb] at h
    split
    · rw [logIf_blocks, logIf_blocks]; exact h
    · rw [logIf_blocks]; exact h

theorem write_makes (be : Backend) (w : World C R) (did : Did) (v : Val C R) (seq : Nat) :
    Makes L (Made seq) w.blocks (write L be w did v seq).1.blocks := by
  have hP : ∀ x ∈ [(⟨v, seq, none, did⟩ : Block C R)], Made seq x := by
    intro x hx
    rw [List.mem_singleton] at hx
    subst hx
    exact ⟨rfl, fun ops h => by cases h⟩
  unfold write
  cases be with
  | memory => exact ⟨[⟨v, seq, none, did⟩], hP, rfl⟩
  | datastore =>
    simp only
    split
    · exact .refl _
    · split
      · exact ⟨[⟨v, seq, none, did⟩], hP, rfl⟩
      · split <;> exact ⟨[⟨v, seq, none, did⟩], hP, rfl⟩

theorem writeEvent_makes (be : Backend) (w : World C R) (r : Ref) (kind : EventKind C) (time : Nat) :
    Makes L (Made w.alloc.1) w.blocks (writeEvent L be w r kind time).1.blocks := by
  unfold writeEvent
  simp only
  split
  · exact .refl _
  · split
    · exact .refl _
    · rename_i d _
      have h := write_makes (L := L) be w.alloc.2 d (.event ⟨kind, w.alloc.1, d, time⟩) w.alloc.1
      split
      · rename_i hb; rw [hb] at h; exact h
      · rename_i hb; rw [hb] at h; rw [logIf_blocks]; exact h

theorem setStatusEvent_makes (be : Backend) (w : World C R) (r : Ref) (s : Option Status)
    (kind : EventKind C) (time : Nat) :
    Makes L (Made w.alloc.1) w.blocks (setStatusEvent L be w r s kind time).1.blocks := by
  unfold setStatusEvent
  have h := setRepoStatus_blocks be w r s
  have ha : (setRepoStatus be w r s).1.alloc.1 = w.alloc.1 := by
    unfold setRepoStatus
    split
    · rfl
    · cases be with
      | memory => rfl
      | datastore =>
        dsimp only
        split
        · rfl
        · split <;> rfl
  split
  · rename_i hb; rw [hb] at h; exact .of_eq h
  · rename_i w1 hb; rw [hb] at h ha
    have h2 := writeEvent_makes (L := L) be w1 r kind time
    rw [show w1.blocks = w.blocks from h, show w1.alloc.1 = w.alloc.1 from ha] at h2
    split <;> (rename_i hc; rw [hc] at h2; exact h2)

/-- The sequence counter is at least `lo`. -/
def Past (lo : Nat) (w : World C R) : Prop :=
  1 ≤ (dictGet w.seqs subscribeRepos).getD 1 ∧ lo ≤ w.last

theorem Past.alloc {lo : Nat} {w : World C R} (h : Past lo w) : lo < w.alloc.1 ∧ Past lo w.alloc.2 := by
  obtain ⟨h1, h2, h3, h4⟩ := alloc_spec w h.1
  have := h.2
  exact ⟨by omega, h4, by omega⟩

theorem Past.congr {lo : Nat} {w w' : World C R} (h : Past lo w) (hs : w'.seqs = w.seqs) :
    Past lo w' := by
  unfold Past World.last at *
  rw [hs]; exact h

theorem Made.after {lo seq : Nat} (h : lo < seq) {x : Block C R} (hx : Made seq x) : After lo x :=
  ⟨by rw [hx.1]; exact h, hx.2⟩

theorem commit_past (be : Backend) {lo : Nat} {w : World C R} (h : Past lo w) (r : Ref)
    (writes : List (Write R)) (repoDid : Option Did) (xs : List Luck) (cbFails : Bool) :
    Past lo (commit L be w r writes repoDid xs cbFails).1 := by
  have hst := (commitTx_still (L := L) be r writes w.alloc.1 repoDid xs w.alloc.2).2
  unfold Store.commit
  dsimp only
  split
  · rename_i hb; rw [hb] at hst
    rw [logIf_with]
    exact h.alloc.2.congr hst
  · rename_i hb; rw [hb] at hst
    rw [logIf_with, logIf_with]
    split <;> exact h.alloc.2.congr hst

theorem writeEvent_past (be : Backend) {lo : Nat} {w : World C R} (h : Past lo w) (r : Ref)
    (kind : EventKind C) (time : Nat) : Past lo (writeEvent L be w r kind time).1 := by
  unfold writeEvent
  simp only
  split
  · exact h.alloc.2
  · split
    · exact h.alloc.2
    · rename_i d _
      have hs : (Store.write L be w.alloc.2 d (.event ⟨kind, w.alloc.1, d, time⟩) w.alloc.1).1.seqs =
          w.alloc.2.seqs := by
        unfold Store.write
        cases be with
        | memory => rfl
        | datastore =>
          dsimp only
          split
          · rfl
          · split
            · rfl
            · split <;> rfl
      split
      · rename_i hb; rw [hb] at hs; exact h.alloc.2.congr hs
      · rename_i hb; rw [hb] at hs; rw [logIf_with]; exact h.alloc.2.congr hs

theorem writeEvents_makes (be : Backend) (r : Ref) (time : Nat) {lo : Nat} :
    ∀ (ks : List (EventKind C)) (w : World C R), Past lo w →
      Makes L (After lo) w.blocks (writeEvents L be r time w ks).1.blocks
  | [], w, _ => .refl _
  | k :: ks, w, hp => by
    unfold writeEvents
    have h := (writeEvent_makes (L := L) be w r k time).mono (fun x => Made.after hp.alloc.1)
    have hp' := writeEvent_past (L := L) be hp r k time
    split
    · rename_i hb; rw [hb] at h; exact h
    · rename_i hb; rw [hb] at h hp'; exact h.trans (writeEvents_makes be r time ks _ hp')

theorem repoCreate_makes (be : Backend) (w : World C R) (did : Did) (handle : Option Key) (key : Nat)
    (callback : Bool) (time : Nat) (xs : List Luck) (cbFails : Bool) {lo : Nat} (hp : Past lo w) :
    Makes L (After lo) w.blocks (repoCreate L be w did handle key callback time xs cbFails).1.blocks := by
  unfold repoCreate
  split
  · exact .refl _
  · rename_i root _
    simp only
    have hp0 : Past lo (w.newObj ⟨root, none, handle, none, key, callback⟩).2 := hp.congr rfl
    have h := (commit_makes (L := L) be (w.newObj ⟨root, none, handle, none, key, callback⟩).2
      (w.newObj ⟨root, none, handle, none, key, callback⟩).1 [] (some did) xs cbFails).mono
        (fun x => Made.after hp0.alloc.1)
    have hp1 := commit_past (L := L) be hp0
      (w.newObj ⟨root, none, handle, none, key, callback⟩).1 [] (some did) xs cbFails
    rw [show (w.newObj ⟨root, none, handle, none, key, callback⟩).2.blocks = w.blocks from rfl] at h
    split
    · rename_i hb; rw [hb] at h; exact h
    · rename_i w' cd hb; rw [hb] at h hp1
      split
      · rename_i co _
        have h2 := h.trans (writeEvents_makes (L := L) be w.heap.length time
          [.identity handle, .account true none, .sync (L.hash cd.commit.val) co.rev] w' hp1)
        split
        · rename_i hc; rw [show (w.newObj ⟨root, none, handle, none, key, callback⟩).1 =
            w.heap.length from rfl] at hc; rw [hc] at h2; exact h2
        · rename_i w2 hc; rw [show (w.newObj ⟨root, none, handle, none, key, callback⟩).1 =
            w.heap.length from rfl] at hc; rw [hc] at h2
          have h3 := createRepo_blocks (L := L) be w2 w.heap.length
          split
          · rename_i hd; rw [show (w.newObj ⟨root, none, handle, none, key, callback⟩).1 =
              w.heap.length from rfl] at hd; rw [hd] at h3; exact h2.trans (.of_eq h3)
          · rename_i hd; rw [show (w.newObj ⟨root, none, handle, none, key, callback⟩).1 =
              w.heap.length from rfl] at hd; rw [hd] at h3
            rw [logIf_blocks]; exact h2.trans (.of_eq h3)
      · exact h

/-- Every API call but imports only adds blocks with new sequence numbers, and at most 200 operations. -/
theorem Step.makes_own {be : Backend} {al : Allow} {w w' : World C R} (h : Step L be al w w')
    {lo : Nat} (hp : Past lo w) : Makes L (After lo) w.blocks w'.blocks ∨
      al.imports ∧ Makes L (fun x => x.seq = 0 ∧ x.ops = none) w.blocks w'.blocks := by
  have hm := fun x => Made.after (C := C) (R := R) (x := x) hp.alloc.1
  have hs : ∀ r s kind time,
      Makes L (After lo) w.blocks (setStatusEvent L be w r s kind time).1.blocks := by
    intro r s kind time
    refine (setStatusEvent_makes be w r s kind time).mono hm
  cases h with
  | «import» co handle key new hi hnew =>
    refine .inr ⟨hi, new.map fun x => ⟨x.2, 0, none, co.did⟩, ?_, ?_⟩
    · intro x hx
      obtain ⟨y, _, rfl⟩ := List.mem_map.1 hx
      exact ⟨rfl, rfl⟩
    · rw [← importBlocks_put hnew.cids]
      exact createRepo_blocks (L := L) be _ _
  | create => exact .inl (repoCreate_makes _ _ _ _ _ _ _ _ _ hp)
  | commit => exact .inl ((commit_makes _ _ _ _ _ _ _).mono hm)
  | allocate => exact .inl (.refl _)
  | setStatus => exact .inl (.of_eq (setRepoStatus_blocks _ _ _ _))
  | importBlocks did new hi _ hnew =>
    refine .inr ⟨hi, new.map fun x => ⟨x.2, 0, none, did⟩, ?_, importBlocks_put hnew.cids⟩
    intro x hx
    obtain ⟨y, _, rfl⟩ := List.mem_map.1 hx
    exact ⟨rfl, rfl⟩
  | setCallback => exact .inl (.of_eq (modObj_blocks _ _ _))
  | deactivate => exact .inl (hs _ _ _ _)
  | activate => exact .inl (hs _ _ _ _)
  | tombstone => exact .inl (hs _ _ _ _)
  | event => exact .inl ((writeEvent_makes _ _ _ _ _).mono hm)
  | loadRepo => exact .inl (.of_eq (loadRepo_blocks _ _ _))
  | repoLoad => exact .inl (.of_eq (repoLoad_blocks _ _ _ _ _ _))
  | cache => exact .inl (.refl _)

/-- Every API call only adds blocks with at most 200 operations, and with new sequence numbers or, if
imported, 0. -/
theorem Step.makes {be : Backend} {al : Allow} {w w' : World C R} (h : Step L be al w w')
    {lo : Nat} (hp : Past lo w) :
    Makes L (fun x => (lo < x.seq ∨ al.imports ∧ x.seq = 0) ∧ x.Small) w.blocks w'.blocks := by
  rcases h.makes_own hp with h | ⟨hi, h⟩
  · exact h.mono fun x hx => ⟨.inl hx.1, hx.2⟩
  · exact h.mono fun x hx => ⟨.inr ⟨hi, hx.1⟩, fun ops ho => by rw [hx.2] at ho; cases ho⟩

/-- Without imports all blocks have sequence numbers. -/
theorem Reach.native (hL : L.OK Z) {be : Backend} {al : Allow} (hi : ¬ al.imports) {w : World C R}
    (h : Reach L be al w) {c : C} {b : Block C R} (hb : dictGet w.blocks c = some b) : 1 ≤ b.seq := by
  induction h with
  | empty => simp [World.empty, dictGet] at hb
  | step h0 hs ih =>
    rcases (hs.makes (lo := 0) ⟨(h0.plain hL).1.pos, Nat.zero_le _⟩).get hb with g | ⟨_, g, _⟩
    · exact ih g
    · exact g.resolve_right fun h => hi h.1

end

end Arroba.Store
