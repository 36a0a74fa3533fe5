import Verif.Storage.AloneProofs
import Verif.Storage.ReachProofs
import Verif.Storage.CommitProofs
import Verif.Storage.FreshProofs
import Verif.Mst.SizeProofs
import Verif.Mst.CoverSize

/-! Helper lemmas: how many blocks a commit, and any other call, writes. -/

namespace Arroba.Store

variable {C R : Type} [DecidableEq C]

open Arroba.Tree

/-- At most this many blocks are written by a commit of `n` writes. -/
def commitCost (Z n : Nat) : Nat := n + 2 * max 1 n * Z + 2

theorem commitCost_mono {Z a b : Nat} (h : a ≤ b) : commitCost Z a ≤ commitCost Z b := by
  unfold commitCost
  have : 2 * max 1 a * Z ≤ 2 * max 1 b * Z := Nat.mul_le_mul_right _ (by omega)
  omega

section
variable {L : Lib C R} {Z : Nat}

theorem specWrite_off {m m' : Key → Option R} {w : Write R} (h : specWrite L m w = .ok m') {k : Key}
    (hk : k ≠ w.path) : m' k = m k := by
  unfold specWrite at h
  split at h
  · split at h
    · cases h
    · split at h
      · cases h
      · split at h
        · cases h
        · cases h; exact Function.update_of_ne hk _ _
  · split at h
    · cases h
    · split at h
      · cases h
      · cases h; exact Function.update_of_ne hk _ _
  · split at h
    · cases h
    · cases h; exact Function.update_of_ne hk _ _

theorem specWrites_off : ∀ {ws : List (Write R)} {m m' : Key → Option R}, specWrites L m ws = .ok m' →
    ∀ {k : Key}, k ∉ ws.map (·.path) → m' k = m k
  | [], m, m', h, k, _ => by cases h; rfl
  | w :: ws, m, m', h, k, hk => by
    unfold specWrites at h
    simp only [List.map_cons, List.mem_cons, not_or] at hk
    cases hw : specWrite L m w with
    | error e => rw [hw] at h; cases h
    | ok m1 =>
      rw [hw] at h
      exact (specWrites_off h hk.2).trans (specWrite_off hw hk.1)

theorem applyWrite_length {rd : C → Option (NodeData C)} {seq : Nat} {did : Did}
    {st st' : LoopState C R} {w : Write R} (h : applyWrite L rd seq did st w = .ok st') :
    st'.blocks.length ≤ st.blocks.length + 1 := by
  unfold applyWrite at h
  obtain ⟨prev, _, h⟩ := bind_ok h
  cases ha : w.action with
  | delete =>
    rw [ha] at h
    obtain ⟨n, _, h⟩ := bind_ok h
    cases h; exact Nat.le_succ _
  | create =>
    rw [ha] at h
    obtain ⟨r, _, h⟩ := bind_ok h
    obtain ⟨n, _, h⟩ := bind_ok h
    cases h; exact dictSet_length _ _ _
  | update =>
    rw [ha] at h
    obtain ⟨r, _, h⟩ := bind_ok h
    obtain ⟨p, _, h⟩ := bind_ok h
    obtain ⟨n, _, h⟩ := bind_ok h
    obtain ⟨p', _, h⟩ := bind_ok h
    cases h; exact dictSet_length _ _ _

theorem applyWrites_length {rd : C → Option (NodeData C)} {seq : Nat} {did : Did} :
    ∀ {ws : List (Write R)} {st st' : LoopState C R},
    applyWrites L rd seq did st ws = .ok st' → st'.blocks.length ≤ st.blocks.length + ws.length
  | [], st, st', h => by cases h; exact Nat.le_add_right _ _
  | w :: ws, st, st', h => by
    unfold applyWrites at h
    obtain ⟨st1, h1, h2⟩ := bind_ok h
    have a := applyWrite_length h1
    have b := applyWrites_length h2
    simp only [List.length_cons]
    omega

/-- A commit consists of the record blocks, the nodes that the store doesn't have, and the commit. -/
theorem buildCommit_length (hL : L.OK Z) {blocks : List (C × Block C R)} {st : LoopState C R}
    {key nonce seq : Nat} {did : Did} {prev : Option C} {cd : CommitData C R} {l : Nat} {t : Tree C}
    {m : Key → Option C} (hi : Inv L.env (nodeIn blocks) Z l t st.mst m)
    (hn : (st.blocks.map (·.1)).Nodup) {new : List (Tree C)}
    (hnew : ∀ s ∈ nodes t, nodeIn blocks (cidOf L.env.H s) = none → s ∈ new)
    (h : buildCommit L (nodeIn blocks) st key nonce seq did prev = .ok cd) :
    cd.blocks.length ≤ st.blocks.length + new.length + 1 := by
  have hnd := buildCommit_nodup hn h
  have hb := hi.bound
  have hfu := hL.fuel
  obtain ⟨bl, hu1, hu2⟩ := getUnstoredBlocks_spec hi.repr hi.wf hi.valid (f := L.fuel) (by omega)
  unfold buildCommit at h
  rw [hu1, ok_bind] at h
  obtain ⟨co, _, h⟩ := bind_ok h
  cases h
  dsimp only at hnd ⊢
  have hsub : ∀ c ∈ (dictSet (dictUpdate st.blocks (mstBlocks seq did bl)) (L.hash (.commit co))
      (⟨.commit co, seq, some st.ops, did⟩ : Block C R)).map (·.1),
      c ∈ L.hash (.commit co) :: (st.blocks.map (·.1) ++ new.map (cidOf L.env.H)) := by
    intro c hc
    rw [keys_dictSet, keys_dictUpdate] at hc
    rcases hc with rfl | hc | hc
    · exact .head _
    · exact .tail _ (List.mem_append_left _ hc)
    · have e : (mstBlocks (R := R) seq did bl).map (·.1) = bl.map (·.1) := by simp [mstBlocks]
      rw [e] at hc
      obtain ⟨⟨c', d⟩, hx, rfl⟩ := List.mem_map.1 hc
      obtain ⟨s, hs, hc', _, hrd⟩ := hu2.1 c' d hx
      subst hc'
      exact .tail _ (List.mem_append_right _ (List.mem_map_of_mem (hnew s hs hrd)))
  have := (hnd.subperm hsub).length_le
  simp only [List.length_map, List.length_cons, List.length_append] at this
  omega

/-- A commit to an existing repo. -/
theorem loop_length (hL : L.OK Z) {w : World C R} {seq : Nat}
    (hw : Core L Z seq w) {so : RepoObj C R} {m : Key → Option R} {b : Block C R}
    {did : Did} {prev : Option C} {st : LoopState C R} {key nonce : Nat} {writes : List (Write R)}
    {cd : CommitData C R} (hm : ObjRep L Z w.blocks so m) (hb : so.head = some b)
    (ha : applyWrites L (nodeIn w.blocks) seq did ⟨so.mst, [], []⟩ writes = .ok st)
    (hc : buildCommit L (nodeIn w.blocks) st key nonce seq did prev = .ok cd) :
    cd.blocks.length ≤ commitCost Z writes.length := by
  obtain ⟨l, t, hi, hT, hh⟩ := hm.tree
  obtain ⟨_, co, _, _, k1, t0, hT0, hst, hc0⟩ := hm.root hL hw.blocks hb
  have hloop : LoopOK L Z w.blocks seq did ⟨so.mst, [], []⟩ m :=
    ⟨⟨l, t, hi⟩, by simp, fun k r hk => .inl (hT.recs k r hk)⟩
  have := hloop.writes hL (ws := writes)
  cases hs : specWrites L m writes with
  | error e =>
    rw [hs] at this
    obtain ⟨n, g, _⟩ := this
    rw [ha] at g
    cases g
  | ok m' =>
    rw [hs] at this
    obtain ⟨st', g, hl', _⟩ := this
    rw [ha] at g
    cases g
    obtain ⟨l', t', hi'⟩ := hl'.inv
    obtain ⟨l0, _, hw0⟩ := hT0.wf
    have hbd := hi'.bound
    have hlen := applyWrites_length ha
    have hnd := applyWrites_nodup (by simp) ha
    obtain ⟨ks, hne, hks, hsub⟩ : ∃ ks : List Key, ks ≠ [] ∧ ks.length = max 1 writes.length ∧
        ∀ k, k ∉ ks → k ∉ writes.map (·.path) := by
      cases writes with
      | nil => exact ⟨[[]], by simp, rfl, by simp⟩
      | cons x xs => exact ⟨(x :: xs).map (·.path), by simp, by simp, fun _ h => h⟩
    obtain ⟨new, n1, n2⟩ := few_nodes hw0 hi'.wf hT0.sorted hi'.sorted hne (fun k hk => by
      rw [hi'.map, hT0.map]
      simp only [specWrites_off hs (hsub k hk)])
    have := buildCommit_length hL hi' hnd (new := new) (fun s hs hrd => by
      rcases n2 s hs with h | h
      · rw [hst s h] at hrd; cases hrd
      · exact h) hc
    rw [hks] at n1
    have : 2 * max 1 writes.length * l' ≤ 2 * max 1 writes.length * Z := Nat.mul_le_mul_left _ hbd
    unfold commitCost
    simp only [List.length_nil, Nat.zero_add] at hlen
    omega

/-! ### Calls -/

theorem putBlocks_append (bs : List (Block C R)) : ∀ (a : List (C × Block C R)),
    ∃ extra, putBlocks L a bs = a ++ extra ∧ extra.length ≤ bs.length ∧ ∀ x ∈ extra, x.2 ∈ bs := by
  induction bs with
  | nil => intro a; exact ⟨[], by simp [putBlocks], by simp, by simp⟩
  | cons b bs ih =>
    intro a
    obtain ⟨e, h1, h2, h3⟩ := ih (dictSetDefault a (L.hash b.val) b)
    have h0 : putBlocks L a (b :: bs) = putBlocks L (dictSetDefault a (L.hash b.val) b) bs := rfl
    rw [h0, h1]
    unfold dictSetDefault
    split
    · exact ⟨e, rfl, by simp only [List.length_cons]; omega, fun x hx => .tail _ (h3 x hx)⟩
    · refine ⟨(L.hash b.val, b) :: e, by simp, by simpa using h2, ?_⟩
      intro x hx
      rcases List.mem_cons.1 hx with rfl | hx
      · exact .head _
      · exact .tail _ (h3 x hx)

theorem putBlocks_length (bs : List (Block C R)) (a : List (C × Block C R)) :
    (putBlocks L a bs).length ≤ a.length + bs.length := by
  obtain ⟨e, h1, h2, _⟩ := putBlocks_append (L := L) bs a
  rw [h1, List.length_append]
  omega

theorem finishCommit_length (be : Backend) (w : World C R) (r s : Ref) (mst : Node C) (existing : Bool)
    (cd : CommitData C R) (x : Luck) :
    (finishCommit L be w r s mst existing cd x).1.blocks.length ≤ w.blocks.length + cd.blocks.length ∧
    ∀ cd', (finishCommit L be w r s mst existing cd x).2 = .ok cd' → cd' = cd := by
  have hb := putBlocks_length (L := L) (cd.blocks.map (·.2)) w.blocks
  rw [List.length_map] at hb
  unfold finishCommit
  split
  · exact ⟨Nat.le_add_right _ _, fun _ h => by cases h⟩
  · simp only
    split
    · split
      · exact ⟨by rw [modObj_blocks]; exact hb, fun _ h => by cases h⟩
      · have := storeRepo_blocks (L := L) be (({ w with blocks := putBlocks L w.blocks (cd.blocks.map (·.2)) } : World C R).modObj s
          (fun o => { o with head := some cd.commit })) s
        split
        · rename_i h; rw [h] at this
          exact ⟨by rw [this, modObj_blocks]; exact hb, fun _ h => by cases h⟩
        · rename_i h; rw [h] at this
          exact ⟨by rw [modObj_blocks, this, modObj_blocks]; exact hb, fun _ h => by cases h; rfl⟩
    · exact ⟨by rw [modObj_blocks]; exact hb, fun _ h => by cases h; rfl⟩

theorem commitBody_length {be : Backend} {w : World C R} {r : Ref} {writes : List (Write R)} {seq : Nat}
    {repoDid : Option Did} {x : Luck} {N : Nat}
    (hN : ∀ o w1 s did prev so st cd, w.heap[r]? = some o → beginCommit L be w r o repoDid = (w1, .ok (s, did, prev)) →
      w1.heap[s]? = some so → writes.length ≤ maxOps → applyWrites L w1.rd seq did ⟨so.mst, [], []⟩ writes = .ok st →
      buildCommit L w1.rd st so.key x.nonce seq did prev = .ok cd → cd.blocks.length ≤ N) :
    (commitBody L be w r writes seq repoDid x).1.blocks.length ≤ w.blocks.length + N ∧
    ∀ cd, (commitBody L be w r writes seq repoDid x).2 = .ok cd → cd.blocks.length ≤ N := by
  have hle : w.blocks.length ≤ w.blocks.length + N := Nat.le_add_right _ _
  rw [commitBody_eq]
  cases ho : w.heap[r]? with
  | none => exact ⟨hle, fun _ h => by cases h⟩
  | some o =>
  dsimp only
  split
  · exact ⟨hle, fun _ h => by cases h⟩
  split
  · exact ⟨hle, fun _ h => by cases h⟩
  have hb := beginCommit_blocks (L := L) be w r o repoDid
  cases hbeg : beginCommit L be w r o repoDid with
  | mk w1 res =>
  rw [hbeg] at hb
  dsimp only at hb
  cases res with
  | error e => exact ⟨by rw [hb]; exact hle, fun _ h => by cases h⟩
  | ok q =>
  obtain ⟨s, did, prev⟩ := q
  dsimp only
  unfold rest
  cases hs : w1.heap[s]? with
  | none => exact ⟨by rw [hb]; exact hle, fun _ h => by cases h⟩
  | some so =>
  dsimp only
  split
  · exact ⟨by rw [hb]; exact hle, fun _ h => by cases h⟩
  rename_i hmax
  cases ha : applyWrites L w1.rd seq did ⟨so.mst, [], []⟩ writes with
  | error e => obtain ⟨n, e⟩ := e; exact ⟨le_trans (le_of_eq (by rw [← hb]; rfl)) hle, fun _ h => by cases h⟩
  | ok st =>
  dsimp only
  split
  · exact ⟨le_trans (le_of_eq (by rw [← hb]; rfl)) hle, fun _ h => by cases h⟩
  cases hc : buildCommit L w1.rd st so.key x.nonce seq did prev with
  | error e => exact ⟨le_trans (le_of_eq (by rw [← hb]; rfl)) hle, fun _ h => by cases h⟩
  | ok cd =>
  dsimp only
  have hcd := hN o w1 s did prev so st cd ho hbeg hs (by omega) ha hc
  obtain ⟨f1, f2⟩ := finishCommit_length (L := L) be
    (w1.setObj s { so with mst := L.touch w1.rd st.mst }) r s (L.touch w1.rd st.mst) so.did.isSome cd x
  refine ⟨le_trans f1 ?_, fun cd' h => by rw [f2 cd' h]; exact hcd⟩
  rw [show (w1.setObj s { so with mst := L.touch w1.rd st.mst }).blocks = w1.blocks from rfl, hb]
  omega

/-- One attempt of a commit to an existing repo. -/
theorem body_length (hL : L.OK Z) {be : Backend} {w : World C R} {seq : Nat} (hw : Core L Z seq w) (r : Ref)
    (writes : List (Write R)) (x : Luck) :
    (commitBody L be w r writes seq none x).1.blocks.length ≤ w.blocks.length + commitCost Z writes.length ∧
    ∀ cd, (commitBody L be w r writes seq none x).2 = .ok cd → cd.blocks.length ≤ commitCost Z writes.length := by
  refine commitBody_length fun o w1 s did prev so st cd ho hbeg hs _ ha hc => ?_
  have hb := beginCommit_blocks (L := L) be w r o none
  rw [hbeg] at hb
  dsimp only at hb
  have hrd : w1.rd = nodeIn w.blocks := by unfold World.rd; rw [hb]
  rw [hrd] at ha hc
  rcases beginCommit_none (be := be) hw ho with ⟨_, h2⟩ | ⟨d, _, _, h3⟩ |
    ⟨d, s', so', m, b, co₀, w1', _, _, _, hs', hm, _, hhead, _, _, hbeg', _⟩
  · rw [h2] at hbeg; cases hbeg
  · rw [h3] at hbeg; cases hbeg
  · rw [hbeg'] at hbeg
    simp only [Prod.mk.injEq, Except.ok.injEq] at hbeg
    obtain ⟨rfl, rfl, rfl, rfl⟩ := hbeg
    rw [hs'] at hs
    cases hs
    exact loop_length hL hw hm hhead ha hc

/-- The first commit of a repo. -/
theorem first_length (hL : L.OK Z) {be : Backend} {w : World C R} {r : Ref} {o : RepoObj C R} {m : Key → Option C}
    (ho : w.heap[r]? = some o) (hhd : o.head = none) (hi : Inv L.env w.rd Z 0 nil o.mst m) (did : Did) (seq : Nat) (x : Luck) :
    (commitBody L be w r [] seq (some did) x).1.blocks.length ≤ w.blocks.length + 2 ∧
    ∀ cd, (commitBody L be w r [] seq (some did) x).2 = .ok cd → cd.blocks.length ≤ 2 := by
  refine commitBody_length fun o' w1 s did' prev so st cd ho' hbeg hs _ ha hc => ?_
  rw [ho] at ho'
  cases ho'
  unfold beginCommit at hbeg
  simp only [hhd, Prod.mk.injEq, Except.ok.injEq] at hbeg
  obtain ⟨rfl, rfl, rfl, rfl⟩ := hbeg
  rw [ho] at hs
  cases hs
  cases ha
  have := buildCommit_length (blocks := w.blocks) (st := ⟨o.mst, [], []⟩) (t := nil) hL hi (by simp) (new := [nil])
    (fun s hs _ => by simpa [nodes, kids] using hs) hc
  simpa using this

theorem commitTx_length {be : Backend} {r : Ref} {writes : List (Write R)} {seq : Nat}
    {repoDid : Option Did} {w : World C R} {N : Nat} {xs : List Luck}
    (hx : ∀ x ∈ xs, x.storeFails = false ∧ x.txFails = false)
    (h : ∀ x, (commitBody L be w r writes seq repoDid x).1.blocks.length ≤ w.blocks.length + N) :
    (commitTx L be r writes seq repoDid w xs).1.blocks.length ≤ w.blocks.length + N := by
  cases xs with
  | nil => exact Nat.le_add_right _ _
  | cons x xs =>
    have hf := (hx x (.head _)).2
    have hN := h x
    unfold commitTx
    split
    · rename_i hb; rw [hb] at hN
      rw [if_neg (by simp [hf])]
      exact hN
    · rename_i hb; rw [hb] at hN
      rw [if_neg (by simp [hf])]
      exact hN

theorem commit_length {be : Backend} {w : World C R} {r : Ref} {writes : List (Write R)}
    {repoDid : Option Did} {xs : List Luck} (cbFails : Bool) {N : Nat}
    (hx : ∀ x ∈ xs, x.storeFails = false ∧ x.txFails = false)
    (h : ∀ x, (commitBody L be w.alloc.2 r writes w.alloc.1 repoDid x).1.blocks.length ≤ w.blocks.length + N) :
    (commit L be w r writes repoDid xs cbFails).1.blocks.length ≤ w.blocks.length + N := by
  have h := commitTx_length (L := L) (w := w.alloc.2) hx h
  unfold commit
  simp only
  split
  · rename_i hb; rw [hb] at h; rw [logIf_blocks]; exact h
  · rename_i hb; rw [hb] at h
    split
    · rw [logIf_blocks, logIf_blocks]; exact h
    · rw [logIf_blocks]; exact h

theorem write_length (be : Backend) (w : World C R) (did : Did) (v : Val C R) (seq : Nat) :
    (write L be w did v seq).1.blocks.length ≤ w.blocks.length + 1 := by
  have hP := putBlocks_length (L := L) [(⟨v, seq, none, did⟩ : Block C R)] w.blocks
  unfold write
  cases be with
  | memory => exact hP
  | datastore =>
    simp only
    split
    · exact Nat.le_succ _
    · split
      · exact hP
      · split <;> exact hP

theorem writeEvent_length (be : Backend) (w : World C R) (r : Ref) (kind : EventKind C) (time : Nat) :
    (writeEvent L be w r kind time).1.blocks.length ≤ w.blocks.length + 1 := by
  unfold writeEvent
  simp only
  split
  · exact Nat.le_succ _
  · split
    · exact Nat.le_succ _
    · rename_i d _
      have h := write_length (L := L) be w.alloc.2 d (.event ⟨kind, w.alloc.1, d, time⟩) w.alloc.1
      split
      · rename_i hb; rw [hb] at h; exact h
      · rename_i hb; rw [hb] at h; rw [logIf_blocks]; exact h

theorem setStatusEvent_length (be : Backend) (w : World C R) (r : Ref) (s : Option Status)
    (kind : EventKind C) (time : Nat) :
    (setStatusEvent L be w r s kind time).1.blocks.length ≤ w.blocks.length + 1 := by
  unfold setStatusEvent
  have h := setRepoStatus_blocks be w r s
  split
  · rename_i hb; rw [hb] at h; dsimp only at h ⊢; rw [h]; exact Nat.le_succ _
  · rename_i w1 hb; rw [hb] at h
    have h2 := writeEvent_length (L := L) be w1 r kind time
    dsimp only at h
    rw [h] at h2
    split <;> (rename_i hc; rw [hc] at h2; exact h2)

theorem writeEvents_length (be : Backend) (r : Ref) (time : Nat) : ∀ (ks : List (EventKind C)) (w : World C R),
    (writeEvents L be r time w ks).1.blocks.length ≤ w.blocks.length + ks.length
  | [], w => Nat.le_refl _
  | k :: ks, w => by
    unfold writeEvents
    have h := writeEvent_length (L := L) be w r k time
    split
    · rename_i hb; rw [hb] at h; simp only [List.length_cons]; dsimp only at h; omega
    · rename_i w' _ hb; rw [hb] at h
      have := writeEvents_length be r time ks w'
      simp only [List.length_cons]; dsimp only at h; omega

theorem repoCreate_length (hL : L.OK Z) (be : Backend) (w : World C R) (did : Did) (handle : Option Key) (key : Nat)
    (callback : Bool) (time : Nat) {xs : List Luck} (cbFails : Bool)
    (hx : ∀ x ∈ xs, x.storeFails = false ∧ x.txFails = false) :
    (repoCreate L be w did handle key callback time xs cbFails).1.blocks.length ≤ w.blocks.length + 5 := by
  obtain ⟨root, hroot, hinv⟩ := create_root hL w.rd
  unfold repoCreate
  rw [hroot]
  simp only
  generalize ho : (⟨root, none, handle, none, key, callback⟩ : RepoObj C R) = o
  have hr : (w.newObj o).2.alloc.2.heap[(w.newObj o).1]? = some o := by
    show (w.heap ++ [o])[w.heap.length]? = some o
    simp
  have h := commit_length (L := L) (be := be) (w := (w.newObj o).2) (r := (w.newObj o).1) (writes := [])
    (repoDid := some did) (N := 2) cbFails hx
    (fun x => (first_length hL hr (by subst ho; rfl) (m := fun _ => none) (by subst ho; exact hinv) did _ x).1)
  rw [show (w.newObj o).2.blocks = w.blocks from rfl] at h
  split
  · rename_i hb; rw [hb] at h; dsimp only at h; exact le_trans h (by omega)
  · rename_i w' cd hb; rw [hb] at h; dsimp only at h
    split
    · rename_i co _
      have h2 := writeEvents_length (L := L) be (w.newObj o).1 time
        [.identity handle, .account true none, .sync (L.hash cd.commit.val) co.rev] w'
      simp only [List.length_cons, List.length_nil] at h2
      split
      · rename_i hc; rw [hc] at h2; dsimp only at h2; exact le_trans h2 (by omega)
      · rename_i w2 hc; rw [hc] at h2; dsimp only at h2
        have h3 := createRepo_blocks (L := L) be w2 (w.newObj o).1
        split
        · rename_i hd; rw [hd] at h3; dsimp only at h3
          rw [← h3] at h2
          exact le_trans h2 (by omega)
        · rename_i hd; rw [hd] at h3; dsimp only at h3
          rw [logIf_blocks, h3]; omega
    · exact le_trans h (by omega)

/-- How many blocks one call adds to the store. -/
theorem Step.length (hL : L.OK Z) {be : Backend} {al : Allow} (hp : ¬ al.partway) {w w' : World C R}
    (hw : WorldOK L Z w) (h : Step L be al w w') :
    w'.blocks.length ≤ w.blocks.length + commitCost Z maxOps ∨
      al.imports ∧ Makes L (fun x => x.seq = 0 ∧ x.ops = none) w.blocks w'.blocks := by
  have h5 : 5 ≤ commitCost Z maxOps := by unfold commitCost maxOps; omega
  have hs : ∀ r s kind time, (setStatusEvent L be w r s kind time).1.blocks.length ≤ w.blocks.length + commitCost Z maxOps :=
    fun r s kind time => le_trans (setStatusEvent_length be w r s kind time) (by omega)
  have heq : ∀ {a : List (C × Block C R)}, a = w.blocks → a.length ≤ w.blocks.length + commitCost Z maxOps := by
    rintro _ rfl; exact Nat.le_add_right _ _
  cases h with
  | «import» co handle key new hi hnew =>
    refine .inr ⟨hi, new.map fun x => ⟨x.2, 0, none, co.did⟩, ?_, ?_⟩
    · intro x hx
      obtain ⟨y, _, rfl⟩ := List.mem_map.1 hx
      exact ⟨rfl, rfl⟩
    · rw [← importBlocks_put hnew.cids]
      exact createRepo_blocks (L := L) be _ _
  | create did handle key callback time xs cbFails _ _ hx =>
    exact .inl (le_trans (repoCreate_length hL be w did handle key callback time cbFails (hx.resolve_left hp)) (by omega))
  | commit r writes xs cbFails ha =>
    left
    by_cases hlen : writes.length ≤ maxOps
    · refine le_trans (commit_length cbFails (ha.partway.resolve_left hp) fun x => ?_)
        (Nat.add_le_add_left (commitCost_mono hlen) _)
      have hc := hw.alloc.1.core
      rw [hw.alloc.2.2.1, ← hw.alloc.2.1] at hc
      exact (body_length hL hc r writes x).1
    · refine commit_length cbFails (ha.partway.resolve_left hp) fun x => ?_
      exact (commitBody_length fun _ _ _ _ _ _ _ _ _ _ _ h _ _ => absurd h hlen).1
  | allocate h => exact absurd h hp
  | setStatus _ _ h => exact absurd h hp
  | importBlocks _ _ _ h => exact absurd h hp
  | setCallback => exact .inl (heq (modObj_blocks _ _ _))
  | deactivate => exact .inl (hs _ _ _ _)
  | activate => exact .inl (hs _ _ _ _)
  | tombstone => exact .inl (hs _ _ _ _)
  | event r kind time => exact .inl (le_trans (writeEvent_length be w r kind time) (by omega))
  | loadRepo => exact .inl (heq (loadRepo_blocks _ _ _))
  | repoLoad => exact .inl (heq (repoLoad_blocks _ _ _ _ _ _))
  | cache => exact .inl (heq rfl)

end

end Arroba.Store
