import Verif.Storage.GrowProofs
import Verif.Storage.PlainReach

/-! Helper lemmas: the commits that an API call stores. -/

namespace Arroba.Store

variable {C R : Type} [DecidableEq C]

open Arroba.Tree

/-- No commit has been stored. -/
def NoCommits (a b : List (C × Block C R)) : Prop :=
  ∀ c x co, dictGet b c = some x → x.val = .commit co → dictGet a c = some x

/-- The commits that an API call stores: none, and the heads are what they were; or one, which is then a head. -/
inductive Added (L : Lib C R) (be : Backend) (w w' : World C R) : Prop
  | none (hb : NoCommits w.blocks w'.blocks) (hh : ∀ d, headOf L be w' d = headOf L be w d)
  | one (b : Block C R) (co : Commit C) (hv : b.val = .commit co) (hs : w.last < b.seq)
      (hr : dictGet w'.blocks (L.hash b.val) = some b)
      (hb : ∀ c x co', dictGet w'.blocks c = some x → x.val = .commit co' → dictGet w.blocks c = some x ∨ x = b)
      (hp : co.prev = .none ∨ co.prev = headOf L be w co.did)
      (hh : ∀ d, headOf L be w' d = if d = co.did then some (L.hash b.val) else headOf L be w d)

section
variable {L : Lib C R} {Z : Nat} {be : Backend} {w : World C R}

theorem NoCommits.refl (a : List (C × Block C R)) : NoCommits a a := fun _ _ _ h _ => h

theorem NoCommits.trans {a b c : List (C × Block C R)} (h : NoCommits a b) (h' : NoCommits b c) : NoCommits a c :=
  fun x y co hx hv => h x y co (h' x y co hx hv) hv

theorem NoCommits.of_eq {a b : List (C × Block C R)} (h : b = a) : NoCommits a b := h ▸ .refl _

theorem noCommits_putEvent (blocks : List (C × Block C R)) (e : Event C) (n : Nat) (d : Did) :
    NoCommits blocks (putBlocks L blocks [⟨.event e, n, none, d⟩]) := by
  intro c x co hx hv
  rcases putBlocks_get _ _ hx with h | ⟨_, h, _⟩
  · exact h
  · simp only [List.mem_singleton] at h
    subst h
    cases hv

theorem writeEvent_noCommits (r : Ref) (kind : EventKind C) (time : Nat) :
    NoCommits w.blocks (writeEvent L be w r kind time).1.blocks := by
  unfold writeEvent
  dsimp only
  cases w.heap[r]? with
  | none => exact .refl _
  | some o =>
    dsimp only
    cases o.did with
    | none => exact .refl _
    | some d =>
      dsimp only
      have hput : NoCommits w.blocks (dictSetDefault w.blocks (L.hash (.event ⟨kind, w.alloc.1, d, time⟩))
          (⟨.event ⟨kind, w.alloc.1, d, time⟩, w.alloc.1, none, d⟩ : Block C R)) :=
        noCommits_putEvent (L := L) w.blocks ⟨kind, w.alloc.1, d, time⟩ w.alloc.1 d
      unfold write
      cases be with
      | memory => dsimp only; rw [logIf_blocks]; exact hput
      | datastore =>
        dsimp only
        by_cases h0 : w.alloc.1 = 0
        · rw [if_pos h0]; exact .refl _
        · rw [if_neg h0]
          split
          · rename_i he
            split at he
            · cases he; exact hput
            · split at he
              · cases he
              · cases he; exact hput
          · rename_i he
            rw [logIf_blocks]
            split at he
            · cases he
            · split at he
              · cases he; exact hput
              · cases he

theorem writeEvents_noCommits (r : Ref) (time : Nat) : ∀ (ks : List (EventKind C)) (w : World C R),
    NoCommits w.blocks (writeEvents L be r time w ks).1.blocks
  | [], w => .refl _
  | k :: ks, w => by
    unfold writeEvents
    have h := writeEvent_noCommits (L := L) (be := be) (w := w) r k time
    rcases he : writeEvent L be w r k time with ⟨w1, res⟩
    rw [he] at h
    cases res with
    | error e => exact h
    | ok u => exact h.trans (writeEvents_noCommits r time ks w1)

/-- What `commit` stores, if nothing goes wrong after blocks have been written. -/
theorem commit_added (hL : L.OK Z) (hw : PWorld L Z be w) {r : Ref} {repoDid : Option Did}
    (hm : ∀ d, repoDid = some d → isDid d ∧ ∀ d', (d', r) ∉ w.repos)
    (writes : List (Write R)) (xs : List Luck) (cbFails : Bool)
    (hx : ∀ x ∈ xs, x.storeFails = false ∧ x.txFails = false) :
    ∃ w' res, commit L be w r writes repoDid xs cbFails = (w', res) ∧
      (((∃ e, res = .error e) ∧ w'.blocks = w.blocks ∧ ∀ d', headOf L be w' d' = headOf L be w d') ∨
      ∃ cd did prev co w1, (res = .ok cd ∨ cbFails = true) ∧ SameButLog w1 w' ∧
        PDone L Z be (w.last + 1) w.alloc.2 r repoDid w1 cd did prev co) := by
  obtain ⟨a1, a2, a3, a4⟩ := hw.alloc
  have htx := tx_plain hL writes (Nat.lt_succ_self w.last) xs a3 hm
  unfold Store.commit
  simp only
  rw [a1]
  rcases hc : commitTx L be r writes (w.last + 1) repoDid w.alloc.2 xs with ⟨w1, res⟩
  rw [show w.last.succ = w.last + 1 from rfl, hc] at htx
  cases res with
  | error e =>
    obtain ⟨h1, h2, h3, h4, h5, h6, h7, h8⟩ := htx
    refine ⟨_, _, rfl, .inl ⟨⟨e, rfl⟩, (logIf_blocks _ _ _).trans (h8 hx), fun d => ?_⟩⟩
    exact (headOf_log (logIf_same _ _ _) d).trans (h6 d)
  | ok cd =>
    obtain ⟨h0, h1, wk, did, prev, co, h2, h3, h4, h5, h6, h7, h8, h9, h10⟩ := htx
    have := h10 hx
    subst this
    dsimp only
    by_cases hcb : ((((w.heap[r]?).map (·.callback)).getD false) && cbFails) = true
    · rw [if_pos hcb]
      simp only [Bool.and_eq_true] at hcb
      exact ⟨_, _, rfl, .inr ⟨cd, did, prev, co, w1, .inr hcb.2,
        (logIf_same _ _ _).trans (logIf_same _ _ _), h9⟩⟩
    · rw [if_neg hcb]
      exact ⟨_, _, rfl, .inr ⟨cd, did, prev, co, w1, .inl rfl, logIf_same _ _ _, h9⟩⟩

/-- The new commit of a successful `_commit`. -/
theorem PDone.commits (hw : PWorld L Z be w) {r : Ref} {repoDid : Option Did} {w1 : World C R}
    {cd : CommitData C R} {did : Did} {prev : Option C} {co : Commit C}
    (h : PDone L Z be (w.last + 1) w.alloc.2 r repoDid w1 cd did prev co) :
    cd.commit.val = .commit co ∧ cd.commit.seq = w.last + 1 ∧ co.did = did ∧ co.prev = prev ∧
    dictGet w1.blocks (L.hash cd.commit.val) = some cd.commit ∧
    ∀ c x co', dictGet w1.blocks c = some x → x.val = .commit co' → dictGet w.blocks c = some x ∨ x = cd.commit := by
  obtain ⟨key, nonce, n, hb⟩ := h.built
  obtain ⟨ops, hcd⟩ := hb.commit
  refine ⟨by rw [hcd], by rw [hcd], hb.codid, hb.coprev, ?_, ?_⟩
  · rw [h.blocks]
    exact hb.stored fun c b hb => Nat.lt_succ_of_le (hw.core.blocks.seqs c b hb)
  · intro c x co' hx hv
    rw [h.blocks] at hx
    rcases hb.newMarker hx with k | ⟨_, _, k⟩
    · exact .inl k
    · exact .inr (k (by unfold Block.marker; rw [hv]; trivial)).1

theorem setStatusEvent_noCommits (r : Ref) (s : Option Status) (kind : EventKind C) (time : Nat)
    (hw : PWorld L Z be w) : NoCommits w.blocks (setStatusEvent L be w r s kind time).1.blocks := by
  obtain ⟨_, h2, _⟩ := status_plain hw r s
  unfold setStatusEvent
  rcases hs : setRepoStatus be w r s with ⟨w1, res⟩
  rw [hs] at h2
  cases res with
  | error e => exact .of_eq h2
  | ok u =>
    have h := writeEvent_noCommits (L := L) (be := be) (w := w1) r kind time
    rw [h2] at h
    dsimp only
    rcases he : writeEvent L be w1 r kind time with ⟨w2, res2⟩
    rw [he] at h
    cases res2 <;> exact h

theorem setStatus_heads (hL : L.OK Z) (hw : PWorld L Z be w) (r : Ref) (s : Option Status) (kind : EventKind C)
    (time : Nat) (d : Did) : headOf L be (setStatusEvent L be w r s kind time).1 d = headOf L be w d := by
  obtain ⟨h1, _, _, _, _, _, h7, _⟩ := status_plain hw r s
  unfold setStatusEvent
  rcases hs : setRepoStatus be w r s with ⟨w1, res⟩
  rw [hs] at h1 h7
  cases res with
  | error e => exact h7 d
  | ok u =>
    have h := (event_any hL h1 r kind time).2.headOf (L := L) (be := be) d
    dsimp only
    rcases he : writeEvent L be w1 r kind time with ⟨w2, res2⟩
    rw [he] at h
    cases res2 <;> exact h.trans (h7 d)

theorem repoLoad_heads (hw : PWorld L Z be w) (c : C) (handle : Option Key) (status : Option Status) (key : Nat)
    (callback : Bool) (d : Did) : headOf L be (repoLoad w c handle status key callback).1 d = headOf L be w d := by
  unfold repoLoad
  split
  · rfl
  · exact headOf_newObj hw _ d

theorem loadRepo_heads (hw : PWorld L Z be w) (q : Key) (d : Did) :
    headOf L be (loadRepo be w q).1 d = headOf L be w d := by
  unfold loadRepo
  split
  · rfl
  · cases be with
    | memory => rfl
    | datastore =>
      dsimp only
      split
      · rfl
      · rename_i row _
        have := repoLoad_heads hw row.head row.handle row.status row.key false d
        split <;> (rename_i h; rw [h] at this; exact this)

theorem create_added (hL : L.OK Z) (hw : PWorld L Z be w) {did : Did}
    {handle : Option Key} {key : Nat} {callback : Bool} {time : Nat} {xs : List Luck}
    (hd : isDid did) (hh : ∀ h, handle = some h → ¬ isDid h)
    (hx : ∀ x ∈ xs, x.storeFails = false ∧ x.txFails = false) :
    Added L be w (repoCreate L be w did handle key callback time xs false).1 := by
  obtain ⟨root, hroot, hinv⟩ := create_root hL w.rd
  unfold repoCreate
  rw [hroot]
  dsimp only
  set o0 : RepoObj C R := ⟨root, none, handle, none, key, callback⟩ with ho0
  set w0 : World C R := (w.newObj o0).2 with hw0
  have hn : (w.newObj o0).1 = w.heap.length := rfl
  rw [hn]
  have hw0ok : PWorld L Z be w0 := hw.same rfl
    (hw.core.newObj ⟨⟨0, nil, _, hinv⟩, fun b hb => (by cases hb), hh⟩ (fun _ b hb => by cases hb))
  have hnot : ∀ d', (d', w.heap.length) ∉ w0.repos := by
    intro d' h
    obtain ⟨_, o, g, _⟩ := hw.core.repos d' _ h
    have := lt_of_get g
    omega
  have hhead0 : ∀ d', headOf L be w0 d' = headOf L be w d' := fun d' => headOf_newObj hw o0 d'
  obtain ⟨w', res, h1, h2⟩ := commit_added hL hw0ok
    (r := w.heap.length) (repoDid := some did) (fun d h => by cases h; exact ⟨hd, hnot⟩) []
    xs false hx
  obtain ⟨v1, v', res', g1, g2, g3, g4, g5, g6, g7, g8⟩ := commit_plain hL hw0ok
    (r := w.heap.length) (repoDid := some did) (fun d h => by cases h; exact ⟨hd, hnot⟩) []
    xs false
  rw [g1] at h1
  obtain ⟨rfl, rfl⟩ := Prod.mk.inj h1
  have hlen : v'.heap.length = w.heap.length + 1 := by rw [g2.heap, g4]; simp [hw0, World.newObj]
  rw [g1]
  rcases h2 with ⟨⟨e, rfl⟩, h3, h4⟩ | ⟨cd, did', prev, co, w1, h3, h4, h5⟩
  · dsimp only
    refine .none (.of_eq h3) fun d => ?_
    have hrep : v'.repos = w.repos := by
      rcases g8 with ⟨_, _, k, _⟩ | ⟨cd, wk, did', prev, co, k0, _, k1, k2, _, _, _, _, k3⟩
      · obtain ⟨l, rfl⟩ := g2; exact k
      · obtain ⟨_, _, _, j, _⟩ := k3.heads
        obtain ⟨l, rfl⟩ := g2
        exact j.trans k2
    refine Eq.trans ?_ ((h4 d).trans (hhead0 d))
    cases be with
    | datastore => rfl
    | memory =>
      simp only [Store.headOf]
      rw [show (v'.collect w).repos = v'.repos from rfl]
      cases hg : dictGet v'.repos d with
      | none => rfl
      | some i =>
        dsimp only
        obtain ⟨_, o, g2, _⟩ := hw.core.repos d i (hrep ▸ dictGet_mem hg)
        rw [collect_get (lt_of_get g2)]
  · have hr : res' = .ok cd := by
      rcases h3 with h | h
      · exact h
      · cases h
    subst hr
    obtain ⟨c1, c2, c3, c4, c5, c6⟩ := h5.commits hw0ok
    obtain ⟨j1, j2, _, _, j5⟩ := h5.heads
    obtain ⟨o', k1, k2, _⟩ := h5.obj
    dsimp only
    rw [c1]
    dsimp only
    have hget' : v'.heap[w.heap.length]? = some o' := by rw [h4.heap]; exact k1
    obtain ⟨w2, f1, f2, f3, f4⟩ := writeEvents_plain hL (al := .all) (be := be)
      (did_eq k2 c1) time [.identity handle, .account true none, .sync (L.hash (.commit co)) co.rev]
      (g2.pworld g3) hget'
    have hev := writeEvents_noCommits (L := L) (be := be) w.heap.length time
      [.identity handle, .account true none, .sync (L.hash (.commit co)) co.rev] v'
    have hpu : Grows v'.blocks w2.blocks := by
      have := (writeEvents_puts (L := L) be w.heap.length time
        [.identity handle, .account true none, .sync (L.hash (.commit co)) co.rev] v').grows
      rw [f1] at this; exact this
    rw [f1] at hev ⊢
    dsimp only at hev ⊢
    obtain ⟨w3, e1, e2, e3, e4, e5, e6, e7⟩ := createRepo_plain (be := be) f2
      (r := w.heap.length) (o := o') (b := cd.commit) (by rw [f3.1]; exact hget') k2 c1
    rw [e1]
    dsimp only
    have hbl : v'.blocks = w1.blocks := by obtain ⟨l, rfl⟩ := h4; rfl
    refine .one cd.commit co c1 (by rw [c2]; exact Nat.lt_succ_self _) ?_ ?_ (.inl (by rw [c4, j2])) ?_
    · rw [logIf_blocks, e4]
      exact hpu _ _ (by rw [hbl]; exact c5)
    · intro c x co' hx hv
      rw [logIf_blocks, e4] at hx
      have := hev c x co' hx hv
      rw [hbl] at this
      exact c6 c x co' this hv
    · intro d'
      have : headOf L be (w3.logIf callback (.commit (L.hash (.commit co)) cd.commit.seq)) d' =
          headOf L be w3 d' := headOf_log (logIf_same _ _ _) d'
      rw [this, e7 d', f3.headOf, headOf_log h4, j5]
      rw [show headOf L be w0.alloc.2 d' = headOf L be w0 d' from rfl, hhead0]

/-- **What an API call stores.** -/
theorem Step.added (hL : L.OK Z) {al : Allow} (hp : ¬ al.partway) (hra : ¬ al.raising) (hi : ¬ al.imports)
    {w' : World C R}
    (hw : PWorld L Z be w) (h : Step L be al w w') : Added L be w w' := by
  have hpl := h.plain hL hw
  cases h with
  | create did handle key callback time xs cbFails hd hh hp' hs hr =>
    have := hr.resolve_left hra
    subst this
    exact create_added hL hw hd hh (hp'.resolve_left hp)
  | commit r writes xs cbFails ha =>
    obtain ⟨w', res, h1, h2⟩ := commit_added hL hw (r := r)
      (repoDid := none) (fun d hd => by cases hd) writes xs cbFails (ha.partway.resolve_left hp)
    rw [h1]
    rcases h2 with ⟨_, h3, h4⟩ | ⟨cd, did', prev, co, w1, _, h4, h5⟩
    · exact .none (.of_eq h3) h4
    · obtain ⟨c1, c2, c3, c4, c5, c6⟩ := h5.commits hw
      have hbl : w'.blocks = w1.blocks := by obtain ⟨l, rfl⟩ := h4; rfl
      obtain ⟨_, j2, j3, j4⟩ := h5.heads
      refine .one cd.commit co c1 (by rw [c2]; exact Nat.lt_succ_self _) (by rw [hbl]; exact c5) ?_
        (.inr ?_) ?_
      · intro c x co' hx hv
        rw [hbl] at hx
        exact c6 c x co' hx hv
      · rw [c4, c3, ← j2]; rfl
      · intro d
        rw [headOf_log h4, c3]
        by_cases hd : d = did'
        · rw [if_pos hd, hd, j3]
        · rw [if_neg hd, j4 d hd]; rfl
  | allocate hp' => exact absurd hp' hp
  | setStatus r s hp' => exact absurd hp' hp
  | importBlocks did new hi' _ _ _ => exact absurd hi' hi
  | setCallback r b =>
    have hb : (w.modObj r (fun o => { o with callback := b })).blocks = w.blocks := modObj_blocks _ _ _
    refine .none (.of_eq hb) fun d => ?_
    unfold World.modObj
    cases ho : w.heap[r]? with
    | none => rfl
    | some o => exact headOf_sameHead (o' := { o with callback := b }) ho rfl d
  | deactivate r time =>
    refine .none (setStatusEvent_noCommits r _ _ time hw) fun d => ?_
    exact setStatus_heads hL hw r _ _ time d
  | activate r time =>
    refine .none (setStatusEvent_noCommits r _ _ time hw) fun d => ?_
    exact setStatus_heads hL hw r _ _ time d
  | tombstone r time =>
    refine .none (setStatusEvent_noCommits r _ _ time hw) fun d => ?_
    exact setStatus_heads hL hw r _ _ time d
  | event r kind time hr =>
    exact .none (writeEvent_noCommits r kind time) fun d => (event_any hL hw r kind time).2.headOf d
  | loadRepo q =>
    exact .none (.of_eq (loadRepo_blocks be w q)) fun d => loadRepo_heads hw q d
  | repoLoad c handle status key callback hh =>
    exact .none (.of_eq (repoLoad_blocks _ _ _ _ _ _)) fun d => repoLoad_heads hw c _ _ _ _ d
  | cache r o n ho hn => exact .none (.refl _) fun d => headOf_sameHead (o' := { o with mst := n }) ho rfl d
  | «import» _ _ _ _ hi' => exact absurd hi' hi

end

end Arroba.Store
