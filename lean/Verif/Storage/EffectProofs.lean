import Verif.Storage.CommitProofs

/-! Helper lemmas: what each API call does to the stored repos. -/

namespace Arroba.Store

variable {C R : Type} [DecidableEq C]

open Arroba.Tree

section
variable {L : Lib C R} {Z : Nat}

/-- With the Datastore no execution is torn. -/
theorem Reach.datastore {al : Allow} {w : World C R} (h : Reach L .datastore al w) :
    Reach L .datastore { al with torn := False } w := by
  induction h with
  | empty => exact .empty
  | step _ h ih =>
    refine .step ih ?_
    cases h with
    | create did handle key callback time xs cbFails hd hh hp hs hr =>
      exact .create _ _ _ _ _ _ _ hd hh hp hs hr
    | commit r writes xs cbFails h =>
      exact .commit _ _ _ _ ⟨.inr (.inl rfl), h.partway, h.silent, h.raising⟩
    | allocate hp => exact .allocate hp
    | setStatus r s hp => exact .setStatus r s hp
    | importBlocks did new hi hp hnew ha => exact .importBlocks did new hi hp hnew ha
    | setCallback r b => exact .setCallback r b
    | deactivate r t => exact .deactivate r t
    | activate r t => exact .activate r t
    | tombstone r t => exact .tombstone r t
    | event r k t hr => exact .event r k t hr
    | loadRepo q => exact .loadRepo q
    | repoLoad c ha st k cb hh => exact .repoLoad c ha st k cb hh
    | cache r o n ho hn => exact .cache r o n ho hn
    | «import» co h k new hi hnew hhead hno hh ha hnat => exact .import co h k new hi hnew hhead hno hh ha hnat

/-- Nothing but the heads of one repo changes. -/
inductive Effect (L : Lib C R) (be : Backend) (al : Allow) (w w' : World C R) : Prop
  | none (h : ∀ d, headOf L be w' d = headOf L be w d)
  | create (d : Did) (hd : isDid d) (b : Block C R) (co : Commit C) (hb : b.val = .commit co)
      (hp : co.prev = none)
      (h : ∀ d', headOf L be w' d' = if d' = d then some (L.hash b.val) else headOf L be w d')
      (hs : Shows L be w' d (fun _ => none))
  | commit (d : Did) (hd : isDid d) (m m' : Key → Option R) (writes : List (Write R))
      (b : Block C R) (co : Commit C) (hb : b.val = .commit co) (hp : co.prev = headOf L be w d)
      (hp' : co.prev ≠ none)
      (h : ∀ d', headOf L be w' d' = if d' = d then some (L.hash b.val) else headOf L be w d')
      (hm : Shows L be w d m) (hw : specWrites L m writes = .ok m') (hm' : Shows L be w' d m')
  | import (d : Did) (hd : isDid d) (hi : al.imports) (c : C)
      (h : ∀ d', headOf L be w' d' = if d' = d then some c else headOf L be w d')
      (hno : headOf L be w d = .none) (m : Key → Option R) (hm : Shows L be w' d m)

theorem headOf_setObj {be : Backend} {w : World C R} {r : Ref} {o o' : RepoObj C R}
    (ho : w.heap[r]? = some o) (hh : o'.head = o.head) (d : Did) :
    headOf L be (w.setObj r o') d = headOf L be w d := by
  unfold headOf
  cases be with
  | memory =>
    simp only [World.setObj]
    cases dictGet w.repos d with
    | none => rfl
    | some s =>
      simp only
      have := heap_setObj w r o' s
      simp only [World.setObj] at this
      rw [this]
      split
      · rename_i h; subst h; rw [ho]; simp [hh]
      · rfl
  | datastore => rfl

theorem headOf_append {be : Backend} {seq : Nat} {w w' : World C R} (hw : Core L Z seq w)
    (hr : w'.repos = w.repos) (hrow : w'.rows = w.rows)
    (hh : ∀ i : Nat, i < w.heap.length → w'.heap[i]? = w.heap[i]?) (d : Did) :
    headOf L be w' d = headOf L be w d := by
  unfold headOf
  cases be with
  | memory =>
    simp only [hr]
    cases hd : dictGet w.repos d with
    | none => rfl
    | some s =>
      simp only
      rw [hh s (repos_lt hw (dictGet_mem hd))]
  | datastore => simp only [hrow]

theorem event_effect (hL : L.OK Z) {be : Backend} {w : World C R} (hw : WorldOK L Z w)
    (r : Ref) (kind : EventKind C) (time : Nat) :
    Grows w.blocks (writeEvent L be w r kind time).1.blocks ∧
      (writeEvent L be w r kind time).1.heap = w.heap ∧
      (writeEvent L be w r kind time).1.rows = w.rows ∧
      (writeEvent L be w r kind time).1.repos = w.repos := by
  cases ho : w.heap[r]? with
  | none =>
    have : writeEvent L be w r kind time = (w.alloc.2, .error .attribute) := by
      unfold writeEvent; simp only [ho]
    rw [this]
    exact ⟨.refl _, rfl, rfl, rfl⟩
  | some o =>
    cases hd : o.did with
    | none =>
      have : writeEvent L be w r kind time = (w.alloc.2, .error .attribute) := by
        unfold writeEvent; simp only [ho, hd]
      rw [this]
      exact ⟨.refl _, rfl, rfl, rfl⟩
    | some d =>
      obtain ⟨e, _, _, h3, _⟩ := event_spec hL be hw ho hd kind time
      rw [h3, logIf_with]
      exact ⟨putBlocks_grows _ _, rfl, rfl, rfl⟩

theorem setRepoStatus_effect {be : Backend} {w : World C R} (r : Ref) (s : Option Status) :
    (setRepoStatus be w r s).1.blocks = w.blocks ∧
      ∀ d, headOf L be (setRepoStatus be w r s).1 d = headOf L be w d := by
  unfold setRepoStatus
  cases ho : w.heap[r]? with
  | none => exact ⟨rfl, fun _ => rfl⟩
  | some o =>
    simp only
    have h1 := headOf_setObj (L := L) (be := be) (o' := { o with status := s }) ho rfl
    cases be with
    | memory => exact ⟨rfl, h1⟩
    | datastore =>
      simp only
      cases o.did with
      | none => exact ⟨rfl, h1⟩
      | some d =>
        simp only
        cases hr : dictGet (w.setObj r { o with status := s }).rows d with
        | none => exact ⟨rfl, h1⟩
        | some row =>
          refine ⟨rfl, fun d' => ?_⟩
          rw [← h1 d']
          unfold headOf
          simp only [dictGet_dictSet]
          split
          · rename_i h; subst h; rw [hr]; rfl
          · rfl

theorem setStatusEvent_effect (hL : L.OK Z) {be : Backend} {w : World C R} (hw : WorldOK L Z w)
    (hl : Live w) (r : Ref) (s : Option Status) (kind : EventKind C) (time : Nat) :
    Grows w.blocks (setStatusEvent L be w r s kind time).1.blocks ∧
      ∀ d, headOf L be (setStatusEvent L be w r s kind time).1 d = headOf L be w d := by
  unfold setStatusEvent
  have h1 := setRepoStatus_ok (be := be) hw hl r s
  have h2 := setRepoStatus_effect (L := L) (be := be) (w := w) r s
  cases hs : setRepoStatus be w r s with
  | mk w1 res =>
    rw [hs] at h1 h2
    cases res with
    | error e => exact ⟨by rw [h2.1]; exact .refl _, h2.2⟩
    | ok u =>
      simp only at h1 h2 ⊢
      obtain ⟨g1, g2, g3, g4⟩ := event_effect hL (be := be) h1.1 r kind time
      have g5 : ∀ d, headOf L be (writeEvent L be w1 r kind time).1 d = headOf L be w d := by
        intro d
        rw [headOf_append h1.1.core g4 g3 (fun i _ => by rw [g2]) d, h2.2 d]
      cases he : writeEvent L be w1 r kind time with
      | mk w2 res2 =>
        rw [he] at g1 g5
        rw [h2.1] at g1
        cases res2 <;> exact ⟨g1, g5⟩

theorem repoLoad_heap (w : World C R) (c : C) (handle : Option Key) (status : Option Status)
    (key : Nat) (callback : Bool) : ∃ tl, (repoLoad w c handle status key callback).1 =
      { w with heap := w.heap ++ tl } := by
  unfold repoLoad
  split
  · exact ⟨[], by simp⟩
  · exact ⟨_, rfl⟩

theorem loadRepo_heap (be : Backend) (w : World C R) (q : Key) :
    ∃ tl, (loadRepo be w q).1 = { w with heap := w.heap ++ tl } := by
  unfold loadRepo
  split
  · exact ⟨[], by simp⟩
  · cases be with
    | memory => exact ⟨[], by simp⟩
    | datastore =>
      simp only
      cases findRow w q with
      | none => exact ⟨[], by simp⟩
      | some row =>
        simp only
        obtain ⟨tl, h⟩ := repoLoad_heap w row.head row.handle row.status row.key false
        cases hr : repoLoad w row.head row.handle row.status row.key false with
        | mk w1 res =>
          rw [hr] at h
          cases res <;> exact ⟨tl, h⟩

theorem commit_effect (hL : L.OK Z) {be : Backend} {al : Allow} {w : World C R} (hw : WorldOK L Z w)
    (r : Ref) (writes : List (Write R)) (xs : List Luck) (cbFails : Bool) :
    Grows w.blocks (commit L be w r writes none xs cbFails).1.blocks ∧
      Effect L be al w (commit L be w r writes none xs cbFails).1 := by
  rcases commit_cases hL (be := be) hw r writes xs cbFails with
    ⟨e, w', w1, wk, h1, ⟨l, h2⟩, h3, h4, h5, _⟩ |
    ⟨w', w1, wk, x, did, m, m', s, n, cd, co, h1, h2, h3, h4, h5, h6, _⟩
  · rw [h1]
    simp only
    rcases h5 with h5 | h5
    · have e1 := h5.eq
      refine ⟨by rw [h2, e1]; exact h4.grows, .none fun d => ?_⟩
      have hh : headOf L be w' d = headOf L be w1 d := by rw [h2]; rfl
      rw [hh, ← show headOf L be w.alloc.2 d = headOf L be w d from rfl, ← h4.headOf d]
      rcases h5.heap with h6 | ⟨rfl, s, so, n, h6, h7⟩
      · rw [e1, h6]
      · have : w1 = wk.setObj s { so with mst := n } := by rw [e1, h7]; rfl
        rw [this]
        exact headOf_setObj (o' := { so with mst := n }) h6 rfl d
    · refine ⟨by rw [h2]; exact h4.grows.trans h5.grows, .none fun d => ?_⟩
      rw [← show headOf L be w.alloc.2 d = headOf L be w d from rfl, ← h4.headOf d, h2, h5.eq]
      rfl
  · rw [h1]
    have hd := h6.isDid h4.core
    have hc1 := h6.core h4.core
    obtain ⟨_, so, b, g1, g2, _, _, g3, _, hb, _⟩ := h6.stored
    refine ⟨?_, .commit did hd m m' writes cd.commit co (by rw [hb.commit]) ?_ ?_ ?_ ?_ h6.spec ?_⟩
    · have := h4.grows.trans h6.grows
      obtain ⟨l, rfl⟩ := h2; exact this
    · rw [hb.coprev, ← show headOf L be w.alloc.2 did = headOf L be w did from rfl, ← h4.headOf did,
        ← readHead_eq hL h4.core hd]
      unfold readHead
      rw [g1]
      simp [g2, g3]
    · rw [hb.coprev]; simp
    · intro d'
      rw [headOf_log h2, h6.headOf h4.core, h4.headOf]
      rfl
    · exact (h4.shows hL hw hd m).1 (h6.before hL h4.core)
    · exact (shows_log hL hc1 h2 hd m').2 (h6.after hL h4.core)

/-- A repo that is not found has no head. -/
theorem headOf_of_none (hL : L.OK Z) {be : Backend} {seq : Nat} {w : World C R} (hw : Core L Z seq w) {d : Did}
    (hd : isDid d) (h : (Store.loadRepo be w d).2 = .ok none) : headOf L be w d = none := by
  rw [← readHead_eq hL hw hd]
  unfold readHead
  split
  · rename_i heq; rw [heq] at h; cases h
  · rfl

theorem Step.effect (hL : L.OK Z) {be : Backend} {al : Allow} {w w' : World C R}
    (hw : WorldOK L Z w) (hl : Live w) (h : Step L be al w w') :
    Grows w.blocks w'.blocks ∧ Effect L be al w w' := by
  cases h with
  | create did handle key callback time xs cbFails hd hh _ _ _ =>
    rcases repoCreate_spec hL (be := be) hw (did := did) (handle := handle) (key := key)
      (callback := callback) (time := time) (xs := xs) (cbFails := cbFails) hd hh with
      ⟨e, w', h1, h2, h3, h4, h5, h6, _⟩ | ⟨w', n, b, co, h1, h2, h3, h4, h5, h6, _, h7, h8, h9, _⟩
    · rw [h1]
      exact ⟨h6, .none fun d => headOf_append hw.core h5 h4 (fun i _ => by rw [h3]) d⟩
    · rw [h1]
      refine ⟨h9, .create did hd b co h4 h6 h8 ?_⟩
      rw [shows_iff hL h2.core hd, records_iff hL h2.core hd]
      obtain ⟨b', co', g1, g2, g3, g4⟩ := h7.root hL h2.core.blocks (b := b) rfl
      rw [h4] at g3
      cases g3
      exact ⟨_, b', co, by rw [h8, if_pos rfl], g1, g2, h5, g4⟩
  | commit r writes xs cbFails ha => exact commit_effect hL hw r writes xs cbFails
  | allocate _ => exact ⟨.refl _, .none fun _ => rfl⟩
  | setStatus r s _ =>
    have := setRepoStatus_effect (L := L) (be := be) (w := w) r s
    exact ⟨this.1 ▸ .refl _, .none this.2⟩
  | importBlocks did new _ _ _ _ => exact ⟨importBlocks_grows did new w.blocks, .none fun _ => rfl⟩
  | setCallback r b =>
    unfold World.modObj
    cases ho : w.heap[r]? with
    | none => exact ⟨.refl _, .none fun _ => rfl⟩
    | some o =>
      exact ⟨.refl _, .none (headOf_setObj (o' := { o with callback := b }) ho rfl)⟩
  | deactivate r time =>
    have := setStatusEvent_effect hL (be := be) hw hl r (some .deactivated)
      (.account false (some .deactivated)) time
    exact ⟨this.1, .none this.2⟩
  | activate r time =>
    have := setStatusEvent_effect hL (be := be) hw hl r none (.account true none) time
    exact ⟨this.1, .none this.2⟩
  | tombstone r time =>
    have := setStatusEvent_effect hL (be := be) hw hl r (some .tombstoned) .tombstone time
    exact ⟨this.1, .none this.2⟩
  | event r kind time _ =>
    obtain ⟨g1, g2, g3, g4⟩ := event_effect hL (be := be) hw r kind time
    exact ⟨g1, .none fun d => headOf_append hw.core g4 g3 (fun i _ => by rw [g2]) d⟩
  | loadRepo q =>
    obtain ⟨tl, h⟩ := loadRepo_heap be w q
    rw [h]
    exact ⟨.refl _, .none fun d => headOf_append (w := w) (w' := { w with heap := w.heap ++ tl }) hw.core rfl rfl
      (fun i hi => List.getElem?_append_left hi) d⟩
  | repoLoad c handle status key callback hh =>
    obtain ⟨tl, h⟩ := repoLoad_heap w c handle status key callback
    rw [h]
    exact ⟨.refl _, .none fun d => headOf_append (w := w) (w' := { w with heap := w.heap ++ tl }) hw.core rfl rfl
      (fun i hi => List.getElem?_append_left hi) d⟩
  | cache r o n ho hn => exact ⟨.refl _, .none (headOf_setObj (o' := { o with mst := n }) ho rfl)⟩
  | «import» co handle key new hi hnew hhead hno hh ha _ =>
    obtain ⟨w', h1, h2, h3, h4, h5, h6, h7⟩ := import_spec hL (be := be) hw (key := key) hnew hhead hh ha
    rw [h1]
    have hd := (hnew.commits _ _ hhead).1
    have hhd : ∀ d', headOf L be w' d' = if d' = co.did then some (L.hash (.commit co)) else headOf L be w d' := by
      intro d'
      rw [h7]
      split
      · rfl
      · exact headOf_append hw.core (by rfl) (by rfl) (fun i hi => List.getElem?_append_left hi) d'
    obtain ⟨m, hm⟩ := importBlocks_root hL (did := co.did) hw.core.blocks.addr hw.core.blocks.store hnew hhead
    obtain ⟨bh, hbh, hbv⟩ := importBlocks_has hL hw.core.blocks.addr hnew.cids (did := co.did) hhead
    refine ⟨h4 ▸ importBlocks_grows _ _ _, .import co.did hd hi _ hhd (headOf_of_none hL hw.core hd hno) m ?_⟩
    rw [shows_iff hL h2.core hd, records_iff hL h2.core hd]
    refine ⟨_, bh, co, by rw [hhd, if_pos rfl], h4 ▸ hbh, hbv, rfl, h4 ▸ hm⟩

end

end Arroba.Store
