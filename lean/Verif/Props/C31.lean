import Verif.Storage.StatusProofs
import Verif.Storage.Example

/-!
# C31: inactive repos reject commits

`statusOf` (StatusProofs.lean) is the stored status of a repo. Proved for every history of both
backends, for the handle the repo was deactivated through and for handles loaded afterwards; handles
loaded before are not covered, and `C31_stale_false` shows that they are not rejected.
-/

namespace Arroba.Store

variable {C R : Type} [DecidableEq C] {L : Lib C R} {Z : Nat} {be : Backend} {al : Allow}
  {w : World C R}

/-- A commit through an inactive `Repo` object raises InactiveRepo. It uses up a sequence number,
which is reported to the callback as lost, and changes nothing else. -/
theorem C31_rejected {r : Ref} {o : RepoObj C R} (ho : w.heap[r]? = some o) (hs : o.status ≠ none)
    (hseq : w.alloc.1 ≠ 0) (writes : List (Write R)) (x : Luck) (xs : List Luck) (cbFails : Bool) :
    ∃ w', commit L be w r writes none (x :: xs) cbFails = (w', .error .inactive) ∧
      w'.blocks = w.blocks ∧ w'.heap = w.heap ∧ w'.repos = w.repos ∧ w'.rows = w.rows ∧
      w'.log = w.log ++ (if o.callback then [.lost w.alloc.1] else []) := by
  have hc : commitTx L be r writes w.alloc.1 none w.alloc.2 (x :: xs) =
      (w.alloc.2, .error .inactive) := by
    unfold commitTx commitBody
    have : w.alloc.2.heap[r]? = some o := ho
    rw [this]
    dsimp only
    rw [if_neg hseq, if_pos hs]
    dsimp only
    rw [if_neg (fun h => by cases h.2.2)]
    congr 1
    unfold World.collect
    rw [List.take_length]
  unfold Store.commit
  dsimp only
  rw [hc, ho]
  dsimp only
  refine ⟨_, rfl, ?_⟩
  unfold World.logIf
  cases hcb : o.callback <;> simp [World.alloc, hcb]

/-- The API calls that make a repo active again: `activate_repo` with an object of that repo (or
with the object `r`), also if it stops before its event, and `Repo.create` for its DID. -/
def Revives (L : Lib C R) (be : Backend) (d : Did) (r : Ref) (w w' : World C R) : Prop :=
  (∃ (i : Ref) (o : RepoObj C R) (time : Nat), w.heap[i]? = some o ∧ (o.did = some d ∨ i = r) ∧
    (w' = (activateRepo L be w i time).1 ∨ w' = (setRepoStatus be w i none).1)) ∨
  ∃ handle key callback time xs cbFails,
    w' = (repoCreate L be w d handle key callback time xs cbFails).1

/-- Histories in which the repo of `d` is not made active. -/
inductive Dormant (L : Lib C R) (be : Backend) (al : Allow) (d : Did) (r : Ref) (w : World C R) :
    World C R → Prop
  | refl : Dormant L be al d r w w
  | step {w' w'' : World C R} (h : Dormant L be al d r w w') (h' : Step L be al w' w'')
      (hn : ¬ Revives L be d r w' w'') : Dormant L be al d r w w''

theorem Dormant.reach {d : Did} {r : Ref} {w' : World C R}
    (h : Dormant L be al d r w w') (hr : Reach L be al w) :
    Reach L be al w' := by
  induction h with
  | refl => exact hr
  | step _ h' _ ih => exact .step ih h'

theorem statusOf_set (hw : PWorld L Z be w) {w' : World C R} {r : Ref} {s : Option Status}
    (h : (∀ i, i ≠ r → ∀ o, w.heap[i]? = some o → w'.heap[i]? = some o) ∧
      (∀ o, w.heap[r]? = some o → w'.heap[r]? = some { o with status := s }) ∧
      w'.repos = w.repos ∧
      ∀ d, dictGet w'.rows d = dictGet w.rows d ∨
        ∃ o row, w.heap[r]? = some o ∧ o.did = some d ∧ dictGet w.rows d = some row ∧
          dictGet w'.rows d = some { row with status := s }) (d : Did) :
    statusOf be w' d = statusOf be w d ∨
    (statusOf be w' d = s ∧ ∃ o, w.heap[r]? = some o ∧ o.did = some d) := by
  obtain ⟨h1, h2, h3, h4⟩ := h
  cases be with
  | datastore =>
    unfold statusOf
    dsimp only
    rcases h4 d with h | ⟨o, row, g1, g2, g3, g4⟩
    · left; rw [h]
    · right; rw [g4]; exact ⟨rfl, o, g1, g2⟩
  | memory =>
    unfold statusOf
    dsimp only
    rw [h3]
    cases hg : dictGet w.repos d with
    | none => exact .inl rfl
    | some i =>
      obtain ⟨_, o, ho, hod⟩ := hw.core.repos d i (dictGet_mem hg)
      show World.status _ i = World.status w i ∨ (World.status _ i = s ∧ _)
      unfold World.status
      by_cases hi : i = r
      · subst hi
        right
        rw [h2 o ho]
        exact ⟨rfl, o, ho, hod⟩
      · left
        rw [h1 i hi o ho, ho]

/-- What setting a status does to stored statuses. -/
theorem setStatus_statusOf (hL : L.OK Z) (hw : PWorld L Z be w) (r : Ref) (s : Option Status)
    (kind : EventKind C) (time : Nat) (d : Did) :
    statusOf be (setStatusEvent L be w r s kind time).1 d = statusOf be w d ∨
    (statusOf be (setStatusEvent L be w r s kind time).1 d = s ∧
      ∃ o, w.heap[r]? = some o ∧ o.did = some d) := by
  exact statusOf_set hw (setStatus_keeps hL hw r s kind time) d

theorem statusOf_none (hw : PWorld L Z be w) {d : Did} (h : headOf L be w d = none) : statusOf be w d = none := by
  unfold headOf at h
  unfold statusOf
  cases be with
  | datastore =>
    dsimp only at h ⊢
    rw [Option.map_eq_none_iff.1 h]
    rfl
  | memory =>
    dsimp only at h ⊢
    cases hg : dictGet w.repos d with
    | none => rfl
    | some r =>
      obtain ⟨_, o, ho, hd⟩ := hw.core.repos d r (dictGet_mem hg)
      rw [hg] at h
      simp only [Option.bind_some, ho] at h
      unfold RepoObj.did at hd
      cases hh : o.head with
      | none => rw [hh] at hd; cases hd
      | some b => rw [hh] at h; cases h

/-- A stored status is changed only by the three status calls with an object of that repo, whether
or not they stop before their event, by `Repo.create` for its DID, and by importing it, after which it is deactivated. -/
theorem Step.statusOf (hL : L.OK Z) (hw : PWorld L Z be w) {w' : World C R}
    (h : Step L be al w w') (d : Did) :
    Store.statusOf be w' d = Store.statusOf be w d ∨
    (∃ r o time, w.heap[r]? = some o ∧ o.did = some d ∧
      ((w' = (activateRepo L be w r time).1 ∧ Store.statusOf be w' d = none) ∨
       (w' = (deactivateRepo L be w r time).1 ∧ Store.statusOf be w' d = some .deactivated) ∨
       (w' = (tombstoneRepo L be w r time).1 ∧ Store.statusOf be w' d = some .tombstoned) ∨
       (al.partway ∧ ∃ s, w' = (setRepoStatus be w r s).1 ∧ Store.statusOf be w' d = s))) ∨
    (∃ handle key callback time xs cbFails,
      w' = (repoCreate L be w d handle key callback time xs cbFails).1) ∨
    ∃ co handle key new, co.did = d ∧ Store.statusOf be w d = none ∧
      w' = (importInto L be w co handle key new).1 ∧ Store.statusOf be w' d = some .deactivated := by
  cases h with
  | «import» co handle key new hi hnew hhead hno hh ha hnat =>
    by_cases he : d = co.did
    · subst he
      obtain ⟨_, _, _, _, _, _, _, _, g8, _⟩ := import_plain hL hw (key := key) hnew hhead hno hh ha hnat
      refine .inr (.inr (.inr ⟨co, handle, key, new, rfl, statusOf_none hw g8, rfl, ?_⟩))
      rw [importInto_eq]
      cases be <;> simp [Store.statusOf, World.status, dictGet_dictSet]
    · left
      have h3 := importInto_stored (L := L) (be := be) (w := w) (handle := handle) (key := key) (new := new) he
      unfold Store.statusOf
      cases be with
      | memory =>
        dsimp only
        rw [h3.1]
        cases hg : dictGet w.repos d with
        | none => rfl
        | some r =>
          obtain ⟨_, o, ho, _⟩ := hw.core.repos d r (dictGet_mem hg)
          show World.status _ r = World.status w r
          unfold World.status
          rw [importInto_heap ho, ho]
      | datastore =>
        dsimp only
        rw [h3.2]
  | create did handle key callback time xs cbFails hd hh hp hs hr =>
    by_cases he : d = did
    · subst he; exact .inr (.inr (.inl ⟨_, _, _, _, _, _, rfl⟩))
    · left
      obtain ⟨h1, h2⟩ := create_keeps (key := key) (callback := callback) (time := time) (xs := xs)
        (cbFails := cbFails) hL hw hd hh
      -- only the entry of `d` matters
      have h3 := h2 d he
      unfold Store.statusOf
      cases be with
      | memory =>
        dsimp only
        rw [h3.2]
        cases hg : dictGet w.repos d with
        | none => rfl
        | some r =>
          obtain ⟨_, o, ho, _⟩ := hw.core.repos d r (dictGet_mem hg)
          exact h1.status (lt_of_get ho)
      | datastore =>
        dsimp only
        have := congrArg (fun x => Option.bind x id) h3.1
        simpa [Option.bind_map, Function.comp_def] using this
  | commit r writes xs cbFails ha =>
    exact .inl (statusOf_kept hw.core (commit_keeps _ _ _ _ _ _ _)
      (commit_stored hw writes xs cbFails (fun _ d h => by cases h)) d)
  | allocate _ => exact .inl rfl
  | setStatus r s hp =>
    rcases statusOf_set hw (setRepoStatus_keeps be w r s) d with h | ⟨h, o, h1, h2⟩
    · exact .inl h
    · exact .inr (.inl ⟨r, o, 0, h1, h2, .inr (.inr (.inr ⟨hp, s, rfl, h⟩))⟩)
  | importBlocks did new _ _ _ _ => exact .inl rfl
  | setCallback r b =>
    refine .inl (statusOf_kept hw.core
      (.modObj (f := fun o => { o with callback := b }) (fun _ => rfl) r) (.of_eq (modObj_repos _ _ _).2 (modObj_repos _ _ _).1) d)
  | deactivate r time =>
    rcases setStatus_statusOf hL hw r (some .deactivated) (.account false (some .deactivated)) time d
      with h | ⟨h, o, h1, h2⟩
    · exact .inl h
    · exact .inr (.inl ⟨r, o, time, h1, h2, .inr (.inl ⟨rfl, h⟩)⟩)
  | activate r time =>
    rcases setStatus_statusOf hL hw r none (.account true none) time d with h | ⟨h, o, h1, h2⟩
    · exact .inl h
    · exact .inr (.inl ⟨r, o, time, h1, h2, .inl ⟨rfl, h⟩⟩)
  | tombstone r time =>
    rcases setStatus_statusOf hL hw r (some .tombstoned) .tombstone time d with h | ⟨h, o, h1, h2⟩
    · exact .inl h
    · exact .inr (.inl ⟨r, o, time, h1, h2, .inr (.inr (.inl ⟨rfl, h⟩))⟩)
  | event r kind time hr =>
    have := (event_any hL hw r kind time).2.keeps
    exact .inl (statusOf_kept hw.core this.1 this.2 d)
  | loadRepo q =>
    obtain ⟨h1, h2, _⟩ := loadRepo_keeps be w q
    exact .inl (statusOf_kept hw.core h1 h2 d)
  | repoLoad c handle status key callback hh =>
    obtain ⟨h1, h2⟩ := repoLoad_keeps w c handle status key callback
    exact .inl (statusOf_kept hw.core h1 h2 d)
  | cache r o n ho hn =>
    exact .inl (statusOf_kept hw.core (.setObj (o' := { o with mst := n }) ho rfl)
      (.of_eq rfl rfl) d)

/-- **C31, stored status.** An inactive repo stays inactive in every history without
`activate_repo` and `Repo.create` for it. -/
theorem C31_stays (hL : L.OK Z) (hr : Reach L be al w) {d : Did}
    (hs : statusOf be w d ≠ none) {r : Ref} {w' : World C R} (h : Dormant L be al d r w w') :
    statusOf be w' d ≠ none := by
  induction h with
  | refl => exact hs
  | step h h' hn ih =>
    rcases Step.statusOf hL (Reach.plain hL (h.reach hr)).1 h' d with g | ⟨i, o, time, g1, g2, g⟩ | g | ⟨_, _, _, _, _, _, _, g⟩
    · rw [g]; exact ih
    · rcases g with ⟨g, _⟩ | ⟨_, g⟩ | ⟨_, g⟩ | ⟨_, s, g, g'⟩
      · exact absurd (.inl ⟨i, o, time, g1, .inl g2, .inl g⟩) hn
      · rw [g]; simp
      · rw [g]; simp
      · rw [g']
        rintro rfl
        exact absurd (.inl ⟨i, o, time, g1, .inl g2, .inr g⟩) hn
    · exact absurd (.inr g) hn
    · rw [g]; simp

/-- `load_repo` gives an object with the stored status. -/
theorem C31_loadedStatus (hL : L.OK Z) (hr : Reach L be al w) {d : Did} (hd : isDid d)
    {w1 : World C R} {r : Ref} (h : loadRepo be w d = (w1, .ok (some r))) :
    w1.status r = statusOf be w d := by
  have hw := (Reach.plain hL hr).1.core
  rcases hw.loadDid hd with g | ⟨s, so, b, co, w2, g, g1, _, _, _, _, _, _, _, g2, _, g3⟩
  · rw [h] at g; cases g
  · rw [h] at g
    obtain ⟨rfl, g⟩ := Prod.mk.inj g
    cases g
    cases be with
    | memory =>
      obtain ⟨rfl, g3⟩ := g3
      unfold statusOf
      simp only [g3]
      rfl
    | datastore =>
      obtain ⟨_, row, g4, _, g5⟩ := g3
      unfold statusOf
      simp only [g4]
      unfold World.status
      rw [g1, g5]
      rfl

/-- The status of a live object is changed only by the status calls with that very object. -/
theorem Step.objStatus (hL : L.OK Z) (hw : PWorld L Z be w) {w' : World C R}
    (h : Step L be al w w') {r : Ref} {o : RepoObj C R} (ho : w.heap[r]? = some o) :
    ∃ o', w'.heap[r]? = some o' ∧ (o'.status = o.status ∨ o'.status ≠ none ∨
      (∃ time, w' = (activateRepo L be w r time).1) ∨ w' = (setRepoStatus be w r none).1) := by
  have hk : Keeps w w' → ∃ o', w'.heap[r]? = some o' ∧ (o'.status = o.status ∨ o'.status ≠ none ∨
      (∃ time, w' = (activateRepo L be w r time).1) ∨ w' = (setRepoStatus be w r none).1) := fun h => by
    obtain ⟨o', h1, h2⟩ := h r o ho
    exact ⟨o', h1, .inl h2⟩
  have hst : ∀ i s kind time, w' = (setStatusEvent L be w i s kind time).1 →
      ∃ o', w'.heap[r]? = some o' ∧ (o'.status = o.status ∨ (i = r ∧ o'.status = s)) := by
    rintro i s kind time rfl
    obtain ⟨h1, h2, _, _⟩ := setStatus_keeps hL hw i s kind time
    by_cases hi : r = i
    · subst hi; exact ⟨_, h2 o ho, .inr ⟨rfl, rfl⟩⟩
    · exact ⟨o, h1 r hi o ho, .inl rfl⟩
  cases h with
  | create did handle key callback time xs cbFails hd hh hp hs hr => exact hk (create_keeps hL hw hd hh).1
  | commit r writes xs cbFails ha => exact hk (commit_keeps _ _ _ _ _ _ _)
  | allocate _ => exact ⟨o, ho, .inl rfl⟩
  | setStatus i s _ =>
    obtain ⟨h1, h2, _, _⟩ := setRepoStatus_keeps be w i s
    by_cases hi : r = i
    · subst hi
      refine ⟨_, h2 o ho, ?_⟩
      cases s with
      | none => exact .inr (.inr (.inr rfl))
      | some s => exact .inr (.inl (by simp))
    · exact ⟨o, h1 r hi o ho, .inl rfl⟩
  | importBlocks did new _ _ _ _ => exact ⟨o, ho, .inl rfl⟩
  | setCallback r b => exact hk (.modObj (f := fun o => { o with callback := b }) (fun _ => rfl) r)
  | deactivate i time =>
    obtain ⟨o', h1, h2 | ⟨_, h2⟩⟩ := hst i _ _ time rfl
    · exact ⟨o', h1, .inl h2⟩
    · exact ⟨o', h1, .inr (.inl (by rw [h2]; simp))⟩
  | activate i time =>
    obtain ⟨o', h1, h2 | ⟨rfl, _⟩⟩ := hst i _ _ time rfl
    · exact ⟨o', h1, .inl h2⟩
    · exact ⟨o', h1, .inr (.inr (.inl ⟨time, rfl⟩))⟩
  | tombstone i time =>
    obtain ⟨o', h1, h2 | ⟨_, h2⟩⟩ := hst i _ _ time rfl
    · exact ⟨o', h1, .inl h2⟩
    · exact ⟨o', h1, .inr (.inl (by rw [h2]; simp))⟩
  | event r kind time hr => exact hk (event_any hL hw r kind time).2.keeps.1
  | loadRepo q => exact hk (loadRepo_keeps be w q).1
  | repoLoad c handle status key callback hh => exact hk (repoLoad_keeps w c handle status key callback).1
  | cache r o n ho hn => exact hk (.setObj (o' := { o with mst := n }) ho rfl)
  | «import» co handle key new => exact ⟨o, importInto_heap ho, .inl rfl⟩

/-- **C31, handles.** An inactive handle stays inactive until `activate_repo` is called with it. -/
theorem C31_handle (hL : L.OK Z) (hr : Reach L be al w) {d : Did} {r : Ref} {o : RepoObj C R}
    (ho : w.heap[r]? = some o) (hs : o.status ≠ none) {w' : World C R}
    (h : Dormant L be al d r w w') : ∃ o', w'.heap[r]? = some o' ∧ o'.status ≠ none := by
  induction h with
  | refl => exact ⟨o, ho, hs⟩
  | step h h' hn ih =>
    obtain ⟨o1, g1, g2⟩ := ih
    obtain ⟨o2, g3, g4 | g4 | ⟨time, g4⟩ | g4⟩ :=
      Step.objStatus hL (Reach.plain hL (h.reach hr)).1 h' g1
    · exact ⟨o2, g3, by rw [g4]; exact g2⟩
    · exact ⟨o2, g3, g4⟩
    · exact absurd (.inl ⟨r, o1, time, g1, .inr rfl, .inl g4⟩) hn
    · exact absurd (.inl ⟨r, o1, 0, g1, .inr rfl, .inr g4⟩) hn

/-- Every commit with the handle raises InactiveRepo and changes neither blocks, nor repos, nor
objects. -/
def Rejects (L : Lib C R) (be : Backend) (w : World C R) (r : Ref) : Prop :=
  ∀ writes x xs cbFails, ∃ w', commit L be w r writes none (x :: xs) cbFails =
    (w', .error .inactive) ∧
    w'.blocks = w.blocks ∧ w'.heap = w.heap ∧ w'.repos = w.repos ∧ w'.rows = w.rows

theorem rejects_of (hw : PWorld L Z be w) {r : Ref} (hs : w.status r ≠ none) :
    Rejects L be w r := by
  intro writes x xs cbFails
  unfold World.status at hs
  cases ho : w.heap[r]? with
  | none => rw [ho] at hs; exact absurd rfl hs
  | some o =>
    rw [ho] at hs
    obtain ⟨w', h1, h2, h3, h4, h5, _⟩ := C31_rejected (L := L) (be := be) ho hs
      (by rw [hw.alloc.1]; omega) writes x xs cbFails
    exact ⟨w', h1, h2, h3, h4, h5⟩

/-- `r` is a handle of the stored repo of `d`: for MemoryStorage the stored object itself, for
DatastoreStorage any object of the repo. -/
def HandleOf (be : Backend) (w : World C R) (r : Ref) (d : Did) : Prop :=
  ∃ o, w.heap[r]? = some o ∧ o.did = some d ∧
    match be with
    | .memory => dictGet w.repos d = some r
    | .datastore => ∃ row, dictGet w.rows d = some row

/-- Setting an inactive status is stored. -/
theorem HandleOf.retired (hL : L.OK Z) (hw : PWorld L Z be w) {r : Ref} {d : Did}
    (h : HandleOf be w r d) (s : Status) (kind : EventKind C) (time : Nat) :
    (setStatusEvent L be w r (some s) kind time).1.status r = some s ∧
    statusOf be (setStatusEvent L be w r (some s) kind time).1 d = some s := by
  obtain ⟨o, ho, hod, hst⟩ := h
  obtain ⟨h1, h2, h3, h4⟩ := setStatus_keeps hL hw r (some s) kind time
  have hr : (setStatusEvent L be w r (some s) kind time).1.status r = some s := by
    unfold World.status
    rw [h2 o ho]
    rfl
  refine ⟨hr, ?_⟩
  cases be with
  | memory =>
    unfold statusOf
    dsimp only at hst ⊢
    rw [h3, hst]
    exact hr
  | datastore =>
    obtain ⟨row, hrow⟩ := hst
    have : dictGet (setRepoStatus .datastore w r (some s)).1.rows d =
        some { row with status := some s } := by
      unfold setRepoStatus
      rw [ho]
      dsimp only
      rw [hod]
      dsimp only
      rw [show dictGet (w.setObj r { o with status := some s }).rows d = some row from hrow]
      dsimp only
      rw [dictGet_dictSet, if_pos rfl]
    have hrows : (setStatusEvent L .datastore w r (some s) kind time).1.rows =
        (setRepoStatus .datastore w r (some s)).1.rows := by
      have hp := (status_plain hw r (some s)).1
      unfold setStatusEvent
      rcases hset : setRepoStatus .datastore w r (some s) with ⟨w1, res⟩
      rw [hset] at hp
      cases res with
      | error e => rfl
      | ok u =>
        dsimp only
        have hk := (event_any hL hp r kind time).2
        rcases he : writeEvent L .datastore w1 r kind time with ⟨w2, res2⟩
        rw [he] at hk
        cases res2 <;> exact hk.2.1
    unfold statusOf
    dsimp only
    rw [hrows, this]
    rfl

/-- **C31, what an answer means.** If `deactivate_repo` or `tombstone_repo` of a DatastoreStorage doesn't raise, the repo is
stored, and is inactive there; otherwise, for example for a `Repo` that isn't stored, they raise. -/
theorem C31_answered (hL : L.OK Z) (hr : Reach L .datastore al w) {r : Ref} {time : Nat} :
    ((deactivateRepo L .datastore w r time).2 = .ok () → ∃ d, HandleOf .datastore w r d ∧
      statusOf .datastore (deactivateRepo L .datastore w r time).1 d = some .deactivated) ∧
    ((tombstoneRepo L .datastore w r time).2 = .ok () → ∃ d, HandleOf .datastore w r d ∧
      statusOf .datastore (tombstoneRepo L .datastore w r time).1 d = some .tombstoned) := by
  have hw := (Reach.plain hL hr).1
  have key : ∀ (s : Option Status) kind, (setStatusEvent L .datastore w r s kind time).2 = .ok () →
      ∃ d, HandleOf .datastore w r d := by
    intro s kind h
    unfold setStatusEvent setRepoStatus at h
    cases ho : w.heap[r]? with
    | none => rw [ho] at h; cases h
    | some o =>
      rw [ho] at h
      dsimp only at h
      cases hd : o.did with
      | none => rw [hd] at h; cases h
      | some d =>
        rw [hd] at h
        dsimp only at h
        cases hrow : dictGet w.rows d with
        | none =>
          rw [show dictGet (w.setObj r { o with status := s }).rows d = none from hrow] at h
          cases h
        | some row => exact ⟨d, o, ho, hd, row, hrow⟩
  constructor
  · intro h
    obtain ⟨d, hd⟩ := key _ _ h
    exact ⟨d, hd, (hd.retired hL hw _ _ time).2⟩
  · intro h
    obtain ⟨d, hd⟩ := key _ _ h
    exact ⟨d, hd, (hd.retired hL hw _ _ time).2⟩

/-- **C31.** After `deactivate_repo` or `tombstone_repo`, and whatever happens then short of
`activate_repo` and `Repo.create` for the repo, every commit with the handle the repo was
deactivated through, and with every handle loaded from storage since, raises InactiveRepo and
changes nothing. Missing: handles loaded before the repo was deactivated, see `C31_stale_false`. -/
theorem C31_partial (hL : L.OK Z) (hr : Reach L be al w) {r : Ref} {d : Did} (hd : isDid d)
    (hh : HandleOf be w r d) {w1 : World C R} {time : Nat}
    (h1 : w1 = (deactivateRepo L be w r time).1 ∨ w1 = (tombstoneRepo L be w r time).1)
    {w2 : World C R} (h2 : Dormant L be al d r w1 w2) :
    Rejects L be w2 r ∧ ∀ w3 i, loadRepo be w2 d = (w3, .ok (some i)) → Rejects L be w3 i := by
  have hw := (Reach.plain hL hr).1
  have hr1 : Reach L be al w1 := by
    rcases h1 with rfl | rfl
    · exact .step hr (.deactivate r time)
    · exact .step hr (.tombstone r time)
  have hst : w1.status r ≠ none ∧ statusOf be w1 d ≠ none := by
    rcases h1 with rfl | rfl
    · obtain ⟨g1, g2⟩ := hh.retired hL hw .deactivated (.account false (some .deactivated)) time
      exact ⟨fun h => (by cases g1.symm.trans h),
        fun h => (by cases g2.symm.trans h)⟩
    · obtain ⟨g1, g2⟩ := hh.retired hL hw .tombstoned .tombstone time
      exact ⟨fun h => (by cases g1.symm.trans h),
        fun h => (by cases g2.symm.trans h)⟩
  have hr2 := h2.reach hr1
  have hw2 := (Reach.plain hL hr2).1
  constructor
  · cases ho : w1.heap[r]? with
    | none => exact absurd (by unfold World.status; rw [ho]; rfl) hst.1
    | some o =>
      have hs : o.status ≠ none := by
        have := hst.1
        unfold World.status at this
        rw [ho] at this
        exact this
      obtain ⟨o', g1, g2⟩ := C31_handle hL hr1 ho hs h2
      exact rejects_of hw2 (by unfold World.status; rw [g1]; exact g2)
  · intro w3 i h3
    have hs3 : w3.status i ≠ none := by
      rw [C31_loadedStatus hL hr2 hd h3]
      exact C31_stays hL hr1 hst.2 h2
    have hr3 : Reach L be al w3 := by
      have := Reach.step hr2 (.loadRepo d)
      rw [h3] at this
      exact this
    exact rejects_of (Reach.plain hL hr3).1 hs3

/-! ### Examples and counterexamples -/

/-- The repo of `exDid`, deactivated. -/
def exOff (be : Backend) : ExWorld := (deactivateRepo exL be (exW1 be) 0 200).1

example (be : Backend) : HandleOf be (exW1 be) 0 exDid := by
  refine ⟨((exW1 be).heap[0]?).get (by cases be <;> decide +kernel), by simp, ?_, ?_⟩
  · cases be <;> decide +kernel
  · cases be
    · show dictGet _ _ = _; decide +kernel
    · exact ⟨_, (Option.some_get (h := (by decide +kernel :
        (dictGet (exW1 .datastore).rows exDid).isSome = true))).symm⟩

/-- It is loaded again, and activated through the new handle. -/
example : (loadRepo .datastore (exOff .datastore) exDid).1.status 2 = some .deactivated ∧
    (activateRepo exL .datastore (loadRepo .datastore (exOff .datastore) exDid).1 2 300).1.status 2 =
      none := by
  decide +kernel

/-- What `loadRepo` loaded. -/
def loadedRef (be : Backend) (w : ExWorld) (d : Did) : Option Ref :=
  match (loadRepo be w d).2 with
  | .ok x => x
  | .error _ => none

def succeeds {α β : Type} (x : α × Except Err β) : Bool :=
  match x.2 with
  | .ok _ => true
  | .error _ => false

/-- DatastoreStorage: `load_repo` gives a new handle, number 2. -/
def exStale : ExWorld := (loadRepo .datastore (exW1 .datastore) exDid).1

/-- The repo is deactivated through its first handle. -/
def exStaleOff : ExWorld := (deactivateRepo exL .datastore exStale 0 200).1

/-- **C31 is false for handles loaded before**, with DatastoreStorage: the repo is stored as
deactivated, and a commit with the older handle succeeds and moves the head. -/
theorem C31_stale_false : Reach exL .datastore .orderly exStaleOff ∧
    statusOf .datastore exStaleOff exDid = some .deactivated ∧
    succeeds (commit exL .datastore exStaleOff 2 exWrites2 none lucky false) = true ∧
    headOf exL .datastore (commit exL .datastore exStaleOff 2 exWrites2 none lucky false).1 exDid ≠
      headOf exL .datastore exStaleOff exDid := by
  refine ⟨.step (.step (exW1_reach .datastore) (.loadRepo exDid)) (.deactivate 0 200), ?_, ?_, ?_⟩ <;>
    decide +kernel

/-- The head of the repo of `exDid`. -/
def exHead (be : Backend) : SC := (headOf exL be (exW1 be) exDid).getD (.record 0)

/-- MemoryStorage: another object for the repo, made with `Repo.load`. -/
def exCopy : ExWorld := (repoLoad (exW1 .memory) (exHead .memory) (some exHandle) none 7 true).1

/-- **And false for copies**, with MemoryStorage: deactivating the repo through the copy does not
deactivate the stored one, and commits succeed. -/
theorem C31_copy_false : Reach exL .memory .orderly exCopy ∧
    succeeds (deactivateRepo exL .memory exCopy 2 200) = true ∧
    succeeds (commit exL .memory (deactivateRepo exL .memory exCopy 2 200).1 0 exWrites2 none lucky
      false) = true := by
  refine ⟨.step (exW1_reach .memory) (.repoLoad _ _ _ _ _ ?_), ?_, ?_⟩
  · rintro h ⟨⟩; unfold isDid; decide +kernel
  · decide +kernel
  · decide +kernel

end Arroba.Store
