import Verif.Storage.PlainReach

/-! Helper lemmas: which calls change account statuses. -/

namespace Arroba.Store

variable {C R : Type} [DecidableEq C]

open Arroba.Tree

/-- The status of the repo of `d`, as stored. -/
def statusOf (be : Backend) (w : World C R) (d : Did) : Option Status :=
  match be with
  | .memory => (dictGet w.repos d).bind w.status
  | .datastore => (dictGet w.rows d).bind (·.status)

/-- Live objects stay, with the same status. -/
def Keeps (w w' : World C R) : Prop :=
  ∀ (i : Nat) (o : RepoObj C R), w.heap[i]? = some o → ∃ o', w'.heap[i]? = some o' ∧
    o'.status = o.status

/-- Stored statuses stay the same. -/
def KeepsStored (w w' : World C R) : Prop :=
  ∀ d, (dictGet w'.rows d).map (·.status) = (dictGet w.rows d).map (·.status) ∧
    dictGet w'.repos d = dictGet w.repos d

section
variable {L : Lib C R} {Z : Nat} {be : Backend} {w : World C R}

theorem Keeps.refl (w : World C R) : Keeps w w := fun _ o h => ⟨o, h, rfl⟩

theorem Keeps.trans {a b c : World C R} (h : Keeps a b) (h' : Keeps b c) : Keeps a c := by
  intro i o ho
  obtain ⟨o1, h1, h2⟩ := h i o ho
  obtain ⟨o2, h3, h4⟩ := h' i o1 h1
  exact ⟨o2, h3, h4.trans h2⟩

theorem Keeps.of_heap {w w' : World C R} (h : w'.heap = w.heap) : Keeps w w' :=
  fun _ o ho => ⟨o, by rw [h]; exact ho, rfl⟩

theorem KeepsStored.refl (w : World C R) : KeepsStored w w := fun _ => ⟨rfl, rfl⟩

theorem KeepsStored.trans {a b c : World C R} (h : KeepsStored a b) (h' : KeepsStored b c) :
    KeepsStored a c := fun d => ⟨(h' d).1.trans (h d).1, (h' d).2.trans (h d).2⟩

theorem KeepsStored.of_eq {w w' : World C R} (h1 : w'.rows = w.rows) (h2 : w'.repos = w.repos) :
    KeepsStored w w' := fun d => by rw [h1, h2]; exact ⟨rfl, rfl⟩

theorem Keeps.setObj {r : Ref} {o o' : RepoObj C R} (ho : w.heap[r]? = some o)
    (hs : o'.status = o.status) : Keeps w (w.setObj r o') := by
  intro i x hx
  show ∃ y, (w.heap.set r o')[i]? = some y ∧ _
  by_cases hi : r = i
  · subst hi
    rw [ho] at hx; cases hx
    exact ⟨o', by rw [List.getElem?_set_self (lt_of_get ho)], hs⟩
  · exact ⟨x, by rw [List.getElem?_set_ne hi]; exact hx, rfl⟩

theorem Keeps.modObj {f : RepoObj C R → RepoObj C R} (hf : ∀ o, (f o).status = o.status) (r : Ref) :
    Keeps w (w.modObj r f) := by
  unfold World.modObj
  split
  · rename_i o ho; exact .setObj ho (hf o)
  · exact .refl _

theorem Keeps.newObj (w : World C R) (o : RepoObj C R) : Keeps w (w.newObj o).2 := by
  intro i x hx
  refine ⟨x, ?_, rfl⟩
  show (w.heap ++ [o])[i]? = some x
  rw [List.getElem?_append, if_pos (lt_of_get hx)]; exact hx

theorem Keeps.collect {w' : World C R} (h : Keeps w w') : Keeps w (w'.collect w) := by
  intro i o ho
  obtain ⟨o', h1, h2⟩ := h i o ho
  exact ⟨o', by rw [collect_get (lt_of_get ho)]; exact h1, h2⟩

theorem Keeps.status {w' : World C R} (h : Keeps w w') {r : Ref} (hr : r < w.heap.length) :
    w'.status r = w.status r := by
  obtain ⟨o', h1, h2⟩ := h r _ (List.getElem?_eq_getElem hr)
  unfold World.status
  rw [h1, List.getElem?_eq_getElem hr]
  exact h2

theorem statusOf_kept {hi lo : Nat} (hw : PCore L Z be hi lo w) {w' : World C R} (h1 : Keeps w w')
    (h2 : KeepsStored w w') (d : Did) : statusOf be w' d = statusOf be w d := by
  unfold statusOf
  cases be with
  | memory =>
    dsimp only
    rw [(h2 d).2]
    cases hg : dictGet w.repos d with
    | none => rfl
    | some r =>
      obtain ⟨_, o, ho, _⟩ := hw.repos d r (dictGet_mem hg)
      exact h1.status (lt_of_get ho)
  | datastore =>
    dsimp only
    have := (h2 d).1
    cases hg : dictGet w.rows d with
    | none =>
      rw [hg] at this
      cases hg' : dictGet w'.rows d with
      | none => rfl
      | some x => rw [hg'] at this; cases this
    | some row =>
      rw [hg] at this
      cases hg' : dictGet w'.rows d with
      | none => rw [hg'] at this; cases this
      | some x => rw [hg'] at this; simpa using this

/-! ### Loading -/

theorem repoLoad_keeps (w : World C R) (c : C) (handle : Option Key) (status : Option Status)
    (key : Nat) (callback : Bool) :
    Keeps w (repoLoad w c handle status key callback).1 ∧
    KeepsStored w (repoLoad w c handle status key callback).1 := by
  unfold repoLoad
  split
  · exact ⟨.refl _, .refl _⟩
  · exact ⟨.newObj _ _, .of_eq rfl rfl⟩

theorem loadRepo_keeps (be : Backend) (w : World C R) (q : Key) :
    Keeps w (loadRepo be w q).1 ∧ KeepsStored w (loadRepo be w q).1 ∧
    (loadRepo be w q).1.rows = w.rows := by
  unfold loadRepo
  split
  · exact ⟨.refl _, .refl _, rfl⟩
  · cases be with
    | memory => exact ⟨.refl _, .refl _, rfl⟩
    | datastore =>
      dsimp only
      split
      · exact ⟨.refl _, .refl _, rfl⟩
      · rename_i row _
        have h := repoLoad_keeps w row.head row.handle row.status row.key false
        have h3 : (repoLoad w row.head row.handle row.status row.key false).1.rows = w.rows := by
          unfold repoLoad; split <;> rfl
        split <;> (rename_i he; rw [he] at h h3; exact ⟨h.1, h.2, h3⟩)

/-- The object loaded from the Datastore has the stored status. -/
theorem loadRepo_status {w1 : World C R} {q : Key} {s : Ref} {row : Row C}
    (h : loadRepo .datastore w q = (w1, .ok (some s))) (hrow : dictGet w.rows q = some row) :
    w1.status s = row.status := by
  unfold loadRepo at h
  split at h
  · cases h
  · dsimp only at h
    have hf : findRow w q = some row := by unfold findRow; rw [hrow]
    rw [hf] at h
    dsimp only at h
    unfold repoLoad at h
    split at h
    · rename_i w' r he
      split at he
      · cases he
      · obtain ⟨rfl, he⟩ := Prod.mk.inj he
        cases he
        obtain ⟨rfl, h⟩ := Prod.mk.inj h
        cases h
        simp [World.status, World.newObj]
    · cases (Prod.mk.inj h).2

theorem beginCommit_keeps (be : Backend) (w : World C R) (r : Ref) (o : RepoObj C R)
    (ho : w.heap[r]? = some o) (repoDid : Option Did) :
    Keeps w (beginCommit L be w r o repoDid).1 ∧ KeepsStored w (beginCommit L be w r o repoDid).1 ∧
    (beginCommit L be w r o repoDid).1.rows = w.rows := by
  unfold beginCommit
  split
  · split
    · exact ⟨.refl _, .refl _, rfl⟩
    · split
      · split
        · exact ⟨.setObj ho rfl, .of_eq rfl rfl, rfl⟩
        · exact ⟨.refl _, .refl _, rfl⟩
      · exact ⟨.refl _, .refl _, rfl⟩
  · split
    · exact ⟨.refl _, .refl _, rfl⟩
    · rename_i d _
      have h := loadRepo_keeps be w d
      split
      · rename_i he; rw [he] at h; exact h
      · rename_i he; rw [he] at h; exact h
      · rename_i he; rw [he] at h
        split <;> exact h

/-! ### Commits -/

theorem storeRepo_heap (be : Backend) (w : World C R) (r : Ref) :
    (storeRepo L be w r).1.heap = w.heap := by
  unfold storeRepo
  split
  · rfl
  · split
    · cases be with
      | memory => rfl
      | datastore => dsimp only; split <;> rfl
    · rfl

theorem finishCommit_keeps (be : Backend) (w : World C R) (r s : Ref) (mst : Node C)
    (existing : Bool) (cd : CommitData C R) (x : Luck) :
    Keeps w (finishCommit L be w r s mst existing cd x).1 := by
  unfold finishCommit
  split
  · exact .refl _
  · dsimp only
    have h0 : Keeps w { w with blocks := putBlocks L w.blocks (cd.blocks.map (·.2)) } := .of_heap rfl
    split
    · have h1 := h0.trans (Keeps.modObj
        (w := { w with blocks := putBlocks L w.blocks (cd.blocks.map (·.2)) })
        (f := fun o => { o with head := some cd.commit }) (fun _ => rfl) s)
      split
      · exact h1
      · have h2 := h1.trans (Keeps.of_heap (storeRepo_heap (L := L) be _ s))
        split
        · rename_i he; rw [he] at h2; exact h2
        · rename_i he; rw [he] at h2
          exact h2.trans (Keeps.modObj
            (f := fun o => { o with mst := mst, head := some cd.commit }) (fun _ => rfl) r)
    · exact h0.trans (Keeps.modObj
        (f := fun o => { o with mst := mst, head := some cd.commit }) (fun _ => rfl) r)

theorem commitBody_keeps (be : Backend) (w : World C R) (r : Ref) (writes : List (Write R))
    (seq : Nat) (repoDid : Option Did) (x : Luck) :
    Keeps w (commitBody L be w r writes seq repoDid x).1 := by
  unfold commitBody
  cases ho : w.heap[r]? with
  | none => exact .refl _
  | some o =>
    dsimp only
    split
    · exact .refl _
    split
    · exact .refl _
    have h1 := (beginCommit_keeps (L := L) be w r o ho repoDid).1
    rcases hb : beginCommit L be w r o repoDid with ⟨w1, _ | ⟨s, did, prev⟩⟩
    · rw [hb] at h1; exact h1
    · rw [hb] at h1
      dsimp only at h1 ⊢
      cases hs : w1.heap[s]? with
      | none => exact h1
      | some so =>
        dsimp only
        split
        · exact h1
        split
        · exact h1.trans (.setObj hs rfl)
        · rename_i st _
          have h2 := h1.trans (Keeps.setObj (o' := { so with mst := L.touch w1.rd st.mst }) hs rfl)
          split
          · exact h2
          split
          · exact h2
          · exact h2.trans (finishCommit_keeps _ _ _ _ _ _ _ _)

theorem commitTx_keeps (be : Backend) (r : Ref) (writes : List (Write R)) (seq : Nat)
    (repoDid : Option Did) : ∀ (xs : List Luck) (w : World C R),
    Keeps w (commitTx L be r writes seq repoDid w xs).1
  | [], w => .refl _
  | x :: xs, w => by
    have h := (commitBody_keeps (L := L) be w r writes seq repoDid x).collect
    unfold commitTx
    split
    · rename_i he; rw [he] at h
      split
      · refine Keeps.trans (b := { World.collect _ w with rows := w.rows }) ?_
          (commitTx_keeps be r writes seq repoDid xs _)
        exact h.trans (Keeps.of_heap rfl)
      · exact h.trans (.of_heap rfl)
    · rename_i he; rw [he] at h
      split
      · refine Keeps.trans (b := { World.collect _ w with rows := w.rows }) ?_
          (commitTx_keeps be r writes seq repoDid xs _)
        exact h.trans (Keeps.of_heap rfl)
      · exact h

theorem logIf_heap (w : World C R) (b : Bool) (c : CbCall C) : (w.logIf b c).heap = w.heap := by
  unfold World.logIf; split <;> rfl

theorem commit_keeps (be : Backend) (w : World C R) (r : Ref) (writes : List (Write R))
    (repoDid : Option Did) (xs : List Luck) (cbFails : Bool) :
    Keeps w (commit L be w r writes repoDid xs cbFails).1 := by
  have h : Keeps w (commitTx L be r writes w.alloc.1 repoDid w.alloc.2 xs).1 :=
    (Keeps.of_heap rfl : Keeps w w.alloc.2).trans (commitTx_keeps _ _ _ _ _ _ _)
  unfold Store.commit
  dsimp only
  split
  · rename_i he; rw [he] at h
    exact h.trans (.of_heap (logIf_heap _ _ _))
  · rename_i he; rw [he] at h
    split
    · exact h.trans ((Keeps.of_heap (logIf_heap _ _ _)).trans (.of_heap (logIf_heap _ _ _)))
    · exact h.trans (.of_heap (logIf_heap _ _ _))

/-! ### What commits store -/

theorem buildCommit_did {rd : C → Option (NodeData C)} {st : LoopState C R} {key nonce seq : Nat}
    {did : Did} {prev : Option C} {cd : CommitData C R}
    (h : buildCommit L rd st key nonce seq did prev = .ok cd) :
    ∃ co, cd.commit.val = .commit co ∧ co.did = did := by
  unfold buildCommit at h
  obtain ⟨u, _, h⟩ := bind_ok h
  obtain ⟨co, hco, h⟩ := bind_ok h
  unfold signedCommit at hco
  obtain ⟨rev, _, hco⟩ := bind_ok hco
  cases hco
  cases h
  exact ⟨_, rfl, rfl⟩

/-- `store_repo` writes back the status that is stored. -/
theorem storeRepo_stored {s : Ref} {so : RepoObj C R} (hs : w.heap[s]? = some so) {did : Did}
    (hd : so.did = some did)
    (hst : match be with
      | .memory => dictGet w.repos did = some s
      | .datastore => ∀ row, dictGet w.rows did = some row → so.status = row.status) :
    KeepsStored w (storeRepo L be w s).1 := by
  unfold storeRepo
  rw [hs]
  dsimp only
  split
  · rename_i d b hd' _
    rw [hd] at hd'; cases hd'
    cases be with
    | memory =>
      intro d'
      refine ⟨rfl, ?_⟩
      show dictGet (dictSet w.repos did s) d' = _
      rw [dictGet_dictSet]
      split
      · rename_i h; rw [h]; exact hst.symm
      · rfl
    | datastore =>
      dsimp only
      cases hr : dictGet w.rows did with
      | none => exact .refl _
      | some row =>
        intro d'
        refine ⟨?_, rfl⟩
        show (dictGet (dictSet w.rows did _) d').map _ = _
        rw [dictGet_dictSet]
        split
        · rename_i h
          rw [h, hr]
          simp [hst row hr]
        · rfl
  · exact .refl _

theorem modObj_get {f : RepoObj C R → RepoObj C R} {r : Ref} {o : RepoObj C R}
    (ho : w.heap[r]? = some o) : (w.modObj r f).heap[r]? = some (f o) := by
  unfold World.modObj
  rw [ho]
  show (w.heap.set r (f o))[r]? = _
  rw [List.getElem?_set_self (lt_of_get ho)]

theorem modObj_repos (w : World C R) (r : Ref) (f : RepoObj C R → RepoObj C R) :
    (w.modObj r f).repos = w.repos ∧ (w.modObj r f).rows = w.rows := by
  unfold World.modObj; split <;> exact ⟨rfl, rfl⟩

theorem finishCommit_stored {r s : Ref} {mst : Node C} {existing : Bool} {cd : CommitData C R}
    {x : Luck} {did : Did} {co : Commit C} (hco : cd.commit.val = .commit co) (hcd : co.did = did)
    {so : RepoObj C R} (hs : w.heap[s]? = some so)
    (hst : existing = true → match be with
      | .memory => dictGet w.repos did = some s
      | .datastore => ∀ row, dictGet w.rows did = some row → so.status = row.status) :
    KeepsStored w (finishCommit L be w r s mst existing cd x).1 := by
  unfold finishCommit
  split
  · exact .refl _
  · dsimp only
    set w0 : World C R := { w with blocks := putBlocks L w.blocks (cd.blocks.map (·.2)) } with hw0
    have hm : ∀ (w : World C R) f, KeepsStored w (w.modObj r f) := fun w f =>
      .of_eq (modObj_repos _ _ _).2 (modObj_repos _ _ _).1
    have h0 : KeepsStored w w0 := .of_eq rfl rfl
    by_cases hex : existing = true
    · rw [if_pos hex]
      set w1 := w0.modObj s (fun o => { o with head := some cd.commit }) with hw1
      have h1 : KeepsStored w w1 :=
        h0.trans (.of_eq (modObj_repos _ _ _).2 (modObj_repos _ _ _).1)
      have hs1 : w1.heap[s]? = some { so with head := some cd.commit } :=
        modObj_get (w := w0) (f := fun o => { o with head := some cd.commit }) hs
      split
      · exact h1
      · have hd1 : ({ so with head := some cd.commit } : RepoObj C R).did = some did := by
          rw [← hcd]; exact did_eq rfl hco
        have h2 := h1.trans (storeRepo_stored (L := L) (be := be) hs1 hd1 (by
          have := hst hex
          cases be with
          | memory =>
            dsimp only at this ⊢
            rw [hw1, (modObj_repos _ _ _).1]; exact this
          | datastore =>
            dsimp only at this ⊢
            rw [hw1, (modObj_repos _ _ _).2]; exact this))
        split
        · rename_i he; rw [he] at h2; exact h2
        · rename_i he; rw [he] at h2
          exact h2.trans (hm _ _)
    · rw [if_neg hex]
      exact h0.trans (hm _ _)

/-- The object being committed to has the stored status. -/
theorem beginCommit_stored {hi lo : Nat} (hw : be = .memory → PCore L Z be hi lo w) {r : Ref}
    {o : RepoObj C R} (ho : w.heap[r]? = some o) {repoDid : Option Did}
    (hm : be = .memory → ∀ d, repoDid = some d → isDid d ∧ ∀ d', (d', r) ∉ w.repos)
    {w1 : World C R} {s : Ref} {did : Did} {prev : Option C} {so : RepoObj C R}
    (h : beginCommit L be w r o repoDid = (w1, .ok (s, did, prev))) (hs : w1.heap[s]? = some so)
    (hex : so.did.isSome = true) :
    match be with
      | .memory => dictGet w1.repos did = some s
      | .datastore => ∀ row, dictGet w1.rows did = some row → so.status = row.status := by
  cases be with
  | memory =>
    dsimp only
    have hb := (hw rfl).begin ho (hm rfl)
    rw [h] at hb
    obtain ⟨_, _, _, h4, _, _, _, ⟨so', h8, h9⟩, _⟩ := hb
    rw [hs] at h8; cases h8
    cases repoDid with
    | none =>
      obtain ⟨_, _, _, _, g⟩ := h9
      rw [h4]; exact g
    | some d =>
      rw [h9.1] at hex; cases hex
  | datastore =>
    dsimp only
    intro row hrow
    cases repoDid with
    | some d =>
      exfalso
      unfold beginCommit at h
      dsimp only at h
      split at h
      · rename_i hh
        obtain ⟨rfl, h⟩ := Prod.mk.inj h
        cases h
        rw [ho] at hs; cases hs
        simp [RepoObj.did, hh] at hex
      · split at h
        · split at h
          · obtain ⟨rfl, h⟩ := Prod.mk.inj h
            cases h
            have : (w.heap.set r { o with head := none })[r]? = some so := hs
            rw [List.getElem?_set_self (lt_of_get ho)] at this
            cases this
            simp [RepoObj.did] at hex
          · cases (Prod.mk.inj h).2
        · cases (Prod.mk.inj h).2
    | none =>
    have hrows := (beginCommit_keeps (L := L) .datastore w r o ho none).2.2
    rw [h] at hrows
    dsimp only at hrows
    unfold beginCommit at h
    dsimp only at h
    split at h
    · cases (Prod.mk.inj h).2
    · rename_i d _
      split at h
      · cases (Prod.mk.inj h).2
      · cases (Prod.mk.inj h).2
      · rename_i w' s' hl
        split at h
        · obtain ⟨rfl, h⟩ := Prod.mk.inj h
          cases h
          have := loadRepo_status hl (by rw [← hrows]; exact hrow)
          unfold World.status at this
          rw [hs] at this
          exact this
        · cases (Prod.mk.inj h).2

theorem commitBody_stored {hi lo : Nat} (hw : be = .memory → PCore L Z be hi lo w) {r : Ref}
    (writes : List (Write R)) (seq : Nat) {repoDid : Option Did} (x : Luck)
    (hm : be = .memory → ∀ d, repoDid = some d → isDid d ∧ ∀ d', (d', r) ∉ w.repos) :
    KeepsStored w (commitBody L be w r writes seq repoDid x).1 := by
  unfold commitBody
  cases ho : w.heap[r]? with
  | none => exact .refl _
  | some o =>
    dsimp only
    split
    · exact .refl _
    split
    · exact .refl _
    have h1 := (beginCommit_keeps (L := L) be w r o ho repoDid).2.1
    rcases hb : beginCommit L be w r o repoDid with ⟨w1, _ | ⟨s, did, prev⟩⟩
    · rw [hb] at h1; exact h1
    · rw [hb] at h1
      dsimp only at h1 ⊢
      cases hs : w1.heap[s]? with
      | none => exact h1
      | some so =>
        dsimp only
        split
        · exact h1
        split
        · exact h1.trans (.of_eq rfl rfl)
        · rename_i st _
          have h2 : KeepsStored w (w1.setObj s { so with mst := L.touch w1.rd st.mst }) :=
            h1.trans (.of_eq rfl rfl)
          split
          · exact h2
          split
          · exact h2
          · rename_i cd hcd
            obtain ⟨co, hco, hdid⟩ := buildCommit_did hcd
            have hst := fun h => beginCommit_stored hw ho hm hb hs h
            refine h2.trans (finishCommit_stored hco hdid
              (so := { so with mst := L.touch w1.rd st.mst }) ?_ ?_)
            · show (w1.heap.set s _)[s]? = _
              rw [List.getElem?_set_self (lt_of_get hs)]
            · intro hex
              have := hst hex
              cases be with
              | memory => exact this
              | datastore => exact this

theorem KeepsStored.undo {w' : World C R} (h : KeepsStored w w') :
    KeepsStored w { w'.collect w with rows := w.rows } := fun d => ⟨rfl, (h d).2⟩

theorem commitTx_stored {r : Ref} (writes : List (Write R)) (seq : Nat) {repoDid : Option Did} :
    ∀ (xs : List Luck) {w : World C R},
    (be = .memory → ∃ hi lo, PCore L Z be hi lo w) →
    (be = .memory → ∀ d, repoDid = some d → isDid d ∧ ∀ d', (d', r) ∉ w.repos) →
    KeepsStored w (commitTx L be r writes seq repoDid w xs).1
  | [], w, _, _ => .refl _
  | x :: xs, w, hw, hm => by
    have h : KeepsStored w (commitBody L be w r writes seq repoDid x).1 := by
      cases be with
      | memory =>
        obtain ⟨hi, lo, hw⟩ := hw rfl
        exact commitBody_stored (fun _ => hw) writes seq x hm
      | datastore =>
        exact commitBody_stored (Z := 0) (hi := 0) (lo := 0) (fun h => by cases h) writes seq x hm
    unfold commitTx
    split
    · rename_i he; rw [he] at h
      split
      · rename_i hc
        refine KeepsStored.trans (b := { World.collect _ w with rows := w.rows }) h.undo
          (commitTx_stored writes seq xs ?_ ?_)
        · intro hb; rw [hb] at hc; cases hc.1
        · intro hb; rw [hb] at hc; cases hc.1
      · exact h.undo
    · rename_i he; rw [he] at h
      split
      · rename_i hc
        refine KeepsStored.trans (b := { World.collect _ w with rows := w.rows }) h.undo
          (commitTx_stored writes seq xs ?_ ?_)
        · intro hb; rw [hb] at hc; cases hc.1
        · intro hb; rw [hb] at hc; cases hc.1
      · exact fun d => h d

theorem logIf_rows (w : World C R) (b : Bool) (c : CbCall C) : KeepsStored w (w.logIf b c) := by
  unfold World.logIf; split <;> exact .of_eq rfl rfl

theorem commit_stored (hw : PWorld L Z be w) {r : Ref} (writes : List (Write R))
    {repoDid : Option Did} (xs : List Luck) (cbFails : Bool)
    (hm : be = .memory → ∀ d, repoDid = some d → isDid d ∧ ∀ d', (d', r) ∉ w.repos) :
    KeepsStored w (commit L be w r writes repoDid xs cbFails).1 := by
  have h : KeepsStored w (commitTx L be r writes w.alloc.1 repoDid w.alloc.2 xs).1 :=
    (KeepsStored.of_eq rfl rfl : KeepsStored w w.alloc.2).trans
      (commitTx_stored (Z := Z) _ _ _ (fun _ => ⟨_, _, hw.alloc.2.2.1⟩) hm)
  unfold Store.commit
  dsimp only
  split
  · rename_i he; rw [he] at h
    exact h.trans (logIf_rows _ _ _)
  · rename_i he; rw [he] at h
    split
    · exact h.trans ((logIf_rows _ _ _).trans (logIf_rows _ _ _))
    · exact h.trans (logIf_rows _ _ _)

/-! ### Events and creating repos -/

theorem writeEvents_same (hL : L.OK Z) (r : Ref) (time : Nat) : ∀ (ks : List (EventKind C))
    {w : World C R}, PWorld L Z be w → PWorld L Z be (writeEvents L be r time w ks).1 ∧
      SameObjs w (writeEvents L be r time w ks).1
  | [], w, hw => ⟨hw, rfl, rfl, rfl⟩
  | k :: ks, w, hw => by
    obtain ⟨h1, h2⟩ := event_any hL hw r k time
    unfold writeEvents
    split
    · rename_i he; rw [he] at h1 h2; exact ⟨h1, h2⟩
    · rename_i he; rw [he] at h1 h2
      obtain ⟨h3, h4⟩ := writeEvents_same hL r time ks h1
      exact ⟨h3, h4.1.trans h2.1, h4.2.1.trans h2.2.1, h4.2.2.trans h2.2.2⟩

theorem SameObjs.keeps {w' : World C R} (h : SameObjs w w') : Keeps w w' ∧ KeepsStored w w' :=
  ⟨.of_heap h.1, .of_eq h.2.1 h.2.2⟩

theorem createRepo_keeps {w : World C R} {r : Ref} {o : RepoObj C R} {did : Did}
    (ho : w.heap[r]? = some o) (hd : o.did = some did) :
    (createRepo L be w r).1.heap = w.heap ∧
    ∀ d, d ≠ did → dictGet (createRepo L be w r).1.rows d = dictGet w.rows d ∧
      dictGet (createRepo L be w r).1.repos d = dictGet w.repos d := by
  unfold createRepo
  rw [ho]
  dsimp only
  split
  · rename_i d' b hd' _
    rw [hd] at hd'; cases hd'
    cases be with
    | memory =>
      refine ⟨rfl, fun d hne => ⟨rfl, ?_⟩⟩
      show dictGet (dictSet w.repos did r) d = _
      rw [dictGet_dictSet, if_neg hne]
    | datastore =>
      refine ⟨rfl, fun d hne => ⟨?_, rfl⟩⟩
      show dictGet (dictSet w.rows did _) d = _
      rw [dictGet_dictSet, if_neg hne]
  · exact ⟨rfl, fun _ _ => ⟨rfl, rfl⟩⟩

/-- Stored statuses of other repos stay the same. -/
def KeepsBut (did : Did) (w w' : World C R) : Prop :=
  ∀ d, d ≠ did → (dictGet w'.rows d).map (·.status) = (dictGet w.rows d).map (·.status) ∧
    dictGet w'.repos d = dictGet w.repos d

/-- `Repo.create` only concerns the new repo. -/
theorem create_keeps (hL : L.OK Z) (hw : PWorld L Z be w) {did : Did}
    {handle : Option Key} {key : Nat} {callback : Bool} {time : Nat} {xs : List Luck}
    {cbFails : Bool} (hd : isDid did) (hh : ∀ h, handle = some h → ¬ isDid h) :
    Keeps w (repoCreate L be w did handle key callback time xs cbFails).1 ∧
    KeepsBut did w (repoCreate L be w did handle key callback time xs cbFails).1 := by
  obtain ⟨root, hroot, hinv⟩ := create_root hL w.rd
  unfold repoCreate
  rw [hroot]
  dsimp only
  set o0 : RepoObj C R := ⟨root, none, handle, none, key, callback⟩ with ho0
  set w0 : World C R := (w.newObj o0).2 with hw0
  have hn : (w.newObj o0).1 = w.heap.length := rfl
  rw [hn]
  have hw0ok : PWorld L Z be w0 := hw.same rfl
    (hw.core.newObj ⟨⟨0, nil, _, hinv⟩, fun b hb => (by cases hb), hh⟩ (fun _ b hb => by cases hb))
  have hnot : ∀ d', (d', w.heap.length) ∉ w0.repos := by
    intro d' h
    obtain ⟨_, o, g, _⟩ := hw.core.repos d' _ h
    have := lt_of_get g
    omega
  have hk0 : Keeps w w0 := .newObj _ _
  have hk1 := hk0.trans (commit_keeps (L := L) be w0 w.heap.length [] (some did) xs cbFails)
  have hs1 : KeepsStored w (Store.commit L be w0 w.heap.length [] (some did) xs cbFails).1 :=
    (KeepsStored.of_eq rfl rfl : KeepsStored w w0).trans
      (commit_stored hw0ok [] xs cbFails (fun _ d h => by cases h; exact ⟨hd, hnot⟩))
  obtain ⟨w1, w', res, h1, h2, h3, h4, h5, h6, h7, h8⟩ := commit_plain hL hw0ok
    (r := w.heap.length) (repoDid := some did) (fun d h => by cases h; exact ⟨hd, hnot⟩) []
    xs cbFails
  rw [h1] at hk1 hs1 ⊢
  cases res with
  | error e => exact ⟨hk1.collect, fun d _ => hs1 d⟩
  | ok cd =>
    rcases h8 with ⟨⟨e, he⟩, _⟩ | ⟨cd', wk, did', prev, co, hres, _, _, _, _, _, _, _, k4⟩
    · cases he
    · have : cd = cd' := by
        rcases hres with h | ⟨e, h⟩ <;> cases h
        rfl
      subst this
      obtain ⟨key', nonce, n, hb⟩ := k4.built
      obtain ⟨ops, hcd⟩ := hb.commit
      have hval : cd.commit.val = .commit co := by rw [hcd]
      obtain ⟨j1, j2, _⟩ := k4.heads
      obtain ⟨o', g1, g2, _⟩ := k4.obj
      dsimp only at hk1 hs1 ⊢
      rw [hval]
      dsimp only
      have hget' : w'.heap[w.heap.length]? = some o' := by rw [h2.heap]; exact g1
      have hev := (writeEvents_same hL w.heap.length time
        [.identity handle, .account true none, .sync (L.hash (.commit co)) co.rev]
        (h2.pworld h3)).2
      have hk2 := hk1.trans hev.keeps.1
      have hs2 := hs1.trans hev.keeps.2
      split
      · rename_i he; rw [he] at hk2 hs2; exact ⟨hk2.collect, fun d _ => hs2 d⟩
      · rename_i w2 he; rw [he] at hk2 hs2 hev
        have hdid : o'.did = some did := by
          rw [did_eq g2 hval, hb.codid, j1]
        have hget2 : w2.heap[w.heap.length]? = some o' := by rw [hev.1]; exact hget'
        obtain ⟨c1, c2⟩ := createRepo_keeps (L := L) (be := be) hget2 hdid
        have hk3 : Keeps w (createRepo L be w2 w.heap.length).1 := hk2.trans (.of_heap c1)
        have hs3 : KeepsBut did w (createRepo L be w2 w.heap.length).1 := by
          intro d hne
          rw [(c2 d hne).1, (c2 d hne).2]
          exact hs2 d
        split
        · rename_i he; rw [he] at hk3 hs3; exact ⟨hk3.collect, fun d hne => hs3 d hne⟩
        · rename_i w3 he; rw [he] at hk3 hs3
          refine ⟨hk3.trans (.of_heap (logIf_heap _ _ _)), fun d hne => ?_⟩
          have := logIf_rows w3 callback (.commit (L.hash (.commit co)) cd.commit.seq) d
          rw [this.1, this.2]
          exact hs3 d hne

/-! ### Account statuses -/

/-- `_set_repo_status` concerns the object it is called with, and the repo of that object. -/
theorem setRepoStatus_keeps (be : Backend) (w : World C R) (r : Ref) (s : Option Status) :
    (∀ i, i ≠ r → ∀ o, w.heap[i]? = some o →
      (setRepoStatus be w r s).1.heap[i]? = some o) ∧
    (∀ o, w.heap[r]? = some o → (setRepoStatus be w r s).1.heap[r]? =
      some { o with status := s }) ∧
    (setRepoStatus be w r s).1.repos = w.repos ∧
    ∀ d, dictGet (setRepoStatus be w r s).1.rows d = dictGet w.rows d ∨
      ∃ o row, w.heap[r]? = some o ∧ o.did = some d ∧ dictGet w.rows d = some row ∧
        dictGet (setRepoStatus be w r s).1.rows d = some { row with status := s } := by
  unfold setRepoStatus
  cases ho : w.heap[r]? with
  | none => exact ⟨fun _ _ _ h => h, fun _ h => (by cases h), rfl, fun _ => .inl rfl⟩
  | some o =>
    dsimp only
    have e1 : ∀ i, i ≠ r → ∀ x, w.heap[i]? = some x →
        (w.setObj r { o with status := s }).heap[i]? = some x := by
      intro i hi x hx
      show (w.heap.set r _)[i]? = _
      rw [List.getElem?_set_ne (Ne.symm hi)]; exact hx
    have e2 : ∀ x, some o = some x →
        (w.setObj r { o with status := s }).heap[r]? = some { x with status := s } := by
      intro x hx; cases hx
      show (w.heap.set r _)[r]? = _
      rw [List.getElem?_set_self (lt_of_get ho)]
    cases be with
    | memory => exact ⟨e1, e2, rfl, fun _ => .inl rfl⟩
    | datastore =>
      dsimp only
      cases hod : o.did with
      | none => exact ⟨e1, e2, rfl, fun _ => .inl rfl⟩
      | some d =>
        dsimp only
        cases hrow : dictGet (w.setObj r { o with status := s }).rows d with
        | none => exact ⟨e1, e2, rfl, fun _ => .inl rfl⟩
        | some row =>
          refine ⟨e1, e2, rfl, fun d' => ?_⟩
          dsimp only
          rw [dictGet_dictSet]
          by_cases h : d' = d
          · subst h
            rw [if_pos rfl]
            exact .inr ⟨o, row, rfl, hod, hrow, rfl⟩
          · rw [if_neg h]; exact .inl rfl

/-- Setting a status concerns the object it is called with, and the repo of that object. -/
theorem setStatus_keeps (hL : L.OK Z) (hw : PWorld L Z be w) (r : Ref) (s : Option Status)
    (kind : EventKind C) (time : Nat) :
    (∀ i, i ≠ r → ∀ o, w.heap[i]? = some o →
      (setStatusEvent L be w r s kind time).1.heap[i]? = some o) ∧
    (∀ o, w.heap[r]? = some o → (setStatusEvent L be w r s kind time).1.heap[r]? =
      some { o with status := s }) ∧
    (setStatusEvent L be w r s kind time).1.repos = w.repos ∧
    ∀ d, dictGet (setStatusEvent L be w r s kind time).1.rows d = dictGet w.rows d ∨
      ∃ o row, w.heap[r]? = some o ∧ o.did = some d ∧ dictGet w.rows d = some row ∧
        dictGet (setStatusEvent L be w r s kind time).1.rows d = some { row with status := s } := by
  have h1 := (status_plain hw r s).1
  have hset := setRepoStatus_keeps be w r s
  unfold setStatusEvent
  rcases hs : setRepoStatus be w r s with ⟨w1, res⟩
  rw [hs] at h1 hset
  cases res with
  | error e => exact hset
  | ok u =>
    dsimp only at h1 hset ⊢
    obtain ⟨_, k2⟩ := event_any hL h1 r kind time
    have hgoal : ∀ w2, SameObjs w1 w2 → (∀ i, i ≠ r → ∀ o, w.heap[i]? = some o →
        w2.heap[i]? = some o) ∧
      (∀ o, w.heap[r]? = some o → w2.heap[r]? = some { o with status := s }) ∧
      w2.repos = w.repos ∧
      ∀ d, dictGet w2.rows d = dictGet w.rows d ∨
        ∃ o row, w.heap[r]? = some o ∧ o.did = some d ∧ dictGet w.rows d = some row ∧
          dictGet w2.rows d = some { row with status := s } := by
      intro w2 h
      rw [h.1, h.2.1, h.2.2]
      exact hset
    have := hgoal _ k2
    rcases he : writeEvent L be w1 r kind time with ⟨w2, res2⟩
    rw [he] at this
    cases res2 <;> exact this

end

end Arroba.Store
