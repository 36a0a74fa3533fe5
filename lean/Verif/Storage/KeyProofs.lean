import Verif.Storage.AddedProofs
import Verif.Storage.StatusProofs
import Verif.Storage.SignSpec

/-! Helper lemmas: signing keys, and what commits are signed with. -/

namespace Arroba.Store

variable {C R : Type} [DecidableEq C]

open Arroba.Tree

/-- The signing key of the repo of `d`, as stored. -/
def keyOf (be : Backend) (w : World C R) (d : Did) : Option Nat :=
  match be with
  | .memory => (dictGet w.repos d).bind fun r => (w.heap[r]?).map (·.key)
  | .datastore => (dictGet w.rows d).map (·.key)

/-- Live objects and stored repos keep their keys. -/
structure KeepsKeys (w w' : World C R) : Prop where
  heap : ∀ (i : Nat) (o : RepoObj C R), w.heap[i]? = some o → ∃ o', w'.heap[i]? = some o' ∧ o'.key = o.key
  rows : ∀ d, (dictGet w'.rows d).map (·.key) = (dictGet w.rows d).map (·.key)

section
variable {L : Lib C R} {Z : Nat} {be : Backend} {w : World C R}

theorem KeepsKeys.refl (w : World C R) : KeepsKeys w w := ⟨fun _ o h => ⟨o, h, rfl⟩, fun _ => rfl⟩

theorem KeepsKeys.trans {a b c : World C R} (h : KeepsKeys a b) (h' : KeepsKeys b c) : KeepsKeys a c := by
  refine ⟨fun i o ho => ?_, fun d => (h'.rows d).trans (h.rows d)⟩
  obtain ⟨o1, h1, h2⟩ := h.heap i o ho
  obtain ⟨o2, h3, h4⟩ := h'.heap i o1 h1
  exact ⟨o2, h3, h4.trans h2⟩

theorem KeepsKeys.of_eq {w w' : World C R} (h : w'.heap = w.heap) (hr : w'.rows = w.rows) : KeepsKeys w w' :=
  ⟨fun _ o ho => ⟨o, by rw [h]; exact ho, rfl⟩, fun _ => by rw [hr]⟩

theorem KeepsKeys.setObj {r : Ref} {o o' : RepoObj C R} (ho : w.heap[r]? = some o)
    (hs : o'.key = o.key) : KeepsKeys w (w.setObj r o') := by
  refine ⟨fun i x hx => ?_, fun _ => rfl⟩
  show ∃ y, (w.heap.set r o')[i]? = some y ∧ _
  by_cases hi : r = i
  · subst hi
    rw [ho] at hx; cases hx
    exact ⟨o', by rw [List.getElem?_set_self (lt_of_get ho)], hs⟩
  · exact ⟨x, by rw [List.getElem?_set_ne hi]; exact hx, rfl⟩

theorem KeepsKeys.modObj {f : RepoObj C R → RepoObj C R} (hf : ∀ o, (f o).key = o.key) (r : Ref) :
    KeepsKeys w (w.modObj r f) := by
  unfold World.modObj
  split
  · rename_i o ho; exact .setObj ho (hf o)
  · exact .refl _

theorem KeepsKeys.newObj (w : World C R) (o : RepoObj C R) : KeepsKeys w (w.newObj o).2 := by
  refine ⟨fun i x hx => ⟨x, ?_, rfl⟩, fun _ => rfl⟩
  show (w.heap ++ [o])[i]? = some x
  rw [List.getElem?_append, if_pos (lt_of_get hx)]; exact hx

theorem KeepsKeys.undo {w' : World C R} (h : KeepsKeys w w') :
    KeepsKeys w { w'.collect w with rows := w.rows } := by
  refine ⟨fun i o ho => ?_, fun _ => rfl⟩
  obtain ⟨o', h1, h2⟩ := h.heap i o ho
  exact ⟨o', by show (w'.collect w).heap[i]? = _; rw [collect_get (lt_of_get ho)]; exact h1, h2⟩

theorem KeepsKeys.collect {w' : World C R} (h : KeepsKeys w w') : KeepsKeys w (w'.collect w) :=
  ⟨h.undo.heap, h.rows⟩

theorem KeepsKeys.logIf (w : World C R) (b : Bool) (c : CbCall C) : KeepsKeys w (w.logIf b c) := by
  unfold World.logIf; split <;> exact .of_eq rfl rfl

theorem SameButLog.keys {w' : World C R} (h : SameButLog w w') : KeepsKeys w w' := by
  obtain ⟨l, rfl⟩ := h; exact .of_eq rfl rfl

/-- With the same objects, the keys of the stored repos are the same. -/
theorem keyOf_kept {hi lo : Nat} (hw : PCore L Z be hi lo w) {w' : World C R} (h1 : KeepsKeys w w') {d : Did}
    (h2 : dictGet w'.repos d = dictGet w.repos d) : keyOf be w' d = keyOf be w d := by
  unfold keyOf
  cases be with
  | memory =>
    dsimp only
    rw [h2]
    cases hg : dictGet w.repos d with
    | none => rfl
    | some r =>
      obtain ⟨_, o, ho, _⟩ := hw.repos d r (dictGet_mem hg)
      obtain ⟨o', ho', hk⟩ := h1.heap r o ho
      show (w'.heap[r]?).map _ = (w.heap[r]?).map _
      rw [ho, ho']
      simp [hk]
  | datastore => exact h1.rows d

/-! ### Calls keep keys -/

theorem repoLoad_keys (w : World C R) (c : C) (handle : Option Key) (status : Option Status)
    (key : Nat) (callback : Bool) : KeepsKeys w (repoLoad w c handle status key callback).1 := by
  unfold repoLoad
  split
  · exact .refl _
  · exact .newObj _ _

theorem loadRepo_keys (be : Backend) (w : World C R) (q : Key) : KeepsKeys w (loadRepo be w q).1 := by
  unfold loadRepo
  split
  · exact .refl _
  · cases be with
    | memory => exact .refl _
    | datastore =>
      dsimp only
      split
      · exact .refl _
      · rename_i row _
        have h := repoLoad_keys w row.head row.handle row.status row.key false
        split <;> (rename_i he; rw [he] at h; exact h)

/-- The object loaded from the Datastore has the stored key. -/
theorem loadRepo_key {w1 : World C R} {q : Key} {s : Ref} {row : Row C} {so : RepoObj C R}
    (h : loadRepo .datastore w q = (w1, .ok (some s))) (hrow : dictGet w.rows q = some row)
    (hs : w1.heap[s]? = some so) : so.key = row.key := by
  unfold loadRepo at h
  split at h
  · cases h
  · dsimp only at h
    have hf : findRow w q = some row := by unfold findRow; rw [hrow]
    rw [hf] at h
    dsimp only at h
    unfold repoLoad at h
    split at h
    · rename_i w' r he
      split at he
      · cases he
      · obtain ⟨rfl, he⟩ := Prod.mk.inj he
        cases he
        obtain ⟨rfl, h⟩ := Prod.mk.inj h
        cases h
        simp [World.newObj] at hs
        rw [← hs]
    · cases (Prod.mk.inj h).2

theorem beginCommit_keys (be : Backend) (w : World C R) (r : Ref) (o : RepoObj C R)
    (ho : w.heap[r]? = some o) (repoDid : Option Did) :
    KeepsKeys w (beginCommit L be w r o repoDid).1 := by
  unfold beginCommit
  split
  · split
    · exact .refl _
    · split
      · split
        · exact .setObj ho rfl
        · exact .refl _
      · exact .refl _
  · split
    · exact .refl _
    · rename_i d _
      have h := loadRepo_keys be w d
      split
      · rename_i he; rw [he] at h; exact h
      · rename_i he; rw [he] at h; exact h
      · rename_i he; rw [he] at h
        split <;> exact h

theorem storeRepo_keys (be : Backend) (w : World C R) (r : Ref) : KeepsKeys w (storeRepo L be w r).1 := by
  unfold storeRepo
  split
  · exact .refl _
  · split
    · cases be with
      | memory => exact .of_eq rfl rfl
      | datastore =>
        dsimp only
        split
        · exact .refl _
        · rename_i row hrow
          refine ⟨fun _ o h => ⟨o, h, rfl⟩, fun d => ?_⟩
          dsimp only
          rw [dictGet_dictSet]
          split
          · rename_i h; rw [h, hrow]; rfl
          · rfl
    · exact .refl _

theorem finishCommit_keys (be : Backend) (w : World C R) (r s : Ref) (mst : Node C)
    (existing : Bool) (cd : CommitData C R) (x : Luck) :
    KeepsKeys w (finishCommit L be w r s mst existing cd x).1 := by
  unfold finishCommit
  split
  · exact .refl _
  · dsimp only
    have h0 : KeepsKeys w { w with blocks := putBlocks L w.blocks (cd.blocks.map (·.2)) } := .of_eq rfl rfl
    split
    · have h1 := h0.trans (KeepsKeys.modObj
        (w := { w with blocks := putBlocks L w.blocks (cd.blocks.map (·.2)) })
        (f := fun o => { o with head := some cd.commit }) (fun _ => rfl) s)
      split
      · exact h1
      · have h2 := h1.trans (storeRepo_keys (L := L) be _ s)
        split
        · rename_i he; rw [he] at h2; exact h2
        · rename_i he; rw [he] at h2
          exact h2.trans (KeepsKeys.modObj
            (f := fun o => { o with mst := mst, head := some cd.commit }) (fun _ => rfl) r)
    · exact h0.trans (KeepsKeys.modObj
        (f := fun o => { o with mst := mst, head := some cd.commit }) (fun _ => rfl) r)

theorem commitBody_keys (be : Backend) (w : World C R) (r : Ref) (writes : List (Write R))
    (seq : Nat) (repoDid : Option Did) (x : Luck) :
    KeepsKeys w (commitBody L be w r writes seq repoDid x).1 := by
  unfold commitBody
  cases ho : w.heap[r]? with
  | none => exact .refl _
  | some o =>
    dsimp only
    split
    · exact .refl _
    split
    · exact .refl _
    have h1 := beginCommit_keys (L := L) be w r o ho repoDid
    rcases hb : beginCommit L be w r o repoDid with ⟨w1, _ | ⟨s, did, prev⟩⟩
    · rw [hb] at h1; exact h1
    · rw [hb] at h1
      dsimp only at h1 ⊢
      cases hs : w1.heap[s]? with
      | none => exact h1
      | some so =>
        dsimp only
        split
        · exact h1
        split
        · exact h1.trans (.setObj hs rfl)
        · rename_i st _
          have h2 := h1.trans (KeepsKeys.setObj (o' := { so with mst := L.touch w1.rd st.mst }) hs rfl)
          split
          · exact h2
          split
          · exact h2
          · exact h2.trans (finishCommit_keys _ _ _ _ _ _ _ _)

theorem commitTx_keys (be : Backend) (r : Ref) (writes : List (Write R)) (seq : Nat)
    (repoDid : Option Did) : ∀ (xs : List Luck) (w : World C R),
    KeepsKeys w (commitTx L be r writes seq repoDid w xs).1
  | [], w => .refl _
  | x :: xs, w => by
    have h := commitBody_keys (L := L) be w r writes seq repoDid x
    unfold commitTx
    split
    · rename_i he; rw [he] at h
      split
      · exact h.undo.trans (commitTx_keys be r writes seq repoDid xs _)
      · exact h.undo
    · rename_i he; rw [he] at h
      split
      · exact h.undo.trans (commitTx_keys be r writes seq repoDid xs _)
      · exact h.collect

theorem commit_keys (be : Backend) (w : World C R) (r : Ref) (writes : List (Write R))
    (repoDid : Option Did) (xs : List Luck) (cbFails : Bool) :
    KeepsKeys w (commit L be w r writes repoDid xs cbFails).1 := by
  have h : KeepsKeys w (commitTx L be r writes w.alloc.1 repoDid w.alloc.2 xs).1 :=
    (KeepsKeys.of_eq rfl rfl : KeepsKeys w w.alloc.2).trans (commitTx_keys _ _ _ _ _ _ _)
  unfold Store.commit
  dsimp only
  split
  · rename_i he; rw [he] at h
    exact h.trans (.logIf _ _ _)
  · rename_i he; rw [he] at h
    split
    · exact h.trans ((KeepsKeys.logIf _ _ _).trans (.logIf _ _ _))
    · exact h.trans (.logIf _ _ _)

theorem SameObjs.keys {w' : World C R} (h : SameObjs w w') : KeepsKeys w w' := .of_eq h.1 h.2.1

theorem setStatus_keys (hL : L.OK Z) (hw : PWorld L Z be w) (r : Ref) (s : Option Status)
    (kind : EventKind C) (time : Nat) : KeepsKeys w (setStatusEvent L be w r s kind time).1 := by
  obtain ⟨h1, h2, h3, h4⟩ := setStatus_keeps hL hw r s kind time
  refine ⟨fun i o ho => ?_, fun d => ?_⟩
  · by_cases hi : i = r
    · subst hi; exact ⟨_, h2 o ho, rfl⟩
    · exact ⟨o, h1 i hi o ho, rfl⟩
  · rcases h4 d with h | ⟨_, row, _, _, hr, h⟩
    · rw [h]
    · rw [h, hr]; rfl

theorem setRepoStatus_keys (be : Backend) (w : World C R) (r : Ref) (s : Option Status) :
    KeepsKeys w (setRepoStatus be w r s).1 := by
  obtain ⟨h1, h2, h3, h4⟩ := setRepoStatus_keeps be w r s
  refine ⟨fun i o ho => ?_, fun d => ?_⟩
  · by_cases hi : i = r
    · subst hi; exact ⟨_, h2 o ho, rfl⟩
    · exact ⟨o, h1 i hi o ho, rfl⟩
  · rcases h4 d with h | ⟨_, row, _, _, hr, h⟩
    · rw [h]
    · rw [h, hr]; rfl

/-! ### What commits are signed with -/

theorem buildCommit_signed {rd : C → Option (NodeData C)} {st : LoopState C R} {key nonce seq : Nat}
    {did : Did} {prev : Option C} {cd : CommitData C R}
    (h : buildCommit L rd st key nonce seq did prev = .ok cd) :
    ∃ co, cd.commit.val = .commit co ∧ co.did = did ∧ SignedBy L key co := by
  unfold buildCommit at h
  obtain ⟨u, _, h⟩ := bind_ok h
  obtain ⟨co, hco, h⟩ := bind_ok h
  unfold signedCommit at hco
  obtain ⟨rev, _, hco⟩ := bind_ok hco
  cases hco
  cases h
  exact ⟨_, rfl, rfl, _, rfl⟩

theorem finishCommit_data {r s : Ref} {mst : Node C} {existing : Bool} {cd cd' : CommitData C R}
    {x : Luck} {w' : World C R} (h : finishCommit L be w r s mst existing cd x = (w', .ok cd')) : cd' = cd := by
  unfold finishCommit at h
  split at h
  · cases (Prod.mk.inj h).2
  · dsimp only at h
    split at h
    · split at h
      · cases (Prod.mk.inj h).2
      · split at h
        · cases (Prod.mk.inj h).2
        · cases (Prod.mk.inj h).2; rfl
    · cases (Prod.mk.inj h).2; rfl

/-- The key that a commit is to be signed with: the stored one, or that of the repo being created. -/
def SigningKey (be : Backend) (w : World C R) (r : Ref) (repoDid : Option Did) (did : Did) (k : Nat) : Prop :=
  match repoDid with
  | none => keyOf be w did = some k
  | some _ => (w.heap[r]?).map (·.key) = some k

theorem commitBody_signed {hi lo : Nat} (hw : PCore L Z be hi lo w) {r : Ref} {writes : List (Write R)}
    {seq : Nat} {repoDid : Option Did} {x : Luck}
    (hm : ∀ d, repoDid = some d → isDid d ∧ ∀ d', (d', r) ∉ w.repos) {w' : World C R} {cd : CommitData C R}
    (h : commitBody L be w r writes seq repoDid x = (w', .ok cd)) :
    ∃ co k, cd.commit.val = .commit co ∧ SigningKey be w r repoDid co.did k ∧ SignedBy L k co := by
  unfold commitBody at h
  cases ho : w.heap[r]? with
  | none => rw [ho] at h; cases (Prod.mk.inj h).2
  | some o =>
    rw [ho] at h
    dsimp only at h
    split at h
    · cases (Prod.mk.inj h).2
    split at h
    · cases (Prod.mk.inj h).2
    have hb' := hw.begin ho hm
    rcases hb : beginCommit L be w r o repoDid with ⟨w1, _ | ⟨s, did, prev⟩⟩
    · rw [hb] at h; cases (Prod.mk.inj h).2
    · rw [hb] at h hb'
      dsimp only at h
      obtain ⟨_, _, b3, b4, _, b6, _, ⟨so, b7, b8⟩, _⟩ := hb'
      rw [b7] at h
      dsimp only at h
      split at h
      · cases (Prod.mk.inj h).2
      split at h
      · cases (Prod.mk.inj h).2
      split at h
      · cases (Prod.mk.inj h).2
      split at h
      · cases (Prod.mk.inj h).2
      · rename_i cd' hcd
        have := finishCommit_data h
        subst this
        obtain ⟨co, hco, hdid, hsig⟩ := buildCommit_signed hcd
        refine ⟨co, so.key, hco, ?_, hsig⟩
        rw [hdid]
        cases repoDid with
        | some d =>
          obtain ⟨_, _, _, _, rfl⟩ := b8
          show (w.heap[r]?).map _ = _
          rw [ho]; rfl
        | none =>
          obtain ⟨_, _, _, ⟨wl, b, g1, g2, _, _⟩, g5⟩ := b8
          cases be with
          | memory =>
            dsimp only at g5
            show (dictGet w.repos did).bind _ = _
            rw [g5]
            have : wl = w := by
              unfold loadRepo at g1
              split at g1
              · cases g1
              · exact (Prod.mk.inj g1).1.symm
            rw [this] at g2
            show (w.heap[s]?).map _ = _
            rw [g2]; rfl
          | datastore =>
            obtain ⟨_, row, hrow⟩ := g5
            show (dictGet w.rows did).map _ = _
            rw [hrow, loadRepo_key g1 hrow g2]; rfl

theorem commitTx_signed (hL : L.OK Z) {r : Ref} {writes : List (Write R)} {seq lo : Nat} (hlo : lo < seq)
    {repoDid : Option Did} : ∀ (xs : List Luck) {w : World C R}, PCore L Z be seq lo w →
    (∀ d, repoDid = some d → isDid d ∧ ∀ d', (d', r) ∉ w.repos) → ∀ {w' : World C R} {cd : CommitData C R},
    commitTx L be r writes seq repoDid w xs = (w', .ok cd) →
    ∃ co k, cd.commit.val = .commit co ∧ SigningKey be w r repoDid co.did k ∧ SignedBy L k co
  | [], w, _, _, w', cd, h => by cases h
  | x :: xs, w, hw, hm, w', cd, h => by
    unfold commitTx at h
    rcases hb : commitBody L be w r writes seq repoDid x with ⟨w1, e | cd1⟩
    · rw [hb] at h
      dsimp only at h
      split at h
      swap
      · cases (Prod.mk.inj h).2
      rename_i hc
      have ihg := fun {w : World C R} h h' {w' : World C R} {cd : CommitData C R} =>
        commitTx_signed hL (r := r) (writes := writes) (repoDid := repoDid) hlo xs (w := w) h h' (w' := w') (cd := cd)
      obtain ⟨rfl, ht, _⟩ := hc
      have ha := attempt_plain hL (writes := writes) (x := x) hw hlo hm
      have hk := (commitBody_keys (L := L) .datastore w r writes seq repoDid x).undo
      rw [hb] at ha hk
      obtain ⟨h1, h2, h3, _, _, hg, _⟩ := ha
      have hw2 : PCore L Z .datastore seq lo ({ w1.collect w with rows := w.rows } : World C R) :=
        (h1.collect (.inl rfl)).undoRows hw hg
      obtain ⟨co', k, g1, g2, g3⟩ := ihg hw2 (fun d hd' => ⟨(hm d hd').1, fun d' => by
        show (d', r) ∉ w1.repos
        rw [h3]; exact (hm d hd').2 d'⟩) h
      refine ⟨co', k, g1, ?_, g3⟩
      cases repoDid with
      | none => exact g2
      | some d =>
        have g2' : (({ w1.collect w with rows := w.rows } : World C R).heap[r]?).map (·.key) = some k := g2
        show (w.heap[r]?).map _ = _
        cases ho : w.heap[r]? with
        | none =>
          have : ({ w1.collect w with rows := w.rows } : World C R).heap[r]? = none := by
            show (w1.heap.take _)[r]? = none
            rw [List.getElem?_eq_none]
            rw [List.length_take]
            have := List.getElem?_eq_none_iff.1 ho
            omega
          rw [this] at g2'; cases g2'
        | some o =>
          obtain ⟨o', ho', hke⟩ := hk.heap r o ho
          rw [ho'] at g2'
          simpa [hke] using g2'
    · rw [hb] at h
      dsimp only at h
      have hs := commitBody_signed hw hm hb
      split at h
      · rename_i hc
        have ihg := fun {w : World C R} h h' {w' : World C R} {cd : CommitData C R} =>
          commitTx_signed hL (r := r) (writes := writes) (repoDid := repoDid) hlo xs (w := w) h h' (w' := w') (cd := cd)
        obtain ⟨rfl, ht⟩ := hc
        have ha := attempt_plain hL (writes := writes) (x := x) hw hlo hm
        have hk := (commitBody_keys (L := L) .datastore w r writes seq repoDid x).undo
        rw [hb] at ha hk
        obtain ⟨h1, did, prev, co, hd⟩ := ha
        have none_left : ∀ {hi lo : Nat} {v : World C R}, PCore L Z .datastore hi lo v → v.repos = [] := by
          intro hi lo v hv
          cases hr : v.repos with
          | nil => rfl
          | cons a l =>
            obtain ⟨k, _⟩ := hv.repos a.1 a.2 (by rw [hr]; exact List.mem_cons_self)
            cases k
        have hw2 : PCore L Z .datastore seq lo ({ w1.collect w with rows := w.rows } : World C R) :=
          (h1.collect (.inl rfl)).undoRows hw hd.grows
        obtain ⟨co', k, g1, g2, g3⟩ := ihg hw2 (fun d hd' => ⟨(hm d hd').1, fun d' => by
          rw [none_left hw2]; exact List.not_mem_nil⟩) h
        refine ⟨co', k, g1, ?_, g3⟩
        cases repoDid with
        | none => exact g2
        | some d =>
          obtain ⟨o, ho, _⟩ := hd.caller
          obtain ⟨o', ho', hke⟩ := hk.heap r o ho
          have g2' : (({ w1.collect w with rows := w.rows } : World C R).heap[r]?).map (·.key) = some k := g2
          rw [ho'] at g2'
          show (w.heap[r]?).map _ = _
          rw [ho]
          simpa [hke] using g2'
      · cases (Prod.mk.inj h).2
        exact hs

/-- The heads and the new commit after `commit`, with its key. -/
theorem commit_signed (hL : L.OK Z) (hw : PWorld L Z be w) {r : Ref} {repoDid : Option Did}
    (hm : ∀ d, repoDid = some d → isDid d ∧ ∀ d', (d', r) ∉ w.repos)
    (writes : List (Write R)) (xs : List Luck) (cbFails : Bool) :
    ∃ w1 w' res, commit L be w r writes repoDid xs cbFails = (w', res) ∧
      SameButLog w1 w' ∧ Grows w.blocks w1.blocks ∧ PWorld L Z be w1 ∧
      (((∃ e, res = .error e) ∧ w1.repos = w.repos ∧ ∀ d', headOf L be w1 d' = headOf L be w d') ∨
      ∃ cd wk did prev co k, (res = .ok cd ∨ ∃ e, res = .error e) ∧ wk.repos = w.repos ∧
        (∀ d', headOf L be wk d' = headOf L be w d') ∧
        PDone L Z be (w.last + 1) wk r repoDid w1 cd did prev co ∧ cd.commit.val = .commit co ∧
        (∃ b, dictGet w1.blocks (L.hash cd.commit.val) = some b ∧ b.val = .commit co) ∧
        SigningKey be w r repoDid did k ∧ SignedBy L k co) := by
  obtain ⟨a1, a2, a3, a4⟩ := hw.alloc
  have htx := tx_plain hL writes (Nat.lt_succ_self w.last) xs a3 hm
  have hst := commitTx_still (L := L) be r writes (w.last + 1) repoDid xs w.alloc.2
  have hsg := fun w' cd => commitTx_signed hL (writes := writes) (r := r) (Nat.lt_succ_self w.last) xs a3 hm
    (w' := w') (cd := cd)
  unfold Store.commit
  simp only
  rw [a1]
  rcases hc : commitTx L be r writes (w.last + 1) repoDid w.alloc.2 xs with ⟨w1, res⟩
  rw [show w.last.succ = w.last + 1 from rfl, hc] at htx
  rw [hc] at hst
  obtain ⟨hlog, hseqs⟩ : w1.log = w.log ∧ w1.seqs = w.alloc.2.seqs := hst
  cases res with
  | error e =>
    obtain ⟨h1, h2, h3, h4, h5, h6, h7, h8⟩ := htx
    exact ⟨w1, _, _, rfl, logIf_same _ _ _, h5, hw.of_core hseqs (h1.up (le_refl _) (Nat.le_succ _)),
      .inl ⟨⟨e, rfl⟩, h3, h6⟩⟩
  | ok cd =>
    obtain ⟨h0, h1, wk, did, prev, co, h2, h3, h4, h5, h6, h7, h8, h9, h10⟩ := htx
    obtain ⟨co', k, s1, s2, s3⟩ := hsg _ _ hc
    obtain ⟨key, nonce, n, hb⟩ := h9.built
    obtain ⟨ops, hcd⟩ := hb.commit
    have hval : cd.commit.val = .commit co := by rw [hcd]
    have : co' = co := by rw [hval] at s1; cases s1; rfl
    subst this
    rw [hb.codid] at s2
    have hg := Grows.trans h6 h9.grows
    have hpw := hw.of_core hseqs h0
    obtain ⟨o', g1, g2, _⟩ := h9.obj
    have hst : ∃ b, dictGet w1.blocks (L.hash cd.commit.val) = some b ∧ b.val = .commit co' := by
      obtain ⟨b', _, k1, k2, _⟩ := (h0.heap r o' g1).head _ g2
      exact ⟨b', k1, k2.trans hval⟩
    dsimp only
    by_cases hcb : ((((w.heap[r]?).map (·.callback)).getD false) && cbFails) = true
    · rw [if_pos hcb]
      exact ⟨w1, _, _, rfl, (logIf_same _ _ _).trans (logIf_same _ _ _), hg, hpw, .inr ⟨cd, wk, did, prev,
        co', k, .inr ⟨_, rfl⟩, h4, h7, h9, hval, hst, s2, s3⟩⟩
    · rw [if_neg hcb]
      exact ⟨w1, _, _, rfl, logIf_same _ _ _, hg, hpw, .inr ⟨cd, wk, did, prev,
        co', k, .inl rfl, h4, h7, h9, hval, hst, s2, s3⟩⟩

/-! ### Signed histories -/

theorem SignedSince.mono {a b : List (C × Block C R)} (hg : Grows a b) {k : Nat} {c : C}
    (h : SignedSince L a k c) : SignedSince L b k c := by
  induction h with
  | own hb hv hs _ ih => exact .own (hg _ _ hb) hv hs ih
  | imported hb hv hs => exact .imported (hg _ _ hb) hv hs

/-- If nothing was imported, the chain is signed as a whole. -/
theorem SignedSince.all {a : List (C × Block C R)} (hn : ∀ c b, dictGet a c = some b → 1 ≤ b.seq) {k : Nat} {c : C}
    (h : SignedSince L a k c) : SignedChain L a k c := by
  induction h with
  | own hb hv hs _ ih => exact SignedChain.mk hb hv hs ih
  | imported hb _ hs => have := hn _ _ hb; omega

/-- The commits of every repo are signed with its key. -/
def AllSigned (L : Lib C R) (be : Backend) (w : World C R) : Prop :=
  ∀ d c, headOf L be w d = some c → ∃ k, keyOf be w d = some k ∧ SignedSince L w.blocks k c

theorem AllSigned.kept (h : AllSigned L be w) {w' : World C R} (hh : ∀ d, headOf L be w' d = headOf L be w d)
    (hk : ∀ d, keyOf be w' d = keyOf be w d) (hg : Grows w.blocks w'.blocks) : AllSigned L be w' := by
  intro d c hc
  rw [hh] at hc
  obtain ⟨k, h1, h2⟩ := h d c hc
  exact ⟨k, (hk d).trans h1, h2.mono hg⟩

theorem keyOf_collect (hw : PWorld L Z be w) {w' : World C R} (hr : w'.repos = w.repos)
    (h : KeepsKeys w w') (d : Did) : keyOf be (w'.collect w) d = keyOf be w d :=
  keyOf_kept hw.core h.collect (by rw [show (w'.collect w).repos = w'.repos from rfl, hr])

/-- `Repo.create` gives the repo the key it is called with, or leaves everything as it was. -/
theorem create_signed (hL : L.OK Z) (hw : PWorld L Z be w) (hs : AllSigned L be w) {did : Did}
    {handle : Option Key} {key : Nat} {callback : Bool} {time : Nat} {xs : List Luck}
    {cbFails : Bool} (hd : isDid did) (hh : ∀ h, handle = some h → ¬ isDid h) :
    AllSigned L be (repoCreate L be w did handle key callback time xs cbFails).1 ∧
    (∀ d, keyOf be (repoCreate L be w did handle key callback time xs cbFails).1 d = keyOf be w d ∨
      d = did ∧ keyOf be (repoCreate L be w did handle key callback time xs cbFails).1 d = some key) ∧
    ∀ r, (repoCreate L be w did handle key callback time xs cbFails).2 = .ok r →
      keyOf be (repoCreate L be w did handle key callback time xs cbFails).1 did = some key := by
  obtain ⟨root, hroot, hinv⟩ := create_root hL w.rd
  unfold repoCreate
  rw [hroot]
  dsimp only
  set o0 : RepoObj C R := ⟨root, none, handle, none, key, callback⟩ with ho0
  set w0 : World C R := (w.newObj o0).2 with hw0
  have hn : (w.newObj o0).1 = w.heap.length := rfl
  rw [hn]
  have hw0ok : PWorld L Z be w0 := hw.same rfl
    (hw.core.newObj ⟨⟨0, nil, _, hinv⟩, fun b hb => (by cases hb), hh⟩ (fun _ b hb => by cases hb))
  have hnot : ∀ d', (d', w.heap.length) ∉ w0.repos := by
    intro d' h
    obtain ⟨_, o, g, _⟩ := hw.core.repos d' _ h
    have := lt_of_get g
    omega
  have hhead0 : ∀ d', headOf L be w0 d' = headOf L be w d' := fun d' => headOf_newObj hw o0 d'
  have hkk := (KeepsKeys.newObj w o0).trans (commit_keys (L := L) be w0 w.heap.length [] (some did) xs cbFails)
  obtain ⟨w1, w', res, h1, h2, h3, h4, h5⟩ := commit_signed hL hw0ok
    (r := w.heap.length) (repoDid := some did) (fun d h => by cases h; exact ⟨hd, hnot⟩) []
    xs cbFails
  rw [h1] at hkk ⊢
  have hrep : w'.repos = w.repos := by
    rcases h5 with ⟨_, k, _⟩ | ⟨cd, wk, did', prev, co, k, _, k1, _, k3, _⟩
    · obtain ⟨l, rfl⟩ := h2; exact k
    · obtain ⟨_, _, _, j, _⟩ := k3.heads
      obtain ⟨l, rfl⟩ := h2
      exact j.trans k1
  have hheads : ∀ d, headOf L be w' d = headOf L be w d := by
    intro d
    rw [headOf_log h2]
    rcases h5 with ⟨_, _, k⟩ | ⟨cd, wk, did', prev, co, k, _, _, k2, k3, _⟩
    · exact (k d).trans (hhead0 d)
    · obtain ⟨_, _, _, _, j⟩ := k3.heads
      exact (j d).trans ((k2 d).trans (hhead0 d))
  have hgr : Grows w.blocks w'.blocks := by
    obtain ⟨l, rfl⟩ := h2; exact h3
  cases res with
  | error e =>
    dsimp only
    have hk := keyOf_collect hw hrep hkk
    refine ⟨hs.kept (fun d => ?_) hk hgr, fun d => .inl (hk d), fun _ h => by cases h⟩
    rw [← hheads d]
    cases be with
    | datastore => rfl
    | memory =>
      simp only [Store.headOf]
      rw [show (w'.collect w).repos = w'.repos from rfl]
      cases hg : dictGet w'.repos d with
      | none => rfl
      | some i =>
        dsimp only
        obtain ⟨_, o, g2, _⟩ := hw.core.repos d i (hrep ▸ dictGet_mem hg)
        rw [collect_get (lt_of_get g2)]
  | ok cd =>
    rcases h5 with ⟨⟨e, he⟩, _⟩ | ⟨cd', wk, did', prev, co, k, k0, k1, k2, k3, k4, ⟨b, kb, kv⟩, k5, k6⟩
    · cases he
    have : cd' = cd := by
      rcases k0 with h | ⟨e, h⟩
      · cases h; rfl
      · cases h
    subst this
    obtain ⟨o', g1, g2, _⟩ := k3.obj
    obtain ⟨j1, j2, _, _, j5⟩ := k3.heads
    obtain ⟨key', nonce, n, hb⟩ := k3.built
    have hkey : k = key := by
      have e : (w0.heap[w.heap.length]?).map (·.key) = some k := k5
      simp [hw0, World.newObj, ho0] at e
      exact e.symm
    have hget' : w'.heap[w.heap.length]? = some o' := by rw [h2.heap]; exact g1
    have hokey : o'.key = key := by
      have hc := (commit_keys (L := L) be w0 w.heap.length [] (some did) xs cbFails).heap w.heap.length o0
        (by simp [hw0, World.newObj])
      rw [h1] at hc
      obtain ⟨o2, e1, e2⟩ := hc
      rw [show w'.heap[w.heap.length]? = some o' from hget'] at e1
      cases e1
      exact e2
    dsimp only
    rw [k4]
    dsimp only
    obtain ⟨w2, f1, f2, f3, f4⟩ := writeEvents_plain hL (al := .all) (be := be)
      (did_eq g2 k4) time [.identity handle, .account true none, .sync (L.hash (.commit co)) co.rev]
      (h2.pworld h4) hget'
    have hpu : Grows w'.blocks w2.blocks := by
      have := (writeEvents_puts (L := L) be w.heap.length time
        [.identity handle, .account true none, .sync (L.hash (.commit co)) co.rev] w').grows
      rw [f1] at this; exact this
    rw [f1]
    dsimp only
    have hget2 : w2.heap[w.heap.length]? = some o' := by rw [f3.1]; exact hget'
    obtain ⟨w3, e1, e2, e3, e4, e5, e6, e7⟩ := createRepo_plain (be := be) f2
      (r := w.heap.length) (o := o') (b := cd'.commit) hget2 g2 k4
    have hdid : o'.did = some did := by rw [did_eq g2 k4, hb.codid, j1]
    obtain ⟨c1, c2⟩ := createRepo_keeps (L := L) (be := be) hget2 hdid
    have hkd : keyOf be (createRepo L be w2 w.heap.length).1 did = some key := by
      unfold createRepo
      rw [hget2]
      simp only [hdid, g2]
      cases be with
      | memory =>
        simp only [keyOf]
        rw [dictGet_dictSet, if_pos rfl]
        simp [hget2, hokey]
      | datastore =>
        simp only [keyOf]
        rw [dictGet_dictSet, if_pos rfl]
        simp [hokey]
    rw [e1] at c1 c2 hkd ⊢
    dsimp only at c1 c2 hkd ⊢
    set w4 := w3.logIf callback (.commit (L.hash (.commit co)) cd'.commit.seq) with hw4
    have hsl : SameButLog w3 w4 := logIf_same _ _ _
    have hb4 : w4.blocks = w2.blocks := by rw [hw4, logIf_blocks, e4]
    have hk4 : ∀ d, keyOf be w4 d = keyOf be w3 d := by
      intro d
      obtain ⟨l, h⟩ := hsl
      rw [h]
      cases be <;> rfl
    have hko : ∀ d, d ≠ did → keyOf be w3 d = keyOf be w d := by
      intro d hne
      have hkw2 : KeepsKeys w w2 := hkk.trans f3.keys
      have hr2 : dictGet w3.repos d = dictGet w.repos d := by
        rw [(c2 d hne).2, f3.2.2, hrep]
      cases be with
      | memory =>
        have hkw3 : KeepsKeys w { w3 with rows := w.rows } :=
          ⟨fun i o ho => by
            obtain ⟨o2, p1, p2⟩ := hkw2.heap i o ho
            exact ⟨o2, by rw [← p1]; exact congrArg (·[i]?) c1, p2⟩, fun _ => rfl⟩
        exact keyOf_kept (w' := { w3 with rows := w.rows }) hw.core hkw3 hr2
      | datastore =>
        show (dictGet w3.rows d).map _ = _
        rw [(c2 d hne).1]
        exact hkw2.rows d
    refine ⟨fun d c hc => ?_, fun d => ?_, fun _ _ => by rw [hk4, hkd]⟩
    · rw [headOf_log hsl, e7 d, hb.codid, j1] at hc
      rw [hb4]
      by_cases hdd : d = did
      · subst hdd
        rw [if_pos rfl] at hc
        cases hc
        refine ⟨key, by rw [hk4, hkd], ?_⟩
        refine .own (hpu _ _ (by obtain ⟨l, rfl⟩ := h2; exact kb)) kv (hkey ▸ k6) ?_
        intro p hp
        rw [hb.coprev, j2] at hp
        cases hp
      · rw [if_neg hdd, f3.headOf, hheads] at hc
        obtain ⟨k', q1, q2⟩ := hs d c hc
        exact ⟨k', by rw [hk4, hko d hdd, q1], q2.mono (hgr.trans hpu)⟩
    · by_cases hdd : d = did
      · subst hdd; exact .inr ⟨rfl, by rw [hk4, hkd]⟩
      · exact .inl (by rw [hk4, hko d hdd])

/-- What gives a repo a new key. -/
def NewKey (L : Lib C R) (be : Backend) (w w' : World C R) (d : Did) : Prop :=
  (∃ handle key callback time xs cbFails,
    w' = (repoCreate L be w d handle key callback time xs cbFails).1 ∧ keyOf be w' d = some key) ∨
  ∃ co handle key new, co.did = d ∧ keyOf be w d = none ∧ w' = (importInto L be w co handle key new).1 ∧
    keyOf be w' d = some key

theorem keyOf_import (hw : PWorld L Z be w) {co : Commit C} {handle : Option Key} {key : Nat}
    {new : List (C × Val C R)} (d : Did) : keyOf be (importInto L be w co handle key new).1 d =
      if d = co.did then some key else keyOf be w d := by
  split
  · rename_i h
    subst h
    rw [importInto_eq]
    cases be <;> simp [keyOf, dictGet_dictSet]
  · rename_i h
    have h3 := importInto_stored (L := L) (be := be) (w := w) (handle := handle) (key := key) (new := new) h
    unfold keyOf
    cases be with
    | memory =>
      dsimp only
      rw [h3.1]
      cases hg : dictGet w.repos d with
      | none => rfl
      | some r =>
        obtain ⟨_, o, ho, _⟩ := hw.core.repos d r (dictGet_mem hg)
        simp only [Option.bind_some, importInto_heap ho, ho]
    | datastore =>
      dsimp only
      rw [h3.2]

theorem keyOf_none (hw : PWorld L Z be w) {d : Did} (h : headOf L be w d = none) : keyOf be w d = none := by
  unfold headOf at h
  unfold keyOf
  cases be with
  | datastore => simpa using h
  | memory =>
    dsimp only at h ⊢
    cases hg : dictGet w.repos d with
    | none => rfl
    | some r =>
      obtain ⟨_, o, ho, hd⟩ := hw.core.repos d r (dictGet_mem hg)
      rw [hg] at h
      simp only [Option.bind_some, ho] at h
      unfold RepoObj.did at hd
      cases hh : o.head with
      | none => rw [hh] at hd; cases hd
      | some b => rw [hh] at h; cases h

/-- What an API call does to signatures and keys. -/
theorem Step.signed (hL : L.OK Z) {al : Allow} {w' : World C R} (hw : PWorld L Z be w)
    (hs : AllSigned L be w) (h : Step L be al w w') : AllSigned L be w' ∧
    ∀ d, keyOf be w' d = keyOf be w d ∨ NewKey L be w w' d := by
  have hpu := h.puts.grows
  have main : ∀ {w' : World C R}, Grows w.blocks w'.blocks → (∀ d, headOf L be w' d = headOf L be w d) →
      KeepsKeys w w' → (∀ d, dictGet w'.repos d = dictGet w.repos d) → AllSigned L be w' ∧
    ∀ d, keyOf be w' d = keyOf be w d ∨ NewKey L be w w' d := by
    intro w' hg hh hk hr
    have := fun d => keyOf_kept hw.core hk (hr d)
    exact ⟨hs.kept hh this hg, fun d => .inl (this d)⟩
  have status : ∀ (r : Ref) (s : Option Status) (kind : EventKind C) (time : Nat),
      Grows w.blocks (setStatusEvent L be w r s kind time).1.blocks →
      AllSigned L be (setStatusEvent L be w r s kind time).1 ∧
      ∀ d, keyOf be (setStatusEvent L be w r s kind time).1 d = keyOf be w d ∨
        NewKey L be w (setStatusEvent L be w r s kind time).1 d :=
    fun r s kind time hg => main hg (setStatus_heads hL hw r s kind time) (setStatus_keys hL hw r s kind time)
      (fun d => by rw [(setStatus_keeps hL hw r s kind time).2.2.1])
  cases h with
  | create did handle key callback time xs cbFails hd hh _ _ _ =>
    obtain ⟨h1, h2, _⟩ := create_signed hL hw hs (handle := handle) (key := key) (callback := callback)
      (time := time) (xs := xs) (cbFails := cbFails) hd hh
    refine ⟨h1, fun d => ?_⟩
    rcases h2 d with h | ⟨rfl, h⟩
    · exact .inl h
    · exact .inr (.inl ⟨_, _, _, _, _, _, rfl, h⟩)
  | «import» co handle key new hi hnew hhead hno hh ha hnat =>
    have hke := keyOf_import hw (co := co) (handle := handle) (key := key) (new := new)
    obtain ⟨w1, g1, g2, g3, g4, g5, g6, g7, g8, bh, hbh, hbv, hbs⟩ := import_plain hL hw (key := key) hnew hhead hno hh ha hnat
    rw [g1] at hke hpu ⊢
    dsimp only at hke hpu ⊢
    refine ⟨fun d c hc => ?_, fun d => ?_⟩
    · rw [g7] at hc
      rw [hke]
      split at hc
      · cases hc
        rename_i hd
        rw [if_pos hd]
        exact ⟨key, rfl, .imported hbh hbv hbs⟩
      · rename_i hd
        rw [if_neg hd]
        obtain ⟨k', q1, q2⟩ := hs d c hc
        exact ⟨k', q1, q2.mono hpu⟩
    · by_cases hd : d = co.did
      · subst hd
        exact .inr (.inr ⟨co, handle, key, new, rfl, keyOf_none hw g8, by rw [g1], by rw [hke, if_pos rfl]⟩)
      · exact .inl (by rw [hke, if_neg hd])
  | allocate _ => exact main hpu (fun _ => rfl) ⟨fun _ o ho => ⟨o, ho, rfl⟩, fun _ => rfl⟩ (fun _ => rfl)
  | setStatus r s _ =>
    exact main hpu (status_plain hw r s).2.2.2.2.2.2.1 (setRepoStatus_keys be w r s)
      (fun d => by rw [(setRepoStatus_keeps be w r s).2.2.1])
  | importBlocks did new _ _ _ _ =>
    exact main hpu (fun _ => rfl) ⟨fun _ o ho => ⟨o, ho, rfl⟩, fun _ => rfl⟩ (fun _ => rfl)
  | commit r writes xs cbFails ha =>
    have hk := commit_keys (L := L) be w r writes none xs cbFails
    have hst := commit_stored hw (r := r) writes (repoDid := none) xs cbFails (fun _ d h => by cases h)
    have hko := fun d => keyOf_kept hw.core hk (hst d).2
    obtain ⟨w1, w', res, h1, h2, h3, h4, h5⟩ := commit_signed hL hw
      (r := r) (repoDid := none) (fun d h => by cases h) writes xs cbFails
    rw [h1] at hk hst hko hpu ⊢
    refine ⟨?_, fun d => .inl (hko d)⟩
    rcases h5 with ⟨_, _, k⟩ | ⟨cd, wk, did', prev, co, k, k0, k1, k2, k3, k4, ⟨b, kb, kv⟩, k5, k6⟩
    · exact hs.kept (fun d => (headOf_log h2 d).trans (k d)) hko hpu
    · intro d c hc
      obtain ⟨_, j2, j3, j4⟩ := k3.heads
      obtain ⟨key', nonce, n, hb⟩ := k3.built
      rw [headOf_log h2] at hc
      by_cases hd : d = did'
      · subst hd
        rw [j3] at hc
        cases hc
        have k5' : keyOf be w d = some k := k5
        refine ⟨k, (hko d).trans k5', .own (by obtain ⟨l, rfl⟩ := h2; exact kb) kv k6 ?_⟩
        intro p hp
        rw [hb.coprev, ← j2, k2] at hp
        obtain ⟨k', q1, q2⟩ := hs d p hp
        rw [k5'] at q1
        cases q1
        exact q2.mono hpu
      · rw [j4 d hd, k2] at hc
        obtain ⟨k', q1, q2⟩ := hs d c hc
        exact ⟨k', (hko d).trans q1, q2.mono hpu⟩
  | setCallback r b =>
    refine main hpu (fun d => ?_) (.modObj (f := fun o => { o with callback := b }) (fun _ => rfl) r) (fun d => by rw [(modObj_repos _ _ _).1])
    unfold World.modObj
    cases ho : w.heap[r]? with
    | none => rfl
    | some o => exact headOf_sameHead (o' := { o with callback := b }) ho rfl d
  | deactivate r time => exact status _ _ _ _ hpu
  | activate r time => exact status _ _ _ _ hpu
  | tombstone r time => exact status _ _ _ _ hpu
  | event r kind time _ =>
    have h := (event_any hL hw r kind time).2
    exact main hpu (fun d => h.headOf d) h.keys (fun d => by rw [h.2.2])
  | loadRepo q =>
    exact main hpu (loadRepo_heads hw q) (loadRepo_keys be w q)
      (fun d => ((loadRepo_keeps be w q).2.1 d).2)
  | repoLoad c handle status' key callback _ =>
    exact main hpu (repoLoad_heads hw c handle status' key callback) (repoLoad_keys w c handle status' key callback)
      (fun d => ((repoLoad_keeps w c handle status' key callback).2 d).2)
  | cache r o n ho _ =>
    exact main hpu (headOf_sameHead ho rfl) (.setObj ho rfl) (fun _ => rfl)

/-- The key of a loaded object is the stored one. -/
theorem load_key (hw : PWorld L Z be w) {q : Did} (hq : isDid q) {w1 : World C R} {s : Ref} {o : RepoObj C R}
    (h : loadRepo be w q = (w1, .ok (some s))) (ho : w1.heap[s]? = some o) :
    keyOf be w q = some o.key ∧ ∃ b, o.head = some b ∧ headOf L be w q = some (L.hash b.val) ∧
      w1.blocks = w.blocks := by
  rcases hw.core.loadDid hq with h' | ⟨s', so, b, co, w1', h1, h2, h3, h4, h5, h6, h7, h8, h9, h10, h11, h12⟩
  · rw [h] at h'; cases h'
  · rw [h] at h1
    cases h1
    rw [ho] at h2
    cases h2
    cases be with
    | memory =>
      obtain ⟨rfl, hg⟩ := h12
      refine ⟨?_, b, h3, ?_, rfl⟩
      · simp [keyOf, hg, ho]
      · simp [headOf, hg, ho, h3]
    | datastore =>
      obtain ⟨_, row, hr, hb, rfl⟩ := h12
      refine ⟨by simp [keyOf, hr], b, h3, ?_, h8⟩
      simp only [headOf, hr, Option.map_some]
      rw [hw.core.blocks.addr _ _ hb]

theorem Reach.signed (hL : L.OK Z) {al : Allow} (h : Reach L be al w) : AllSigned L be w := by
  induction h with
  | empty =>
    intro d c hc
    cases be <;> simp [headOf, World.empty, dictGet] at hc
  | step h0 h ih => exact (h.signed hL (h0.plain hL).1 ih).1

end

end Arroba.Store
