import Verif.Storage.FreshProofs
import Verif.Props.C31

/-! # C33: commit size limits -/

namespace Arroba.Store

variable {C R : Type} [DecidableEq C] {L : Lib C R} {Z : Nat} {be : Backend} {al : Allow}
  {w : World C R}

/-- **C33, what is stored.** In every history of both backends no stored record is larger than
1,000,000 bytes, unless it was imported, and no stored commit has more than 200 operations. -/
theorem C33_stored (hL : L.OK Z) (hr : Reach L be al w) {c : C} {b : Block C R}
    (h : w.read c = some b) :
    (∀ r, b.val = .record r → L.size r ≤ 1000000 ∨ al.imports ∧ b.seq = 0) ∧
    (∀ ops, b.ops = some ops → ops.length ≤ 200) := by
  refine ⟨fun r hb => ?_, ?_⟩
  · by_cases h1 : 1 ≤ b.seq
    · exact .inl (((Reach.plain hL hr).1.core.blocks.recs c b r h hb).1 h1).2
    · by_cases hi : al.imports
      · exact .inr ⟨hi, by omega⟩
      · exact absurd (hr.native hL hi h) h1
  have : ∀ c b, dictGet w.blocks c = some b → b.Small := by
    clear h
    induction hr with
    | empty => intro c b h; simp [World.empty, dictGet] at h
    | step hr' hs ih =>
      intro c b h
      have hw := (Reach.plain hL hr').1
      rcases (hs.makes (lo := 0) ⟨hw.pos, Nat.zero_le _⟩).get h with h | ⟨_, h⟩
      · exact ih c b h
      · exact h.2
  exact this c b h

/-! ### Rejections -/

theorem applyWrites_append {rd : C → Option (NodeData C)} {seq : Nat} {did : Did} :
    ∀ {ws : List (Write R)} {st : LoopState C R} (ws' : List (Write R)),
    applyWrites L rd seq did st (ws ++ ws') =
      (applyWrites L rd seq did st ws >>= fun st' => applyWrites L rd seq did st' ws')
  | [], st, ws' => rfl
  | w :: ws, st, ws' => by
    simp only [List.cons_append, applyWrites]
    cases applyWrite L rd seq did st w with
    | error e => rfl
    | ok st' => exact applyWrites_append ws'

/-- A write of a record that is too large. -/
def Oversize (L : Lib C R) (w : Write R) : Prop :=
  w.action ≠ .delete ∧ ∃ r, w.record = some r ∧ 1000000 < L.size r

theorem Oversize.checked {w : Write R} (h : Oversize L w) : checkedRecord L w = .error .value := by
  obtain ⟨_, r, hr, hs⟩ := h
  unfold checkedRecord
  rw [hr]
  dsimp only
  unfold ensure
  by_cases hv : L.valid r = true
  · rw [if_pos hv, if_neg (by unfold maxRecordSize; omega)]; rfl
  · rw [if_neg hv]; rfl

theorem Oversize.write {rd : C → Option (NodeData C)} {seq : Nat} {did : Did} {w : Write R}
    (h : Oversize L w) (st : LoopState C R) :
    ∃ e, applyWrite L rd seq did st w = .error (st.mst, e) ∧
      ((w.action = .create ∨ ∃ c, get L.env rd L.fuel st.mst w.path = .ok c) → e = .value) := by
  have hc := h.checked
  unfold applyWrite
  cases ha : w.action with
  | delete => exact absurd ha h.1
  | create =>
    have hp : prevCidOf L rd st.mst w = .ok none := by simp [prevCidOf, ha]
    rw [hp]
    dsimp only [atTree]
    rw [ok_bind, hc]
    exact ⟨.value, rfl, fun _ => rfl⟩
  | update =>
    cases hp : prevCidOf L rd st.mst w with
    | error e =>
      refine ⟨e, rfl, ?_⟩
      rintro (h | ⟨c, hg⟩)
      · cases h
      · unfold prevCidOf at hp
        simp only [ha, hg, ok_bind] at hp
        cases c <;> simp at hp
        exact hp.symm
    | ok p =>
      dsimp only [atTree]
      rw [ok_bind, hc]
      exact ⟨.value, rfl, fun _ => rfl⟩

/-- The write list cannot be committed to any tree. -/
def Hopeless (L : Lib C R) (writes : List (Write R)) : Prop :=
  200 < writes.length ∨ ∃ x ∈ writes, Oversize L x

theorem Hopeless.apply {writes : List (Write R)} (h : Hopeless L writes)
    (rd : C → Option (NodeData C)) (seq : Nat) (did : Did) (st : LoopState C R) :
    maxOps < writes.length ∨ ∃ p, applyWrites L rd seq did st writes = .error p := by
  rcases h with h | ⟨x, hx, h⟩
  · exact .inl h
  · right
    obtain ⟨a, b, rfl⟩ := List.append_of_mem hx
    rw [applyWrites_append]
    cases applyWrites L rd seq did st a with
    | error p => exact ⟨p, rfl⟩
    | ok st' =>
      obtain ⟨e, he, _⟩ := h.write (rd := rd) (seq := seq) (did := did) st'
      rw [ok_bind]
      unfold applyWrites
      rw [he]
      exact ⟨_, rfl⟩

theorem Hopeless.body {hi lo : Nat} (hw : PCore L Z be hi lo w) {writes : List (Write R)}
    (h : Hopeless L writes) (r : Ref) (seq : Nat) (x : Luck) :
    ∃ w' e, commitBody L be w r writes seq none x = (w', .error e) ∧ w'.blocks = w.blocks ∧
      w'.repos = w.repos := by
  unfold commitBody
  cases ho : w.heap[r]? with
  | none => exact ⟨_, _, rfl, rfl, rfl⟩
  | some o =>
    dsimp only
    split
    · exact ⟨_, _, rfl, rfl, rfl⟩
    · split
      · exact ⟨_, _, rfl, rfl, rfl⟩
      · have hb := hw.begin (L := L) ho (repoDid := none) (fun d h => by cases h)
        split
        · rename_i he; rw [he] at hb; exact ⟨_, _, rfl, hb.2.1, hb.2.2.2.1⟩
        · rename_i w1 s did prev he
          rw [he] at hb
          obtain ⟨_, h2, _, h4, _⟩ := hb
          split
          · exact ⟨_, _, rfl, h2, h4⟩
          · rename_i so _
            rcases h.apply w1.rd seq did ⟨so.mst, [], []⟩ with hn | ⟨p, hp⟩
            · rw [if_pos hn]; exact ⟨_, _, rfl, h2, h4⟩
            · split
              · exact ⟨_, _, rfl, h2, h4⟩
              · rw [hp]
                exact ⟨_, _, rfl, h2, h4⟩

/-- **C33, rejection.** With more than 200 writes, or a record of more than 1,000,000 bytes to be
created or updated, `commit` raises, whatever the handle, the repo and the other writes, and
neither blocks nor stored repos change. -/
theorem C33_rejected (hL : L.OK Z) (hr : Reach L be al w) {writes : List (Write R)}
    (h : 200 < writes.length ∨ ∃ x ∈ writes, x.action ≠ .delete ∧ ∃ r, x.record = some r ∧
      1000000 < L.size r)
    (r : Ref) (xs : List Luck) (cbFails : Bool) :
    ∃ w' e, commit L be w r writes none xs cbFails = (w', .error e) ∧ w'.blocks = w.blocks ∧
      w'.repos = w.repos ∧ w'.rows = w.rows := by
  have hw := (Reach.plain hL hr).1
  have htx : ∃ w' e, commitTx L be r writes w.alloc.1 none w.alloc.2 xs = (w', .error e) ∧
      w'.blocks = w.blocks ∧ w'.repos = w.repos ∧ w'.rows = w.rows := by
    have hw1 := hw.alloc.2.2.1
    have hlt : w.last < w.last + 1 := Nat.lt_succ_self _
    obtain ⟨w0, hw0⟩ : ∃ w0, w0 = w.alloc.2 := ⟨_, rfl⟩
    rw [hw.alloc.1, show w.blocks = w.alloc.2.blocks from rfl, show w.repos = w.alloc.2.repos from rfl,
      show w.rows = w.alloc.2.rows from rfl, ← hw0]
    rw [← hw0] at hw1
    clear hw0
    induction xs generalizing w0 with
    | nil => exact ⟨_, _, rfl, rfl, rfl, rfl⟩
    | cons x xs ih =>
      obtain ⟨w', e, h1, h2, h3⟩ := Hopeless.body hw1 h r (w.last + 1) x
      have hp := attempt_plain hL (writes := writes) (x := x) (r := r) (repoDid := none) hw1 hlt
        (fun d h => by cases h)
      rw [h1] at hp
      obtain ⟨g1, g2, g3, g4, g5, _⟩ := hp
      unfold commitTx
      rw [h1]
      dsimp only
      have hrows : ({ w'.collect w0 with rows := w0.rows } : World C R) = w'.collect w0 := by
        rw [← g2]; rfl
      rw [hrows]
      split
      · rename_i ht
        obtain ⟨w2, e2, k1, k2, k3, k4⟩ := ih (w'.collect w0) (g1.collect (.inl ht.1))
        exact ⟨w2, e2, k1, k2.trans h2, k3.trans h3, k4.trans g2⟩
      · exact ⟨_, _, rfl, h2, h3, g2⟩
  obtain ⟨w', e, h1, h2, h3, h4⟩ := htx
  unfold Store.commit
  dsimp only
  rw [h1]
  dsimp only
  rw [logIf_with]
  exact ⟨_, _, rfl, h2, h3, h4⟩

/-! ### The exception -/

/-- What `_commit` works on. -/
theorem HandleOf.begin {hi lo : Nat} (hw : PCore L Z be hi lo w) {r : Ref} {d : Did}
    {o : RepoObj C R} (ho : w.heap[r]? = some o) (h : HandleOf be w r d) :
    ∃ w1 s so prev, beginCommit L be w r o none = (w1, .ok (s, d, prev)) ∧
      w1.heap[s]? = some so ∧ PObj L Z w1.blocks so := by
  obtain ⟨o', ho', hod, hst⟩ := h
  rw [ho] at ho'; cases ho'
  have hq := (hw.heap r o ho).isDid hw.blocks hod
  unfold beginCommit
  dsimp only
  rw [hod]
  dsimp only
  rcases hw.loadDid hq with h | ⟨s, so, b, co, w1, h1, h2, h3, h4, h5, h6, h7, h8, _⟩
  · exfalso
    unfold Store.loadRepo at h
    rw [if_neg (isDid_ne_nil hq)] at h
    cases be with
    | memory =>
      dsimp only at h hst
      rw [hw.findRepo hq (l := w.repos) (fun _ h => h), hst] at h
      cases h
    | datastore =>
      obtain ⟨row, hrow⟩ := hst
      dsimp only at h
      rw [hw.findRow hq, hrow] at h
      dsimp only at h
      split at h <;> cases h
  · rw [h1]
    dsimp only
    rw [show (w1.heap[s]?).bind (·.head) = some b by rw [h2]; exact h3]
    exact ⟨w1, s, so, _, rfl, h2, h7.heap s so h2⟩

theorem commit_error {r : Ref} {writes : List (Write R)} {x : Luck} {xs : List Luck} {cbFails : Bool}
    {w1 : World C R} {e : Err} (he : e ≠ .runtime)
    (h : commitBody L be w.alloc.2 r writes w.alloc.1 none x = (w1, .error e)) :
    ∃ w', commit L be w r writes none (x :: xs) cbFails = (w', .error e) := by
  unfold Store.commit commitTx
  dsimp only
  rw [h]
  dsimp only
  rw [if_neg (fun h => he h.2.2)]
  exact ⟨_, rfl⟩

/-- **C33, ValueError.** For an active repo the exception for too many writes is ValueError. -/
theorem C33_many (hL : L.OK Z) (hr : Reach L be al w) {r : Ref} {d : Did} (hh : HandleOf be w r d)
    (ha : w.status r = none) {writes : List (Write R)} (h : 200 < writes.length) (x : Luck)
    (xs : List Luck) (cbFails : Bool) :
    ∃ w', commit L be w r writes none (x :: xs) cbFails = (w', .error .value) := by
  have hw := (Reach.plain hL hr).1
  have hh' : HandleOf be w.alloc.2 r d := hh
  obtain ⟨o, ho, _⟩ := hh
  have hst : o.status = none := by
    unfold World.status at ha; rw [ho] at ha; exact ha
  obtain ⟨w1, s, so, prev, h1, h2, h3⟩ := hh'.begin (L := L) hw.alloc.2.2.1 ho
  refine commit_error (w1 := w1) (by simp) ?_
  unfold commitBody
  rw [show w.alloc.2.heap[r]? = some o from ho]
  dsimp only
  rw [if_neg (by rw [hw.alloc.1]; omega), if_neg (by rw [hst]; simp), h1]
  dsimp only
  rw [h2]
  dsimp only
  rw [if_pos (show maxOps < writes.length from h)]

/-- **C33, ValueError.** For an active repo the exception for an oversize record is ValueError, if
the writes before it can be committed. -/
theorem C33_large (hL : L.OK Z) (hr : Reach L be al w) {r : Ref} {d : Did} (hh : HandleOf be w r d)
    (ha : w.status r = none) {pre post : List (Write R)} {bad : Write R} {v : R}
    (hpre : ∃ w0 cd xs' cb', commit L be w r pre none xs' cb' = (w0, .ok cd))
    (hact : bad.action ≠ .delete) (hrec : bad.record = some v) (hsize : 1000000 < L.size v) (x : Luck)
    (xs : List Luck) (cbFails : Bool) :
    ∃ w', commit L be w r (pre ++ bad :: post) none (x :: xs) cbFails = (w', .error .value) := by
  have hw := (Reach.plain hL hr).1
  have hh' : HandleOf be w.alloc.2 r d := hh
  obtain ⟨o, ho, _⟩ := hh
  have hst : o.status = none := by
    unfold World.status at ha; rw [ho] at ha; exact ha
  obtain ⟨w1, s, so, prev, h1, h2, h3⟩ := hh'.begin (L := L) hw.alloc.2.2.1 ho
  have happ : ∃ st, applyWrites L w1.rd w.alloc.1 d ⟨so.mst, [], []⟩ pre = .ok st := by
    obtain ⟨w0, cd, xs', cb', hc⟩ := hpre
    cases happ : applyWrites L w1.rd w.alloc.1 d ⟨so.mst, [], []⟩ pre with
    | ok st => exact ⟨st, rfl⟩
    | error p =>
      exfalso
      cases xs' with
      | nil =>
        unfold Store.commit commitTx at hc
        cases hc
      | cons x' xs' =>
        have hne := PLoop.writes hL (blocks := w1.blocks) (seq := w.alloc.1) (did := d) (ws := pre)
          (st := ⟨so.mst, [], []⟩) ⟨h3.tree, by simp, by simp⟩
        rw [show applyWrites L (nodeIn w1.blocks) w.alloc.1 d ⟨so.mst, [], []⟩ pre = .error p from happ]
          at hne
        have : ∃ w2 e, e ≠ .runtime ∧
            commitBody L be w.alloc.2 r pre w.alloc.1 none x' = (w2, .error e) := by
          unfold commitBody
          rw [show w.alloc.2.heap[r]? = some o from ho]
          dsimp only
          rw [if_neg (by rw [hw.alloc.1]; omega), if_neg (by rw [hst]; simp), h1]
          dsimp only
          rw [h2]
          dsimp only
          split
          · exact ⟨_, .value, by simp, rfl⟩
          · rw [happ]; exact ⟨_, _, hne.1, rfl⟩
        obtain ⟨w2, e, he, h⟩ := this
        obtain ⟨w3, h⟩ := commit_error (xs := xs') (cbFails := cb') he h
        rw [h] at hc
        cases hc
  obtain ⟨st, hst'⟩ := happ
  have hloop : PLoop L Z w1.blocks w.alloc.1 d st := by
    have := PLoop.writes hL (blocks := w1.blocks) (seq := w.alloc.1) (did := d) (ws := pre)
      (st := ⟨so.mst, [], []⟩) ⟨h3.tree, by simp, by simp⟩
    rw [show applyWrites L (nodeIn w1.blocks) w.alloc.1 d ⟨so.mst, [], []⟩ pre = .ok st from hst']
      at this
    exact this
  obtain ⟨l, t, M, hi⟩ := hloop.inv
  have hbad : Oversize L bad := ⟨hact, v, hrec, hsize⟩
  obtain ⟨e, he, hev⟩ := hbad.write (rd := w1.rd) (seq := w.alloc.1) (did := d) st
  have hev := hev (.inr ⟨_, hi.get hL.fuel bad.path⟩)
  subst hev
  have hbody : ∃ w2, commitBody L be w.alloc.2 r (pre ++ bad :: post) w.alloc.1 none x =
      (w2, .error .value) := by
    unfold commitBody
    rw [show w.alloc.2.heap[r]? = some o from ho]
    dsimp only
    rw [if_neg (by rw [hw.alloc.1]; omega), if_neg (by rw [hst]; simp), h1]
    dsimp only
    rw [h2]
    dsimp only
    split
    · exact ⟨_, rfl⟩
    · rw [applyWrites_append, hst', ok_bind, applyWrites, he]
      exact ⟨_, rfl⟩
  obtain ⟨w2, hbody⟩ := hbody
  exact commit_error (by simp) hbody

/-! ### Examples -/

/-- At the limits: a record of exactly 1,000,000 bytes; 200 writes, and one more. -/
example (be : Backend) : succeeds (commit exL be (exW1 be) 0 [wr .create "c" (some 1000000)] none lucky
    false) = true := by
  cases be <;> decide +kernel

example (be : Backend) :
    succeeds (commit exL be (exW1 be) 0 (List.replicate 200 (wr .update "a" (some 4))) none lucky
      false) = true ∧
    succeeds (commit exL be (exW1 be) 0 (List.replicate 201 (wr .update "a" (some 4))) none lucky
      false) = false := by
  cases be <;> decide +kernel

example (be : Backend) : (exW1 be).status 0 = none := by
  cases be <;> decide +kernel

/-- Just above: the oversize record comes second. -/
example (be : Backend) : succeeds (commit exL be (exW1 be) 0 [wr .create "c" (some 3)] none lucky
      false) = true ∧
    succeeds (commit exL be (exW1 be) 0 ([wr .create "c" (some 3)] ++
      [wr .create "d" (some 1000001)]) none lucky false) = false := by
  cases be <;> decide +kernel

end Arroba.Store
