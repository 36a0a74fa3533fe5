import Verif.Storage.GroupProofs
import Verif.Storage.CommitProofs
import Verif.Storage.SeqProofs
import Verif.Storage.AddedProofs

/-! Helper lemmas: the commits that a call stores whose transaction is retried. They lead to the same records. -/

namespace Arroba.Store

variable {C R : Type} [DecidableEq C]

open Arroba.Tree

/-- The commits in `b` that are not in `a` are commits of `d` after `p`, with the number `seq`, and have the records `m`. -/
def Tried (L : Lib C R) (Z seq : Nat) (d : Did) (p : Option C) (m : Key → Option R) (a b : List (C × Block C R)) : Prop :=
  ∀ c x co, dictGet b c = some x → x.val = .commit co → dictGet a c = some x ∨
    (x.seq = seq ∧ co.did = d ∧ co.prev = p ∧ RootOK L Z b co.data m)

section
variable {L : Lib C R} {Z : Nat} {be : Backend} {w w0 : World C R} {seq : Nat}

theorem Built.rootOK (hL : L.OK Z) {blocks : List (C × Block C R)} {did : Did} {prev : Option C}
    {key nonce : Nat} {ops : List (CommitOp C)} {m : Key → Option R} {n : Node C} {cd : CommitData C R} {co : Commit C}
    (h : Built L Z blocks seq did prev key nonce ops m n cd co) :
    RootOK L Z (putBlocks L blocks (cd.blocks.map (·.2))) co.data m := by
  have h1 := h.objRep (o := ⟨n, none, none, none, 0, false⟩) (by intro _ h; cases h)
  obtain ⟨b', co', k1, k2, k3, k4⟩ := h1.root hL h.ok (b := cd.commit) rfl
  rw [h.commit] at k3
  cases k3
  exact k4

/-- One more attempt. -/
theorem Tried.built (hL : L.OK Z) {a blocks : List (C × Block C R)} {d : Did} {p : Option C}
    {key nonce : Nat} {ops : List (CommitOp C)} {m : Key → Option R} {n : Node C} {cd : CommitData C R} {co : Commit C}
    (h : Tried L Z seq d p m a blocks) (hb : Built L Z blocks seq d p key nonce ops m n cd co) :
    Tried L Z seq d p m a (putBlocks L blocks (cd.blocks.map (·.2))) := by
  intro c x co' hx hv
  rcases hb.newMarker hx with k | ⟨k1, _, k2⟩
  · rcases h c x co' k hv with g | ⟨g1, g2, g3, g4⟩
    · exact .inl g
    · exact .inr ⟨g1, g2, g3, g4.grow (putBlocks_grows _ _)⟩
  · have := (k2 (by unfold Block.marker; rw [hv]; trivial)).1
    subst this
    rw [hb.commit] at hv
    cases hv
    exact .inr ⟨k1, hb.codid, hb.coprev, hb.rootOK hL⟩

/-- What an attempt writes, in a healthy world. -/
theorem attempt_tried (hL : L.OK Z) (hw : Core L Z seq w) (hseq : 1 ≤ seq) (hh : HeadsLt be seq w) {r : Ref}
    {o : RepoObj C R} (ho : w.heap[r]? = some o) (writes : List (Write R)) (x : Luck) :
    (commitBody L be w r writes seq none x).1.blocks = w.blocks ∨
    ∃ d p m m' key nonce n cd co, o.did = some d ∧ headOf L be w d = some p ∧ RecordsOf L Z be w d m ∧
      specWrites L m writes = .ok m' ∧
      Built L Z w.blocks seq d (some p) key nonce (opsOf L m writes) m' n cd co ∧
      (commitBody L be w r writes seq none x).1.blocks = putBlocks L w.blocks (cd.blocks.map (·.2)) := by
  rw [commitBody_luck]
  rcases attempt_none hL hw hseq hh ho writes { x with storeFails := false } with
    ⟨w1, e, h1, h2, _⟩ | ⟨w1, cd, d, m, m', s, n, co, h1, h2⟩
  · left
    rw [h1]
    rcases h2 with h2 | ⟨h2, _⟩
    · have := congrArg World.blocks h2.eq
      exact this
    · cases h2
  · right
    obtain ⟨w2, so, b, g1, g2, g3, g4, g5, g6, hb, hbe⟩ := h2.stored
    obtain ⟨o', ho', hod, _⟩ := h2.caller
    rw [ho] at ho'; cases ho'
    rw [h1]
    refine ⟨d, L.hash b.val, m, m', _, _, n, cd, co, hod, ?_, ⟨s, w2, so, g1, g2, g6 ▸ g3⟩, h2.spec, hb, h2.blocks⟩
    unfold headOf
    cases be with
    | memory =>
      obtain ⟨rfl, k1, _⟩ := hbe
      simp only [k1, g2, Option.bind_some, g5, Option.map_some]
    | datastore =>
      obtain ⟨_, _, row, k1, k2, _⟩ := hbe
      simp only [k1, Option.map_some, hw.blocks.addr _ _ k2]

/-- The attempts of a transaction. -/
theorem tx_tried (hL : L.OK Z) {r : Ref} (hseq : 1 ≤ seq) (writes : List (Write R)) {d : Did} (hd : isDid d)
    {o : RepoObj C R} (ho : w0.heap[r]? = some o) (hod : o.did = some d) (hc0 : Core L Z seq w0) {m m' : Key → Option R}
    (hm : RecordsOf L Z be w0 d m) (hs : specWrites L m writes = .ok m') :
    ∀ (xs : List Luck) (w : World C R), Mid L Z be seq r w0 w →
      Tried L Z seq d (headOf L be w0 d) m' w0.blocks w.blocks →
      Tried L Z seq d (headOf L be w0 d) m' w0.blocks (commitTx L be r writes seq none w xs).1.blocks
  | [], w, _, h => h
  | x :: xs, w, hw, h => by
    obtain ⟨o', ho', hod'⟩ : ∃ o', w.heap[r]? = some o' ∧ o'.did = some d := by
      rcases hw.heap r with k | ⟨_, _, o₁, n, b, k1, k2, k3⟩
      · exact ⟨o, k.trans ho, hod⟩
      · rw [ho] at k1; cases k1
        exact ⟨_, k2, k3.trans hod⟩
    have hbody : Tried L Z seq d (headOf L be w0 d) m' w0.blocks (commitBody L be w r writes seq none x).1.blocks := by
      rcases attempt_tried hL hw.core hseq hw.heads ho' writes x with k |
        ⟨d', p, m1, m1', key, nonce, n, cd, co, k1, k2, k3, k4, k5, k6⟩
      · rw [k]; exact h
      · rw [hod'] at k1; cases k1
        have hm1 : m1 = m := by
          obtain ⟨c, b, co', q1, q2, q3, _, q4⟩ := (records_iff hL hc0 hd m).1 hm
          obtain ⟨c', b', co'', q1', q2', q3', _, q4'⟩ := (records_iff hL hw.core hd m1).1 k3
          rw [hw.headOf d, q1] at q1'; cases q1'
          rw [hw.grows _ _ q2] at q2'; cases q2'
          rw [q3] at q3'; cases q3'
          exact q4'.unique hL q4
        subst hm1
        rw [hs] at k4; cases k4
        rw [hw.headOf d] at k2
        rw [k6]
        rw [← k2] at k5
        exact h.built hL k5
    unfold commitTx
    rcases attempt_none hL hw.core hseq hw.heads ho' writes x with
      ⟨w1, e, h1, h2, _⟩ | ⟨w1, cd, did, q1, q2, s, n, co, h1, h2⟩
    · rw [h1] at hbody ⊢
      have er : ({ w1.collect w with rows := w.rows } : World C R) = w1.collect w := by
        have : (w1.collect w).rows = w.rows := by
          rcases h2 with h2 | ⟨_, h2⟩ <;> rw [h2.eq]
        rw [← this]
      dsimp only
      rw [er]
      split
      · rename_i ht
        exact tx_tried hL hseq writes hd ho hod hc0 hm hs xs _ (hw.failed ht.1 (h2.imp_right And.right)) hbody
      · exact hbody
    · rw [h1] at hbody ⊢
      dsimp only
      split
      · rename_i ht
        exact tx_tried hL hseq writes hd ho hod hc0 hm hs xs _ (hw.aborted ht.1 h2) hbody
      · exact hbody

/-- The commits that a call stores which succeeds, except that the callback may raise. -/
theorem commit_tried (hL : L.OK Z) (hw : WorldOK L Z w) {r : Ref} {writes : List (Write R)} {xs : List Luck} {cd : CommitData C R}
    (h : (commit L be w r writes none xs false).2 = .ok cd) (cbFails : Bool) {w' : World C R}
    (h' : (commit L be w r writes none xs cbFails).1 = w') :
    ∃ d m' b co, isDid d ∧ Core L Z (w.last + 1) w' ∧ Shows L be w' d m' ∧
      w'.read (L.hash b.val) = some b ∧ b.val = .commit co ∧ co.did = d ∧ b.seq = w.last + 1 ∧
      Tried L Z (w.last + 1) d (headOf L be w d) m' w.blocks w'.blocks ∧
      ∀ d', headOf L be w' d' = if d' = d then some (L.hash b.val) else headOf L be w d' := by
  rcases commit_cases hL (be := be) hw r writes xs cbFails with ⟨e, w2, w1, _, _, _, h1, _⟩ |
    ⟨w2, w1, wk, x, d, m, m', s, n, cd', co, h1, h2, h3, h4, h5, h6, _⟩
  · rw [commit_eq, h1] at h; cases h
  · rw [h1] at h'
    obtain rfl : w2 = w' := h'
    have hd := h6.isDid h4.core
    obtain ⟨a0, a1, a2⟩ := hw.alloc
    have hcore0 : Core L Z (w.last + 1) w.alloc.2 := by
      have := a0.core
      rw [a2.1] at this
      exact this
    have hbl : w2.blocks = w1.blocks := by obtain ⟨l, rfl⟩ := h2; rfl
    obtain ⟨w3, so, b, _, _, _, _, _, _, hb, _⟩ := h6.stored
    obtain ⟨o', ho', hod', _⟩ := h6.caller
    obtain ⟨o, ho, hod⟩ : ∃ o, w.alloc.2.heap[r]? = some o ∧ o.did = some d := by
      rcases h4.heap r with k | ⟨_, _, o₁, n, b, k1, k2, k3⟩
      · exact ⟨o', k ▸ ho', hod'⟩
      · rw [ho'] at k2; cases k2
        exact ⟨o₁, k1, k3 ▸ hod'⟩
    have hm : RecordsOf L Z be w.alloc.2 d m := by
      have := h6.before hL h4.core
      rw [shows_of_head hL hcore0 h4.core hd (h4.headOf d) h4.grows m, shows_iff hL hcore0 hd] at this
      exact this
    have key := tx_tried hL (be := be) (Nat.le_add_left 1 w.last) writes hd ho hod hcore0 hm h6.spec xs w.alloc.2
      (.refl hw be r) fun _ _ _ h _ => .inl h
    rw [← a1, h3] at key
    obtain ⟨b', g1, g2, g3⟩ := hb.head
    refine ⟨d, m', b', co, hd, h2.core (h6.core h4.core), ?_, ?_, by rw [g2, hb.commit], hb.codid, g3, ?_, fun d' => ?_⟩
    · exact (shows_log hL (h6.core h4.core) h2 hd m').2 (h6.after hL h4.core)
    · rw [show w2.read _ = dictGet w2.blocks _ from rfl, hbl, h6.blocks, g2]
      exact g1
    · rw [hbl]
      rw [a1] at key
      exact key
    · rw [headOf_log h2, h6.headOf h4.core, h4.headOf, g2]; rfl

theorem Tried.later {a b b' : List (C × Block C R)} {d : Did} {p : Option C} {m : Key → Option R}
    (h : Tried L Z seq d p m a b) (hg : Grows b b') (hn : NoCommits b b') : Tried L Z seq d p m a b' := by
  intro c x co hx hv
  rcases h c x co (hn c x co hx hv) hv with g | ⟨g1, g2, g3, g4⟩
  · exact .inl g
  · exact .inr ⟨g1, g2, g3, g4.grow hg⟩

/-- There is a commit of `d` with the number `seq`. -/
def Numbered (L : Lib C R) (seq : Nat) (d : Did) (a : List (C × Block C R)) : Prop :=
  ∃ x co, dictGet a (L.hash x.val) = some x ∧ x.val = .commit co ∧ co.did = d ∧ x.seq = seq

theorem Numbered.grow {d : Did} {a b : List (C × Block C R)} (h : Numbered L seq d a) (hg : Grows a b) :
    Numbered L seq d b := by
  obtain ⟨x, co, h1, h2⟩ := h
  exact ⟨x, co, hg _ _ h1, h2⟩

/-- The attempts of the first commit of a repo. -/
theorem first_tried (hL : L.OK Z) {r : Ref} {did : Did} {o0 : RepoObj C R} (hseq : 1 ≤ seq) (hdid : isDid did) :
    ∀ (xs : List Luck) (w : World C R), Newborn L Z seq r did o0 w0 w →
      Tried L Z seq did none (fun _ => none) w0.blocks w.blocks →
      Tried L Z seq did none (fun _ => none) w0.blocks (commitTx L be r [] seq (some did) w xs).1.blocks ∧
      ∀ cd, (commitTx L be r [] seq (some did) w xs).2 = .ok cd →
        Numbered L seq did (commitTx L be r [] seq (some did) w xs).1.blocks
  | [], w, _, h => ⟨h, fun _ h => by cases h⟩
  | x :: xs, w, hw, h => by
    unfold commitTx
    rcases attempt_create hL (be := be) hw hseq hdid x with ⟨w1, e, h1, h2, h3, _⟩ |
      ⟨w1, cd, co, n, h1, h2, h3, h4, h5⟩
    · rw [h1]
      dsimp only
      have e1 : ({ w1.collect w with rows := w.rows } : World C R) = w1 := by
        rw [collect_eq (h2.length.trans hw.length.symm), hw.rows, ← h2.rows]
      rw [e1]
      rw [← h3] at h
      split
      · exact first_tried hL hseq hdid xs w1 h2 h
      · exact ⟨h, fun _ h => by cases h⟩
    · rw [h1]
      dsimp only
      rw [collect_eq (h2.length.trans hw.length.symm)]
      have e1 : ({ w1 with rows := w.rows } : World C R) = w1 := by
        rw [hw.rows, ← h2.rows]
      rw [e1]
      have h' : Tried L Z seq did none (fun _ => none) w0.blocks w1.blocks := by
        rw [h4]; exact h.built hL h3
      split
      · exact first_tried hL hseq hdid xs w1 h2 h'
      · refine ⟨h', fun _ _ => ?_⟩
        obtain ⟨b, g1, g2, g3⟩ := h3.head
        refine ⟨b, co, ?_, by rw [g2, h3.commit], h3.codid, g3⟩
        rw [g2]
        show dictGet w1.blocks _ = _
        rw [h4]; exact g1

/-- The commits that are stored when a repo is created. -/
theorem create_tried (hL : L.OK Z) (hw : WorldOK L Z w) {did : Did} {handle : Option Key} {key : Nat} {callback : Bool}
    {time : Nat} {xs : List Luck} {cbFails : Bool} (hd : isDid did) (hh : ∀ h, handle = some h → ¬ isDid h) :
    Tried L Z (w.last + 1) did none (fun _ => none) w.blocks
      (repoCreate L be w did handle key callback time xs cbFails).1.blocks ∧
    ∀ r, (repoCreate L be w did handle key callback time xs cbFails).2 = .ok r →
      Numbered L (w.last + 1) did (repoCreate L be w did handle key callback time xs cbFails).1.blocks := by
  obtain ⟨root, hroot, hinv⟩ := create_root hL w.rd
  unfold repoCreate
  rw [hroot]
  dsimp only
  set o0 : RepoObj C R := ⟨root, none, handle, none, key, callback⟩ with ho0
  have hrep : ObjRep L Z w.blocks o0 (fun _ => none) :=
    ⟨⟨0, nil, hinv, hinv.treeOK (fun k r h => by cases h), by intro b hb; cases hb⟩, hh⟩
  have hw1ok : WorldOK L Z (w.newObj o0).2 := newObj_ok hw hrep
  have halloc := hw1ok.alloc
  have hlast : (w.newObj o0).2.last = w.last := rfl
  have hnb : Newborn L Z (w.last + 1) w.heap.length did o0 (w.newObj o0).2.alloc.2 (w.newObj o0).2.alloc.2 := by
    refine ⟨?_, ?_, rfl, rfl, rfl, rfl, .refl _, fun _ _ h => .inl h,
      fun _ _ => rfl, rfl, ⟨o0, root, none, by show (w.heap ++ [o0])[_]? = _; simp, rfl, rfl, hrep, .inl rfl⟩⟩
    · have := halloc.1.core
      rw [halloc.2.2.1, hlast] at this
      exact this
    · intro d h
      have := repos_lt hw.core (d := d) (r := w.heap.length) h
      simp at this
  have hg1 : Tried L Z (w.last + 1) did none (fun _ => none) w.blocks
      (commit L be (w.newObj o0).2 w.heap.length [] (some did) xs cbFails).1.blocks ∧
      ∀ cd, (commit L be (w.newObj o0).2 w.heap.length [] (some did) xs cbFails).2 = .ok cd →
        Numbered L (w.last + 1) did (commit L be (w.newObj o0).2 w.heap.length [] (some did) xs cbFails).1.blocks := by
    obtain ⟨k1, k2⟩ := first_tried (be := be) (w0 := (w.newObj o0).2.alloc.2) hL (Nat.le_add_left _ _) hd xs _ hnb
      fun _ _ _ h _ => .inl h
    rw [commit_tx, halloc.2.1, hlast]
    refine ⟨k1, fun cd hcd => ?_⟩
    rw [commit_eq, halloc.2.1, hlast] at hcd
    split at hcd
    · cases hcd
    · rename_i w1 cd' hc
      exact k2 cd' (by rw [hc])
  rw [show (w.newObj o0).1 = w.heap.length from rfl]
  rcases hc : commit L be (w.newObj o0).2 w.heap.length [] (some did) xs cbFails with ⟨w', res⟩
  rw [hc] at hg1
  obtain ⟨hg1, hn1⟩ := hg1
  cases res with
  | error e => exact ⟨hg1, fun _ h => by cases h⟩
  | ok cd =>
    dsimp only
    have hn1 := hn1 cd rfl
    split
    · rename_i co _
      have hgr := (writeEvents_puts (L := L) be w.heap.length time
        [.identity handle, .account true none, .sync (L.hash cd.commit.val) co.rev] w').grows
      have hg2 := hg1.later hgr (writeEvents_noCommits (L := L) (be := be) w.heap.length time _ w')
      have hn2 := hn1.grow hgr
      split
      · rename_i h; rw [h] at hg2; exact ⟨hg2, fun _ h => by cases h⟩
      · rename_i w2 h; rw [h] at hg2 hn2
        have h4 := createRepo_blocks (L := L) be w2 w.heap.length
        split
        · rename_i h; rw [h] at h4; dsimp only at h4 ⊢
          rw [show ∀ (x : World C R), (x.collect w).blocks = x.blocks from fun _ => rfl, h4]
          exact ⟨hg2, fun _ h => by cases h⟩
        · rename_i h; rw [h] at h4; dsimp only at h4 ⊢; rw [logIf_blocks, h4]; exact ⟨hg2, fun _ _ => hn2⟩
    · exact ⟨hg1, fun _ h => by cases h⟩

/-- Either nothing is done to `d`, or it has new commits, with one number, after the old head, with the records that `d` has. -/
def Settled (L : Lib C R) (Z : Nat) (be : Backend) (d : Did) (w w' : World C R) : Prop :=
  (headOf L be w' d = headOf L be w d ∧
    ∀ c b co, w'.read c = some b → b.val = .commit co → co.did = d → w.read c = some b) ∨
  ∃ seq m, w.last < seq ∧ RecordsOf L Z be w' d m ∧ Numbered L seq d w'.blocks ∧
    ∀ c b co, w'.read c = some b → b.val = .commit co → co.did = d → w.read c = some b ∨
      (b.seq = seq ∧ (co.prev = none ∨ co.prev = headOf L be w d) ∧ RootOK L Z w'.blocks co.data m)

theorem Added.settled (hL : L.OK Z) {w' : World C R} {n : Nat} (hw' : Core L Z n w') (h : Added L be w w') {d : Did}
    (hd : isDid d) : Settled L Z be d w w' := by
  rcases h with ⟨hb, hh⟩ | ⟨b, co, hv, hs, hr, hb, hpr, hh⟩
  · exact .inl ⟨hh d, fun c b co h1 h2 _ => hb c b co h1 h2⟩
  · by_cases hdd : co.did = d
    · obtain ⟨m, hm⟩ := hw'.blocks.root hr hv
      have hH : headOf L be w' d = some (L.hash b.val) := by rw [hh d, if_pos hdd.symm]
      rw [hdd] at hpr
      refine .inr ⟨b.seq, m, hs, (records_iff hL hw' hd m).2 ⟨_, b, co, hH, hr, hv, hdd, hm⟩, ⟨b, co, hr, hv, hdd, rfl⟩,
        fun c x co' h1 h2 _ => ?_⟩
      rcases hb c x co' h1 h2 with k | rfl
      · exact .inl k
      · rw [hv] at h2; cases h2
        exact .inr ⟨rfl, hpr, hm⟩
    · refine .inl ⟨by rw [hh d, if_neg (Ne.symm hdd)], fun c x co' h1 h2 h3 => (hb c x co' h1 h2).resolve_right ?_⟩
      rintro rfl
      rw [hv] at h2; cases h2
      exact hdd h3

theorem Tried.settled {w' : World C R} {d d0 : Did} {p : Option C} {m : Key → Option R}
    (h : Tried L Z (w.last + 1) d0 p m w.blocks w'.blocks) (hp : p = none ∨ p = headOf L be w d0)
    (hm : RecordsOf L Z be w' d0 m) (hn : Numbered L (w.last + 1) d0 w'.blocks)
    (hh : d ≠ d0 → headOf L be w' d = headOf L be w d) : Settled L Z be d w w' := by
  by_cases hdd : d = d0
  · subst hdd
    refine .inr ⟨w.last + 1, m, by omega, hm, hn, fun c b co h1 h2 h3 => ?_⟩
    exact (h c b co h1 h2).imp_right fun ⟨g1, g2, g3, g4⟩ => ⟨g1, g3 ▸ hp, g4⟩
  · refine .inl ⟨hh hdd, fun c b co h1 h2 h3 => (h c b co h1 h2).resolve_right ?_⟩
    rintro ⟨_, g, _⟩
    exact hdd (h3.symm.trans g)

theorem commit_settled (hL : L.OK Z) (hw : WorldOK L Z w) {r : Ref} {writes : List (Write R)} {xs : List Luck} {cd : CommitData C R}
    (h : (commit L be w r writes none xs false).2 = .ok cd) (cbFails : Bool) (d : Did) :
    Settled L Z be d w (commit L be w r writes none xs cbFails).1 := by
  obtain ⟨d0, m, b, co, h1, h2, h3, h4, h5, h6, h7, h8, h9⟩ := commit_tried hL hw h cbFails rfl
  exact h8.settled (.inr rfl) ((shows_iff hL h2 h1).1 h3) ⟨b, co, h4, h5, h6, h7⟩ fun hne => by rw [h9, if_neg hne]

theorem create_settled (hL : L.OK Z) (hw : WorldOK L Z w) {did : Did} {handle : Option Key} {key : Nat} {callback : Bool}
    {time : Nat} {xs : List Luck} {cbFails : Bool} (hd : isDid did) (hh : ∀ h, handle = some h → ¬ isDid h) {r : Ref}
    (h : (repoCreate L be w did handle key callback time xs cbFails).2 = .ok r) (d : Did) :
    Settled L Z be d w (repoCreate L be w did handle key callback time xs cbFails).1 := by
  obtain ⟨h1, h2⟩ := create_tried hL hw (be := be) (handle := handle) (key := key) (callback := callback) (time := time)
    (xs := xs) (cbFails := cbFails) hd hh
  rcases repoCreate_spec hL (be := be) hw (did := did) (handle := handle) (key := key) (callback := callback) (time := time)
    (xs := xs) (cbFails := cbFails) hd hh with ⟨e, w', g, _⟩ | ⟨w', n, b, co, g1, g2, _, g3, g4, _, _, g5, g6, _⟩
  · rw [g] at h; cases h
  · have h2 := h2 r h
    rw [g1] at h1 h2 ⊢
    dsimp only at h1 h2 ⊢
    refine h1.settled (.inl rfl) ?_ h2 fun hne => by rw [g6, if_neg hne]
    obtain ⟨b', co', k1, k2, k3, k4⟩ := g5.root hL g2.core.blocks (b := b) rfl
    rw [g3] at k3; cases k3
    exact (records_iff hL g2.core hd _).2 ⟨_, b', co, by rw [g6, if_pos rfl], k1, k2, g4, k4⟩

end

end Arroba.Store
