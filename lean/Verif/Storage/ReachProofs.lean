import Verif.Storage.ImportProofs

/-! Helper lemmas: creating repos; the invariants hold in every reachable world. -/

namespace Arroba.Store

variable {C R : Type} [DecidableEq C]

open Arroba.Tree

section
variable {L : Lib C R} {Z : Nat}

theorem create_root (hL : L.OK Z) (rd : C → Option (NodeData C)) : ∃ n,
    create L.env rd L.fuel [] none = .ok n ∧ Inv L.env rd Z 0 nil n (fun _ => none) := by
  have hf := hL.fuel
  have := create_spec (E := L.env) (rd := rd) (t := nil) (L := 0) (es := []) (layer := none)
    (f := L.fuel) rfl (by simp [WF]) (by simp [ValidKeys, leaves]) (by omega)
  refine ⟨_, this, ⟨⟨⟨by simp [Node.entries], fun _ => rfl, by simp [Node.layer]⟩, ?_⟩, by simp [WF],
      by simp [Sorted, leaves], by simp [ValidKeys, leaves], fun _ => rfl, by omega, rfl⟩⟩
  intro es he; simp [Node.entries] at he; exact he

theorem newObj_ok {w : World C R} (hw : WorldOK L Z w) {o : RepoObj C R} {m : Key → Option R}
    (ho : ObjRep L Z w.blocks o m) : WorldOK L Z (w.newObj o).2 := by
  refine ⟨hw.pos, hw.core.blocks, ?_, ?_, hw.core.rows⟩
  · intro i oi hi
    simp only [World.newObj, List.getElem?_append] at hi
    split at hi
    · exact hw.core.heap i oi hi
    · have : i - w.heap.length = 0 := by
        by_contra hne
        rw [List.getElem?_eq_none (by simp; omega)] at hi
        cases hi
      rw [this] at hi
      cases hi
      exact ⟨m, ho⟩
  · intro d i hi
    obtain ⟨o, h1, h2⟩ := hw.core.repos d i hi
    exact ⟨o, by
      simp only [World.newObj, List.getElem?_append, (List.getElem?_eq_some_iff.1 h1).1, if_true]
      exact h1, h2⟩

theorem repos_lt {seq : Nat} {w : World C R} (hw : Core L Z seq w) {d : Did} {r : Ref}
    (h : (d, r) ∈ w.repos) : r < w.heap.length := by
  obtain ⟨o, h1, _⟩ := hw.repos d r h
  exact (List.getElem?_eq_some_iff.1 h1).1

/-- What stays the same while the events of a new repo are written. -/
theorem writeEvents_spec (hL : L.OK Z) {be : Backend} {al : Allow} {r : Ref} {o : RepoObj C R}
    {d : Did} (hd : o.did = some d) (time : Nat) : ∀ (ks : List (EventKind C)) {w : World C R},
    WorldOK L Z w → w.heap[r]? = some o →
    ∃ w', writeEvents L be r time w ks = (w', .ok ()) ∧ WorldOK L Z w' ∧ w'.heap = w.heap ∧
      w'.rows = w.rows ∧ w'.repos = w.repos ∧ Grows w.blocks w'.blocks ∧
      (w.SeqsOK al → w'.SeqsOK al) ∧ w'.last = w.last + ks.length
  | [], w, hw, _ => ⟨w, rfl, hw, rfl, rfl, rfl, .refl _, id, rfl⟩
  | k :: ks, w, hw, ho => by
    obtain ⟨e, he, h1, h2, h3⟩ := event_spec hL be hw ho hd k time
    have h4 := fun h => event_seqs hL (be := be) (al := al) hw ho hd k time h
    unfold writeEvents
    rw [h2] at h3 h4 ⊢
    simp only at h3 h4 ⊢
    have e1 : ((({ w.alloc.2 with
          blocks := putBlocks L w.blocks [⟨.event e, w.last + 1, none, d⟩] } : World C R).logIf
            o.callback (.event e))).heap = w.heap := by rw [logIf_with]; rfl
    obtain ⟨w', g1, g2, g3, g4, g5, g6, g7, g8⟩ := writeEvents_spec hL (be := be) (al := al) hd time
      ks h3 (by rw [e1]; exact ho)
    refine ⟨w', g1, g2, g3.trans e1, ?_, ?_, ?_, fun h => g7 (h4 h), ?_⟩
    · rw [g4, logIf_with]; rfl
    · rw [g5, logIf_with]; rfl
    · refine Grows.trans ?_ g6
      rw [logIf_with]; exact putBlocks_grows _ _
    · rw [g8, logIf_with]
      have := last_eq (w' := ({ w.alloc.2 with
        blocks := putBlocks L w.blocks [⟨.event e, w.last + 1, none, d⟩] } : World C R)) hw rfl
      simp only [List.length_cons]
      show World.last _ + _ = _
      have e2 : ∀ l : List (CbCall C), ({ ({ w.alloc.2 with
        blocks := putBlocks L w.blocks [⟨.event e, w.last + 1, none, d⟩] } : World C R) with
          log := l } : World C R).last = w.last + 1 := fun l => this
      rw [e2]; omega

/-- `create_repo` (the storage method). -/
theorem createRepo_spec {be : Backend} {w : World C R} (hw : WorldOK L Z w) {r : Ref}
    {o : RepoObj C R} {b : Block C R} {co : Commit C} (ho : w.heap[r]? = some o)
    (hh : o.head = some b) (hv : b.val = .commit co) :
    ∃ w', createRepo L be w r = (w', .ok ()) ∧ WorldOK L Z w' ∧ w'.heap = w.heap ∧
      w'.blocks = w.blocks ∧ w'.seqs = w.seqs ∧ w'.log = w.log ∧
      ∀ d, headOf L be w' d = if d = co.did then some (L.hash b.val) else headOf L be w d := by
  have hd := did_eq hh hv
  obtain ⟨m, hm⟩ := hw.core.heap r o ho
  unfold createRepo
  rw [ho]
  simp only [hd]
  cases be with
  | memory =>
    simp only [hh]
    refine ⟨_, rfl, ⟨hw.pos, hw.core.blocks, hw.core.heap, ?_, hw.core.rows⟩, rfl, rfl, rfl, rfl, ?_⟩
    · intro d' r' h
      rcases mem_dictSet h with h | h
      · cases h; exact ⟨o, ho, hd⟩
      · exact hw.core.repos d' r' h
    · intro d'
      unfold headOf
      simp only [dictGet_dictSet]
      by_cases h : d' = co.did
      · simp only [h, if_true, ho, Option.bind_some, hh, Option.map_some]
      · simp only [h, if_false]
  | datastore =>
    simp only [hh]
    refine ⟨_, rfl, ⟨hw.pos, hw.core.blocks, hw.core.heap, hw.core.repos, ?_⟩, rfl, rfl, rfl, rfl, ?_⟩
    · intro d' row' h
      rcases mem_dictSet h with h | h
      · cases h
        refine ⟨hm.handle, ?_⟩
        obtain ⟨l, t, _, _, h3⟩ := hm.tree
        obtain ⟨b', co', g1, g2, g3, _⟩ := h3 b hh
        exact ⟨b', co, g1, g2.trans hv, rfl⟩
      · exact hw.core.rows d' row' h
    · intro d'
      unfold headOf
      simp only [dictGet_dictSet]
      by_cases h : d' = co.did
      · simp only [h, if_true, Option.map_some]
      · simp only [h, if_false]

/-- The conditions under which sequence numbers are accounted for. -/
def CreateAllowed (al : Allow) (callback : Bool) (xs : List Luck) (cbFails : Bool) : Prop :=
  (∀ x ∈ xs, x.storeFails = false ∧ x.txFails = false) ∧ (al.silent ∨ callback = true) ∧
    (al.raising ∨ cbFails = false)

theorem repoCreate_spec (hL : L.OK Z) {be : Backend} {w : World C R} (hw : WorldOK L Z w)
    {did : Did} {handle : Option Key} {key : Nat} {callback : Bool} {time : Nat}
    {xs : List Luck} {cbFails : Bool} (hd : isDid did)
    (hh : ∀ h, handle = some h → ¬ isDid h) :
    (∃ e w', repoCreate L be w did handle key callback time xs cbFails = (w', .error e) ∧
      WorldOK L Z w' ∧ w'.heap = w.heap ∧ w'.rows = w.rows ∧ w'.repos = w.repos ∧
      Grows w.blocks w'.blocks ∧
      (∀ al, CreateAllowed al callback xs cbFails → w.SeqsOK al → w'.SeqsOK al) ∧
      (cbFails = true ∨ CreateFails w.alloc.1 xs)) ∨
    (∃ w' n b co, repoCreate L be w did handle key callback time xs cbFails =
        (w', .ok w.heap.length) ∧
      WorldOK L Z w' ∧ w'.heap = w.heap ++ [⟨n, some b, handle, none, key, callback⟩] ∧
      b.val = .commit co ∧ co.did = did ∧ co.prev = none ∧ b.ops = some [] ∧
      ObjRep L Z w'.blocks ⟨n, some b, handle, none, key, callback⟩ (fun _ => none) ∧
      (∀ d, headOf L be w' d = if d = did then some (L.hash b.val) else headOf L be w d) ∧
      Grows w.blocks w'.blocks ∧
      (∀ al, CreateAllowed al callback xs cbFails → w.SeqsOK al → w'.SeqsOK al) ∧
      match be with
      | .memory => w'.repos = dictSet w.repos did w.heap.length
      | .datastore => w'.rows = dictSet w.rows did ⟨handle, L.hash b.val, none, key⟩) := by
  obtain ⟨root, hroot, hinv⟩ := create_root hL w.rd
  unfold repoCreate
  rw [hroot]
  simp only
  set o0 : RepoObj C R := ⟨root, none, handle, none, key, callback⟩ with ho0
  set w1 := (w.newObj o0).2 with hw1
  have hr : (w.newObj o0).1 = w.heap.length := rfl
  rw [hr]
  have hrep : ObjRep L Z w.blocks o0 (fun _ => none) :=
    ⟨⟨0, nil, hinv, hinv.treeOK (fun k r h => by cases h), by intro b hb; cases hb⟩, hh⟩
  have hw1ok : WorldOK L Z w1 := newObj_ok hw hrep
  have hheap1 : w1.heap = w.heap ++ [o0] := rfl
  have hget1 : w1.heap[w.heap.length]? = some o0 := by rw [hheap1]; simp
  have hlast1 : w1.last = w.last := rfl
  have halloc := hw1ok.alloc
  have hnb : Newborn L Z (w1.last + 1) w.heap.length did o0 w1.alloc.2 w1.alloc.2 := by
    refine ⟨halloc.2.2.1 ▸ halloc.1.core, ?_, rfl, rfl, rfl, rfl, .refl _, fun _ _ h => .inl h,
      fun _ _ => rfl, rfl, ⟨o0, root, none, hget1, rfl, rfl, hrep, .inl rfl⟩⟩
    intro d h
    have := repos_lt hw.core (d := d) (r := w.heap.length) h
    simp at this
  have hcb : ((w1.heap[w.heap.length]?).map (·.callback)).getD false = callback := by
    rw [hget1]; rfl
  have hheapNB : ∀ {w2 : World C R}, Newborn L Z (w1.last + 1) w.heap.length did o0 w1.alloc.2 w2 →
      w2.heap.take w.heap.length = w.heap := by
    intro w2 h
    apply List.ext_getElem?
    intro i
    by_cases hi : i < w.heap.length
    · rw [List.getElem?_take_of_lt hi, h.heap i (Nat.ne_of_lt hi)]
      show (w.heap ++ [o0])[i]? = _
      exact List.getElem?_append_left hi
    · rw [List.getElem?_eq_none (by simp; left; exact Nat.le_of_not_lt hi),
        List.getElem?_eq_none (Nat.le_of_not_lt hi)]
  have hfailW : ∀ {w2 : World C R}, Newborn L Z (w1.last + 1) w.heap.length did o0 w1.alloc.2 w2 →
      ∀ l : List (CbCall C), WorldOK L Z (({ w2 with log := l } : World C R).collect w) := by
    intro w2 h l
    refine hw.of_core h.seqs ?_
    have hc := hw.core.mono (Nat.le_succ w.last)
    exact (hc.addBlocks h.grows h.core.blocks).congr rfl (hheapNB (w2 := w2) h :) h.repos h.rows
  rw [commit_eq, hcb, halloc.2.1]
  rcases tx_create hL (be := be) (hseq := by omega) hd xs _ hnb with ⟨w2, e, k1, k2, k3, k8⟩ |
    ⟨w2, wk, x, cd, co, n, k1, k2, k3, k4, k5, k6, k7⟩
  · rw [k1]
    simp only
    left
    refine ⟨e, _, rfl, ?_, ?_, ?_, ?_, ?_, ?_, .inr (hw.alloc.2.1 ▸ k8)⟩
    · rw [logIf_with]; exact hfailW k2 _
    · rw [logIf_with]; exact (hheapNB (w2 := w2) k2 :)
    · rw [logIf_with]; exact k2.rows
    · rw [logIf_with]; exact k2.repos
    · rw [logIf_with]; exact k2.grows
    · intro al ⟨ha1, ha2, ha3⟩ hs
      have := World.SeqsOK.lose (al := al) (w := w) (w1 := w2) hs hw (cb := callback)
        (k3 fun x hx => (ha1 x hx).2) k2.log k2.seqs ha2
      rw [logIf_with] at this ⊢
      exact this
  · rw [k1]
    simp only
    have hb2 : w2.blocks = putBlocks L wk.blocks (cd.blocks.map (·.2)) := k6
    have hcore2 : WorldOK L Z w2 := hw.of_core k2.seqs k2.core
    have hval : cd.commit.val = .commit co := by rw [k5.commit]
    have hseqs : ∀ al, CreateAllowed al callback xs cbFails → w.SeqsOK al →
        (if (callback && cbFails) = true then
          ((w2.logIf callback (.commit (L.hash cd.commit.val) (w1.last + 1))).logIf callback
            (.lost (w1.last + 1)))
          else (w2.logIf callback (.commit (L.hash cd.commit.val) (w1.last + 1)))).SeqsOK al := by
      intro al ⟨ha1, ha2, ha3⟩ hs
      have := k4 (fun x hx => (ha1 x hx).2)
      subst this
      exact World.SeqsOK.commit (w := w) (w1 := w2) hs hw (cb := callback) (cbFails := cbFails) k5
        hb2 k2.log k2.seqs ha3
    by_cases hcf : (callback && cbFails) = true
    · rw [if_pos hcf]
      simp only
      left
      refine ⟨_, _, rfl, ?_, ?_, ?_, ?_, ?_, ?_, .inl (Bool.and_eq_true_iff.1 hcf).2⟩
      · rw [logIf_with, logIf_with]; exact hfailW k2 _
      · rw [logIf_with, logIf_with]; exact (hheapNB (w2 := w2) k2 :)
      · rw [logIf_with, logIf_with]; exact k2.rows
      · rw [logIf_with, logIf_with]; exact k2.repos
      · rw [logIf_with, logIf_with]; exact k2.grows
      · intro al ha hs
        have := hseqs al ha hs
        rw [if_pos hcf] at this
        rw [logIf_with, logIf_with] at this ⊢
        exact this
    · rw [if_neg hcf]
      simp only [hval]
      right
      set w3 := w2.logIf callback (.commit (L.hash (.commit co)) (w1.last + 1)) with hw3
      have hw3ok : WorldOK L Z w3 := hcore2.log _ _
      have h3w : w3 = { w2 with log := w3.log } := logIf_with _ _ _
      have hget3 : w3.heap[w.heap.length]? = some (upd n cd.commit o0) := by rw [h3w]; exact k7
      have hdid3 : (upd n cd.commit o0).did = some did := k5.did o0
      obtain ⟨w4, g1, g2, g3, g4, g5, g6, g7, g8⟩ := writeEvents_spec hL (be := be)
        (al := ⟨False, False, False, False, False⟩) hdid3 time
        [.identity handle, .account true none, .sync (L.hash (.commit co)) co.rev] hw3ok hget3
      have hget4 : w4.heap[w.heap.length]? = some (upd n cd.commit o0) := by rw [g3]; exact hget3
      obtain ⟨w5, f1, f2, f3, f4, f5, f6, f7⟩ := createRepo_spec (be := be) g2 hget4
        (b := cd.commit) rfl hval
      rw [g1]
      simp only
      rw [f1]
      simp only
      have hobj : upd n cd.commit o0 = ⟨n, some cd.commit, handle, none, key, callback⟩ := rfl
      have hheap5 : w5.heap = w.heap ++ [upd n cd.commit o0] := by
        rw [f3, g3, h3w]
        show w2.heap = _
        have hlen : w2.heap.length = w.heap.length + 1 := by
          rw [k2.length]; show (w.heap ++ [o0]).length = _; simp
        apply List.ext_getElem?
        intro i
        by_cases hi : i < w.heap.length
        · rw [k2.heap i (Nat.ne_of_lt hi), List.getElem?_append_left hi]
          show (w.heap ++ [o0])[i]? = _
          exact List.getElem?_append_left hi
        · by_cases hi' : i = w.heap.length
          · subst hi'; rw [k7]; simp
          · rw [List.getElem?_eq_none (by omega), List.getElem?_eq_none (by simp; omega)]
      have hhead2 : ∀ d, headOf L be w4 d = headOf L be w d := by
        intro d
        unfold headOf
        cases be with
        | memory =>
          simp only
          have e1 : w4.repos = w.repos := by rw [g5, h3w]; exact k2.repos
          rw [e1]
          cases hr' : dictGet w.repos d with
          | none => rfl
          | some r' =>
            simp only
            have hlt := repos_lt hw.core (dictGet_mem hr')
            have : w4.heap[r']? = w.heap[r']? := by
              rw [← f3, hheap5, List.getElem?_append_left hlt]
            rw [this]
        | datastore =>
          simp only
          have e1 : w4.rows = w.rows := by rw [g4, h3w]; exact k2.rows
          rw [e1]
      refine ⟨w5.logIf callback (.commit (L.hash (.commit co)) cd.commit.seq), n, cd.commit, co, rfl,
        f2.log _ _, ?_, hval, k5.codid, k5.coprev, by rw [k5.commit], ?_, ?_, ?_, ?_, ?_⟩
      · rw [logIf_with]; exact hheap5
      · rw [logIf_with]
        show ObjRep L Z w5.blocks _ _
        rw [f4]
        refine ObjRep.grow ?_ g6
        rw [h3w]
        show ObjRep L Z w2.blocks _ _
        rw [hb2, ← hobj]
        exact k5.objRep hh
      · intro d
        have : headOf L be (w5.logIf callback (.commit (L.hash (.commit co)) cd.commit.seq)) d =
            headOf L be w5 d := by rw [logIf_with]; rfl
        rw [this, f7 d, k5.codid]
        rw [hhead2]
      · rw [logIf_with]
        show Grows w.blocks w5.blocks
        rw [f4]
        refine Grows.trans ?_ g6
        rw [h3w]; exact k2.grows
      · intro al ha hs
        have h5 := hseqs al ha hs
        rw [if_neg hcf, hval] at h5
        obtain ⟨w4', g1', _, _, _, _, _, g7', _⟩ := writeEvents_spec hL (be := be)
          (al := al) hdid3 time
          [.identity handle, .account true none, .sync (L.hash (.commit co)) co.rev] hw3ok hget3
        rw [g1] at g1'
        cases g1'
        have h6 := g7' h5
        have h7 : w5.SeqsOK al := by
          unfold World.SeqsOK World.last at h6 ⊢
          rw [f4, f5, f6]; exact h6
        unfold World.SeqsOK at h7 ⊢
        have e1 : (w5.logIf callback (.commit (L.hash (.commit co)) cd.commit.seq)).blocks =
            w5.blocks := by rw [logIf_with]
        have e2 : (w5.logIf callback (.commit (L.hash (.commit co)) cd.commit.seq)).last =
            w5.last := by rw [logIf_with]; rfl
        have e3 : ∀ n, CbCall.lost n ∈ (w5.logIf callback
            (.commit (L.hash (.commit co)) cd.commit.seq)).log ↔ CbCall.lost n ∈ w5.log := by
          intro n
          rw [mem_logIf]
          simp
        rw [e1, e2]
        refine ⟨h7.marked, h7.unique, h7.alone, fun h n h1 h2 => ?_, fun h n hn => ?_⟩
        · rw [e3]; exact h7.accounted h n h1 h2
        · rw [e3] at hn; exact h7.exclusive h n hn
      · unfold createRepo at f1
        rw [hget4] at f1
        dsimp only at f1
        rw [hdid3] at f1
        cases be with
        | memory =>
          cases f1
          rw [logIf_with]
          show dictSet w4.repos did _ = _
          rw [g5, h3w]
          exact congrArg (dictSet · _ _) k2.repos
        | datastore =>
          cases f1
          rw [logIf_with]
          show dictSet w4.rows did _ = _
          rw [g4, h3w]
          exact congrArg (dictSet · _ _) k2.rows

/-! ### Reachable worlds -/

theorem World.SeqsOK.congr {al : Allow} {w w' : World C R} (h : w.SeqsOK al)
    (h1 : w'.blocks = w.blocks) (h2 : w'.log = w.log) (h3 : w'.seqs = w.seqs) : w'.SeqsOK al := by
  unfold World.SeqsOK World.last at h ⊢
  rw [h1, h2, h3]; exact h

theorem modObj_callback {w : World C R} (hw : WorldOK L Z w) (hl : Live w) (r : Ref) (b : Bool) :
    WorldOK L Z (w.modObj r (fun o => { o with callback := b })) ∧
      Live (w.modObj r (fun o => { o with callback := b })) := by
  unfold World.modObj
  cases ho : w.heap[r]? with
  | none => exact ⟨hw, hl⟩
  | some o =>
    obtain ⟨m, hm⟩ := hw.core.heap r o ho
    exact ⟨hw.setObj ho rfl (m := m) ⟨hm.tree, hm.handle⟩, hl.setObj (hl r o ho)⟩

/-- What `import_repo` does once its checks have passed. -/
theorem import_spec (hL : L.OK Z) {be : Backend} {w : World C R} (hw : WorldOK L Z w) {co : Commit C}
    {handle : Option Key} {key : Nat} {new : List (C × Val C R)} (hnew : Whole L new)
    (hhead : (L.hash (.commit co), .commit co) ∈ new) (hh : ∀ h, handle = some h → ¬ isDid h)
    (ha : Aliens L w new) :
    ∃ w', importInto L be w co handle key new = (w', .ok ()) ∧ WorldOK L Z w' ∧
      w'.heap = w.heap ++ [⟨Arroba.load co.data, some ⟨.commit co, 0, none, co.did⟩, handle,
        some .deactivated, key, false⟩] ∧
      w'.blocks = importBlocks co.did w.blocks new ∧ w'.seqs = w.seqs ∧ w'.log = w.log ∧
      ∀ d, headOf L be w' d = if d = co.did then some (L.hash (.commit co)) else headOf L be
        { w with
          blocks := importBlocks co.did w.blocks new
          heap := w.heap ++ [⟨Arroba.load co.data, some ⟨.commit co, 0, none, co.did⟩, handle,
            some .deactivated, key, false⟩] } d := by
  obtain ⟨w', h1, h2, h3, h4, h5, h6, h7⟩ := createRepo_spec (be := be)
    (import_obj hL hw (key := key) hnew hhead hh ha) (r := w.heap.length)
    (by simp only [List.getElem?_append_right (Nat.le_refl _), Nat.sub_self]; rfl) rfl rfl
  exact ⟨w', h1, h2, h3, h4, h5, h6, h7⟩

theorem Step.ok (hL : L.OK Z) {be : Backend} {al : Allow} (hal : ¬ al.torn) {w w' : World C R}
    (hw : WorldOK L Z w) (hl : Live w) (h : Step L be al w w') : WorldOK L Z w' ∧ Live w' := by
  cases h with
  | create did handle key callback time xs cbFails hd hh _ _ _ =>
    rcases repoCreate_spec hL (be := be) hw (did := did) (handle := handle) (key := key)
      (callback := callback) (time := time) (xs := xs) (cbFails := cbFails) hd hh with
      ⟨e, w', h1, h2, h3, _⟩ | ⟨w', n, b, co, h1, h2, h3, _⟩
    · rw [h1]
      exact ⟨h2, by intro i o; rw [h3]; exact hl i o⟩
    · rw [h1]
      refine ⟨h2, ?_⟩
      intro i o hi
      rw [h3] at hi
      simp only [List.getElem?_append] at hi
      split at hi
      · exact hl i o hi
      · have : i - w.heap.length = 0 := by
          by_contra hne
          rw [List.getElem?_eq_none (by simp; omega)] at hi
          cases hi
        rw [this] at hi
        cases hi
        simp
  | allocate _ => exact ⟨hw.alloc.1, hl⟩
  | setStatus r s _ => exact setRepoStatus_ok hw hl r s
  | importBlocks did new _ _ hnew ha =>
    exact ⟨⟨hw.pos, hw.core.addBlocks (importBlocks_grows did new w.blocks)
      (importBlocks_ok hL hw.core.blocks hnew ha)⟩, hl⟩
  | commit r writes xs cbFails ha =>
    exact commit_ok hL hw hl r writes xs cbFails (ha.torn.resolve_left hal)
  | setCallback r b => exact modObj_callback hw hl r b
  | deactivate r time => exact setStatusEvent_ok hL hw hl r _ _ time
  | activate r time => exact setStatusEvent_ok hL hw hl r _ _ time
  | tombstone r time => exact setStatusEvent_ok hL hw hl r _ _ time
  | event r kind time _ => exact event_ok hL hw hl r kind time
  | loadRepo q => exact loadRepo_ok hw hl q
  | repoLoad c handle status key callback hh => exact repoLoad_ok hw hl c handle status key callback hh
  | cache r o n ho hn =>
    obtain ⟨m, hm⟩ := hw.core.heap r o ho
    refine ⟨hw.setObj ho rfl (m := m) ⟨?_, hm.handle⟩, hl.setObj (hl r o ho)⟩
    obtain ⟨l, t, h1, h2, h3⟩ := hm.tree
    exact ⟨l, t, h1.cached hL.fuel hn, h2, h3⟩
  | «import» co handle key new _ hnew hhead _ hh ha _ =>
    obtain ⟨w', h1, h2, h3, _⟩ := import_spec hL (be := be) hw (key := key) hnew hhead hh ha
    rw [h1]
    refine ⟨h2, ?_⟩
    intro i o hi
    rw [h3] at hi
    simp only [List.getElem?_append] at hi
    split at hi
    · exact hl i o hi
    · have : i - w.heap.length = 0 := by
        by_contra hne
        rw [List.getElem?_eq_none (by simp; omega)] at hi
        cases hi
      rw [this] at hi
      cases hi
      simp

theorem empty_ok (L : Lib C R) (Z : Nat) : WorldOK L Z (.empty : World C R) ∧
    Live (.empty : World C R) := by
  refine ⟨⟨by simp [World.empty, dictGet], ⟨?_, ?_, ?_, ?_⟩⟩, ?_⟩
  · refine ⟨?_, ⟨?_, ?_⟩, ?_, ?_, ?_, ?_⟩ <;> intros <;> simp_all [World.empty, dictGet, nodeIn, Addressed]
  · intro r o h; simp [World.empty] at h
  · intro d r h; simp [World.empty] at h
  · intro d r h; simp [World.empty] at h
  · intro r o h; simp [World.empty] at h

theorem Reach.inv (hL : L.OK Z) {be : Backend} {al : Allow} (hal : ¬ al.torn) {w : World C R}
    (h : Reach L be al w) : WorldOK L Z w ∧ Live w := by
  induction h with
  | empty => exact empty_ok L Z
  | step _ h ih => exact h.ok hL hal ih.1 ih.2

theorem setStatusEvent_seqs (hL : L.OK Z) {be : Backend} {al : Allow} {w : World C R}
    (hw : WorldOK L Z w) (hl : Live w) (r : Ref) (s : Option Status) (kind : EventKind C)
    (time : Nat) (h : w.SeqsOK al) : (setStatusEvent L be w r s kind time).1.SeqsOK al := by
  unfold setStatusEvent
  have h1 := setRepoStatus_ok (be := be) hw hl r s
  have h2 : (setRepoStatus be w r s).1.SeqsOK al ∧
      (∀ {u}, (setRepoStatus be w r s).2 = .ok u → ∃ o, w.heap[r]? = some o) := by
    unfold setRepoStatus
    cases ho : w.heap[r]? with
    | none => exact ⟨h, by intro u h; cases h⟩
    | some o =>
      simp only
      refine ⟨?_, fun _ => ⟨o, rfl⟩⟩
      cases be with
      | memory => exact h.congr rfl rfl rfl
      | datastore =>
        simp only
        cases o.did with
        | none => exact h.congr rfl rfl rfl
        | some d =>
          simp only
          cases dictGet (w.setObj r { o with status := s }).rows d with
          | none => exact h.congr rfl rfl rfl
          | some row => exact h.congr rfl rfl rfl
  have hlen : ∀ (i : Nat), ((setRepoStatus be w r s).1.heap[i]?).isSome = (w.heap[i]?).isSome := by
    intro i
    unfold setRepoStatus
    cases ho : w.heap[r]? with
    | none => rfl
    | some o =>
      simp only
      have : ((w.setObj r { o with status := s }).heap[i]?).isSome = (w.heap[i]?).isSome := by
        rw [heap_setObj]; split <;> simp
      cases be with
      | memory => exact this
      | datastore =>
        simp only
        cases o.did with
        | none => exact this
        | some d =>
          simp only
          cases dictGet (w.setObj r { o with status := s }).rows d with
          | none => exact this
          | some row => exact this
  cases hs : setRepoStatus be w r s with
  | mk w1 res =>
    rw [hs] at h1 h2 hlen
    cases res with
    | error e => exact h2.1
    | ok u =>
      simp only at h1 h2 hlen ⊢
      obtain ⟨o, ho⟩ := h2.2 (u := u) trivial
      have hsome := hlen r
      rw [ho] at hsome
      obtain ⟨o', ho'⟩ := Option.isSome_iff_exists.1 hsome
      obtain ⟨d, hd⟩ := h1.2.did h1.1 ho'
      have h3 := event_seqs hL (be := be) h1.1 ho' hd kind time h2.1
      cases he : writeEvent L be w1 r kind time with
      | mk w2 res2 =>
        rw [he] at h3
        cases res2 <;> exact h3

theorem Step.seqs (hL : L.OK Z) {be : Backend} {al : Allow} (hal : ¬ al.partway)
    {w w' : World C R} (hw : WorldOK L Z w) (hl : Live w) (hs : w.SeqsOK al)
    (h : Step L be al w w') : w'.SeqsOK al := by
  cases h with
  | create did handle key callback time xs cbFails hd hh hp hsil hr =>
    have ha : CreateAllowed al callback xs cbFails := ⟨hp.resolve_left hal, hsil, hr⟩
    rcases repoCreate_spec hL (be := be) hw (did := did) (handle := handle) (key := key)
      (callback := callback) (time := time) (xs := xs) (cbFails := cbFails) hd hh with
      ⟨e, w', h1, _, _, _, _, _, h2, _⟩ | ⟨w', n, b, co, h1, _, _, _, _, _, _, _, _, _, h2, _⟩
    · rw [h1]; exact h2 al ha hs
    · rw [h1]; exact h2 al ha hs
  | allocate hp => exact absurd hp hal
  | setStatus r s hp => exact absurd hp hal
  | importBlocks did new _ hp _ _ => exact absurd hp hal
  | commit r writes xs cbFails ha => exact commit_seqs hL hw r writes xs cbFails ha hal hs
  | setCallback r b =>
    rw [modObj_with]; exact hs.congr rfl rfl rfl
  | deactivate r time => exact setStatusEvent_seqs hL hw hl r _ _ time hs
  | activate r time => exact setStatusEvent_seqs hL hw hl r _ _ time hs
  | tombstone r time => exact setStatusEvent_seqs hL hw hl r _ _ time hs
  | event r kind time hr =>
    obtain ⟨o, ho⟩ := Option.isSome_iff_exists.1 (show (w.heap[r]?).isSome by simpa using hr)
    obtain ⟨d, hd⟩ := hl.did hw ho
    exact event_seqs hL hw ho hd kind time hs
  | loadRepo q =>
    unfold Store.loadRepo
    split
    · exact hs
    · cases be with
      | memory => exact hs
      | datastore =>
        simp only
        split
        · exact hs
        · unfold Store.repoLoad
          split <;> rename_i heq <;> split at heq <;> cases heq <;> exact hs
  | repoLoad c handle status key callback hh =>
    unfold Store.repoLoad
    split
    · exact hs
    · exact hs.congr rfl rfl rfl
  | cache r o n ho hn => exact hs.congr rfl rfl rfl
  | «import» co handle key new _ hnew hhead _ hh ha _ =>
    obtain ⟨w', h1, h2, h3, h4, h5, h6, _⟩ := import_spec hL (be := be) hw (key := key) hnew hhead hh ha
    rw [h1]
    have := import_seqs (did := co.did) (new := new) hs
    unfold World.SeqsOK
    rw [h4, h6, show w'.last = w.last by unfold World.last; rw [h5]]
    exact this

theorem Reach.seqs (hL : L.OK Z) {be : Backend} {al : Allow} (hal : ¬ al.torn)
    (hal' : ¬ al.partway) {w : World C R} (h : Reach L be al w) : w.SeqsOK al := by
  induction h with
  | empty =>
    refine ⟨?_, ?_, ?_, ?_, ?_⟩ <;> intros <;> simp_all [World.empty, dictGet, World.last]
  | step h1 h ih =>
    obtain ⟨h2, h3⟩ := h1.inv hL hal
    exact h.seqs hL hal' h2 h3 ih

end

end Arroba.Store
