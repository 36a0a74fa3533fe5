import Verif.Storage.BlockProofs

/-! Helper lemmas: the invariant of the storage, and what one attempt of a commit does. -/

namespace Arroba.Store

variable {C R : Type} [DecidableEq C]

open Arroba.Tree

/-! ### The invariant -/

/-- The object's tree stands for the records `m`, whose blocks are stored; its head is a stored
commit to the same tree. -/
structure ObjRep (L : Lib C R) (Z : Nat) (blocks : List (C × Block C R)) (o : RepoObj C R)
    (m : Key → Option R) : Prop where
  tree : ∃ l t, Inv L.env (nodeIn blocks) Z l t o.mst (fun k => (m k).map L.rcid) ∧
    TreeOK L Z blocks t m ∧
    ∀ b, o.head = some b → ∃ b' co, dictGet blocks (L.hash b.val) = some b' ∧ b'.val = b.val ∧
      b.val = .commit co ∧ co.data = cidOf L.env.H t
  handle : ∀ h, o.handle = some h → ¬ isDid h

/-- Everything but the sequence numbers; `seq` is the last one allocated. -/
structure Core (L : Lib C R) (Z seq : Nat) (w : World C R) : Prop where
  blocks : BlocksOK L Z seq w.blocks
  heap : ∀ (r : Nat) o, w.heap[r]? = some o → ∃ m, ObjRep L Z w.blocks o m
  repos : ∀ d r, (d, r) ∈ w.repos → ∃ (o : RepoObj C R), w.heap[r]? = some o ∧ o.did = some d
  rows : ∀ d row, (d, row) ∈ w.rows → (∀ h, row.handle = some h → ¬ isDid h) ∧
    ∃ b co, dictGet w.blocks row.head = some b ∧ b.val = .commit co ∧ co.did = d

/-- The last allocated sequence number. -/
def World.last (w : World C R) : Nat := (dictGet w.seqs subscribeRepos).getD 1 - 1

structure WorldOK (L : Lib C R) (Z : Nat) (w : World C R) : Prop where
  pos : 1 ≤ (dictGet w.seqs subscribeRepos).getD 1
  core : Core L Z w.last w

/-- The records of the stored repo `d`. -/
def RecordsOf (L : Lib C R) (Z : Nat) (be : Backend) (w : World C R) (d : Did)
    (m : Key → Option R) : Prop :=
  ∃ s w1 so, loadRepo be w d = (w1, .ok (some s)) ∧ w1.heap[s]? = some so ∧
    ObjRep L Z w1.blocks so m

section
variable {L : Lib C R} {Z : Nat}

theorem ObjRep.grow {a b : List (C × Block C R)} {o : RepoObj C R} {m : Key → Option R}
    (h : ObjRep L Z a o m) (hg : Grows a b) : ObjRep L Z b o m := by
  obtain ⟨⟨l, t, h1, h2, h3⟩, h4⟩ := h
  refine ⟨⟨l, t, h1.mono hg.nodeIn, h2.grow hg, fun x hx => ?_⟩, h4⟩
  obtain ⟨b', co, g1, g2⟩ := h3 x hx
  exact ⟨b', co, hg _ _ g1, g2⟩

theorem ObjRep.unique (hL : L.OK Z) {a : List (C × Block C R)} {o : RepoObj C R}
    {m m' : Key → Option R} (h : ObjRep L Z a o m) (h' : ObjRep L Z a o m') : m = m' := by
  obtain ⟨⟨l, t, h1, _⟩, _⟩ := h
  obtain ⟨⟨l', t', h1', _⟩, _⟩ := h'
  funext k
  have := (h1.get hL.fuel k).symm.trans (h1'.get hL.fuel k)
  simp only [Except.ok.injEq] at this
  exact Option.map_injective hL.rcidInj this

theorem did_eq {o : RepoObj C R} {b : Block C R} {co : Commit C} (h : o.head = some b)
    (hb : b.val = .commit co) : o.did = some co.did := by
  obtain ⟨v, s, p, q⟩ := b
  simp only at hb
  subst hb
  simp [RepoObj.did, h]

theorem did_some {o : RepoObj C R} {d : Did} (h : o.did = some d) :
    ∃ b co, o.head = some b ∧ b.val = .commit co ∧ co.did = d := by
  unfold RepoObj.did at h
  split at h
  · rename_i c s p q hh
    simp only [Option.some.injEq] at h
    exact ⟨_, c, hh, rfl, h⟩
  · cases h

theorem BlocksOK.isDid {seq : Nat} {blocks : List (C × Block C R)} (hb : BlocksOK L Z seq blocks)
    {c : C} {b : Block C R} {co : Commit C} (h : dictGet blocks c = some b)
    (hv : b.val = .commit co) : isDid co.did := hb.did h hv

theorem ObjRep.isDid {seq : Nat} {blocks : List (C × Block C R)} (hb : BlocksOK L Z seq blocks)
    {o : RepoObj C R} {m : Key → Option R} (h : ObjRep L Z blocks o m) {d : Did}
    (hd : o.did = some d) : isDid d := by
  obtain ⟨b, co, h1, h2, rfl⟩ := did_some hd
  obtain ⟨l, t, _, _, h3⟩ := h.tree
  obtain ⟨b', co', g1, g2, g3, _⟩ := h3 b h1
  rw [h2] at g3
  cases g3
  exact hb.isDid g1 (g2.trans h2)

theorem ObjRep.root (hL : L.OK Z) {seq : Nat} {blocks : List (C × Block C R)}
    (hb : BlocksOK L Z seq blocks) {o : RepoObj C R} {m : Key → Option R}
    (h : ObjRep L Z blocks o m) {b : Block C R} (hh : o.head = some b) :
    ∃ b' co, dictGet blocks (L.hash b.val) = some b' ∧ b'.val = .commit co ∧ b.val = .commit co ∧
      RootOK L Z blocks co.data m := by
  obtain ⟨l, t, h1, h2, h3⟩ := h.tree
  obtain ⟨b', co, g1, g2, g3, g4⟩ := h3 b hh
  obtain ⟨m0, t0, k1, k2, k3⟩ := hb.root g1 (g2.trans g3)
  obtain ⟨l0, _, hw0⟩ := k1.wf
  have := cid_unique hL hw0 h1.wf (k3.trans g4)
  subst this
  exact ⟨b', co, g1, g2.trans g3, g3, t0, h2, k2, k3⟩

/-! ### Loading repos -/

theorem answers_iff {o : RepoObj C R} {d q : Did} (hd : o.did = some d)
    (hh : ∀ h, o.handle = some h → ¬ isDid h) (hq : isDid q) :
    answersTo q o = true ↔ d = q := by
  unfold answersTo
  rw [hd]
  simp only [Option.some.injEq, Bool.or_eq_true, decide_eq_true_eq, or_iff_left_iff_imp]
  intro h
  exact absurd hq (hh q h)

theorem findRepo_eq {w : World C R} {seq : Nat} (hw : Core L Z seq w) {q : Did} (hq : isDid q) :
    ∀ {l : List (Did × Ref)}, (∀ x ∈ l, x ∈ w.repos) → findRepo w q l = dictGet l q
  | [], _ => rfl
  | (d, r) :: rest, hl => by
    obtain ⟨o, ho, hd⟩ := hw.repos d r (hl _ List.mem_cons_self)
    obtain ⟨m, hm⟩ := hw.heap r o ho
    have ih := findRepo_eq hw hq (l := rest) (fun x hx => hl x (List.mem_cons_of_mem _ hx))
    unfold findRepo
    rw [ho]
    simp only [dictGet]
    by_cases ha : answersTo q o = true
    · rw [if_pos ha, if_pos ((answers_iff hd hm.handle hq).1 ha)]
    · rw [if_neg ha, if_neg (fun h => ha ((answers_iff hd hm.handle hq).2 h)), ih]

theorem findRow_some {w : World C R} {seq : Nat} (hw : Core L Z seq w) {q : Did} (hq : isDid q) :
    findRow w q = dictGet w.rows q := by
  unfold findRow
  cases h : dictGet w.rows q with
  | some row => rfl
  | none =>
    simp only
    have : w.rows.find? (fun kv => decide (kv.2.handle = some q)) = none := by
      rw [List.find?_eq_none]
      intro kv hkv
      simp only [decide_eq_true_eq]
      intro hh
      exact (hw.rows kv.1 kv.2 hkv).1 q hh hq
    rw [this]; rfl

theorem isDid_ne_nil {d : Did} (h : isDid d) : d ≠ [] := by
  rintro rfl
  revert h
  unfold isDid
  decide

/-- What `load_repo` of a DID finds. -/
theorem loadRepo_spec {w : World C R} {seq : Nat} (hw : Core L Z seq w) (be : Backend) {q : Did}
    (hq : isDid q) :
    loadRepo be w q = (w, .ok none) ∨
    ∃ s so m b co w1, loadRepo be w q = (w1, .ok (some s)) ∧ w1.heap[s]? = some so ∧
      ObjRep L Z w.blocks so m ∧ so.did = some q ∧ so.head = some b ∧ b.val = .commit co ∧
      co.did = q ∧
      match be with
      | .memory => w1 = w ∧ dictGet w.repos q = some s
      | .datastore => s = w.heap.length ∧ w1 = { w with heap := w.heap ++ [so] } ∧
          ∃ row, dictGet w.rows q = some row ∧ dictGet w.blocks row.head = some b ∧
            so = ⟨load co.data, some b, row.handle, row.status, row.key, false⟩ := by
  unfold loadRepo
  rw [if_neg (isDid_ne_nil hq)]
  cases be with
  | memory =>
    simp only
    rw [findRepo_eq hw hq (l := w.repos) (fun _ h => h)]
    cases hf : dictGet w.repos q with
    | none => exact .inl rfl
    | some s =>
      obtain ⟨o, ho, hd⟩ := hw.repos q s (dictGet_mem hf)
      obtain ⟨m, hm⟩ := hw.heap s o ho
      obtain ⟨b, co, h1, h2, h3⟩ := did_some hd
      exact .inr ⟨s, o, m, b, co, w, rfl, ho, hm, hd, h1, h2, h3, rfl, rfl⟩
  | datastore =>
    simp only
    rw [findRow_some hw hq]
    cases hf : dictGet w.rows q with
    | none => exact .inl rfl
    | some row =>
      right
      obtain ⟨hh, b, co, h1, h2, h3⟩ := hw.rows q row (dictGet_mem hf)
      have hc : commitAt w row.head = .ok (b, co) := by
        unfold commitAt World.read; rw [h1]; simp only [h2]
      obtain ⟨m, hm⟩ := hw.blocks.root h1 h2
      obtain ⟨l, t, g1, g2, g3⟩ := hm.load
      have ha := hw.blocks.addr _ _ h1
      let so : RepoObj C R := ⟨load co.data, some b, row.handle, row.status, row.key, false⟩
      have hso : ObjRep L Z w.blocks so m := by
        refine ⟨⟨l, t, g1, g2, ?_⟩, hh⟩
        intro x hx
        simp only [so, Option.some.injEq] at hx
        subst hx
        exact ⟨b, co, by rw [ha]; exact h1, rfl, h2, g3.symm⟩
      refine ⟨w.heap.length, so, m, b, co, { w with heap := w.heap ++ [so] }, ?_, by simp, hso,
        h3 ▸ did_eq rfl h2, rfl, h2, h3, rfl, rfl, row, rfl, h1, rfl⟩
      simp only [repoLoad, hc, World.newObj]
      rfl

theorem RecordsOf.unique (hL : L.OK Z) {be : Backend} {w : World C R} {d : Did}
    {m m' : Key → Option R} (h : RecordsOf L Z be w d m) (h' : RecordsOf L Z be w d m') :
    m = m' := by
  obtain ⟨s, w1, so, h1, h2, h3⟩ := h
  obtain ⟨s', w1', so', h1', h2', h3'⟩ := h'
  rw [h1] at h1'
  simp only [Prod.mk.injEq, Except.ok.injEq, Option.some.injEq] at h1'
  obtain ⟨rfl, rfl⟩ := h1'
  rw [h2] at h2'
  cases h2'
  exact h3.unique hL h3'

/-! ### One attempt -/

/-- storage.py 549-644: `_commit` after the head of `_commit`. -/
def rest (L : Lib C R) (be : Backend) (w : World C R) (r s : Ref) (did : Did) (prev : Option C)
    (writes : List (Write R)) (seq : Nat) (x : Luck) : World C R × Except Err (CommitData C R) :=
  match w.heap[s]? with
  | none => (w, .error .attribute)
  | some so =>
    if maxOps < writes.length then (w, .error .value)
    else match applyWrites L w.rd seq did ⟨so.mst, [], []⟩ writes with
      | .error (n, e) => (w.setObj s { so with mst := n }, .error e)
      | .ok st =>
        let rd := w.rd
        let mst := L.touch rd st.mst
        let w := w.setObj s { so with mst := mst }
        if x.signFails then (w, .error .attribute)
        else match buildCommit L rd st so.key x.nonce seq did prev with
          | .error e => (w, .error e)
          | .ok cd => finishCommit L be w r s mst so.did.isSome cd x

theorem commitBody_eq (be : Backend) (w : World C R) (r : Ref) (writes : List (Write R))
    (seq : Nat) (repoDid : Option Did) (x : Luck) :
    commitBody L be w r writes seq repoDid x =
      match w.heap[r]? with
      | none => (w, .error .attribute)
      | some o =>
        if seq = 0 then (w, .error .assertion)
        else if o.status ≠ none then (w, .error .inactive)
        else match beginCommit L be w r o repoDid with
          | (w, .error e) => (w, .error e)
          | (w, .ok (s, did, prev)) => rest L be w r s did prev writes seq x := rfl

theorem heap_setObj (w : World C R) (r : Ref) (o : RepoObj C R) (i : Nat) :
    (w.setObj r o).heap[i]? = if i = r then (w.heap[i]?).map (fun _ => o) else w.heap[i]? := by
  simp only [World.setObj, List.getElem?_set]
  by_cases h : i = r
  · subst h
    simp only [if_true]
    by_cases h' : i < w.heap.length
    · simp [h']
    · simp [h']
  · rw [if_neg (fun h' => h h'.symm), if_neg h]

theorem heap_modObj (w : World C R) (r : Ref) (f : RepoObj C R → RepoObj C R) (i : Nat) :
    (w.modObj r f).heap[i]? = if i = r then (w.heap[i]?).map f else w.heap[i]? := by
  unfold World.modObj
  cases h : w.heap[r]? with
  | none =>
    simp only
    by_cases hi : i = r
    · subst hi; simp [h]
    · simp [hi]
  | some o =>
    simp only [heap_setObj]
    by_cases hi : i = r
    · subst hi; simp [h]
    · simp [hi]

theorem setObj_with (w : World C R) (r : Ref) (o : RepoObj C R) :
    (w.setObj r o) = { w with heap := (w.setObj r o).heap } := rfl

theorem modObj_with (w : World C R) (r : Ref) (f : RepoObj C R → RepoObj C R) :
    (w.modObj r f) = { w with heap := (w.modObj r f).heap } := by
  unfold World.modObj
  cases w.heap[r]? <;> rfl

/-- Setting tree and head of an object. -/
def upd (n : Node C) (b : Block C R) (o : RepoObj C R) : RepoObj C R :=
  { o with mst := n, head := some b }

/-- Why `rest` stops. -/
theorem rest_spec (hL : L.OK Z) {be : Backend} {w : World C R} {r s : Ref} {did : Did}
    {prev : Option C} {writes : List (Write R)} {seq : Nat} {x : Luck} {so : RepoObj C R}
    {m : Key → Option R} (hb : BlocksOK L Z seq w.blocks) (hseq : 1 ≤ seq)
    (hso : w.heap[s]? = some so) (hm : ObjRep L Z w.blocks so m) (hdid : isDid did)
    (hprev : ∀ p, prev = some p → ∃ b' co', dictGet w.blocks p = some b' ∧ b'.val = .commit co' ∧
      co'.did = did ∧ b'.seq < seq ∧ RootOK L Z w.blocks co'.data m)
    (hnone : prev = none → m = fun _ => none) :
    if maxOps < writes.length then rest L be w r s did prev writes seq x = (w, .error .value)
    else match specWrites L m writes with
      | .error e => ∃ n, rest L be w r s did prev writes seq x =
          (w.setObj s { so with mst := n }, .error e) ∧ (writes.length ≤ 1 → n = so.mst)
      | .ok m' => ∃ n, (∃ l t, Inv L.env w.rd Z l t n (fun k => (m' k).map L.rcid)) ∧
          if x.signFails then rest L be w r s did prev writes seq x =
            (w.setObj s { so with mst := n }, .error .attribute)
          else if 32 ^ 11 ≤ seq then rest L be w r s did prev writes seq x =
            (w.setObj s { so with mst := n }, .error .assertion)
          else ∃ cd co, Built L Z w.blocks seq did prev so.key x.nonce (opsOf L m writes) m' n cd co ∧
            rest L be w r s did prev writes seq x =
              finishCommit L be (w.setObj s { so with mst := n }) r s n so.did.isSome cd x := by
  unfold rest
  rw [hso]
  simp only
  split
  · rfl
  · obtain ⟨l, t, h1, h2, h3⟩ := hm.tree
    have hl : LoopOK L Z w.blocks seq did ⟨so.mst, [], []⟩ m :=
      ⟨⟨l, t, h1⟩, by simp, fun k r' hk => .inl (h2.recs k r' hk)⟩
    have hws := hl.writes hL (ws := writes)
    cases hsw : specWrites L m writes with
    | error e =>
      rw [hsw] at hws
      obtain ⟨n, hn, hn'⟩ := hws
      refine ⟨n, ?_, hn'⟩
      rw [show w.rd = nodeIn w.blocks from rfl, hn]
    | ok m' =>
      rw [hsw] at hws
      obtain ⟨st, hn, hst, hops⟩ := hws
      simp only [List.nil_append] at hops
      simp only [show w.rd = nodeIn w.blocks from rfl, hn]
      obtain ⟨l', t', hi'⟩ := hst.inv
      refine ⟨L.touch (nodeIn w.blocks) st.mst, ⟨l', t', hi'.cachedStar hL.fuel (hL.touch _ _)⟩, ?_⟩
      by_cases hs : x.signFails = true
      · simp only [hs, if_true]
      · simp only [hs, if_false, Bool.false_eq_true]
        by_cases hmax : 32 ^ 11 ≤ seq
        · rw [if_pos hmax]
          have hbd := hi'.bound
          have hfu := hL.fuel
          obtain ⟨bl, hu1, _⟩ := getUnstoredBlocks_spec hi'.repr hi'.wf hi'.valid (f := L.fuel)
            (by omega)
          have ht := Tid.intToTid_spec 0 seq 0 (by omega)
          rw [show ((0 : Nat) : Int) = 0 from rfl, if_neg (by omega)] at ht
          have : buildCommit L (nodeIn w.blocks) st so.key x.nonce seq did prev =
              .error .assertion := by
            unfold buildCommit signedCommit
            rw [hu1, ok_bind, ht]; rfl
          rw [this]
        · rw [if_neg hmax]
          obtain ⟨cd, co, g1, g2⟩ := buildCommit_spec hL (key := so.key) (nonce := x.nonce) hb hst
            hseq (by omega) hdid (fun p hp => by
              obtain ⟨b', co', k1, k2, k3, k4, _⟩ := hprev p hp
              exact ⟨b', co', k1, k2, k3, k4⟩)
            (by
              refine ⟨m, writes, ?_, by unfold maxOps at *; omega, hsw, hops⟩
              cases prev with
              | none => exact hnone rfl
              | some p =>
                obtain ⟨b', co', k1, k2, _, _, k3⟩ := hprev p rfl
                exact ⟨b', co', k1, k2, k3⟩)
          exact ⟨cd, co, hops ▸ g2, by rw [g1]⟩

end

end Arroba.Store
