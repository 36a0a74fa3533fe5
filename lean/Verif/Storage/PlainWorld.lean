import Verif.Storage.PlainProofs

/-! Helper lemmas: the invariant of `PlainProofs.lean` is kept by one attempt of a commit. -/

namespace Arroba.Store

variable {C R : Type} [DecidableEq C]

open Arroba.Tree

section
variable {L : Lib C R} {Z : Nat} {be : Backend} {hi lo : Nat} {w : World C R}

theorem PRoot.load {blocks : List (C × Block C R)} {c : C} (h : PRoot L Z blocks c) :
    ∃ l t M, Inv L.env (nodeIn blocks) Z l t (Arroba.load c) M := by
  obtain ⟨t, l, hl, hw, hs, hv, h2, rfl⟩ := h
  have hr : ∀ l, ReprN L.env (nodeIn blocks) l t (Arroba.load (cidOf L.env.H t)) := fun l =>
    ⟨⟨fun _ => ⟨rfl, h2⟩, fun _ => rfl, by simp [Arroba.load, Node.layer]⟩,
      by simp [Arroba.load, Node.entries]⟩
  by_cases ht : t = nil
  · subst ht
    exact ⟨0, nil, _, ⟨hr 0, by simp [WF], hs, hv, fun _ => rfl, by omega, rfl⟩⟩
  · exact ⟨l, t, _, ⟨hr l, hw, hs, hv, fun h => absurd h ht, hl, rfl⟩⟩

/-- The objects in `P` keep their DIDs. -/
def Dids (P : Nat → Prop) (w w' : World C R) : Prop :=
  ∀ (i : Nat) (o : RepoObj C R) d, P i → w.heap[i]? = some o → o.did = some d →
    ∃ o', w'.heap[i]? = some o' ∧ o'.did = some d

theorem Dids.refl (P : Nat → Prop) (w : World C R) : Dids P w w :=
  fun _ o _ _ h h' => ⟨o, h, h'⟩

theorem Dids.trans {P : Nat → Prop} {a b c : World C R} (h : Dids P a b) (h' : Dids P b c) :
    Dids P a c := by
  intro i o d hp ho hd
  obtain ⟨o', h1, h2⟩ := h i o d hp ho hd
  exact h' i o' d hp h1 h2

theorem Dids.of_heap {P : Nat → Prop} {w w' : World C R}
    (h : ∀ (i : Nat) o, P i → w.heap[i]? = some o → w'.heap[i]? = some o) : Dids P w w' :=
  fun i o _ hp ho hd => ⟨o, h i o hp ho, hd⟩

theorem Dids.setObj {P : Nat → Prop} {s : Ref} {so o' : RepoObj C R} (hs : w.heap[s]? = some so)
    (hd : o'.did = so.did) : Dids P w (w.setObj s o') := by
  intro i o d _ ho hod
  rw [heap_setObj]
  by_cases hi : i = s
  · subst hi
    rw [if_pos rfl, ho]
    rw [hs] at ho; cases ho
    exact ⟨o', rfl, hd.trans hod⟩
  · rw [if_neg hi]; exact ⟨o, ho, hod⟩

theorem Dids.setOther {P : Nat → Prop} {s : Ref} {o' : RepoObj C R} (hs : ¬ P s) :
    Dids P w (w.setObj s o') := by
  intro i o d hp ho hod
  rw [heap_setObj, if_neg (fun h : i = s => hs (h ▸ hp))]
  exact ⟨o, ho, hod⟩

/-! ### Changing parts of the world -/

theorem PCore.congr {w' : World C R} (h : PCore L Z be hi lo w) (hb : w'.blocks = w.blocks)
    (hh : w'.heap = w.heap) (hr : w'.repos = w.repos) (hro : w'.rows = w.rows) :
    PCore L Z be hi lo w' := by
  obtain ⟨h1, h2, h3, h4, h5⟩ := h
  exact ⟨hb ▸ h1, by rw [hh, hb]; exact h2, by rw [hr, hh]; exact h3, by rw [hro, hb]; exact h4,
    by rw [hh]; exact h5⟩

theorem PCore.up {hi' lo' : Nat} (h : PCore L Z be hi lo w) (h1 : hi ≤ hi') (h2 : lo ≤ lo') :
    PCore L Z be hi' lo' w := by
  refine ⟨h.blocks.mono h1, h.heap, h.repos, fun d row hd => ?_, fun hb r o b ho hbb =>
    (h.heads hb r o b ho hbb).trans h2⟩
  obtain ⟨g1, b, co, g2, g3, g4, g5⟩ := h.rows d row hd
  exact ⟨g1, b, co, g2, g3, g4, g5.trans h2⟩

theorem PCore.setObj (h : PCore L Z be hi lo w) {r : Ref} {o o' : RepoObj C R}
    (ho : w.heap[r]? = some o) (ho' : PObj L Z w.blocks o')
    (hd : o'.did = o.did ∨ ∀ d, (d, r) ∉ w.repos)
    (hh : be = .memory → ∀ b, o'.head = some b → b.seq ≤ lo) :
    PCore L Z be hi lo (w.setObj r o') := by
  refine ⟨h.blocks, ?_, ?_, h.rows, ?_⟩
  · intro i x hx
    rw [heap_setObj] at hx
    split at hx
    · rename_i hi; subst hi
      rw [ho] at hx; cases hx; exact ho'
    · exact h.heap i x hx
  · intro d i hm
    obtain ⟨g1, x, g2, g3⟩ := h.repos d i hm
    refine ⟨g1, ?_⟩
    rw [heap_setObj]
    by_cases hi : i = r
    · subst hi
      rw [if_pos rfl, ho]
      rw [ho] at g2; cases g2
      rcases hd with hd | hd
      · exact ⟨o', rfl, hd.trans g3⟩
      · exact absurd hm (hd d)
    · rw [if_neg hi]; exact ⟨x, g2, g3⟩
  · intro hb i x b hx hbb
    rw [heap_setObj] at hx
    split at hx
    · rename_i hi; subst hi
      rw [ho] at hx; cases hx; exact hh hb b hbb
    · exact h.heads hb i x b hx hbb

theorem PCore.withBlocks {hi' : Nat} {blocks' : List (C × Block C R)} (h : PCore L Z be hi lo w)
    (hg : Grows w.blocks blocks') (hb : PBlocks L Z hi' blocks') :
    PCore L Z be hi' lo { w with blocks := blocks' } := by
  refine ⟨hb, fun r o ho => (h.heap r o ho).grow hg, h.repos, fun d row hd => ?_, h.heads⟩
  obtain ⟨g1, b, co, g2, g3⟩ := h.rows d row hd
  exact ⟨g1, b, co, hg _ _ g2, g3⟩

theorem PCore.newObj (h : PCore L Z be hi lo w) {o : RepoObj C R} (ho : PObj L Z w.blocks o)
    (hh : be = .memory → ∀ b, o.head = some b → b.seq ≤ lo) :
    PCore L Z be hi lo { w with heap := w.heap ++ [o] } := by
  have hget : ∀ (i : Nat) (x : RepoObj C R), (w.heap ++ [o])[i]? = some x →
      w.heap[i]? = some x ∨ x = o := by
    intro i x hx
    rw [List.getElem?_append] at hx
    split at hx
    · exact .inl hx
    · right
      rw [List.getElem?_singleton] at hx
      split at hx
      · cases hx; rfl
      · cases hx
  refine ⟨h.blocks, fun i x hx => ?_, fun d r hd => ?_, h.rows, fun hb i x b hx hbb => ?_⟩
  · rcases hget i x hx with h' | rfl
    · exact h.heap i x h'
    · exact ho
  · obtain ⟨g1, x, g2, g3⟩ := h.repos d r hd
    refine ⟨g1, x, ?_, g3⟩
    rw [List.getElem?_append, if_pos (by
      by_contra hlt
      rw [List.getElem?_eq_none (by omega)] at g2; cases g2)]
    exact g2
  · rcases hget i x hx with h' | rfl
    · exact h.heads hb i x b h' hbb
    · exact hh hb b hbb

theorem PCore.collect {w₀ : World C R} (h : PCore L Z be hi lo w)
    (hl : be = .datastore ∨ w.heap.length ≤ w₀.heap.length) : PCore L Z be hi lo (w.collect w₀) := by
  have hget : ∀ (i : Nat) (x : RepoObj C R), (w.heap.take w₀.heap.length)[i]? = some x →
      w.heap[i]? = some x := by
    intro i x hx
    rw [List.getElem?_take] at hx
    split at hx
    · exact hx
    · cases hx
  refine ⟨h.blocks, fun i x hx => h.heap i x (hget i x hx), fun d r hd => ?_, h.rows,
    fun hb i x b hx => h.heads hb i x b (hget i x hx)⟩
  obtain ⟨g1, x, g2, g3⟩ := h.repos d r hd
  refine ⟨g1, x, ?_, g3⟩
  rcases hl with hl | hl
  · rw [g1] at hl; cases hl
  · show (w.heap.take w₀.heap.length)[r]? = some x
    rw [List.take_of_length_le hl]; exact g2

theorem PCore.withRows (h : PCore L Z be hi lo w) {rows : List (Did × Row C)} {lo' : Nat}
    {w₀ : World C R} (h₀ : PCore L Z be hi lo' w₀) (hr : rows = w₀.rows)
    (hg : Grows w₀.blocks w.blocks) (hl : lo' ≤ lo) :
    PCore L Z be hi lo { w with rows := rows } := by
  refine ⟨h.blocks, h.heap, h.repos, fun d row hd => ?_, h.heads⟩
  subst hr
  obtain ⟨g1, b, co, g2, g3, g4, g5⟩ := h₀.rows d row hd
  exact ⟨g1, b, co, hg _ _ g2, g3, g4, g5.trans hl⟩

/-! ### Loading repos -/

theorem PCore.findRepo (hw : PCore L Z be hi lo w) {q : Did} (hq : isDid q) :
    ∀ {l : List (Did × Ref)}, (∀ x ∈ l, x ∈ w.repos) → Store.findRepo w q l = dictGet l q
  | [], _ => rfl
  | (d, r) :: rest, hl => by
    obtain ⟨_, o, ho, hd⟩ := hw.repos d r (hl _ List.mem_cons_self)
    have hm := hw.heap r o ho
    have ih := PCore.findRepo hw hq (l := rest) (fun x hx => hl x (List.mem_cons_of_mem _ hx))
    unfold Store.findRepo
    rw [ho]
    simp only [dictGet]
    by_cases ha : answersTo q o = true
    · rw [if_pos ha, if_pos ((answers_iff hd hm.handle hq).1 ha)]
    · rw [if_neg ha, if_neg (fun h => ha ((answers_iff hd hm.handle hq).2 h)), ih]

theorem PCore.findRow (hw : PCore L Z be hi lo w) {q : Did} (hq : isDid q) :
    Store.findRow w q = dictGet w.rows q := by
  unfold Store.findRow
  cases h : dictGet w.rows q with
  | some row => rfl
  | none =>
    simp only
    have : w.rows.find? (fun kv => decide (kv.2.handle = some q)) = none := by
      rw [List.find?_eq_none]
      intro kv hkv
      simp only [decide_eq_true_eq]
      intro hh
      exact (hw.rows kv.1 kv.2 hkv).1 q hh hq
    rw [this]; rfl

theorem PCore.stored (hw : PCore L Z be hi lo w) {c : C} {b : Block C R} {co : Commit C}
    (h : dictGet w.blocks c = some b) (hv : b.val = .commit co) {handle : Option Key}
    (hh : ∀ h, handle = some h → ¬ isDid h) (status : Option Status) (key : Nat) (callback : Bool) :
    PObj L Z w.blocks ⟨Arroba.load co.data, some b, handle, status, key, callback⟩ := by
  refine ⟨(hw.blocks.root h hv).load, fun x hx => ?_, hh⟩
  simp only [Option.some.injEq] at hx
  subst hx
  exact ⟨b, co, by rw [hw.blocks.addr _ _ h]; exact h, rfl, hv, rfl⟩

theorem PCore.repoLoad (hw : PCore L Z be hi hi w) (c : C) {handle : Option Key}
    (hh : ∀ h, handle = some h → ¬ isDid h) (status : Option Status) (key : Nat)
    (callback : Bool) : PCore L Z be hi hi (repoLoad w c handle status key callback).1 := by
  unfold Store.repoLoad commitAt World.read
  cases hc : dictGet w.blocks c with
  | none => exact hw
  | some b =>
    simp only
    cases hv : b.val with
    | commit co =>
      exact hw.newObj (hw.stored hc hv hh status key callback) (fun _ x hx => by
        simp only [Option.some.injEq] at hx
        subst hx
        exact (hw.blocks.seqs _ _ hc))
    | node d => exact hw
    | record r => exact hw
    | event e => exact hw

/-- What `load_repo` of a DID finds. -/
theorem PCore.loadDid (hw : PCore L Z be hi lo w) {q : Did} (hq : isDid q) :
    loadRepo be w q = (w, .ok none) ∨
    ∃ s so b co w1, loadRepo be w q = (w1, .ok (some s)) ∧ w1.heap[s]? = some so ∧
      so.head = some b ∧ b.val = .commit co ∧ co.did = q ∧ b.seq ≤ lo ∧
      PCore L Z be hi lo w1 ∧ w1.blocks = w.blocks ∧ w1.rows = w.rows ∧ w1.repos = w.repos ∧
      (∀ (r : Nat) o, w.heap[r]? = some o → w1.heap[r]? = some o) ∧
      match be with
      | .memory => w1 = w ∧ dictGet w.repos q = some s
      | .datastore => s = w.heap.length ∧
          ∃ row, dictGet w.rows q = some row ∧ dictGet w.blocks row.head = some b ∧
            so = ⟨Arroba.load co.data, some b, row.handle, row.status, row.key, false⟩ := by
  unfold loadRepo
  rw [if_neg (isDid_ne_nil hq)]
  cases be with
  | memory =>
    simp only
    rw [hw.findRepo hq (l := w.repos) (fun _ h => h)]
    cases hf : dictGet w.repos q with
    | none => exact .inl rfl
    | some s =>
      obtain ⟨_, o, ho, hd⟩ := hw.repos q s (dictGet_mem hf)
      obtain ⟨b, co, h1, h2, h3⟩ := did_some hd
      exact .inr ⟨s, o, b, co, w, rfl, ho, h1, h2, h3, hw.heads rfl s o b ho h1, hw, rfl, rfl, rfl,
        fun _ _ h => h, rfl, rfl⟩
  | datastore =>
    simp only
    rw [hw.findRow hq]
    cases hf : dictGet w.rows q with
    | none => exact .inl rfl
    | some row =>
      right
      obtain ⟨hh, b, co, h1, h2, h3, h4⟩ := hw.rows q row (dictGet_mem hf)
      have hc : commitAt w row.head = .ok (b, co) := by
        unfold commitAt World.read; rw [h1]; simp only [h2]
      let so : RepoObj C R := ⟨Arroba.load co.data, some b, row.handle, row.status, row.key, false⟩
      refine ⟨w.heap.length, so, b, co, { w with heap := w.heap ++ [so] }, ?_, by simp, rfl, h2, h3,
        h4, hw.newObj (hw.stored h1 h2 hh _ _ _) (fun h => by cases h), rfl, rfl, rfl, ?_, rfl, row,
        rfl, h1, rfl⟩
      · simp only [Store.repoLoad, hc, World.newObj]
        rfl
      · intro r o ho
        show (w.heap ++ [so])[r]? = some o
        rw [List.getElem?_append, if_pos (by
          by_contra hlt
          rw [List.getElem?_eq_none (by omega)] at ho; cases ho)]
        exact ho

theorem PCore.loadRepo (hw : PCore L Z be hi hi w) (q : Key) :
    PCore L Z be hi hi (loadRepo be w q).1 := by
  unfold Store.loadRepo
  split
  · exact hw
  · cases be with
    | memory => exact hw
    | datastore =>
      simp only
      split
      · exact hw
      · rename_i row hf
        have hh : ∀ h, row.handle = some h → ¬ isDid h := by
          unfold Store.findRow at hf
          split at hf
          · rename_i hg; cases hf; exact (hw.rows q row (dictGet_mem hg)).1
          · cases hfind : w.rows.find? (fun kv => decide (kv.2.handle = some q)) with
            | none => rw [hfind] at hf; cases hf
            | some kv =>
              rw [hfind] at hf; cases hf
              exact (hw.rows kv.1 kv.2 (List.mem_of_find?_eq_some hfind)).1
        have := hw.repoLoad row.head hh row.status row.key false
        split <;> (rename_i he; rw [he] at this; exact this)

/-! ### One attempt -/

/-- The object that is committed to. -/
theorem PCore.begin (hw : PCore L Z be hi lo w) {r : Ref} {o : RepoObj C R}
    (ho : w.heap[r]? = some o) {repoDid : Option Did}
    (hm : ∀ d, repoDid = some d → isDid d ∧ ∀ d', (d', r) ∉ w.repos) :
    match beginCommit L be w r o repoDid with
    | (w1, .error _) => PCore L Z be hi lo w1 ∧ w1.blocks = w.blocks ∧ w1.rows = w.rows ∧
        w1.repos = w.repos ∧ (be = .memory → w1.heap.length = w.heap.length) ∧
        (∀ (i : Nat) x, (repoDid = none ∨ i ≠ r) → w.heap[i]? = some x → w1.heap[i]? = some x)
    | (w1, .ok (s, did, prev)) => PCore L Z be hi lo w1 ∧ w1.blocks = w.blocks ∧ w1.rows = w.rows ∧
        w1.repos = w.repos ∧ (be = .memory → w1.heap.length = w.heap.length) ∧
        (∀ (i : Nat) x, (repoDid = none ∨ i ≠ r) → w.heap[i]? = some x → w1.heap[i]? = some x) ∧
        isDid did ∧
        (∃ so, w1.heap[s]? = some so ∧
          match repoDid with
          | none => so.did = some did ∧ o.did = some did ∧ w1.heap[r]? = some o ∧
              (∃ wl b, Store.loadRepo be w did = (wl, .ok (some s)) ∧ wl.heap[s]? = some so ∧
                so.head = some b ∧ prev = some (L.hash b.val)) ∧
              match be with
              | .memory => dictGet w.repos did = some s
              | .datastore => s = w.heap.length ∧ ∃ row, dictGet w.rows did = some row
          | some d => so.did = none ∧ s = r ∧ did = d ∧ prev = none ∧
              so = RepoObj.mk o.mst none o.handle o.status o.key o.callback) ∧
        (∀ p, prev = some p → ∃ b' co', dictGet w.blocks p = some b' ∧ b'.val = .commit co' ∧
          co'.did = did ∧ b'.seq ≤ lo) := by
  unfold beginCommit
  cases repoDid with
  | some d =>
    obtain ⟨hd, hr⟩ := hm d rfl
    dsimp only
    cases hh : o.head with
    | none =>
      dsimp only
      refine ⟨hw, rfl, rfl, rfl, fun _ => rfl, fun _ _ _ h => h, hd, ⟨o, ho, ?_, rfl, rfl, rfl, ?_⟩, ?_⟩
      · simp [RepoObj.did, hh]
      · rw [← hh]
      · intro p hp; cases hp
    | some b =>
      dsimp only
      cases hv : b.val with
      | commit co =>
        dsimp only
        by_cases hc : co.did = d ∧ co.prev = none
        · rw [if_pos hc]
          dsimp only
          have hobj : PObj L Z w.blocks { o with head := none } :=
            ⟨(hw.heap r o ho).tree, fun b hb => (by cases hb), (hw.heap r o ho).handle⟩
          refine ⟨hw.setObj ho hobj (.inr hr) (fun _ b hb => by cases hb), rfl, rfl, rfl,
            fun _ => by simp [World.setObj], ?_, hd, ⟨{ o with head := none }, ?_, rfl, rfl, rfl, rfl, rfl⟩,
            fun p hp => by cases hp⟩
          · intro i x hi hx
            rw [heap_setObj, if_neg (hi.resolve_left (by simp))]; exact hx
          · rw [heap_setObj, if_pos rfl, ho]; rfl
        · rw [if_neg hc]
          exact ⟨hw, rfl, rfl, rfl, fun _ => rfl, fun _ _ _ h => h⟩
      | node x => exact ⟨hw, rfl, rfl, rfl, fun _ => rfl, fun _ _ _ h => h⟩
      | record x => exact ⟨hw, rfl, rfl, rfl, fun _ => rfl, fun _ _ _ h => h⟩
      | event x => exact ⟨hw, rfl, rfl, rfl, fun _ => rfl, fun _ _ _ h => h⟩
  | none =>
    dsimp only
    cases hd : o.did with
    | none => exact ⟨hw, rfl, rfl, rfl, fun _ => rfl, fun _ _ _ h => h⟩
    | some d =>
      dsimp only
      have hq := (hw.heap r o ho).isDid hw.blocks hd
      rcases hw.loadDid hq with h | ⟨s, so, b, co, w1, h1, h2, h3, h4, h5, h6, h7, h8, h9, h10, h11, h12⟩
      · rw [h]; exact ⟨hw, rfl, rfl, rfl, fun _ => rfl, fun _ _ _ h => h⟩
      · rw [h1]
        dsimp only
        rw [show (w1.heap[s]?).bind (·.head) = some b by rw [h2]; exact h3]
        dsimp only
        have hso : so.did = some d := h5 ▸ did_eq h3 h4
        refine ⟨h7, h8, h9, h10, ?_, fun i x _ hx => h11 i x hx, hq, ⟨so, h2, hso, rfl, h11 r o ho, ⟨w1, b, h1, h2, h3, rfl⟩, ?_⟩, ?_⟩
        · rintro rfl; rw [h12.1]
        · cases be with
          | memory => exact h12.2
          | datastore => obtain ⟨g1, row, g2, _⟩ := h12; exact ⟨g1, row, g2⟩
        · intro p hp
          cases hp
          obtain ⟨b', co', g1, g2, g3, g4⟩ := (h7.heap s so h2).head b h3
          rw [h4] at g3; cases g3
          exact ⟨b', co, by rw [← h8]; exact g1, g2.trans h4, h5, by omega⟩

/-- What a successful attempt has done. -/
structure PDone (L : Lib C R) (Z : Nat) (be : Backend) (seq : Nat) (w : World C R) (r : Ref)
    (repoDid : Option Did) (w' : World C R) (cd : CommitData C R) (did : Did) (prev : Option C)
    (co : Commit C) : Prop where
  caller : ∃ o, w.heap[r]? = some o ∧ o.status = none ∧ (repoDid = none → o.did = some did)
  isDid : isDid did
  blocks : w'.blocks = putBlocks L w.blocks (cd.blocks.map (·.2))
  built : ∃ key nonce n, PBuilt L Z w.blocks seq did prev key nonce n cd co
  obj : ∃ o', w'.heap[r]? = some o' ∧ o'.head = some cd.commit ∧
    ∃ key nonce, PBuilt L Z w.blocks seq did prev key nonce o'.mst cd co
  length : w.heap.length ≤ w'.heap.length ∧ (be = .memory → w'.heap.length = w.heap.length)
  dids : Dids (fun i => repoDid = none ∨ i ≠ r) w w'
  heads : match repoDid with
    | none => (∃ p, prev = some p) ∧ headOf L be w did = prev ∧
        headOf L be w' did = some (L.hash cd.commit.val) ∧
        ∀ d', d' ≠ did → headOf L be w' d' = headOf L be w d'
    | some d => did = d ∧ prev = none ∧ w'.rows = w.rows ∧ w'.repos = w.repos ∧
        ∀ d', headOf L be w' d' = headOf L be w d'

theorem PBuilt.inv {blocks : List (C × Block C R)} {seq : Nat} {did : Did} {prev : Option C}
    {key nonce : Nat} {n : Node C} {cd : CommitData C R} {co : Commit C}
    (h : PBuilt L Z blocks seq did prev key nonce n cd co) :
    ∃ l t M, Inv L.env (nodeIn (putBlocks L blocks (cd.blocks.map (·.2)))) Z l t n M := by
  obtain ⟨l, t, M, h, _⟩ := h.tree
  exact ⟨l, t, M, h⟩

theorem headOf_rows {w w' : World C R} (h : w'.rows = w.rows) (d : Did) :
    headOf L .datastore w' d = headOf L .datastore w d := by
  simp only [headOf, h]

theorem headOf_sameHead {s : Ref} {so o' : RepoObj C R} (hs : w.heap[s]? = some so)
    (hh : o'.head = so.head) (d : Did) : headOf L be (w.setObj s o') d = headOf L be w d := by
  cases be with
  | datastore => rfl
  | memory =>
    simp only [headOf]
    rw [show (w.setObj s o').repos = w.repos from rfl]
    cases dictGet w.repos d with
    | none => rfl
    | some i =>
      simp only
      rw [heap_setObj]
      by_cases hi : i = s
      · subst hi; rw [if_pos rfl, hs]; simp [hh]
      · rw [if_neg hi]

theorem headOf_other {s : Ref} {o' : RepoObj C R} (hs : ∀ d, (d, s) ∉ w.repos) (d : Did) :
    headOf L be (w.setObj s o') d = headOf L be w d := by
  cases be with
  | datastore => rfl
  | memory =>
    simp only [headOf]
    rw [show (w.setObj s o').repos = w.repos from rfl]
    cases hr : dictGet w.repos d with
    | none => rfl
    | some i =>
      simp only
      rw [heap_setObj, if_neg]
      rintro rfl
      exact hs d (dictGet_mem hr)

theorem begin_heads {r : Ref} {o : RepoObj C R} {repoDid : Option Did}
    (hm : ∀ d, repoDid = some d → ∀ d', (d', r) ∉ w.repos)
    (hrow : (beginCommit L be w r o repoDid).1.rows = w.rows) (d' : Did) :
    headOf L be (beginCommit L be w r o repoDid).1 d' = headOf L be w d' := by
  cases be with
  | datastore => exact headOf_rows hrow d'
  | memory =>
    unfold beginCommit
    cases repoDid with
    | some d =>
      simp only
      split
      · rfl
      · split
        · split
          · exact headOf_other (hm d rfl) d'
          · rfl
        · rfl
    | none =>
      have hl : ∀ q, (loadRepo .memory w q).1 = w := by
        intro q; unfold loadRepo; split <;> rfl
      simp only
      split
      · rfl
      · rename_i d _
        have := hl d
        split
        · rename_i he; rw [he] at this; rw [show _ = w from this]
        · rename_i he; rw [he] at this; rw [show _ = w from this]
        · rename_i he; rw [he] at this
          have e : _ = w := this
          split <;> rw [e]

theorem PHead.hash {blocks : List (C × Block C R)} {b : Block C R} (h : PHead L blocks b) :
    ∃ co, b.val = .commit co ∧ Has L blocks (.commit co) := by
  obtain ⟨b', co, h1, h2, h3, h4⟩ := h
  exact ⟨co, h3, b', by rw [← h3]; exact h1, h2.trans h3⟩

/-- The world after `finishCommit` of an existing repo. -/
theorem finish_plain {r s : Ref} {o so : RepoObj C R} {n : Node C} {cd : CommitData C R}
    {co : Commit C} {did : Did} {prev : Option C} {key nonce : Nat} {x : Luck} {seq : Nat}
    (hw : PCore L Z be seq lo w) (hlo : lo < seq)
    (hso : w.heap[s]? = some so) (hsd : so.did = some did) (ho : w.heap[r]? = some o)
    (hod : o.did = some did)
    (hb : PBuilt L Z w.blocks seq did prev key nonce n cd co)
    (hmem : be = .memory → dictGet w.repos did = some s)
    (hrow : be = .datastore → ∃ row, dictGet w.rows did = some row)
    (hn : ∃ l t M, Inv L.env (nodeIn w.blocks) Z l t so.mst M) :
    match finishCommit L be w r s n true cd x with
    | (w', .error _) => PCore L Z be seq lo w' ∧ w'.rows = w.rows ∧ w'.repos = w.repos ∧
        w'.heap.length = w.heap.length ∧ Grows w.blocks w'.blocks ∧
        (w'.blocks = w.blocks ∨ (be = .datastore ∧ x.storeFails = true)) ∧
        (∀ d', headOf L be w' d' = headOf L be w d') ∧ ∀ P, Dids P w w'
    | (w', .ok cd') => cd' = cd ∧ PCore L Z be seq seq w' ∧
        w'.blocks = putBlocks L w.blocks (cd.blocks.map (·.2)) ∧
        (∃ o', w'.heap[r]? = some o' ∧ o'.head = some cd.commit ∧ o'.mst = n) ∧
        w'.heap.length = w.heap.length ∧ (∀ P, Dids P w w') ∧
        headOf L be w' did = some (L.hash cd.commit.val) ∧
        ∀ d', d' ≠ did → headOf L be w' d' = headOf L be w d' := by
  obtain ⟨ops, hcd⟩ := hb.commit
  have hv : cd.commit.val = .commit co := by rw [hcd]
  have hcseq : cd.commit.seq = seq := by rw [hcd]
  have hg : Grows w.blocks (putBlocks L w.blocks (cd.blocks.map (·.2))) := putBlocks_grows _ _
  have hfin := finish_existing (L := L) (be := be) (r := r) (n := n) (x := x) hso hv hb.codid
  have hlen : ∀ w' : World C R, (∀ i : Nat, (w'.heap[i]?).isSome = (w.heap[i]?).isSome) →
      w'.heap.length = w.heap.length := by
    intro w' h1
    rcases Nat.lt_trichotomy w'.heap.length w.heap.length with h | h | h
    · have := h1 w'.heap.length; simp [h] at this
    · exact h
    · have := h1 w.heap.length; simp [h] at this
  by_cases h1 : be = .datastore ∧ x.writeFails = true
  · rw [if_pos h1] at hfin
    rw [hfin]
    exact ⟨hw, rfl, rfl, rfl, fun _ _ h => h, .inl rfl, fun _ => rfl, fun P => .refl P w⟩
  rw [if_neg h1] at hfin
  -- the object of the stored repo with the new head
  have hobj1 : PObj L Z (putBlocks L w.blocks (cd.blocks.map (·.2)))
      { so with head := some cd.commit } := by
    have := (hw.heap s so hso).grow hg
    exact ⟨this.tree, fun b hb' => by cases hb'; exact hb.head, this.handle⟩
  have hobj2 : ∀ x : RepoObj C R, PObj L Z w.blocks x →
      PObj L Z (putBlocks L w.blocks (cd.blocks.map (·.2))) (upd n cd.commit x) := by
    intro x hx
    exact ⟨hb.inv, fun b hb' => by cases hb'; exact hb.head, hx.handle⟩
  by_cases h2 : be = .datastore ∧ x.storeFails = true
  · rw [if_pos h2] at hfin
    obtain ⟨w', e1, e2, e3, e4, e5, e6, e7, e8⟩ := hfin
    have hs' : ∀ x : RepoObj C R, w'.heap[s]? = some x → PObj L Z w'.blocks x := by
      intro x hx
      unfold finishCommit at e1
      rw [if_neg h1, if_pos rfl, if_pos h2] at e1
      simp only [Prod.mk.injEq, and_true] at e1
      rw [← e1, heap_modObj, if_pos rfl] at hx
      simp only [hso, Option.map_some, Option.some.injEq] at hx
      rw [← hx, e2]; exact hobj1
    rw [e1]
    refine ⟨⟨e2 ▸ hb.ok, ?_, ?_, ?_, ?_⟩, e4, e5, e8, e2 ▸ hg, .inr h2,
      (fun d' => by rw [h2.1]; exact headOf_rows e4 d'), fun P => ?_⟩
    · intro i x hx
      by_cases hi : i = s
      · subst hi; exact hs' x hx
      · rw [e7 i hi] at hx
        rw [e2]; exact (hw.heap i x hx).grow hg
    · intro d i hd
      rw [e5] at hd
      obtain ⟨k, _⟩ := hw.repos d i hd
      rw [h2.1] at k; cases k
    · intro d row hd
      rw [e4] at hd
      obtain ⟨k1, b, co', k2, k3⟩ := hw.rows d row hd
      exact ⟨k1, b, co', by rw [e2]; exact hg _ _ k2, k3⟩
    · intro h; rw [h2.1] at h; cases h
    · intro i x d _ hx hd
      by_cases hi : i = s
      · subst hi
        unfold finishCommit at e1
        rw [if_neg h1, if_pos rfl, if_pos h2] at e1
        simp only [Prod.mk.injEq, and_true] at e1
        rw [← e1, heap_modObj, if_pos rfl]
        simp only [hso, Option.map_some, Option.some.injEq, exists_eq_left']
        rw [hso] at hx; cases hx
        rw [hsd] at hd; cases hd
        exact hb.codid ▸ did_eq rfl hv
      · rw [e7 i hi]; exact ⟨x, hx, hd⟩
  rw [if_neg h2] at hfin
  -- success
  have main : ∀ w' : World C R, w'.blocks = putBlocks L w.blocks (cd.blocks.map (·.2)) →
      (∀ i, w'.heap[i]? = if i = r then (w.heap[i]?).map (upd n cd.commit)
            else if i = s then (w.heap[i]?).map (fun o => { o with head := some cd.commit })
            else w.heap[i]?) →
      (∀ (i : Nat) x, w'.heap[i]? = some x → PObj L Z w'.blocks x) ∧
      (∀ (i : Nat) (x : RepoObj C R) d, w.heap[i]? = some x → x.did = some d →
        ∃ x', w'.heap[i]? = some x' ∧ x'.did = some d) ∧
      (be = .memory → ∀ (i : Nat) (x : RepoObj C R) b, w'.heap[i]? = some x → x.head = some b → b.seq ≤ seq) ∧
      (∃ o', w'.heap[r]? = some o' ∧ o'.head = some cd.commit ∧ o'.mst = n) ∧
      w'.heap.length = w.heap.length := by
    intro w' e1 e2
    have hdc : ∀ x : RepoObj C R, x.head = some cd.commit → x.did = some did := fun x hx =>
      hb.codid ▸ did_eq hx hv
    refine ⟨?_, ?_, ?_, ?_, ?_⟩
    · intro i x hx
      rw [e2 i] at hx
      rw [e1]
      split at hx
      · rename_i hi; subst hi
        rw [ho] at hx; cases hx; exact hobj2 o (hw.heap i o ho)
      · split at hx
        · rename_i hi; subst hi
          rw [hso] at hx; cases hx; exact hobj1
        · exact (hw.heap i x hx).grow hg
    · intro i x d hx hd
      rw [e2 i]
      by_cases hi : i = r
      · subst hi
        rw [if_pos rfl, ho]
        rw [ho] at hx; cases hx
        rw [hod] at hd; cases hd
        exact ⟨_, rfl, hdc _ rfl⟩
      · rw [if_neg hi]
        by_cases hi' : i = s
        · subst hi'
          rw [if_pos rfl, hso]
          rw [hso] at hx; cases hx
          rw [hsd] at hd; cases hd
          exact ⟨_, rfl, hdc _ rfl⟩
        · rw [if_neg hi']; exact ⟨x, hx, hd⟩
    · intro hbe i x b hx hb'
      rw [e2 i] at hx
      split at hx
      · rename_i hi; subst hi
        rw [ho] at hx; cases hx; cases hb'; omega
      · split at hx
        · rename_i hi; subst hi
          rw [hso] at hx; cases hx; cases hb'; omega
        · have := hw.heads hbe i x b hx hb'; omega
    · rw [e2 r, if_pos rfl, ho]; exact ⟨_, rfl, rfl, rfl⟩
    · refine hlen w' (fun i => ?_)
      rw [e2 i]
      split
      · simp
      · split <;> simp
  cases be with
  | memory =>
    obtain ⟨w', e1, e2, e3, e4, e5, e6, e7⟩ := hfin
    obtain ⟨m1, m2, m3, m4, m5⟩ := main w' e2 e7
    have hms := hmem rfl
    rw [e1]
    refine ⟨rfl, ⟨e2 ▸ hb.ok, m1, ?_, ?_, m3⟩, e2, m4, m5, fun _ i x d _ hx hd => m2 i x d hx hd, ?_, ?_⟩
    · intro d i hd
      rw [e6] at hd
      refine ⟨rfl, ?_⟩
      rcases mem_dictSet hd with h | hd
      · cases h
        exact m2 s so did hso hsd
      · obtain ⟨_, x, hx, hxd⟩ := hw.repos d i hd
        exact m2 i x d hx hxd
    · intro d row hd
      rw [e5] at hd
      obtain ⟨k1, b, co', k2, k3, k4, k5⟩ := hw.rows d row hd
      exact ⟨k1, b, co', by rw [e2]; exact hg _ _ k2, k3, k4, by omega⟩
    · unfold headOf
      rw [e6, dictGet_dictSet, if_pos rfl]
      simp only
      rw [e7 s]
      split
      · rw [hso]; rfl
      · rw [if_pos rfl, hso]; rfl
    · intro d' hd'
      unfold headOf
      rw [e6, dictGet_dictSet, if_neg hd']
      simp only
      cases hr : dictGet w.repos d' with
      | none => rfl
      | some i =>
        simp only
        obtain ⟨_, x, hx, hxd⟩ := hw.repos d' i (dictGet_mem hr)
        rw [e7 i, if_neg, if_neg]
        · rintro rfl
          rw [hso] at hx; cases hx
          rw [hsd] at hxd; cases hxd; exact hd' rfl
        · rintro rfl
          rw [ho] at hx; cases hx
          rw [hod] at hxd; cases hxd; exact hd' rfl
  | datastore =>
    obtain ⟨row, hrow⟩ := hrow rfl
    simp only [hrow] at hfin
    obtain ⟨w', e1, e2, e3, e4, e5, e6, e7⟩ := hfin
    obtain ⟨m1, m2, m3, m4, m5⟩ := main w' e2 e7
    rw [e1]
    refine ⟨rfl, ⟨e2 ▸ hb.ok, m1, ?_, ?_, m3⟩, e2, m4, m5, fun _ i x d _ hx hd => m2 i x d hx hd, ?_, ?_⟩
    · intro d i hd
      rw [e5] at hd
      obtain ⟨k, _⟩ := hw.repos d i hd
      cases k
    · intro d row' hd
      rw [e6] at hd
      rcases mem_dictSet hd with h | hd
      · cases h
        obtain ⟨b, co', g1, g2, g3, g4⟩ := hb.head
        rw [hv] at g3; cases g3
        exact ⟨(hw.heap s so hso).handle, b, co, by rw [e2]; exact g1, g2.trans hv, hb.codid,
          by omega⟩
      · obtain ⟨k1, b, co', k2, k3, k4, k5⟩ := hw.rows d row' hd
        exact ⟨k1, b, co', by rw [e2]; exact hg _ _ k2, k3, k4, by omega⟩
    · unfold headOf
      simp only [e6, dictGet_dictSet, if_true, Option.map_some]
    · intro d' hd'
      unfold headOf
      simp only [e6, dictGet_dictSet, if_neg hd']

theorem beginCommit_length (L : Lib C R) (be : Backend) (w : World C R) (r : Ref) (o : RepoObj C R)
    (repoDid : Option Did) : w.heap.length ≤ (beginCommit L be w r o repoDid).1.heap.length := by
  have hl : ∀ q, w.heap.length ≤ (loadRepo be w q).1.heap.length := by
    intro q
    unfold loadRepo
    split
    · exact le_refl _
    · cases be with
      | memory => exact le_refl _
      | datastore =>
        simp only
        split
        · exact le_refl _
        · rename_i row _
          have : w.heap.length ≤ (repoLoad w row.head row.handle row.status row.key false).1.heap.length := by
            unfold repoLoad
            split
            · exact le_refl _
            · simp [World.newObj]
          split <;> (rename_i he; rw [he] at this; exact this)
  unfold beginCommit
  split
  · split
    · exact le_refl _
    · split
      · split
        · simp [World.setObj]
        · exact le_refl _
      · exact le_refl _
  · split
    · exact le_refl _
    · rename_i d _
      have := hl d
      split
      · rename_i he; rw [he] at this; exact this
      · rename_i he; rw [he] at this; exact this
      · rename_i he; rw [he] at this
        split <;> exact this

theorem attempt_plain (hL : L.OK Z) {seq : Nat} {r : Ref} {repoDid : Option Did}
    {writes : List (Write R)} {x : Luck} (hw : PCore L Z be seq lo w) (hlo : lo < seq)
    (hm : ∀ d, repoDid = some d → isDid d ∧ ∀ d', (d', r) ∉ w.repos) :
    match commitBody L be w r writes seq repoDid x with
    | (w', .error _) => PCore L Z be seq lo w' ∧ w'.rows = w.rows ∧ w'.repos = w.repos ∧
        w.heap.length ≤ w'.heap.length ∧ (be = .memory → w'.heap.length = w.heap.length) ∧
        Grows w.blocks w'.blocks ∧
        (w'.blocks = w.blocks ∨ (be = .datastore ∧ x.storeFails = true)) ∧
        (∀ d', headOf L be w' d' = headOf L be w d') ∧ Dids (fun i => repoDid = none ∨ i ≠ r) w w'
    | (w', .ok cd) => PCore L Z be seq seq w' ∧ ∃ did prev co, PDone L Z be seq w r repoDid w' cd did prev co := by
  rw [commitBody_eq]
  have hself : PCore L Z be seq lo w ∧ w.rows = w.rows ∧ w.repos = w.repos ∧
        w.heap.length ≤ w.heap.length ∧ (be = .memory → w.heap.length = w.heap.length) ∧
        Grows w.blocks w.blocks ∧
        (w.blocks = w.blocks ∨ (be = .datastore ∧ x.storeFails = true)) ∧
        (∀ d', headOf L be w d' = headOf L be w d') ∧ Dids (fun i => repoDid = none ∨ i ≠ r) w w :=
    ⟨hw, rfl, rfl, le_refl _, fun _ => rfl, fun _ _ h => h, .inl rfl, fun _ => rfl, .refl _ _⟩
  cases ho : w.heap[r]? with
  | none => exact hself
  | some o =>
    dsimp only
    by_cases h0 : seq = 0
    · omega
    rw [if_neg h0]
    by_cases hst : o.status ≠ none
    · rw [if_pos hst]; exact hself
    rw [if_neg hst]
    simp only [ne_eq, not_not] at hst
    have hbeg := hw.begin ho hm
    have hlen0 := beginCommit_length L be w r o repoDid
    have hrows0 : (beginCommit L be w r o repoDid).1.rows = w.rows := by
      rcases hbc : beginCommit L be w r o repoDid with ⟨w1, res⟩
      rw [hbc] at hbeg
      cases res with
      | error e => exact hbeg.2.2.1
      | ok p => obtain ⟨s, did, prev⟩ := p; exact hbeg.2.2.1
    have hheads0 := begin_heads (L := L) (fun d hd => (hm d hd).2) hrows0
    rcases hbc : beginCommit L be w r o repoDid with ⟨w1, res⟩
    rw [hbc] at hbeg hlen0 hheads0
    replace hheads0 : ∀ d', headOf L be w1 d' = headOf L be w d' := hheads0
    replace hlen0 : w.heap.length ≤ w1.heap.length := hlen0
    cases res with
    | error e =>
      obtain ⟨h1, h2, h3, h4, h5, h6⟩ := hbeg
      exact ⟨h1, h3, h4, hlen0, h5, by rw [h2]; exact fun _ _ h => h, .inl h2, hheads0,
          .of_heap h6⟩
    | ok p =>
      obtain ⟨s, did, prev⟩ := p
      obtain ⟨h1, h2, h3, h4, h5, h6, hdid, ⟨so, hso, hcase⟩, hprev⟩ := hbeg
      dsimp only
      unfold rest
      rw [hso]
      dsimp only
      have hset : ∀ n, (∃ l t M, Inv L.env (nodeIn w1.blocks) Z l t n M) →
          PCore L Z be seq lo (w1.setObj s { so with mst := n }) := by
        intro n hn
        have hp := h1.heap s so hso
        exact h1.setObj hso ⟨hn, hp.head, hp.handle⟩ (.inl rfl)
          (fun hbe b hb => h1.heads hbe s so b hso hb)
      have herr : ∀ n, (∃ l t M, Inv L.env (nodeIn w1.blocks) Z l t n M) → 
          PCore L Z be seq lo (w1.setObj s { so with mst := n }) ∧
          (w1.setObj s { so with mst := n }).rows = w.rows ∧
          (w1.setObj s { so with mst := n }).repos = w.repos ∧
          w.heap.length ≤ (w1.setObj s { so with mst := n }).heap.length ∧
          (be = .memory → (w1.setObj s { so with mst := n }).heap.length = w.heap.length) ∧
          Grows w.blocks (w1.setObj s { so with mst := n }).blocks ∧
          ((w1.setObj s { so with mst := n }).blocks = w.blocks ∨
            (be = .datastore ∧ x.storeFails = true)) ∧
          (∀ d', headOf L be (w1.setObj s { so with mst := n }) d' = headOf L be w d') ∧
          Dids (fun i => repoDid = none ∨ i ≠ r) w (w1.setObj s { so with mst := n }) := by
        intro n hn
        refine ⟨hset n hn, h3, h4, by simpa [World.setObj] using hlen0,
          fun hbe => by simpa [World.setObj] using h5 hbe, ?_, .inl h2,
          fun d' => (headOf_sameHead hso (by rfl) d').trans (hheads0 d'),
          (Dids.of_heap h6).trans (.setObj hso rfl)⟩
        show Grows w.blocks w1.blocks
        rw [h2]; exact fun _ _ h => h
      by_cases hops : maxOps < writes.length
      · rw [if_pos hops]
        exact ⟨h1, h3, h4, hlen0, h5, by rw [h2]; exact fun _ _ h => h, .inl h2, hheads0,
          .of_heap h6⟩
      rw [if_neg hops]
      have hloop : PLoop L Z w1.blocks seq did ⟨so.mst, [], []⟩ :=
        ⟨(h1.heap s so hso).tree, by simp, by simp⟩
      have hws := hloop.writes hL (ws := writes)
      rw [show w1.rd = nodeIn w1.blocks from rfl]
      cases haw : applyWrites L (nodeIn w1.blocks) seq did ⟨so.mst, [], []⟩ writes with
      | error p =>
        obtain ⟨n, e⟩ := p
        rw [haw] at hws
        exact herr n hws.2
      | ok st =>
        rw [haw] at hws
        dsimp only
        obtain ⟨l', t', M', hi'⟩ := hws.inv
        have hn : ∃ l t M, Inv L.env (nodeIn w1.blocks) Z l t (L.touch (nodeIn w1.blocks) st.mst) M :=
          ⟨l', t', M', hi'.cachedStar hL.fuel (hL.touch _ _)⟩
        by_cases hs : x.signFails = true
        · rw [if_pos hs]; exact herr _ hn
        rw [if_neg hs]
        cases hbc' : buildCommit L (nodeIn w1.blocks) st so.key x.nonce seq did prev with
        | error e => exact herr _ hn
        | ok cd =>
          dsimp only
          obtain ⟨co, hbuilt⟩ := buildCommit_plain hL h1.blocks hws (by omega) hdid (fun p hp => by
            obtain ⟨b', co', k1, k2, k3, k4⟩ := hprev p hp
            exact ⟨b', co', by rw [h2]; exact k1, k2, k3, by omega⟩) hbc'
          set n := L.touch (nodeIn w1.blocks) st.mst with hndef
          have hs' : (w1.setObj s { so with mst := n }).heap[s]? = some { so with mst := n } := by
            rw [heap_setObj, if_pos rfl, hso]; rfl
          have hblk : (w1.setObj s { so with mst := n }).blocks = w1.blocks := rfl
          cases repoDid with
          | none =>
            obtain ⟨hsd, hod, hor, ⟨wl, b, hload, hlso, hlh, hpv⟩, hbe⟩ := hcase
            rw [show so.did.isSome = true by rw [hsd]; rfl]
            have hr' : ∃ o', (w1.setObj s { so with mst := n }).heap[r]? = some o' ∧
                o'.did = some did := by
              rw [heap_setObj]
              by_cases hrs : r = s
              · rw [if_pos hrs, hor]
                exact ⟨_, rfl, hsd⟩
              · rw [if_neg hrs, hor]; exact ⟨o, rfl, hod⟩
            obtain ⟨o', ho', hod'⟩ := hr'
            have hfin := finish_plain (x := x) (n := n) (hset n hn) hlo hs' hsd ho' hod' hbuilt
              (fun h => by subst h; exact (show w1.repos = w.repos from h4) ▸ hbe)
              (fun h => by
                subst h
                obtain ⟨_, row, hrow⟩ := hbe
                exact ⟨row, (show w1.rows = w.rows from h3) ▸ hrow⟩)
              hn
            have hheads : ∀ d', headOf L be (w1.setObj s { so with mst := n }) d' = headOf L be w d' :=
              fun d' => (headOf_sameHead hso (by rfl) d').trans (hheads0 d')
            have hhead : headOf L be w did = prev := by
              rcases hw.loadDid hdid with h | ⟨s', so', b', co', w1', k1, k2, k3, k4, k5, k6, k7,
                k8, k9, k10, k11, k12⟩
              · rw [h] at hload; cases hload
              rw [k1] at hload; cases hload
              rw [k2] at hlso; cases hlso
              rw [k3] at hlh; cases hlh
              cases be with
              | datastore =>
                obtain ⟨_, row, q1, q2, _⟩ := k12
                simp only [headOf, q1, Option.map_some]
                rw [hpv, hw.blocks.addr _ _ q2]
              | memory =>
                simp only [headOf, k12.2]
                rw [← k12.1, k2]
                simp only [Option.bind_some, k3, Option.map_some, hpv]
            rcases hfc : finishCommit L be (w1.setObj s { so with mst := n }) r s n true cd x with
              ⟨w2, res⟩
            rw [hfc] at hfin
            cases res with
            | error e =>
              obtain ⟨g1, g2, g3, g4, g5, g6, g7, g8⟩ := hfin
              have hl2 : (w1.setObj s { so with mst := n }).heap.length = w1.heap.length := by
                simp [World.setObj]
              refine ⟨g1, g2.trans h3, g3.trans h4, by omega, fun hbe => ?_, ?_, ?_,
                fun d' => (g7 d').trans (hheads d'),
                ((Dids.of_heap h6).trans (.setObj (o' := { so with mst := n }) hso rfl)).trans (g8 _)⟩
              · have := h5 hbe; omega
              · rw [← h2]; exact g5
              · rcases g6 with g6 | g6
                · exact .inl (g6.trans h2)
                · exact .inr g6
            | ok cd' =>
              obtain ⟨rfl, g1, g2, g3, g4, g8, g5, g6⟩ := hfin
              have hl2 : (w1.setObj s { so with mst := n }).heap.length = w1.heap.length := by
                simp [World.setObj]
              refine ⟨g1, did, prev, co, ⟨o, ho, hst, fun _ => hod⟩, hdid, ?_, ?_, ?_, ⟨by omega, fun hbe => ?_⟩,
                ((Dids.of_heap h6).trans (.setObj (o' := { so with mst := n }) hso rfl)).trans (g8 _), ⟨_, hpv⟩, hhead, g5, fun d' hd' => (g6 d' hd').trans (hheads d')⟩
              · rw [g2]; show putBlocks L w1.blocks _ = _; rw [h2]
              · exact ⟨_, _, _, h2 ▸ hbuilt⟩
              · obtain ⟨o', q1, q2, q3⟩ := g3
                exact ⟨o', q1, q2, _, _, by rw [q3]; exact h2 ▸ hbuilt⟩
              · have := h5 hbe; omega
          | some d =>
            obtain ⟨hsd, rfl, rfl, hpv, hsoeq⟩ := hcase
            obtain ⟨hd0, hnr⟩ := hm _ rfl
            rw [show so.did.isSome = false by rw [hsd]; rfl]
            unfold finishCommit
            by_cases hwf : be = .datastore ∧ x.writeFails = true
            · rw [if_pos hwf]; exact herr _ hn
            rw [if_neg hwf]
            simp only [Bool.false_eq_true, if_false]
            set wb : World C R := { (w1.setObj s { so with mst := n }) with
              blocks := putBlocks L w1.blocks (cd.blocks.map (·.2)) } with hwb
            have hs2 : wb.heap[s]? = some { so with mst := n } := hs'
            have hcore : PCore L Z be seq lo wb :=
              (hset n hn).withBlocks (putBlocks_grows _ _) hbuilt.ok
            have hmod : wb.modObj s (fun o => { o with mst := n, head := some cd.commit }) =
                wb.setObj s { so with mst := n, head := some cd.commit } := by
              unfold World.modObj
              rw [hs2]
            obtain ⟨ops, hcd⟩ := hbuilt.commit
            have hp := h1.heap s so hso
            have hfinal : PCore L Z be seq seq
                (wb.setObj s { so with mst := n, head := some cd.commit }) := by
              refine (hcore.up (le_refl _) hlo.le).setObj hs2 ⟨hbuilt.inv, ?_, hp.handle⟩ (.inr ?_) ?_
              · intro b hb; cases hb; exact hbuilt.head
              · intro d' hd'
                exact hnr d' (by rw [← h4]; exact hd')
              · intro _ b hb; cases hb; rw [hcd]
            show PCore L Z be seq seq (wb.modObj s _) ∧ ∃ did prev co, PDone L Z be seq w s _ (wb.modObj s _) cd did prev co
            rw [hmod]
            have hlw : (wb.setObj s { so with mst := n, head := some cd.commit }).heap.length =
                w1.heap.length := by simp [World.setObj, hwb]
            refine ⟨hfinal, did, prev, co, ⟨o, ho, hst, fun h => by cases h⟩, hdid, ?_, ?_, ?_, ?_,
              ?_, rfl, hpv, h3, h4, ?_⟩
            · show putBlocks L w1.blocks _ = _; rw [h2]
            · exact ⟨_, _, _, h2 ▸ hbuilt⟩
            · rw [heap_setObj, if_pos rfl, hs2]; exact ⟨_, rfl, rfl, _, _, h2 ▸ hbuilt⟩
            · exact ⟨by omega, fun hbe => by rw [hlw]; exact h5 hbe⟩
            · refine ((Dids.of_heap h6).trans (.setObj (o' := { so with mst := n }) hso rfl)).trans ?_
              exact Dids.setOther (w := wb) (P := fun i => some did = none ∨ i ≠ s) (by simp)
            · intro d'
              have e1 := headOf_other (L := L) (be := be) (w := wb) (s := s)
                (o' := { so with mst := n, head := some cd.commit })
                (fun d'' hd'' => hnr d'' (by rw [← h4]; exact hd'')) d'
              have e2 : headOf L be wb d' = headOf L be (w1.setObj s { so with mst := n }) d' := by
                cases be <;> rfl
              exact e1.trans (e2.trans ((headOf_sameHead hso (by rfl) d').trans (hheads0 d')))

end

end Arroba.Store
