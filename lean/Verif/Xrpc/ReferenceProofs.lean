import Verif.Xrpc.Serve

/-! Helper lemmas: the storage as a table of accounts. -/

namespace Arroba.Xrpc

open Arroba.Store

variable {C R : Type} [DecidableEq C] {L : Lib C R} {Z : Nat} {be : Backend} {al : Allow}
  {w : World C R} {cfg : Config R} {A : Accounts R}

/-- The stored handle and status of a repo. -/
def entryOf (be : Backend) (w : World C R) (d : Did) : Option (Option Key × Option Status) :=
  match be with
  | .memory => (dictGet w.repos d).bind fun r => (w.heap[r]?).map fun o => (o.handle, o.status)
  | .datastore => (dictGet w.rows d).map fun row => (row.handle, row.status)

theorem answers_iff (ht : Tables w) {q : Key} {d : Did} {st : Option Status} :
    Answers be w q d st ↔ ∃ h, entryOf be w d = some (h, st) ∧ (d = q ∨ h = some q) := by
  cases be with
  | memory =>
    unfold entryOf
    constructor
    · rintro ⟨r, o, h1, h2, h3, h4⟩
      exact ⟨o.handle, by rw [dictGet_of_mem ht.repos h1, Option.bind_some, h2, ← h3]; rfl, h4⟩
    · rintro ⟨h, h1, h2⟩
      obtain ⟨r, h3, h4⟩ := Option.bind_eq_some_iff.mp h1
      obtain ⟨o, h5, h6⟩ := Option.map_eq_some_iff.mp h4
      cases h6
      exact ⟨r, o, dictGet_mem h3, h5, rfl, h2⟩
  | datastore =>
    unfold entryOf
    constructor
    · rintro ⟨row, h1, h2, h3⟩
      exact ⟨row.handle, by rw [dictGet_of_mem ht.rows h1, ← h2]; rfl, h3⟩
    · rintro ⟨h, h1, h2⟩
      obtain ⟨row, h3, h4⟩ := Option.map_eq_some_iff.mp h1
      cases h4
      exact ⟨row, dictGet_mem h3, rfl, h2⟩

/-- The DIDs of stored repos are DIDs, and their handles aren't. -/
theorem entryOf_did {hi lo : Nat} (hp : PCore L Z be hi lo w) {d : Did} {h : Option Key}
    {st : Option Status} (he : entryOf be w d = some (h, st)) :
    isDid d ∧ ∀ k, h = some k → ¬ isDid k := by
  cases be with
  | memory =>
    obtain ⟨r, h3, h4⟩ := Option.bind_eq_some_iff.mp he
    obtain ⟨o, h5, h6⟩ := Option.map_eq_some_iff.mp h4
    cases h6
    obtain ⟨_, o', ho, hd⟩ := hp.repos d r (dictGet_mem h3)
    rw [h5] at ho
    cases ho
    refine ⟨?_, (hp.heap r o h5).handle⟩
    obtain ⟨hb, co, e1, e2, e3⟩ := did_some hd
    obtain ⟨b', co', k1, k2, k3, _⟩ := (hp.heap _ _ h5).head _ e1
    rw [e2] at k3
    cases k3
    exact e3 ▸ hp.blocks.did k1 (k2.trans e2)
  | datastore =>
    obtain ⟨row, h3, h4⟩ := Option.map_eq_some_iff.mp he
    cases h4
    obtain ⟨k0, b, co, k1, k2, k3, _⟩ := hp.rows d row (dictGet_mem h3)
    exact ⟨k3 ▸ hp.blocks.did k1 k2, k0⟩

theorem entry_same {hi lo hi' lo' : Nat} (hp : PCore L Z be hi lo w) (ht : Tables w) {w' : World C R}
    (hp' : PCore L Z be hi' lo' w') (ht' : Tables w') (h : SameNames be w w') (d : Did) :
    entryOf be w' d = entryOf be w d := by
  have key : ∀ {w w' : World C R} {hi lo hi' lo' : Nat}, PCore L Z be hi lo w → Tables w →
      PCore L Z be hi' lo' w' → Tables w' → SameNames be w w' → ∀ x, entryOf be w d = some x →
      entryOf be w' d = some x := by
    rintro w w' hi lo hi' lo' hp ht hp' ht' h ⟨hd, st⟩ hx
    obtain ⟨hid, hnd⟩ := entryOf_did hp hx
    have h1 : Answers be w d d st := (answers_iff ht).2 ⟨hd, hx, .inl rfl⟩
    obtain ⟨hd', h2, _⟩ := (answers_iff ht').1 ((h d d st).2 h1)
    obtain ⟨_, hnd'⟩ := entryOf_did hp' h2
    have h3 : ∀ k, hd = some k ↔ hd' = some k := by
      intro k
      constructor
      · intro hk
        have : Answers be w k d st := (answers_iff ht).2 ⟨hd, hx, .inr hk⟩
        obtain ⟨hd2, h4, h5⟩ := (answers_iff ht').1 ((h k d st).2 this)
        rw [h2] at h4
        cases h4
        rcases h5 with rfl | h5
        · exact absurd hid (hnd _ hk)
        · exact h5
      · intro hk
        have : Answers be w' k d st := (answers_iff ht').2 ⟨hd', h2, .inr hk⟩
        obtain ⟨hd2, h4, h5⟩ := (answers_iff ht).1 ((h k d st).1 this)
        rw [hx] at h4
        cases h4
        rcases h5 with rfl | h5
        · exact absurd hid (hnd' _ hk)
        · exact h5
    have : hd = hd' := by
      cases hd with
      | none => cases hd' with
        | none => rfl
        | some k => exact ((h3 k).2 rfl)
      | some k => exact ((h3 k).1 rfl).symm
    rw [h2, this]
  cases hx : entryOf be w d with
  | some x => exact key hp ht hp' ht' h x hx
  | none =>
    cases hx' : entryOf be w' d with
    | none => rfl
    | some x =>
      have := key hp' ht' hp ht (fun q d st => (h q d st).symm) x hx'
      rw [hx] at this
      cases this

theorem load_entry (hL : L.OK Z) (hr : Reach L be al w) {d : Did} (hd : isDid d) :
    (entryOf be w d = none ∧ loadRepo be w d = (w, .ok none)) ∨
    ∃ w1 s o, entryOf be w d = some (o.handle, o.status) ∧ loadRepo be w d = (w1, .ok (some s)) ∧
      w1.heap[s]? = some o ∧ o.did = some d ∧ Loaded w w1 := by
  have hp := (hr.plain hL).1.core
  have hr1 : ∀ {w1 s}, loadRepo be w d = (w1, .ok (some s)) → Reach L be al w1 := by
    intro w1 s h
    have := Step.loadRepo (L := L) (be := be) (al := al) (w := w) d
    rw [h] at this
    exact .step hr this
  rcases loadRepo_answers hp (isDid_ne_nil hd) with ⟨h1, h2⟩ | ⟨d', st, w', r, o, h1, h2, h3, h4, h5, h6⟩
  · refine .inl ⟨?_, h1⟩
    cases he : entryOf be w d with
    | none => rfl
    | some x => exact absurd ((answers_iff hr.tables).2 ⟨x.1, he, .inl rfl⟩) (h2 d x.2)
  · obtain ⟨h, g1, g2⟩ := (answers_iff hr.tables).1 h1
    have hdd : d' = d := by
      rcases g2 with g2 | g2
      · exact g2
      · exact absurd hd ((entryOf_did hp g1).2 _ g2)
    subst hdd
    refine .inr ⟨w', r, o, ?_, h2, h3, h4, h6⟩
    have hr' := hr1 h2
    have h7 := entry_same hp hr.tables (hr'.plain hL).1.core hr'.tables (h6.sameNames hp) d'
    rw [← h7]
    cases be with
    | memory =>
      have : dictGet w'.repos d' = some r := by
        have := h2
        unfold loadRepo at this
        rw [if_neg (isDid_ne_nil hd)] at this
        dsimp only at this
        rw [hp.findRepo hd (l := w.repos) (fun _ h => h)] at this
        rw [h6.repos]
        exact (Except.ok.inj (Prod.mk.inj this).2)
      unfold entryOf
      dsimp only
      rw [this, Option.bind_some, h3]
      rfl
    | datastore =>
      have := h2
      unfold loadRepo at this
      rw [if_neg (isDid_ne_nil hd)] at this
      dsimp only at this
      rw [hp.findRow hd] at this
      cases hrow : dictGet w.rows d' with
      | none => rw [hrow] at this; cases this
      | some row =>
        rw [hrow] at this
        dsimp only at this
        unfold entryOf
        dsimp only
        rw [h6.rows, hrow]
        obtain ⟨_, b, co, k1, k2, k3, _⟩ := hp.rows d' row (dictGet_mem hrow)
        have hca : commitAt w row.head = .ok (b, co) := by
          unfold commitAt World.read; rw [k1]; simp only [k2]
        simp only [repoLoad, hca, World.newObj] at this
        cases this
        rw [List.getElem?_append_right (Nat.le_refl _), Nat.sub_self] at h3
        cases h3
        rfl

/-- The accounts, by the tables of the storage. -/
theorem keeping_iff (hL : L.OK Z) (hr : Reach L be .untorn w) : Keeping L be w A ↔
    (∀ d, entryOf be w d = (A d).map fun a => (a.handle, a.status)) ∧
    ∀ d a, A d = some a → Shows L be w d a.records := by
  have hp := (hr.plain hL).1.core
  constructor
  · intro h
    refine ⟨fun d => ?_, fun d a ha => ?_⟩
    · cases ha : A d with
      | some a =>
        obtain ⟨w1, s, o, g1, g2, g3, g4, _⟩ := h.held d a ha
        rcases load_entry hL hr (h.did d a ha) with ⟨_, k⟩ | ⟨w2, s2, o2, k1, k2, k3, _⟩
        · rw [g1] at k; cases k
        · rw [g1] at k2
          cases k2
          rw [g2] at k3
          cases k3
          rw [k1, g3, g4]; rfl
      | none =>
        cases he : entryOf be w d with
        | none => rfl
        | some x =>
          have hd := (entryOf_did hp he).1
          obtain ⟨w1, g1⟩ := h.missing d hd ha
          rcases load_entry hL hr hd with ⟨k, _⟩ | ⟨w2, s2, o2, k1, k2, _⟩
          · rw [he] at k; cases k
          · rw [g1] at k2; cases k2
    · obtain ⟨w1, s, o, g1, g2, _, _, g5⟩ := h.held d a ha
      exact ⟨w1, s, o, g1, g2, g5⟩
  · rintro ⟨h1, h2⟩
    have hdid : ∀ d a, A d = some a → isDid d := by
      intro d a ha
      have := h1 d
      rw [ha] at this
      exact (entryOf_did hp this).1
    refine ⟨hdid, fun d a ha => ?_, fun d hd hn => ?_⟩
    · obtain ⟨w1, s, o, g1, g2, g3⟩ := h2 d a ha
      refine ⟨w1, s, o, g1, g2, ?_⟩
      rcases load_entry hL hr (hdid d a ha) with ⟨_, k⟩ | ⟨w2, s2, o2, k1, k2, k3, _⟩
      · rw [g1] at k; cases k
      · rw [g1] at k2
        cases k2
        rw [g2] at k3
        cases k3
        rw [h1 d, ha] at k1
        obtain ⟨k4, k5⟩ := Prod.mk.inj (Option.some.inj k1)
        exact ⟨k4.symm, k5.symm, g3⟩
    · rcases load_entry hL hr hd with ⟨_, k⟩ | ⟨w2, s2, o2, k1, k2, _⟩
      · exact ⟨w, k⟩
      · rw [h1 d, hn] at k1; cases k1

/-- Nothing has changed that a client could see. -/
theorem Keeping.same (hL : L.OK Z) (hr : Reach L be .untorn w) (h : Keeping L be w A) {w' : World C R}
    (hr' : Reach L be .untorn w') (hs : SameNames be w w')
    (ho : ∀ d', isDid d' → ∀ m, Shows L be w' d' m ↔ Shows L be w d' m) : Keeping L be w' A := by
  obtain ⟨h1, h2⟩ := (keeping_iff hL hr).1 h
  refine (keeping_iff hL hr').2 ⟨fun d => ?_, fun d a ha => (ho d (h.did d a ha) _).2 (h2 d a ha)⟩
  rw [entry_same (hr.plain hL).1.core hr.tables (hr'.plain hL).1.core hr'.tables hs]
  exact h1 d

/-- The records of one account have changed. -/
theorem Keeping.after (hL : L.OK Z) (hr : Reach L be .untorn w) (h : Keeping L be w A) {w' : World C R}
    {d : Did} {a : Account R} (ha : A d = some a) {m : Key → Option R} (hw : After L be .untorn w w' d m) :
    Keeping L be w' (Function.update A d (some { a with records := m })) := by
  obtain ⟨h1, h2⟩ := (keeping_iff hL hr).1 h
  refine (keeping_iff hL hw.reach).2 ⟨fun d' => ?_, fun d' a' ha' => ?_⟩
  · rw [entry_same (hr.plain hL).1.core hr.tables (hw.reach.plain hL).1.core hw.reach.tables hw.names, h1]
    by_cases hd : d' = d
    · subst hd; rw [Function.update_self, ha]; rfl
    · rw [Function.update_of_ne hd]
  · by_cases hd : d' = d
    · subst hd
      rw [Function.update_self] at ha'
      cases ha'
      exact hw.shows'
    · rw [Function.update_of_ne hd] at ha'
      exact (hw.others d' (h.did d' a' ha') hd _).2 (h2 d' a' ha')

theorem Keeping.same_after (hL : L.OK Z) (hr : Reach L be .untorn w) (h : Keeping L be w A)
    {w' : World C R} {d : Did} {a : Account R} (ha : A d = some a)
    (hw : After L be .untorn w w' d a.records) : Keeping L be w' A := by
  have := h.after hL hr ha hw
  rwa [show ({ a with records := a.records } : Account R) = a from rfl, ← ha,
    Function.update_eq_self] at this

/-- Loading a repo. -/
theorem load_finds (hL : L.OK Z) (hr : Reach L be .untorn w) (h : Keeping L be w A) (q : Key) :
    ∃ w1 res, load cfg be w q = (w1, res) ∧ Loaded w w1 ∧ Reach L be .untorn w1 ∧ SameNames be w w1 ∧
      Keeping L be w1 A ∧
      (∀ d', isDid d' → ∀ m, Shows L be w1 d' m ↔ Shows L be w d' m) ∧
      match res with
      | .error e => Finds cfg A q (.error e)
      | .ok r => ∃ o d a, w1.heap[r]? = some o ∧ o.did = some d ∧ isDid d ∧ o.status = none ∧
        o.handle = a.handle ∧ ObjRep L Z w1.blocks o a.records ∧ A d = some a ∧
        Finds cfg A q (.ok (d, a)) := by
  have hp := (hr.plain hL).1.core
  have ht : ¬ Allow.untorn.torn := fun h => h
  have hc := (hr.inv hL ht).1.core
  obtain ⟨e1, e2⟩ := (keeping_iff hL hr).1 h
  cases htar : target cfg q with
  | error e =>
    exact ⟨w, .error e, by unfold load; rw [htar], .refl w, hr, .refl _ _, h, fun _ _ _ => Iff.rfl, .bad htar⟩
  | ok name =>
    by_cases hn : name = []
    · subst hn
      exact ⟨w, .error .assertion, by unfold load loadRepo; rw [htar]; rfl, .refl w, hr, .refl _ _, h,
        fun _ _ _ => Iff.rfl, .empty htar⟩
    · have hknown : ∀ d st, Answers be w name d st → ∃ a, A d = some a ∧ a.status = st ∧
          (d = name ∨ a.handle = some name) := by
        intro d st ha
        obtain ⟨hd, g1, g2⟩ := (answers_iff hr.tables).1 ha
        rw [e1] at g1
        obtain ⟨a, g3, g4⟩ := Option.map_eq_some_iff.mp g1
        cases g4
        exact ⟨a, g3, rfl, g2⟩
      rcases load_spec (cfg := cfg) hp htar hn with ⟨g1, g2⟩ | ⟨d, st, w1, r, o, g1, g2, g3, g4, g5, g6, g7⟩
      · refine ⟨w, _, g1, .refl w, hr, .refl _ _, h, fun _ _ _ => Iff.rfl, .unknown htar hn ?_⟩
        intro d a ha hname
        refine g2 d a.status ((answers_iff hr.tables).2 ⟨a.handle, ?_, hname⟩)
        rw [e1, ha]; rfl
      · obtain ⟨a, k1, k2, k3⟩ := hknown d st g1
        obtain ⟨g8, hid⟩ := loadRepo_did hL hr g2 g3 g4
        have hr1 : Reach L be .untorn w1 := by
          have := Step.loadRepo (L := L) (be := be) (al := .untorn) (w := w) name
          rw [g2] at this
          exact .step hr this
        have hc1 := (hr1.inv hL ht).1.core
        have hsh : ∀ d', isDid d' → ∀ m, Shows L be w1 d' m ↔ Shows L be w d' m := by
          intro d' hd' m
          refine shows_of_head hL hc hc1 hd' ?_ (by rw [g6.blocks]; exact .refl _) m
          refine headOf_append hc g6.repos g6.rows (fun i hi => ?_) d'
          rw [g6.heap i w.heap[i] (List.getElem?_eq_getElem hi), List.getElem?_eq_getElem hi]
        have hsame := g6.sameNames hp
        refine ⟨w1, _, g7, g6, hr1, hsame, h.same hL hr hr1 hsame hsh, hsh, ?_⟩
        by_cases hst : st = none
        · rw [if_pos hst]
          obtain ⟨w2, s, o2, j1, j2, j3, j4, j5⟩ := h.held d a k1
          rw [g8] at j1
          cases j1
          rw [g3] at j2
          cases j2
          refine ⟨o, d, a, g3, g4, hid, g5.trans hst, j3, ?_, k1, .found htar hn k1 k3 (k2.trans hst)⟩
          obtain ⟨m, hm⟩ := hc1.heap r o g3
          have : m = a.records := (hm.shows hL).unique j5
          exact this ▸ hm
        · rw [if_neg hst]
          exact .inactive htar hn k1 k3 (by rw [k2]; exact hst)

end Arroba.Xrpc
