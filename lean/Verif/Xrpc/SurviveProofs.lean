import Verif.Xrpc.Survive

/-! Helper lemmas: requests that fail or stop partway are done completely or not at all. -/

namespace Arroba.Xrpc

open Arroba.Store

variable {C R : Type} [DecidableEq C] {L : Lib C R} {Z : Nat}
  {w : World C R} {cfg : Config R} {A : Accounts R} {out : Surroundings}

theorem specWrites_one (m : Key → Option R) (wr : Write R) : specWrites L m [wr] = specWrite L m wr := by
  unfold specWrites
  cases specWrite L m wr <;> rfl

/-- A `Repo` object that is loaded from the Datastore has no callback; datastore_storage.py 671-692. -/
theorem load_silent {q : Key} {w1 : World C R} {r : Ref} {o : RepoObj C R}
    (h : Xrpc.load cfg .datastore w q = (w1, .ok r)) (ho : w1.heap[r]? = some o) : o.callback = false := by
  unfold Xrpc.load at h
  cases ht : target cfg q with
  | error e => rw [ht] at h; cases (Prod.mk.inj h).2
  | ok name =>
    rw [ht] at h
    dsimp only at h
    unfold loadRepo at h
    by_cases hn : name = []
    · rw [if_pos hn] at h; cases (Prod.mk.inj h).2
    rw [if_neg hn] at h
    dsimp only at h
    cases hf : findRow w name with
    | none => rw [hf] at h; cases (Prod.mk.inj h).2
    | some row =>
      rw [hf] at h
      dsimp only at h
      unfold repoLoad at h
      cases hc : commitAt w row.head with
      | error e => rw [hc] at h; cases (Prod.mk.inj h).2
      | ok bc =>
        obtain ⟨b, co⟩ := bc
        rw [hc] at h
        unfold World.newObj at h
        dsimp only at h
        rw [List.getElem?_append_right (Nat.le_refl _), Nat.sub_self, List.getElem?_cons_zero] at h
        dsimp only at h
        split at h
        · cases (Prod.mk.inj h).2
        · obtain ⟨rfl, h2⟩ := Prod.mk.inj h
          cases h2
          dsimp only at ho
          rw [List.getElem?_append_right (Nat.le_refl _), Nat.sub_self, List.getElem?_cons_zero] at ho
          cases ho
          rfl

theorem putRead_silent {header : Option Key} {inp : Input R} {w1 : World C R} {r : Ref}
    {v : Option (Val C R)} {o : RepoObj C R}
    (h : putRead cfg L .datastore w header inp = (w1, .ok (r, v))) (ho : w1.heap[r]? = some o) :
    o.callback = false := by
  unfold putRead at h
  split at h
  · cases (Prod.mk.inj h).2
  · cases (Prod.mk.inj h).2
  · cases (Prod.mk.inj h).2
  · split at h
    · cases (Prod.mk.inj h).2
    · rename_i hl
      split at h
      · split at h
        · cases (Prod.mk.inj h).2
        · obtain ⟨rfl, h2⟩ := Prod.mk.inj h
          cases h2
          exact load_silent hl ho
      · cases (Prod.mk.inj h).2
      · cases (Prod.mk.inj h).2
      · cases (Prod.mk.inj h).2

/-- A commit of one write with an object that has no callback, whatever else fails. -/
theorem commit_any (hL : L.OK Z) (hr : Reach L .datastore .untorn w) {r : Ref} {o : RepoObj C R} {d : Did}
    (ho : w.heap[r]? = some o) (hd : o.did = some d) (hcb : o.callback = false) {m : Key → Option R}
    (hm : Shows L .datastore w d m) (wr : Write R) (xs : List Luck) (cbFails : Bool) :
    (∃ w' cd m', commit L .datastore w r [wr] none xs cbFails = (w', .ok cd) ∧ specWrite L m wr = .ok m' ∧
        After L .datastore .untorn w w' d m' ∧ ∃ o', w'.heap[r]? = some o' ∧ o'.did = some d) ∨
    (∃ w' e, commit L .datastore w r [wr] none xs cbFails = (w', .error e) ∧
      After L .datastore .untorn w w' d m) := by
  have ht : ¬ Allow.untorn.torn := fun h => h
  have hw := (hr.inv hL ht).1
  have hda : isDid d := by
    obtain ⟨m0, hm0⟩ := hw.core.heap r o ho
    exact hm0.isDid hw.core.blocks hd
  have hnames := commit_names hL hr ht r [wr] xs cbFails
  have hstep : Reach L .datastore .untorn (commit L .datastore w r [wr] none xs cbFails).1 :=
    .step hr (.commit r [wr] xs cbFails ⟨.inr (.inl rfl), .inl trivial, .inl trivial, .inl trivial⟩)
  have hw' := (hstep.inv hL ht).1
  rcases commit_cases hL (be := .datastore) hw r [wr] xs cbFails with
    ⟨e, w', w1, wk, h1, ⟨l, h2⟩, h3, h4, h5, _⟩ |
    ⟨w', w1, wk, x, did, m0, m', s, n, cd, co, k1, ⟨l, k2⟩, k3, k4, k5, k6, _⟩
  · rw [h1] at hnames hstep hw'
    refine .inr ⟨w', e, h1, ?_⟩
    have hrows : w'.rows = w.rows := by
      rw [h2]
      rcases h5 with h5 | h5
      · rw [h5.eq]; exact h4.rows
      · rw [h5.eq]; exact h4.rows
    have hg : Grows w.blocks w'.blocks := by
      rw [h2]
      rcases h5 with h5 | h5
      · rw [h5.eq]; exact h4.grows
      · exact h4.grows.trans h5.grows
    have hsame : ∀ d', isDid d' → ∀ m₂, Shows L .datastore w' d' m₂ ↔ Shows L .datastore w d' m₂ := by
      intro d' hd' m₂
      refine shows_of_head hL hw.core hw'.core hd' ?_ hg m₂
      unfold headOf
      dsimp only
      rw [hrows]
    exact ⟨hstep, hnames, (hsame d hda m).2 hm, fun d' hd' _ => hsame d' hd'⟩
  · -- the commit without a callback that raises
    have hok : ∃ w2, commit L .datastore w r [wr] none xs false = (w2, .ok cd) ∧ SameButLog w1 w2 := by
      rcases commit_cases hL (be := .datastore) hw r [wr] xs false with
        ⟨e, w2, w1', wk', g1, _, g3, _⟩ | ⟨w2, w1', wk', _, _, _, _, _, _, cd', _, g1, g2, g3, _⟩
      · rw [k3] at g3; cases g3
      · rw [k3] at g3
        cases g3
        rw [if_neg (by simp)] at g1
        exact ⟨w2, g1, g2⟩
    obtain ⟨w2, g1, ⟨l2, g2⟩⟩ := hok
    obtain ⟨m2, j1, j2, ⟨o', j3, _⟩, j4⟩ := C23_effect_datastore hL hr ho hd hm g1
    rw [specWrites_one] at j1
    have hcore2 : WorldOK L Z w2 := by
      have hstep2 : Reach L .datastore .untorn (commit L .datastore w r [wr] none xs false).1 :=
        .step hr (.commit r [wr] xs false ⟨.inr (.inl rfl), .inl trivial, .inl trivial, .inl trivial⟩)
      rw [g1] at hstep2
      exact (hstep2.inv hL ht).1
    rw [k1] at hnames hstep hw'
    dsimp only at hnames hstep hw'
    have hsame : ∀ d', isDid d' → ∀ m₂, Shows L .datastore w' d' m₂ ↔ Shows L .datastore w2 d' m₂ := by
      intro d' hd' m₂
      refine shows_of_head hL hcore2.core hw'.core hd' ?_ ?_ m₂
      · unfold headOf
        dsimp only
        rw [k2, g2]
      · rw [k2, g2]; exact .refl _
    have hafter : After L .datastore .untorn w w' d m2 :=
      ⟨hstep, hnames, (hsame d hda m2).2 j2, fun d' hd' hne m₂ => (hsame d' hd' m₂).trans (j4 d' hd' hne m₂)⟩
    have hc : ¬ (w.cb r && cbFails) = true := by
      unfold World.cb
      rw [ho, Option.map_some, hcb]
      simp
    · rw [if_neg hc] at k1
      refine .inl ⟨w', cd, m2, k1, j1, hafter, o', ?_, ?_⟩
      · rw [k2]; rw [g2] at j3; exact j3
      · obtain ⟨o2, i1, i2, _⟩ := k6.caller
        have hdd : did = d := by
          rcases k4.heap r with h | ⟨_, _, o3, n3, b3, i1', i2', i3'⟩
          · rw [h, show w.alloc.2.heap[r]? = w.heap[r]? from rfl, ho] at i1
            cases i1
            exact Option.some.inj (i2.symm.trans hd)
          · rw [show w.alloc.2.heap[r]? = w.heap[r]? from rfl, ho] at i1'
            cases i1'
            rw [i2'] at i1
            cases i1
            rw [i3', hd] at i2
            exact (Option.some.inj i2).symm
        have hg3 : w1.heap[r]? = some o' := by rw [g2] at j3; exact j3
        obtain ⟨o4, i1, _, i2, _⟩ := k6.object hL k4.core
        rw [hg3] at i1
        cases i1
        rw [← hdd]
        exact i2

/-- What is to be proved of each request that ends. -/
def Copes (cfg : Config R) (out : Surroundings) (L : Lib C R) (A : Accounts R)
    (req : Request R) (res : World C R × Answer C R) : Prop :=
  ∃ A', Manages cfg out L A req (.troubled res.2) A' ∧ Keeping L .datastore res.1 A' ∧
    Reach L .datastore .untorn res.1

theorem Refines.copes {req : Request R} {res : World C R × Answer C R}
    (h : Refines cfg out L .datastore A req res) : Copes cfg out L A req res := by
  obtain ⟨A', h1, h2, h3⟩ := h
  exact ⟨A', .done h1, h2, h3⟩

/-- putRecord, whatever fails. -/
theorem copes_put (hL : L.OK Z) (hr : Reach L .datastore .untorn w) (hk : Keeping L .datastore w A)
    (hf : cfg.flask = true) (header : Option Key) (inp : Input R) (xs : List Luck) (cbFails : Bool)
    {res : World C R × Answer C R} (hres : res = reply .written (putRecord cfg L .datastore w header inp xs cbFails)) :
    ∃ A', (ServesPut cfg L A header inp res.2 A' ∨ (∃ e, res.2 = .failed e) ∧ A' = A) ∧
      Keeping L .datastore res.1 A' ∧ Reach L .datastore .untorn res.1 := by
  unfold ServesPut
  by_cases hm : Malformed cfg inp none
  · simp only [if_pos hm]
    unfold putRecord putRead at hres
    rw [validate_iff, if_pos hm] at hres
    subst hres
    exact ⟨A, .inl ⟨rfl, rfl⟩, hk, hr⟩
  simp only [if_neg hm]
  by_cases ha : Authorized cfg header
  swap
  · simp only [if_pos ha]
    unfold putRecord putRead at hres
    rw [validate_iff, if_neg hm, auth_iff hf, if_neg ha] at hres
    subst hres
    exact ⟨A, .inl ⟨rfl, rfl⟩, hk, hr⟩
  simp only [if_neg (not_not.2 ha)]
  obtain ⟨w1, res1, h1, h2, h3, h4, h5⟩ := putRead_finds hL hr hk hf header inp hm ha
  unfold putRecord at hres
  cases res1 with
  | error e =>
    rw [show putRead cfg L .datastore w header inp = (w1, .error e) from h5] at hres
    subst hres
    exact ⟨A, .inl ⟨_, h4, rfl, rfl⟩, h3, h2⟩
  | ok da =>
    obtain ⟨d, a⟩ := da
    cases hc : inp.collection with
    | none =>
      rw [hc] at h5
      rw [show putRead cfg L .datastore w header inp = (w1, .error .key) from h5] at hres
      subst hres
      exact ⟨A, .inl ⟨_, h4, rfl, rfl⟩, h3, h2⟩
    | some c =>
      cases hrk : inp.rkey with
      | none =>
        rw [hc, hrk] at h5
        rw [show putRead cfg L .datastore w header inp = (w1, .error .key) from h5] at hres
        subst hres
        exact ⟨A, .inl ⟨_, h4, rfl, rfl⟩, h3, h2⟩
      | some k =>
        rw [hc, hrk] at h5
        obtain ⟨g1, g2, g3, g4, r, o, g5, g6, g7, g8⟩ := h5
        rw [g8] at hres
        dsimp only at hres
        unfold putCommit at hres
        rw [hc, hrk] at hres
        cases hrec : inp.record with
        | none =>
          rw [hrec] at hres
          subst hres
          exact ⟨A, .inl ⟨_, h4, rfl, rfl⟩, h3, h2⟩
        | some v =>
          rw [hrec] at hres
          dsimp only [field] at hres
          have hiso : ((a.records (pathOf c k)).map (Val.record (C := C))).isNone =
              (a.records (pathOf c k)).isNone := by
            cases a.records (pathOf c k) <;> rfl
          rw [hiso] at hres
          have hdone : ∀ {m'}, specWrite L a.records
              ⟨if (a.records (pathOf c k)).isNone then .create else .update, c, k, some v⟩ = .ok m' →
              Acceptable L v (pathOf c k) ∧ m' = Function.update a.records (pathOf c k) (some v) := by
            intro m' hm'
            by_cases hacc : Acceptable L v (pathOf c k)
            · rw [(specPut_ok g4).1 hacc] at hm'
              exact ⟨hacc, (Except.ok.inj hm').symm⟩
            · rw [specPut_error g4 hacc] at hm'
              cases hm'
          rcases commit_any hL h2 g5 g6 (putRead_silent g8 g5) g3
            ⟨if (a.records (pathOf c k)).isNone then .create else .update, c, k, some v⟩ xs cbFails with
            ⟨w', cd, m', k1, k2, k3, o', k4, k5⟩ | ⟨w', e, k1, k2⟩
          · obtain ⟨hacc, rfl⟩ := hdone k2
            rw [k1] at hres
            dsimp only at hres
            rw [k4, Option.bind_some, k5] at hres
            dsimp only at hres
            rw [atUri_ok g1 hacc.2.2] at hres
            subst hres
            refine ⟨_, .inl ⟨_, h4, ?_⟩, h3.after hL h2 g2 k3, k3.reach⟩
            dsimp only
            rw [if_pos hacc]
            exact ⟨rfl, rfl⟩
          · rw [k1] at hres
            subst hres
            exact ⟨A, .inr ⟨⟨e, rfl⟩, rfl⟩, h3.same_after hL h2 g2 k2, k2.reach⟩

open scoped Classical in
theorem copes_create (hL : L.OK Z) (hr : Reach L .datastore .untorn w) (hk : Keeping L .datastore w A)
    (hf : cfg.flask = true) (header : Option Key) (inp : Input R) (tid : Key) (x : Chance) :
    Copes cfg out L A (.createRecord header inp tid)
      (serve cfg out L .datastore w x (.createRecord header inp tid)) := by
  have hput : ∀ {q : Request R} {res : World C R × Answer C R} {inp' : Input R},
      Stores q → (∀ ans A', ServesPut cfg L A header inp' ans A' → Serves cfg out L A q ans A') →
      (∃ A', (ServesPut cfg L A header inp' res.2 A' ∨ (∃ e, res.2 = .failed e) ∧ A' = A) ∧
        Keeping L .datastore res.1 A' ∧ Reach L .datastore .untorn res.1) → Copes cfg out L A q res := by
    rintro q res inp' hq hs ⟨A', h1, h2, h3⟩
    refine ⟨A', ?_, h2, h3⟩
    rcases h1 with h1 | ⟨⟨e, h1⟩, rfl⟩
    · exact .done (hs _ _ h1)
    · rw [h1]; exact .failed e hq
  unfold serve createRecord
  dsimp only
  have hcoll : (if truthy inp.collection = true then inp.collection else inp.record.bind cfg.typ) =
      if inp.collection.getD [] ≠ [] then inp.collection else inp.record.bind cfg.typ := by
    by_cases h : truthy inp.collection = true
    · rw [if_pos h, if_pos (truthy_iff.1 h)]
    · rw [if_neg h, if_neg (fun g => h (truthy_iff.2 g))]
  rw [hcoll]
  have hser : ∀ ans A', Serves cfg out L A (.createRecord header inp tid) ans A' ↔
      if Malformed cfg inp (if inp.collection.getD [] ≠ [] then inp.collection else inp.record.bind cfg.typ) then
        ans = .failed .value ∧ A' = A
      else ServesPut cfg L A header { inp with rkey := some (inp.rkey.getD tid) } ans A' := fun _ _ => Iff.rfl
  rw [validate_iff]
  by_cases hm : Malformed cfg inp
      (if inp.collection.getD [] ≠ [] then inp.collection else inp.record.bind cfg.typ)
  · rw [if_pos hm]
    exact ⟨A, .done ((hser _ _).2 (by rw [if_pos hm]; exact ⟨rfl, rfl⟩)), hk, hr⟩
  rw [if_neg hm]
  simp only [if_neg hm] at hser
  have hm' : ¬ Malformed cfg { inp with rkey := some (inp.rkey.getD tid) } none := by
    rintro (h | h | ⟨_, h, _⟩ | h)
    · exact hm (.inl h)
    · exact hm (.inr (.inl h))
    · cases h
    · exact hm (.inr (.inr (.inr h)))
  rw [auth_iff hf]
  by_cases ha : Authorized cfg header
  swap
  · rw [if_neg ha]
    refine ⟨A, .done ((hser _ _).2 ?_), hk, hr⟩
    unfold ServesPut
    rw [if_neg hm', if_pos ha]
    exact ⟨rfl, rfl⟩
  rw [if_pos ha]
  have hq : field inp.repo = .ok (inp.repo.getD []) := by
    cases hq : inp.repo with
    | some q => rfl
    | none => exact absurd (.inr (.inl (by rw [hq]; rfl))) hm
  rw [hq]
  dsimp only
  obtain ⟨w1, res, h1, h2, h3, h4, h5, h6, h7⟩ := load_finds (cfg := cfg) hL hr hk (inp.repo.getD [])
  rw [h1]
  cases res with
  | error e =>
    refine ⟨A, .done ((hser _ _).2 ?_), h5, h3⟩
    unfold ServesPut
    rw [if_neg hm', if_neg (not_not.2 ha)]
    exact ⟨_, h7, rfl, rfl⟩
  | ok r =>
    exact hput trivial (fun _ _ h => (hser _ _).2 h) (copes_put hL h3 h5 hf header _ x.xs x.raises rfl)

open scoped Classical in
theorem copes_delete (hL : L.OK Z) (hr : Reach L .datastore .untorn w) (hk : Keeping L .datastore w A)
    (hf : cfg.flask = true) (header : Option Key) (inp : Input R) (x : Chance) :
    Copes cfg out L A (.deleteRecord header inp)
      (serve cfg out L .datastore w x (.deleteRecord header inp)) := by
  have hser : ∀ ans A', Serves cfg out L A (.deleteRecord header inp) ans A' ↔
      if Malformed cfg inp none then ans = .failed .value ∧ A' = A
      else if ¬ Authorized cfg header then ans = .failed (authErr cfg) ∧ A' = A
      else ∃ res, Finds cfg A (inp.repo.getD []) res ∧
        match res, inp.collection, inp.rkey with
        | .error e, _, _ => ans = .failed e ∧ A' = A
        | .ok (d, a), some c, some k => ans = .done ∧
          A' = Function.update A d (some { a with records := Function.update a.records (pathOf c k) none })
        | .ok _, _, _ => ans = .failed .key ∧ A' = A := fun _ _ => Iff.rfl
  unfold serve
  dsimp only
  by_cases hm : Malformed cfg inp none
  · simp only [if_pos hm] at hser
    unfold deleteRecord putRead
    rw [validate_iff, if_pos hm]
    exact ⟨A, .done ((hser _ _).2 ⟨rfl, rfl⟩), hk, hr⟩
  simp only [if_neg hm] at hser
  by_cases ha : Authorized cfg header
  swap
  · simp only [if_pos ha] at hser
    unfold deleteRecord putRead
    rw [validate_iff, if_neg hm, auth_iff hf, if_neg ha]
    exact ⟨A, .done ((hser _ _).2 ⟨rfl, rfl⟩), hk, hr⟩
  simp only [if_neg (not_not.2 ha)] at hser
  obtain ⟨w1, res, h1, h2, h3, h4, h5⟩ := putRead_finds hL hr hk hf header inp hm ha
  unfold deleteRecord
  cases res with
  | error e =>
    rw [show putRead cfg L .datastore w header inp = (w1, .error e) from h5]
    exact ⟨A, .done ((hser _ _).2 ⟨_, h4, rfl, rfl⟩), h3, h2⟩
  | ok da =>
    obtain ⟨d, a⟩ := da
    cases hc : inp.collection with
    | none =>
      rw [hc] at h5 hser
      rw [show putRead cfg L .datastore w header inp = (w1, .error .key) from h5]
      exact ⟨A, .done ((hser _ _).2 ⟨_, h4, rfl, rfl⟩), h3, h2⟩
    | some c =>
      cases hrk : inp.rkey with
      | none =>
        rw [hc, hrk] at h5 hser
        rw [show putRead cfg L .datastore w header inp = (w1, .error .key) from h5]
        exact ⟨A, .done ((hser _ _).2 ⟨_, h4, rfl, rfl⟩), h3, h2⟩
      | some k =>
        rw [hc, hrk] at h5 hser
        obtain ⟨g1, g2, g3, g4, r, o, g5, g6, g7, g8⟩ := h5
        rw [g8]
        dsimp only
        cases hrec : a.records (pathOf c k) with
        | none =>
          refine ⟨_, .done ((hser _ _).2 ⟨_, h4, rfl, rfl⟩), ?_, h2⟩
          rw [show Function.update a.records (pathOf c k) none = a.records by
            rw [← hrec, Function.update_eq_self]]
          rw [show ({ a with records := a.records } : Account R) = a from rfl, ← g2,
            Function.update_eq_self]
          exact h3
        | some v =>
          have hsp : specWrite L a.records ⟨.delete, c, k, none⟩ =
              .ok (Function.update a.records (pathOf c k) none) := by
            unfold specWrite
            dsimp only
            rw [show (⟨.delete, c, k, none⟩ : Write R).path = pathOf c k from rfl,
              if_neg (by rw [hrec]; simp)]
          simp only [Option.map_some]
          rcases commit_any hL h2 g5 g6 (putRead_silent g8 g5) g3 ⟨.delete, c, k, none⟩ x.xs x.raises with
            ⟨w', cd, m', k1, k2, k3, _⟩ | ⟨w', e, k1, k2⟩
          · rw [hsp] at k2
            cases k2
            rw [k1]
            exact ⟨_, .done ((hser _ _).2 ⟨_, h4, rfl, rfl⟩), h3.after hL h2 g2 k3, k3.reach⟩
          · rw [k1]
            exact ⟨A, .failed e trivial, h3.same_after hL h2 g2 k2, k2.reach⟩

/-- Blocks and sequence numbers that no repo uses. -/
theorem keeping_quiet (hL : L.OK Z) (hr : Reach L .datastore .untorn w) (hk : Keeping L .datastore w A)
    {w' : World C R} (hr' : Reach L .datastore .untorn w') (hrows : w'.rows = w.rows)
    (hg : Grows w.blocks w'.blocks) : Keeping L .datastore w' A := by
  obtain ⟨h1, h2⟩ := (keeping_iff hL hr).1 hk
  refine (keeping_iff hL hr').2 ⟨fun d => ?_, fun d a ha => ?_⟩
  · rw [← h1]
    unfold entryOf
    dsimp only
    rw [hrows]
  · refine (shows_of_head hL (hr.inv hL (fun h => h)).1.core (hr'.inv hL (fun h => h)).1.core
      (hk.did d a ha) ?_ hg _).2 (h2 d a ha)
    unfold headOf
    dsimp only
    rw [hrows]

theorem copes_new (hL : L.OK Z) (hr : Reach L .datastore .untorn w) (hk : Keeping L .datastore w A)
    {did : Did} {handle : Option Key} (hs : Proper (R := R) (.newRepo did handle)) (x : Chance) :
    Copes cfg out L A (.newRepo did handle) (serve cfg out L .datastore w x (.newRepo did handle)) := by
  obtain ⟨hd, hh⟩ := hs
  have hh' : ∀ h, handle = some h → ¬ isDid h := fun h e => (hh h e).1
  have hw := (hr.inv hL (fun h => h)).1
  obtain ⟨e1, e2⟩ := (keeping_iff hL hr).1 hk
  have hreach : Reach L .datastore .untorn
      (repoCreate L .datastore w did handle x.key x.callback x.time x.xs x.raises).1 :=
    .step hr (.create did handle x.key x.callback x.time x.xs x.raises hd hh' (.inl trivial) (.inl trivial)
      (.inl trivial))
  unfold serve
  dsimp only
  rcases repoCreate_spec hL (be := .datastore) hw (did := did) (handle := handle) (key := x.key)
    (callback := x.callback) (time := x.time) (xs := x.xs) (cbFails := x.raises) hd hh' with
    ⟨e, w', h1, h2, h3, h4, h5, h6, _⟩ | ⟨w', n, b, co, h1, h2, h3, h4, h5, h6, _, h7, h8, h9, _, h10⟩
  · rw [h1] at hreach ⊢
    exact ⟨A, .failed e trivial, keeping_quiet hL hr hk hreach h4 h6, hreach⟩
  · rw [h1] at hreach ⊢
    refine ⟨_, .done ⟨rfl, rfl⟩, ?_, hreach⟩
    refine (keeping_iff hL hreach).2 ⟨fun d => ?_, fun d a ha => ?_⟩
    · by_cases hdd : d = did
      · subst hdd
        rw [Function.update_self]
        unfold entryOf
        dsimp only at h10 ⊢
        rw [h10, dictGet_dictSet, if_pos rfl]
        rfl
      · rw [Function.update_of_ne hdd, ← e1]
        unfold entryOf
        dsimp only at h10 ⊢
        rw [h10, dictGet_dictSet, if_neg hdd]
    · by_cases hdd : d = did
      · subst hdd
        rw [Function.update_self] at ha
        cases ha
        rw [shows_iff hL h2.core hd, records_iff hL h2.core hd]
        obtain ⟨b', co', g1, g2, g3, g4⟩ := h7.root hL h2.core.blocks (b := b) rfl
        rw [h4] at g3
        cases g3
        exact ⟨_, b', co, by rw [h8, if_pos rfl], g1, g2, h5, g4⟩
      · rw [Function.update_of_ne hdd] at ha
        exact (shows_of_head hL hw.core h2.core (hk.did d a ha) (by rw [h8, if_neg hdd]) h9 _).2 (e2 d a ha)

theorem copes_all (hL : L.OK Z) (hr : Reach L .datastore .untorn w) (hk : Keeping L .datastore w A)
    (hf : cfg.flask = true) {req : Request R} (hs : Proper req) (x : Chance) :
    Copes cfg out L A req (serve cfg out L .datastore w x req) := by
  cases req with
  | getRecord repo collection rkey cid => exact (refines_read hL hr hk _ _ _ _ x).copes
  | listRecords repo collection limit cursor => exact (refines_list hL hr hk _ _ _ _ x).copes
  | describeRepo repo => exact (refines_describe hL hr hk _ x).copes
  | getRepoStatus did => exact (refines_status hL hr hk _ x).copes
  | putRecord header inp =>
    obtain ⟨A', h1, h2, h3⟩ := copes_put hL hr hk hf header inp x.xs x.raises rfl
    refine ⟨A', ?_, h2, h3⟩
    show Manages cfg out L A (.putRecord header inp) (.troubled (reply .written _).2) A'
    rcases h1 with h1 | ⟨⟨e, h1⟩, rfl⟩
    · exact .done h1
    · rw [h1]; exact .failed e trivial
  | createRecord header inp tid => exact copes_create hL hr hk hf header inp tid x
  | deleteRecord header inp => exact copes_delete hL hr hk hf header inp x
  | applyWrites header inp => exact (refines_apply hr hk hf header inp x).copes
  | uploadBlob header => exact (refines_upload hr hk header x).copes
  | newRepo did handle => exact copes_new hL hr hk hs x
  | setStatus did change => exact (refines_change hL hr hk hs x).copes

/-- The status alone. -/
theorem status_keeping (hL : L.OK Z) (hr : Reach L .datastore .untorn w) (hk : Keeping L .datastore w A)
    {d : Did} {r : Ref} {o : RepoObj C R} {a : Account R} (ha : A d = some a) (ho : w.heap[r]? = some o)
    (hod : o.did = some d) (st : Option Status) :
    Keeping L .datastore (setRepoStatus .datastore w r st).1
      (Function.update A d (some { a with status := st })) := by
  have hr' : Reach L .datastore .untorn (setRepoStatus .datastore w r st).1 := .step hr (.setStatus r st trivial)
  obtain ⟨h1, h2⟩ := (keeping_iff hL hr).1 hk
  have hent := h1 d
  rw [ha] at hent
  obtain ⟨row, hrow, hrow'⟩ := Option.map_eq_some_iff.mp hent
  have hh := (Prod.mk.inj hrow').1
  have hrows : (setRepoStatus .datastore w r st).1.rows = dictSet w.rows d { row with status := st } := by
    unfold setRepoStatus
    rw [ho]
    dsimp only
    rw [hod]
    dsimp only
    rw [show (w.setObj r { o with status := st }).rows = w.rows from rfl, hrow]
  refine (keeping_iff hL hr').2 ⟨fun d' => ?_, fun d' a' ha' => ?_⟩
  · unfold entryOf
    dsimp only
    rw [hrows, dictGet_dictSet]
    by_cases hd : d' = d
    · subst hd
      rw [if_pos rfl, Function.update_self]
      simp only [Option.map_some, hh]
    · rw [if_neg hd, Function.update_of_ne hd, ← h1 d']
      rfl
  · have hsame : ∀ m, isDid d' → Shows L .datastore w d' m →
        Shows L .datastore (setRepoStatus .datastore w r st).1 d' m := by
      intro m hd' hm
      refine (shows_of_head hL (hr.inv hL (fun h => h)).1.core (hr'.inv hL (fun h => h)).1.core hd' ?_ ?_ _).2 hm
      · exact (setRepoStatus_effect (L := L) (be := .datastore) (w := w) r st).2 d'
      · exact (setRepoStatus_effect (L := L) (be := .datastore) (w := w) r st).1 ▸ .refl _
    by_cases hd : d' = d
    · subst hd
      rw [Function.update_self] at ha'
      cases ha'
      exact hsame _ (hk.did d' a ha) (h2 d' a ha)
    · rw [Function.update_of_ne hd] at ha'
      exact hsame _ (hk.did d' a' ha') (h2 d' a' ha')

/-- Whatever a request leaves behind, it has been done completely or not at all. -/
theorem leaves_all (hL : L.OK Z) (hr : Reach L .datastore .untorn w) (hk : Keeping L .datastore w A)
    (hf : cfg.flask = true) {q : Request R} (hs : Proper q) {w' : World C R}
    (hl : Leaves cfg out L w q w') :
    ∃ A', Manages (C := C) cfg out L A q .killed A' ∧ Keeping L .datastore w' A' ∧
      Reach L .datastore .untorn w' := by
  induction hl with
  | idle => exact ⟨A, .killed, hk, hr⟩
  | ended x =>
    obtain ⟨A', h1, h2, h3⟩ := copes_all hL hr hk hf (out := out) hs x
    refine ⟨A', ?_, h2, h3⟩
    generalize (serve cfg out L .datastore w x q).2 = ans at h1
    cases h1 with
    | done h => exact .killedDone h
    | failed e _ => exact .killed
  | allocated h ih =>
    obtain ⟨A', h1, h2, h3⟩ := ih
    have h4 := Reach.step h3 (.allocate trivial)
    exact ⟨A', h1, keeping_quiet hL h3 h2 h4 rfl (.refl _), h4⟩
  | status did change hq h =>
    rename_i w1 r
    subst hq
    have hd : isDid did := hs
    have hr1 : Reach L .datastore .untorn w1 := by
      have := Step.loadRepo (L := L) (be := .datastore) (al := .untorn) (w := w) did
      rw [h] at this
      exact .step hr this
    rcases load_entry hL hr hd with ⟨_, h2⟩ | ⟨w2, s, o, h1, h2, h3, h4, h5⟩
    · rw [h] at h2; cases h2
    · rw [h] at h2
      cases h2
      rw [((keeping_iff hL hr).1 hk).1] at h1
      obtain ⟨a, ha, _⟩ := Option.map_eq_some_iff.mp h1
      have hk1 := keeping_quiet hL hr hk hr1 h5.rows (by rw [h5.blocks]; exact .refl _)
      refine ⟨_, .killedDone (a := .done) ?_, status_keeping hL hr1 hk1 ha h3 h4 change.status,
        .step hr1 (.setStatus _ _ trivial)⟩
      unfold Serves
      dsimp only
      rw [ha]
      exact ⟨rfl, rfl⟩
  | «object» h c handle key callback hh ih =>
    obtain ⟨A', h1, h2, h3⟩ := ih
    have h4 := Reach.step h3 (.repoLoad c handle none key callback hh)
    refine ⟨A', h1, keeping_quiet hL h3 h2 h4 ?_ ?_, h4⟩
    · unfold repoLoad; split <;> rfl
    · unfold repoLoad; split <;> exact .refl _
  | event h r kind time hr' ih =>
    obtain ⟨A', h1, h2, h3⟩ := ih
    have h4 := Reach.step h3 (.event r kind time hr')
    refine ⟨A', h1, keeping_quiet hL h3 h2 h4 ?_ ?_, h4⟩
    · exact (event_any hL (h3.plain hL).1 r kind time).2.2.1
    · exact ((Step.effect hL (h3.inv hL (fun h => h)).1 (h3.inv hL (fun h => h)).2
        (Step.event (al := .untorn) r kind time hr')).1)

end Arroba.Xrpc
