import Verif.Xrpc.LoadProofs
import Verif.Storage.TableProofs
import Verif.Props.C24

/-! Helper lemmas: reading and writing records through the XRPC handlers. -/

namespace Arroba.Xrpc

open Arroba.Store

variable {C R : Type} [DecidableEq C] {L : Lib C R} {Z : Nat} {be : Backend} {al : Allow}
  {w : World C R} {cfg : Config R}

/-- The active repo `d`, and no other, is known by the name `q`. -/
def Names (cfg : Config R) (be : Backend) (w : World C R) (q : Key) (d : Did) : Prop :=
  q ≠ [] ∧ ∃ name, target cfg q = .ok name ∧ name ≠ [] ∧
    ∀ d' st, Answers be w name d' st ↔ d' = d ∧ st = none

/-- Both worlds have the same repos, with the same handles and statuses. -/
def SameNames (be : Backend) (w w' : World C R) : Prop :=
  ∀ q d st, Answers be w' q d st ↔ Answers be w q d st

theorem SameNames.refl (be : Backend) (w : World C R) : SameNames be w w := fun _ _ _ => Iff.rfl

theorem SameNames.trans {a b c : World C R} (h : SameNames be a b) (h' : SameNames be b c) :
    SameNames be a c := fun q d st => (h' q d st).trans (h q d st)

theorem Names.same {w' : World C R} {q : Key} {d : Did} (h : Names cfg be w q d)
    (hs : SameNames be w w') : Names cfg be w' q d := by
  obtain ⟨h0, name, h1, h2, h3⟩ := h
  exact ⟨h0, name, h1, h2, fun d' st => (hs name d' st).trans (h3 d' st)⟩

/-- Objects keep their handles and statuses; the tables are the same but for heads. -/
theorem SameNames.of {hi lo : Nat} (hw : PCore L Z be hi lo w) {w' : World C R}
    (hh : ∀ (i : Nat) (o : RepoObj C R), w.heap[i]? = some o → ∃ o' : RepoObj C R,
      w'.heap[i]? = some o' ∧ o'.handle = o.handle ∧ o'.status = o.status)
    (hr : ∀ x, x ∈ w'.repos ↔ x ∈ w.repos)
    (hrow : be = .datastore → ∀ d h st, (∃ row, (d, row) ∈ w'.rows ∧ row.handle = h ∧ row.status = st) ↔
      ∃ row, (d, row) ∈ w.rows ∧ row.handle = h ∧ row.status = st) : SameNames be w w' := by
  intro q d st
  cases be with
  | memory =>
    constructor
    · rintro ⟨r, o', h1, h2, h3, h4⟩
      have h1' := (hr _).1 h1
      obtain ⟨_, o, ho, _⟩ := hw.repos d r h1'
      obtain ⟨o2, g1, g2, g3⟩ := hh r o ho
      rw [h2] at g1
      cases g1
      exact ⟨r, o, h1', ho, g3 ▸ h3, g2 ▸ h4⟩
    · rintro ⟨r, o, h1, h2, h3, h4⟩
      obtain ⟨o2, g1, g2, g3⟩ := hh r o h2
      exact ⟨r, o2, (hr _).2 h1, g1, g3.trans h3, by rw [g2]; exact h4⟩
  | datastore =>
    constructor
    · rintro ⟨row, h1, h2, h3⟩
      obtain ⟨row', g1, g2, g3⟩ := (hrow rfl d _ _).1 ⟨row, h1, rfl, rfl⟩
      exact ⟨row', g1, g3.trans h2, by rw [g2]; exact h3⟩
    · rintro ⟨row, h1, h2, h3⟩
      obtain ⟨row', g1, g2, g3⟩ := (hrow rfl d _ _).2 ⟨row, h1, rfl, rfl⟩
      exact ⟨row', g1, g3.trans h2, by rw [g2]; exact h3⟩

theorem Loaded.sameNames {hi lo : Nat} (hw : PCore L Z be hi lo w) {w' : World C R} (h : Loaded w w') :
    SameNames be w w' :=
  .of hw (fun i o ho => ⟨o, h.heap i o ho, rfl, rfl⟩) (fun x => by rw [h.repos])
    (fun _ d hd st => by rw [h.rows])

/-- The repo found by another name is the one found by its DID. -/
theorem loadRepo_did (hL : L.OK Z) (hr : Reach L be al w) {q : Key} {w' : World C R}
    {r : Ref} {o : RepoObj C R} {d : Did} (h : loadRepo be w q = (w', .ok (some r)))
    (ho : w'.heap[r]? = some o) (hd : o.did = some d) : loadRepo be w d = (w', .ok (some r)) ∧ isDid d := by
  have hp := (hr.plain hL).1.core
  unfold loadRepo at h
  split at h
  · cases h
  · cases be with
    | memory =>
      dsimp only at h
      rcases findRepo_answers hp (q := q) (l := w.repos) (fun _ h => h) with
        ⟨h1, _⟩ | ⟨d', r', o', h1, h2, h3, h4, h5⟩
      · rw [h1] at h; cases h
      · rw [h1] at h
        cases h
        rw [ho] at h3
        cases h3
        rw [hd] at h4
        cases h4
        have hdd : isDid d := by
          obtain ⟨hb, co, e1, e2, e3⟩ := did_some hd
          obtain ⟨b', co', k1, k2, k3, _⟩ := (hp.heap _ _ ho).head _ e1
          rw [e2] at k3
          cases k3
          exact e3 ▸ hp.blocks.did k1 (k2.trans e2)
        refine ⟨?_, hdd⟩
        unfold loadRepo
        rw [if_neg (isDid_ne_nil hdd)]
        dsimp only
        rw [hp.findRepo hdd (l := w.repos) (fun _ h => h), dictGet_of_mem hr.tables.repos h2]
    | datastore =>
      dsimp only at h
      have key : ∀ row, findRow w q = some row → ∃ d', (d', row) ∈ w.rows := by
        intro row hrow
        unfold findRow at hrow
        split at hrow
        · cases hrow
          rename_i hg
          exact ⟨q, dictGet_mem hg⟩
        · obtain ⟨kv, h1, rfl⟩ := Option.map_eq_some_iff.mp hrow
          exact ⟨kv.1, List.mem_of_find?_eq_some h1⟩
      cases hf : findRow w q with
      | none => rw [hf] at h; cases h
      | some row =>
        rw [hf] at h
        dsimp only at h
        obtain ⟨d', hrow⟩ := key row hf
        obtain ⟨_, b, co, g1, g2, g3, _⟩ := hp.rows d' row hrow
        have hca : commitAt w row.head = .ok (b, co) := by
          unfold commitAt World.read; rw [g1]; simp only [g2]
        have hl : repoLoad w row.head row.handle row.status row.key false = (w', .ok r) := by
          cases hl : repoLoad w row.head row.handle row.status row.key false with
          | mk a e =>
            rw [hl] at h
            cases e with
            | error e => cases h
            | ok s => cases h; rfl
        have hdd : d' = d := by
          unfold repoLoad at hl
          rw [hca] at hl
          dsimp only [World.newObj] at hl
          cases hl
          rw [List.getElem?_append_right (Nat.le_refl _), Nat.sub_self] at ho
          cases ho
          rw [did_eq rfl g2] at hd
          exact g3.symm.trans (Option.some.inj hd)
        subst hdd
        have hid : isDid d' := g3 ▸ hp.blocks.did g1 g2
        refine ⟨?_, hid⟩
        unfold loadRepo
        rw [if_neg (isDid_ne_nil hid)]
        dsimp only
        rw [hp.findRow hid, dictGet_of_mem hr.tables.rows hrow]
        dsimp only
        rw [hl]

/-- Loading a repo that is known by that name. -/
theorem Names.load (hL : L.OK Z) (hr : Reach L be al w) (ht : ¬ al.torn) {q : Key} {d : Did}
    (hn : Names cfg be w q d) : ∃ w1 r o, load cfg be w q = (w1, .ok r) ∧ w1.heap[r]? = some o ∧
      o.did = some d ∧ o.status = none ∧ isDid d ∧ Loaded w w1 ∧ Reach L be al w1 ∧ SameNames be w w1 ∧
      (∀ m, Shows L be w d m → ObjShows L w1 o m) ∧
      ∀ d', isDid d' → ∀ m, Shows L be w1 d' m ↔ Shows L be w d' m := by
  obtain ⟨_, name, h1, h2, h3⟩ := hn
  have hp := (hr.plain hL).1.core
  have hc := (hr.inv hL ht).1.core
  rcases load_spec (cfg := cfg) hp h1 h2 with ⟨_, h4⟩ | ⟨d', st, w1, r, o, g1, g2, g3, g4, g5, g6, g7⟩
  · exact absurd ((h3 d none).2 ⟨rfl, rfl⟩) (h4 d none)
  · obtain ⟨rfl, rfl⟩ := (h3 d' st).1 g1
    rw [if_pos rfl] at g7
    obtain ⟨g8, hid⟩ := loadRepo_did hL hr g2 g3 g4
    have hr1 : Reach L be al w1 := by
      have := Step.loadRepo (L := L) (be := be) (al := al) (w := w) name
      rw [g2] at this
      exact .step hr this
    have hc1 := (hr1.inv hL ht).1.core
    refine ⟨w1, r, o, g7, g3, g4, g5, hid, g6, hr1, g6.sameNames hp, ?_, ?_⟩
    · rintro m ⟨w2, s, o2, k1, k2, k3⟩
      rw [g8] at k1
      cases k1
      rw [g3] at k2
      cases k2
      exact k3
    · intro d' hd' m
      refine shows_of_head hL hc hc1 hd' ?_ (by rw [g6.blocks]; exact .refl _) m
      refine headOf_append hc g6.repos g6.rows (fun i hi => ?_) d'
      rw [g6.heap i w.heap[i] (List.getElem?_eq_getElem hi), List.getElem?_eq_getElem hi]

/-- Nothing fails outside the code; there is a sequence number left. -/
structure Fine (w : World C R) (xs : List Luck) : Prop where
  some : xs ≠ []
  luck : ∀ x ∈ xs, x.signFails = false ∧ x.writeFails = false ∧ x.storeFails = false ∧ x.txFails = false
  seq : w.alloc.1 < 32 ^ 11

theorem Fine.loaded {w' : World C R} {xs : List Luck} (h : Fine w xs) (hl : Loaded w w') : Fine w' xs := by
  refine ⟨h.some, h.luck, ?_⟩
  have : w'.alloc.1 = w.alloc.1 := by unfold World.alloc; rw [hl.seqs]
  rw [this]
  exact h.seq

/-- What a request may do: the records of the repo `d` are `m` afterwards; all others, and the names of
the repos, are the same. -/
structure After (L : Lib C R) (be : Backend) (al : Allow) (w w' : World C R) (d : Did)
    (m : Key → Option R) : Prop where
  reach : Reach L be al w'
  names : SameNames be w w'
  shows' : Shows L be w' d m
  others : ∀ d', isDid d' → d' ≠ d → ∀ m₂, Shows L be w' d' m₂ ↔ Shows L be w d' m₂

theorem After.of_loaded {w1 w' : World C R} {d : Did} {m : Key → Option R}
    (h : After L be al w1 w' d m) (hs : SameNames be w w1)
    (ho : ∀ d', isDid d' → ∀ m, Shows L be w1 d' m ↔ Shows L be w d' m) : After L be al w w' d m :=
  ⟨h.reach, hs.trans h.names, h.shows', fun d' hd hne m => (h.others d' hd hne m).trans (ho d' hd m)⟩

theorem upd_handle (n : Node C) (b : Block C R) (o : RepoObj C R) :
    (upd n b o).handle = o.handle ∧ (upd n b o).status = o.status := ⟨rfl, rfl⟩

theorem commit_names (hL : L.OK Z) (hr : Reach L be al w) (ht : ¬ al.torn) (r : Ref)
    (writes : List (Write R)) (xs : List Luck) (cbFails : Bool) :
    SameNames be w (commit L be w r writes none xs cbFails).1 := by
  obtain ⟨hw, hl⟩ := hr.inv hL ht
  have hp := (hr.plain hL).1.core
  have hmid : ∀ {wk : World C R}, Mid L Z be (w.last + 1) r w.alloc.2 wk →
      ∀ (i : Nat) (o : RepoObj C R), w.heap[i]? = some o → ∃ o' : RepoObj C R,
        wk.heap[i]? = some o' ∧ o'.handle = o.handle ∧ o'.status = o.status := by
    intro wk h4 i o ho
    rcases h4.heap i with h | ⟨_, _, o2, n2, b2, k1, k2, k3⟩
    · exact ⟨o, by rw [h]; exact ho, rfl, rfl⟩
    · rw [show w.alloc.2.heap[i]? = w.heap[i]? from rfl, ho] at k1
      cases k1
      exact ⟨_, k2, rfl, rfl⟩
  rcases commit_cases hL (be := be) hw r writes xs cbFails with
    ⟨e', w1', w1, wk, h1, ⟨l, h2⟩, h3, h4, h5, h6, h7, h8⟩ |
    ⟨w1', w1, wk, x, did, m0, m', s, n, cd, co, h1, ⟨l, h2⟩, h3, h4, h5, h6, _⟩
  · rw [h1, h2]
    rcases h5 with h5 | h5
    · refine .of hp ?_ (fun x => ?_) (fun _ d h st => ?_)
      · intro i o ho
        obtain ⟨o1, g1, g2, g3⟩ := hmid h4 i o ho
        rcases h5.heap with hh | ⟨_, s, so, n, k1, k2⟩
        · exact ⟨o1, by show w1.heap[i]? = _; rw [hh]; exact g1, g2, g3⟩
        · show ∃ o', w1.heap[i]? = some o' ∧ _
          rw [k2]
          by_cases hi : s = i
          · subst hi
            rw [g1] at k1
            cases k1
            exact ⟨_, List.getElem?_set_self (lt_of_get g1), g2, g3⟩
          · exact ⟨o1, by rw [List.getElem?_set_ne hi]; exact g1, g2, g3⟩
      · show x ∈ w1.repos ↔ _
        rw [h5.eq]
        show x ∈ wk.repos ↔ _
        rw [h4.repos]; rfl
      · show (∃ row, (d, row) ∈ w1.rows ∧ _) ↔ _
        rw [h5.eq]
        show (∃ row, (d, row) ∈ wk.rows ∧ _) ↔ _
        rw [h4.rows]; rfl
    · refine .of hp ?_ (fun x => ?_) (fun _ d h st => ?_)
      · intro i o ho
        obtain ⟨o1, g1, g2, g3⟩ := hmid h4 i o ho
        exact ⟨o1, by show w1.heap[i]? = _; rw [h5.eq]; exact g1, g2, g3⟩
      · show x ∈ w1.repos ↔ _
        rw [h5.eq]
        show x ∈ wk.repos ↔ _
        rw [h4.repos]; rfl
      · show (∃ row, (d, row) ∈ w1.rows ∧ _) ↔ _
        rw [h5.eq]
        show (∃ row, (d, row) ∈ wk.rows ∧ _) ↔ _
        rw [h4.rows]; rfl
  · rw [h1, h2]
    obtain ⟨w2, so, b, k1, k2, k3, k4, k5, k6, k7, k8⟩ := h6.stored
    refine .of hp ?_ ?_ ?_
    · intro i o ho
      obtain ⟨o1, g1, g2, g3⟩ := hmid h4 i o ho
      show ∃ o', w1.heap[i]? = some o' ∧ _
      rw [h6.heap i]
      split
      · rw [g1]; exact ⟨_, rfl, g2, g3⟩
      · exact ⟨o1, g1, g2, g3⟩
    · intro x
      show x ∈ w1.repos ↔ _
      cases be with
      | memory =>
        obtain ⟨_, j1, _, j2⟩ := k8
        rw [j2, h4.repos] at *
        have hnd : (w.repos.map (·.1)).Nodup := hr.tables.repos
        rw [show w.alloc.2.repos = w.repos from rfl] at *
        constructor
        · intro hx
          rcases mem_dictSet hx with hx | hx
          · rw [hx]; exact dictGet_mem j1
          · exact hx
        · intro hx
          have hnd' := dictSet_nodup (k := did) (v := s) hnd
          refine dictGet_mem (k := x.1) ?_
          rw [dictGet_dictSet]
          split
          · rename_i he
            have := dictGet_of_mem hnd hx
            rw [he, j1] at this
            exact this
          · exact dictGet_of_mem hnd hx
      | datastore =>
        rw [k8.2.1, h4.repos]; rfl
    · rintro rfl d h st
      obtain ⟨_, _, row, j1, _, _, j2⟩ := k8
      show (∃ row, (d, row) ∈ w1.rows ∧ _) ↔ _
      have hnd : (w.rows.map (·.1)).Nodup := hr.tables.rows
      rw [h4.rows, show w.alloc.2.rows = w.rows from rfl] at j1 j2
      rw [j2]
      have hnd' := dictSet_nodup (k := did) (v := { row with head := L.hash cd.commit.val }) hnd
      constructor
      · rintro ⟨row', g1, g2, g3⟩
        have := dictGet_of_mem hnd' g1
        rw [dictGet_dictSet] at this
        split at this
        · rename_i he
          cases this
          exact ⟨row, by rw [he]; exact dictGet_mem j1, g2, g3⟩
        · exact ⟨row', dictGet_mem this, g2, g3⟩
      · rintro ⟨row', g1, g2, g3⟩
        have := dictGet_of_mem hnd g1
        by_cases he : d = did
        · subst he
          rw [j1] at this
          cases this
          exact ⟨{ row with head := L.hash cd.commit.val },
            dictGet_mem (by rw [dictGet_dictSet, if_pos rfl]), g2, g3⟩
        · exact ⟨row', dictGet_mem (by rw [dictGet_dictSet, if_neg he]; exact this), g2, g3⟩

/-- A commit of one write when nothing fails. -/
theorem commit_one (hL : L.OK Z) (hr : Reach L be .untorn w) {r : Ref} {o : RepoObj C R} {d : Did}
    (ho : w.heap[r]? = some o) (hd : o.did = some d) (hact : o.status = none) {m : Key → Option R}
    (hm : Shows L be w d m) (wr : Write R) {xs : List Luck} (hf : Fine w xs) :
    match specWrite L m wr with
    | .ok m' => ∃ w' cd, commit L be w r [wr] none xs false = (w', .ok cd) ∧
        After L be .untorn w w' d m' ∧ ∃ o', w'.heap[r]? = some o' ∧ o'.did = some d
    | .error e => ∃ w', commit L be w r [wr] none xs false = (w', .error e) ∧
        After L be .untorn w w' d m := by
  have ht : ¬ Allow.untorn.torn := fun h => h
  have hw := (hr.inv hL ht).1
  have hda : isDid d := by
    obtain ⟨m0, hm0⟩ := hw.core.heap r o ho
    exact hm0.isDid hw.core.blocks hd
  have h1 := C23_outcome_partial hL ht hr ho hd hact hm (writes := [wr]) (by simp) hf.seq hf.some hf.luck
  have hnames := commit_names hL hr ht r [wr] xs false
  have hspec : specWrites L m [wr] = match specWrite L m wr with
      | .error e => .error e | .ok m' => .ok m' := by
    unfold specWrites
    cases specWrite L m wr <;> rfl
  have hnt : NotTorn be w (commitTx L be r [wr] w.alloc.1 none w.alloc.2 xs) := by
    rcases commit_cases hL (be := be) hw r [wr] xs false with
      ⟨e', w1', w1, wk, g1, _, g3, g4, g5, g6, g7, g8⟩ |
      ⟨w1', w1, wk, x, did, m0, m', s, n, cd, co, g1, _, g3, _⟩
    · refine .inr (.inr fun i oi hi => ⟨oi, ?_, rfl⟩)
      obtain ⟨rfl, _⟩ := g6 (fun x hx => (hf.luck x hx).2.2)
      have hs := hw.alloc.2.1
      have := g7 ⟨by simp, fun x hx => (hf.luck x hx).1, hs ▸ hf.seq⟩
      rw [g3]
      show w1.heap[i]? = _
      rw [this]
      exact hi
    · exact .inr (.inl ⟨cd, by rw [g3]⟩)
  have hstep : Reach L be .untorn (commit L be w r [wr] none xs false).1 :=
    .step hr (.commit r [wr] xs false ⟨.inr hnt, .inl trivial, .inl trivial, .inl trivial⟩)
  rw [hspec] at h1
  cases hsp : specWrite L m wr with
  | ok m' =>
    rw [hsp] at h1
    obtain ⟨w', cd, h1⟩ := h1
    obtain ⟨m2, g1, g2, ⟨o', g3, _⟩, g4⟩ := C23_effect_partial hL ht hr ho hd hm h1
    rw [hspec, hsp] at g1
    cases g1
    rw [h1] at hnames hstep
    refine ⟨w', cd, h1, ⟨hstep, hnames, g2, g4⟩, o', g3, ?_⟩
    rcases commit_cases hL (be := be) hw r [wr] xs false with
      ⟨e', w1', w1, wk, k1, _⟩ | ⟨w1', w1, wk, x, did, m0, m2, s, n, cd2, co, k1, ⟨l, k2⟩, k3, k4, k5, k6, _⟩
    · rw [h1] at k1; cases k1
    · rw [h1] at k1
      obtain ⟨rfl, -⟩ := Prod.mk.inj k1
      obtain ⟨o2, j1, j2, _⟩ := k6.caller
      have hdd : did = d := by
        rcases k4.heap r with h | ⟨_, _, o3, n3, b3, i1, i2, i3⟩
        · rw [h, show w.alloc.2.heap[r]? = w.heap[r]? from rfl, ho] at j1
          cases j1
          exact Option.some.inj (j2.symm.trans hd)
        · rw [show w.alloc.2.heap[r]? = w.heap[r]? from rfl, ho] at i1
          cases i1
          rw [i2] at j1
          cases j1
          rw [i3, hd] at j2
          exact (Option.some.inj j2).symm
      have hg3 : w1.heap[r]? = some o' := by rw [k2] at g3; exact g3
      obtain ⟨o4, i1, _, i2, _⟩ := k6.object hL k4.core
      rw [hg3] at i1
      cases i1
      rw [← hdd]
      exact i2
  | error e =>
    rw [hsp] at h1
    obtain ⟨w', h1⟩ := h1
    rw [h1] at hnames hstep
    have hun := C24_unchanged_partial hL ht hr (r := r)
      (fun _ => ⟨by simp, fun x hx => (hf.luck x hx).1, hf.seq⟩) (fun x hx => (hf.luck x hx).2.2) rfl h1
    have hw' := (hstep.inv hL ht).1
    have hsame : ∀ d', isDid d' → ∀ m₂, Shows L be w' d' m₂ ↔ Shows L be w d' m₂ := by
      intro d' hd' m₂
      have hh : w'.heap = w.heap := by rw [hun]
      refine shows_of_head hL hw.core hw'.core hd' ?_ (by rw [hun]; exact .refl _) m₂
      exact headOf_append hw.core (by rw [hun]) (by rw [hun]) (fun i _ => by rw [hh]) d'
    exact ⟨w', h1, hstep, hnames, (hsame d hda m).2 hm, fun d' hd' _ => hsame d' hd'⟩

end Arroba.Xrpc
