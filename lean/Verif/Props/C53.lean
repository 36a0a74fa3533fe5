import Verif.Props.C17
import Verif.Props.C46

/-!
# C53: a repo moves intact from one server to another

Export with `getRepo`, import with `importRepo`. The two servers may use different kinds of storage and
be configured differently.
-/

namespace Arroba.Xrpc

open Arroba.Store Arroba.Tree

variable {C R : Type} [DecidableEq C] {L : Lib C R} {Z : Nat} {be be2 : Backend} {al : Allow}
  {w w2 : World C R} {cfg cfg2 : Config R} {ord : Nat → List (Raw C R) → List (Raw C R)} {g : Gate}
  {q : Key} {d : Did} {out : Outside C}

theorem Names.isDid (hL : L.OK Z) (hr : Reach L be .untorn w) (hn : Names cfg be w q d) : isDid d := by
  obtain ⟨_, name, k1, k2, k3⟩ := hn
  rcases load_spec (cfg := cfg) (hr.plain hL).1.core k1 k2 with
    ⟨_, h4⟩ | ⟨d', st, w1, r, o, g1, g2, g3, g4, g5, g6, g7⟩
  · exact absurd ((k3 d none).2 ⟨rfl, rfl⟩) (h4 d none)
  obtain ⟨rfl, rfl⟩ := (k3 d' st).1 g1
  exact (loadRepo_did hL hr g2 g3 g4).2

theorem car_read {car : Car C R} (hn : (car.blocks.map (·.1)).Nodup) {c : C} {v : Val C R}
    (h : (c, v) ∈ car.blocks) : car.world.read c = some ⟨v, 0, none, []⟩ := by
  unfold World.read Car.world
  refine dictGet_of_mem ?_ (List.mem_map.2 ⟨_, h, rfl⟩)
  rw [List.map_map]
  exact hn

/-- A CAR with all the blocks of a repo shows the repo's records. -/
theorem car_shows (hL : L.OK Z) {seq : Nat} (hc : Core L Z seq w) {head : C} {hb : Block C R}
    {co : Commit C} (h1 : w.read head = some hb) (h2 : hb.val = .commit co) {m : Key → Option R}
    (hm : RootOK L Z w.blocks co.data m) {car : Car C R} (hn : (car.blocks.map (·.1)).Nodup)
    (hcar : ∀ c v, Inside w head c → (∃ b, w.read c = some b ∧ b.val = v) → (c, v) ∈ car.blocks) :
    CommitShows L car.world head m := by
  obtain ⟨t, t1, t2, t3⟩ := hm
  obtain ⟨l, _, hwf⟩ := t1.wf
  have hval : ∀ s ∈ nodes t, ∀ e ∈ (nodeOf L.env.H s).e, ∃ b r, w.read e.v = some b ∧
      b.val = .record r := by
    intro s hs e he
    obtain ⟨k, hk⟩ := ser_vals he
    have hk' := (mem_leaves_iff t1.sorted _ _).1 (leaves_of_node hs _ hk)
    rw [t1.map] at hk'
    obtain ⟨r, hr, hr'⟩ := Option.map_eq_some_iff.1 hk'
    obtain ⟨b, hb1, hb2⟩ := t1.recs k r hr
    exact ⟨b, r, by rw [← hr']; exact hb1, hb2⟩
  have hins := inside_iff (L := L) h1 h2 t3.symm t2 hwf hval
  have hst : Stored L.env (nodeIn car.world.blocks) t := by
    intro s hs
    have := car_read hn (hcar _ _ ((hins _).2 (.inr ⟨s, hs, .inl rfl⟩)) (stored_read t2 hs))
    unfold World.read at this
    simp only [nodeIn, this]
  have hrec : ∀ k r, m k = some r → Has L car.world.blocks (.record r) := by
    intro k r hk
    obtain ⟨b, hb1, hb2⟩ := t1.recs k r hk
    have hmem : (k, L.rcid r) ∈ leaves t := by
      rw [mem_leaves_iff t1.sorted, t1.map]
      simp only [hk, Option.map_some]
    obtain ⟨s, hs, e, he, hv⟩ : ∃ s ∈ nodes t, ∃ e ∈ (nodeOf L.env.H s).e, e.v = L.rcid r := ser_all_vals hmem
    have := car_read hn (hcar _ _ ((hins _).2 (.inr ⟨s, hs, .inr ⟨e, he, hv.symm⟩⟩)) ⟨b, hb1, hb2⟩)
    exact ⟨_, this, rfl⟩
  have hroot : RootOK L Z car.world.blocks co.data m := ⟨t, ⟨t1.wf, t1.sorted, t1.valid, t1.map, hrec⟩,
    hst, t3⟩
  have hhead := car_read hn (hcar _ _ .head ⟨hb, h1, h2⟩)
  refine commitShows_iff.2 ⟨_, co, hhead, rfl, ObjRep.shows (Z := Z) hL ⟨?_, by simp⟩⟩
  obtain ⟨l', t', i1, i2, i3⟩ := hroot.load
  refine ⟨l', t', i1, i2, ?_⟩
  rintro b hb'
  cases hb'
  refine ⟨_, co, ?_, rfl, rfl, i3.symm⟩
  rw [← hc.blocks.addr _ _ h1, h2] at hhead
  exact hhead

/-- **C53 (round trip).** The CAR that `getRepo` returns for an active repo can be imported on any
server that doesn't know its DID, provided that the DID resolves there to a key which verifies the head
commit. The import has the same records and the same head, and the records of the repos that
were there stay the same.

Partial: the exporting server isn't a `MemoryStorage` on which a commit failed in the middle, see
`C17_memory_false`. -/
theorem C53_round_trip_partial (hL : L.OK Z) (hr : Reach L be .untorn w)
    (hord : ∀ f l, (ord f l).Perm l) (hg : g.closed = false) (hn : Names cfg be w q d)
    {m : Key → Option R} (hm : Shows L be w d m) (hr2 : Reach L be2 al w2) {header : Option Key}
    (ha : auth cfg2 header = .ok ()) {doc : Doc} {k : Nat}
    (hfresh : ∀ d' st, ¬ Answers be2 w2 d d' st) (hres : out.resolve d = .ok doc)
    (hkey : doc.signingKey = some k)
    (hsig : ∀ head b co, readHead L be w d = some head → w.read head = some b → b.val = .commit co →
      out.verifies co k = true) :
    ∃ w' car w2', getRepo cfg L be ord g w q none = (w', .ok car) ∧
      importRepo cfg2 L be2 out w2 header (.ok car) = (w2', .ok ()) ∧
      Shows L be2 w2' d m ∧ readHead L be2 w2' d = readHead L be w d ∧
      ∀ d2 m2, Shows L be2 w2 d2 m2 → Shows L be2 w2' d2 m2 := by
  have hd := hn.isDid hL hr
  have hc := (hr.inv hL (fun h => h)).1.core
  obtain ⟨w', head, hv, rest, h1, h2, h3, h4, h5⟩ := C17_export_partial hL hr hord hg hn
  obtain ⟨c, b, co, i1, i2, i3, i4, i5⟩ := (records_iff hL hc hd m).1 ((shows_iff hL hc hd).1 hm)
  rw [← readHead_eq hL hc hd, h3] at i1
  cases i1
  have hcid : TrueCids L ⟨[head], (head, hv) :: rest⟩ := by
    rintro ⟨c, v⟩ hx
    obtain ⟨_, b', j1, rfl⟩ := (h5 c v).1 hx
    exact hr.addressed c b' j1
  have himp : Importable be2 out w2 ⟨[head], (head, hv) :: rest⟩ head co doc := by
    refine ⟨rfl, (h5 _ _).2 ⟨.head, b, i2, i3⟩, ?_⟩
    subst i4
    exact ⟨isDid_ne_nil hd, hfresh, hres, k, hkey, hsig _ b co h3 i2 i3⟩
  have hshow := car_shows hL hc i2 i3 i5 (car := ⟨[head], (head, hv) :: rest⟩) h4
    (fun c v a a' => (h5 c v).2 ⟨a, a'⟩)
  obtain ⟨w2', j1, j2⟩ := C46_imported (cfg := cfg2) hL hr2 ha hcid himp
  have j3 := C46_records_partial (cfg := cfg2) hL hr2 ha hcid himp hshow
  rw [j1, i4] at j3
  refine ⟨w', _, w2', h1, j1, j3, ?_, fun d2 m2 hm2 => ?_⟩
  · obtain ⟨o, b', ⟨w3, r, k1, k2⟩, _, k3, k4, _⟩ := j2.repo
    rw [i4] at k1
    unfold readHead at h3 ⊢
    rw [k1, h3]
    dsimp only
    rw [k2, Option.bind_some, k3, Option.map_some, k4]
  · have := C46_others (cfg := cfg2) hL hr2 ha hcid himp hm2
    rw [j1] at this
    exact this

/-- **C53 (Datastore).** From a server with `DatastoreStorage`, in every reachable state. -/
theorem C53_round_trip_datastore {al' : Allow} (hL : L.OK Z) (hr : Reach L .datastore al' w)
    (hord : ∀ f l, (ord f l).Perm l) (hg : g.closed = false) (hn : Names cfg .datastore w q d)
    {m : Key → Option R} (hm : Shows L .datastore w d m) (hr2 : Reach L be2 al w2)
    {header : Option Key} (ha : auth cfg2 header = .ok ()) {doc : Doc} {k : Nat}
    (hfresh : ∀ d' st, ¬ Answers be2 w2 d d' st) (hres : out.resolve d = .ok doc)
    (hkey : doc.signingKey = some k)
    (hsig : ∀ head b co, readHead L .datastore w d = some head → w.read head = some b →
      b.val = .commit co → out.verifies co k = true) :
    ∃ w' car w2', getRepo cfg L .datastore ord g w q none = (w', .ok car) ∧
      importRepo cfg2 L be2 out w2 header (.ok car) = (w2', .ok ()) ∧
      Shows L be2 w2' d m ∧ readHead L be2 w2' d = readHead L .datastore w d ∧
      ∀ d2 m2, Shows L be2 w2 d2 m2 → Shows L be2 w2' d2 m2 :=
  C53_round_trip_partial hL (hr.datastore.weaken (al' := .untorn) (by exact fun h => h)
    (fun _ => trivial) (fun _ => trivial) (fun _ => trivial)) hord hg hn hm hr2 ha hfresh hres hkey hsig

/-! ### The hypotheses can be met -/

/-- Another server that knows no repo, where every DID resolves to the key 7 and every signature
verifies. -/
def exElsewhere : Outside SC := ⟨fun _ => .ok ⟨some 7, some exHandle⟩, fun _ _ => true, 9⟩

example (be be2 : Backend) : ∃ w' car w2',
    getRepo exCfg exL be (fun _ l => l) exGate (exW1 be) exHandle none = (w', .ok car) ∧
      importRepo exCfg exL be2 exElsewhere .empty exHeader (.ok car) = (w2', .ok ()) ∧
      readHead exL be2 w2' exDid = readHead exL be (exW1 be) exDid := by
  have hr : Reach exL be .untorn (exW1 be) := (exW1_reach be).weaken (al' := .untorn)
    (by exact fun h => h) (fun _ => trivial) (fun _ => trivial) (fun _ => trivial)
  obtain ⟨m, hm⟩ : ∃ m, Shows exL be (exW1 be) exDid m := by
    have hd := (exNames be).isDid exL_ok hr
    obtain ⟨_, head, _, _, _, _, h, _⟩ := C17_export_partial exL_ok hr (fun _ _ => .refl _)
      (g := exGate) rfl (exNames be) (ord := fun _ l => l)
    have hc := (hr.inv exL_ok (fun h => h)).1.core
    rw [readHead_eq exL_ok hc hd] at h
    exact stored_shows exL_ok hc hd h
  obtain ⟨w', car, w2', h1, h2, _, h3, _⟩ := C53_round_trip_partial (cfg2 := exCfg) (be2 := be2)
    (out := exElsewhere) (al := .untorn) exL_ok hr (ord := fun _ l => l) (fun _ _ => .refl _)
    (g := exGate) rfl (exNames be) hm .empty (header := exHeader) (by rfl) (by
      intro d' st h
      cases be2 with
      | memory => obtain ⟨r, o, h, _⟩ := h; cases h
      | datastore => obtain ⟨row, h, _⟩ := h; cases h) rfl rfl (fun _ _ _ _ _ _ => rfl)
  exact ⟨w', car, w2', h1, h2, h3⟩

end Arroba.Xrpc
