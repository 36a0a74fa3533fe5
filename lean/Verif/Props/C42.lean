import Verif.Props.C41
import Verif.Props.C43

/-!
# C42: listRecords pagination is complete

A client asks for page after page of a collection with the same limit, each time passing the cursor it
got, until it gets none. Between two pages, anything may happen on the server.
-/

namespace Arroba.Xrpc

open Arroba.Store Arroba.Tree

variable {C R : Type} [DecidableEq C] {L : Lib C R} {Z : Nat} {be : Backend} {al : Allow}
  {w : World C R} {cfg : Config R}

/-- What is returned about a record. -/
def found (L : Lib C R) (d : Did) (collection : Key) (x : Key × R) : Found C R :=
  ⟨uriOf d collection x.1, L.rcid x.2, .record x.2⟩

/-- What a page of the records `m` is: `ks` are the record keys and records it shows. They are in the
collection, in strictly ascending order, at or after the cursor, at most `limit`, and none is left out up
to the last one. If the page is full there is a next cursor, the path of the last one. -/
structure ShowsPage (L : Lib C R) (d : Did) (collection : Key) (m : Key → Option R) (limit : Nat)
    (cursor : Option Key) (p : Page (Found C R)) (ks : List (Key × R)) : Prop where
  items : p.items = ks.map (found L d collection)
  size : ks.length ≤ limit
  correct : ∀ x ∈ ks, m (pathOf collection x.1) = some x.2
  ascending : ks.Pairwise fun a b => pathOf collection a.1 < pathOf collection b.1
  after : ∀ x ∈ ks, ∀ c, cursor = some c → c ≤ pathOf collection x.1
  complete : ∀ k r, m (pathOf collection k) = some r → (∀ c, cursor = some c → c ≤ pathOf collection k) →
    (k, r) ∈ ks ∨ ∃ c, p.cursor = some c ∧ c < pathOf collection k
  more : p.cursor = none → ks.length < limit
  last : ∀ c, p.cursor = some c → ks.length = limit ∧ ∃ k r, ks.getLast? = some (k, r) ∧ c = pathOf collection k

theorem startsWith_path {k collection : Key} (h : startsWith k (collection ++ ['/']) = true) :
    ∃ s, k = pathOf collection s := by
  unfold startsWith at h
  obtain ⟨s, hs⟩ := List.isPrefixOf_iff_prefix.mp h
  exact ⟨s, by rw [← hs]; simp [pathOf]⟩

theorem takeWhile_prefix {p : Key} : ∀ {l : List (Key × C)}, l.Pairwise (fun a b => a.1 < b.1) →
    (∀ x ∈ l, p ≤ x.1) → (l.takeWhile fun x => startsWith x.1 p) = l.filter fun x => startsWith x.1 p
  | [], _, _ => rfl
  | x :: l, hs, hp => by
    obtain ⟨h1, h2⟩ := List.pairwise_cons.mp hs
    cases hx : startsWith x.1 p with
    | true =>
      rw [List.takeWhile_cons_of_pos (p := fun x : Key × C => startsWith x.1 p) hx,
        List.filter_cons_of_pos (p := fun x : Key × C => startsWith x.1 p) hx,
        takeWhile_prefix h2 fun y hy => hp y (.tail _ hy)]
    | false =>
      rw [List.takeWhile_cons_of_neg (by simp [hx]), eq_comm, List.filter_eq_nil_iff]
      intro y hy h
      rcases List.mem_cons.mp hy with rfl | hy
      · rw [hx] at h; cases h
      · rw [startsWith_convex (hp x List.mem_cons_self) (h1 y hy).le h] at hx
        cases hx

theorem eq_map {α β : Type} {g : β → α} {P : β → Prop} : ∀ {l : List α},
    (∀ x ∈ l, ∃ y : β, x = g y ∧ P y) → ∃ ys : List β, l = ys.map g ∧ ∀ y ∈ ys, P y
  | [], _ => ⟨[], rfl, fun y hy => by cases hy⟩
  | x :: l, h => by
    obtain ⟨y, rfl, h1⟩ := h x List.mem_cons_self
    obtain ⟨ys, rfl, h2⟩ := eq_map fun x hx => h x (.tail _ hx)
    refine ⟨y :: ys, rfl, fun z hz => ?_⟩
    rcases List.mem_cons.mp hz with rfl | hz
    · exact h1
    · exact h2 z hz

theorem mapM_map_ok {α β γ : Type} {f : α → Except Err γ} {g : β → α} {h : β → γ} : ∀ {l : List β},
    (∀ x ∈ l, f (g x) = .ok (h x)) → (l.map g).mapM f = .ok (l.map h)
  | [], _ => rfl
  | x :: l, hl => by
    rw [List.map_cons, List.mapM_cons, hl x List.mem_cons_self, ok_bind,
      mapM_map_ok fun x hx => hl x (.tail _ hx), ok_bind]
    rfl

/-- The entries of a page. -/
theorem pageEntries_spec (hL : L.OK Z) {o : RepoObj C R} {m : Key → Option R}
    (ho : ObjRep L Z w.blocks o m) (collection : Key) {cursor : Option Key}
    (hc : ∀ c, cursor = some c → ∃ s, c = pathOf collection s) : ∃ K : List (Key × R),
      (∀ limit, pageEntries L w o collection limit cursor =
        .ok ((K.take limit).map fun x => (pathOf collection x.1, L.rcid x.2))) ∧
      (K.Pairwise fun a b => pathOf collection a.1 < pathOf collection b.1) ∧
      ∀ k r, (k, r) ∈ K ↔ m (pathOf collection k) = some r ∧
        ∀ c, cursor = some c → c ≤ pathOf collection k := by
  obtain ⟨l, t, hi, ht, _⟩ := ho.tree
  have hf := hL.fuel
  have hb := hi.bound
  have hpre : ∀ s, startsWith (pathOf collection s) (collection ++ ['/']) = true := by
    intro s
    unfold startsWith pathOf
    exact List.isPrefixOf_iff_prefix.mpr ⟨s, by simp⟩
  have htr : truthy cursor = cursor.isSome := by
    cases cursor with
    | none => rfl
    | some c =>
      obtain ⟨s, rfl⟩ := hc c rfl
      unfold pathOf
      cases collection <;> rfl
  -- where the walk starts
  obtain ⟨start, hstart, hle⟩ : ∃ start,
      (if truthy cursor then cursor.getD [] else collection ++ ['/']) = start ∧
      ∀ k, (start ≤ pathOf collection k ↔ ∀ c, cursor = some c → c ≤ pathOf collection k) ∧
        collection ++ ['/'] ≤ start := by
    rw [htr]
    cases cursor with
    | none =>
      refine ⟨_, rfl, fun k => ⟨⟨fun _ c hc => (by cases hc), fun _ => startsWith_le (hpre k)⟩, le_refl _⟩⟩
    | some c =>
      obtain ⟨s, rfl⟩ := hc c rfl
      refine ⟨_, rfl, fun k => ⟨⟨fun h c hc => (by cases hc; exact h), fun h => h _ rfl⟩, startsWith_le (hpre s)⟩⟩
  have hmem : ∀ k v, (k, v) ∈ leaves t ↔ ∃ r, m k = some r ∧ v = L.rcid r := by
    intro k v
    rw [mem_leaves_iff hi.sorted, hi.map]
    show (m k).map L.rcid = some v ↔ _
    cases m k with
    | none => simp
    | some r => simp [eq_comm]
  set F := ((leaves t).filter fun kv => decide (start ≤ kv.1)).filter fun kv =>
    startsWith kv.1 (collection ++ ['/']) with hF
  have hsorted : F.Pairwise fun a b => a.1 < b.1 := (List.Pairwise.filter _ hi.sorted).filter _
  have hent : ∀ limit, pageEntries L w o collection limit cursor = .ok (F.take limit) := by
    intro limit
    unfold pageEntries
    dsimp only
    rw [hstart, show w.rd = nodeIn w.blocks from rfl,
      pageLazy_spec hi.repr hi.wf hi.sorted (by omega),
      takeWhile_prefix (List.Pairwise.filter _ hi.sorted)]
    intro x hx
    have := (List.mem_filter.mp hx).2
    exact (hle []).2.trans (of_decide_eq_true this)
  have hFm : ∀ k v, (k, v) ∈ F ↔ ∃ s r, k = pathOf collection s ∧ v = L.rcid r ∧
      m (pathOf collection s) = some r ∧ ∀ c, cursor = some c → c ≤ pathOf collection s := by
    intro k v
    rw [hF, List.mem_filter, List.mem_filter, hmem]
    constructor
    · rintro ⟨⟨⟨r, h1, h2⟩, h3⟩, h4⟩
      obtain ⟨s, rfl⟩ := startsWith_path h4
      exact ⟨s, r, rfl, h2, h1, (hle s).1.mp (of_decide_eq_true h3)⟩
    · rintro ⟨s, r, rfl, h2, h1, h3⟩
      exact ⟨⟨⟨r, h1, h2⟩, decide_eq_true ((hle s).1.mpr h3)⟩, hpre s⟩
  obtain ⟨K, h1, h2⟩ := eq_map (l := F) (g := fun x : Key × R => (pathOf collection x.1, L.rcid x.2))
    (P := fun x => m (pathOf collection x.1) = some x.2 ∧
      ∀ c, cursor = some c → c ≤ pathOf collection x.1) (by
      rintro ⟨k, v⟩ hx
      obtain ⟨s, r, rfl, rfl, h⟩ := (hFm k v).mp hx
      exact ⟨(s, r), rfl, h⟩)
  refine ⟨K, fun limit => by rw [hent, h1, ← List.map_take], ?_, ?_⟩
  · rw [h1, List.pairwise_map] at hsorted
    exact hsorted
  · intro k r
    refine ⟨fun h => h2 (k, r) h, fun h => ?_⟩
    have := (hFm (pathOf collection k) (L.rcid r)).mpr ⟨k, r, rfl, rfl, h⟩
    rw [h1] at this
    obtain ⟨⟨k', r'⟩, g1, g2⟩ := List.mem_map.mp this
    have hk : pathOf collection k' = pathOf collection k := (Prod.mk.inj g2).1
    have hr' := (h2 _ g1).1
    rw [show pathOf collection (k', r').1 = pathOf collection k from hk, h.1] at hr'
    cases hr'
    unfold pathOf at hk
    have := List.append_cancel_left hk
    cases this
    exact g1

/-- A page shows what it should. -/
theorem C42_page (hL : L.OK Z) (hr : Reach L be .untorn w) {q : Key} {d : Did} (hn : Names cfg be w q d)
    {m : Key → Option R} (hm : Shows L be w d m) {collection : Key} (hs : Supported cfg collection)
    (hcn : collection ≠ []) {limit : Nat} (hl : 1 ≤ limit) {cursor : Option Key}
    (hc : ∀ c, cursor = some c → ∃ s, c = pathOf collection s) :
    ∃ w' p ks, listRecords cfg L be w q collection limit cursor = (w', .ok p) ∧ Loaded w w' ∧
      Reach L be .untorn w' ∧ SameNames be w w' ∧
      (∀ d', isDid d' → ∀ m, Shows L be w' d' m ↔ Shows L be w d' m) ∧
      ShowsPage L d collection m limit cursor p ks := by
  obtain ⟨w1, r, o, h1, h2, h3, h4, h5, h6, h7, h8, h9, h10⟩ := hn.load hL hr (fun h => h)
  have hob : ObjRep L Z w1.blocks o m := by
    obtain ⟨m', hm'⟩ := (h7.inv hL (fun h => h)).1.core.heap r o h2
    have : m' = m := (hm'.shows hL).unique (h9 m hm)
    exact this ▸ hm'
  have hobs := hob.shows hL
  obtain ⟨K, k1, k2, k3⟩ := pageEntries_spec hL hob collection hc
  have hrec : ∀ x ∈ K.take limit, pageRecord L w1 d (pathOf collection x.1, L.rcid x.2) =
      .ok (found L d collection x) := by
    rintro ⟨k, v⟩ hx
    have hk := (k3 k v).mp (List.mem_of_mem_take hx)
    have hg := hobs.paths _ (by rw [hk.1]; simp)
    obtain ⟨l, t, _, ht, _⟩ := hob.tree
    obtain ⟨b, b1, b2⟩ := ht.recs _ _ hk.1
    unfold pageRecord
    have hread : w1.read (L.rcid v) = some b := b1
    dsimp only
    rw [hread]
    dsimp only
    have hsp : pySplit '/' (pathOf collection k) = [collection, k] := pySplit_two.mpr ⟨rfl, grammar_split hg⟩
    rw [hsp]
    dsimp only
    rw [atUri_ok h5 hg, ok_bind, b2]
    rfl
  have hlist : listRecords cfg L be w q collection limit cursor = (w1,
      if (K.take limit).length = limit then
        match (K.take limit).getLast? with
        | none => .error .index
        | some e => .ok ⟨(K.take limit).map (found L d collection), some (pathOf collection e.1)⟩
      else .ok ⟨(K.take limit).map (found L d collection), none⟩) := by
    unfold listRecords
    rw [if_neg (by
        rcases hs with hs | hs
        · exact fun h => h.1 hs
        · exact fun h => h.2 hs), validate_ok hn hs _ _ (.inl rfl)]
    dsimp only
    rw [if_neg hcn, h1]
    dsimp only
    rw [h2]
    dsimp only
    rw [h3]
    dsimp only
    rw [k1, ok_bind, mapM_map_ok hrec, ok_bind, List.length_map]
    split
    · rw [List.getLast?_map]
      cases (K.take limit).getLast? <;> rfl
    · rfl
  have hasc : (K.take limit).Pairwise fun a b => pathOf collection a.1 < pathOf collection b.1 :=
    k2.sublist (List.take_sublist _ _)
  have hcor : ∀ x ∈ K.take limit, m (pathOf collection x.1) = some x.2 ∧
      ∀ c, cursor = some c → c ≤ pathOf collection x.1 := fun x hx => (k3 x.1 x.2).mp (List.mem_of_mem_take hx)
  by_cases hlen : (K.take limit).length = limit
  · obtain ⟨x, hx⟩ : ∃ x, (K.take limit).getLast? = some x := by
      cases hg : (K.take limit).getLast? with
      | none => rw [List.getLast?_eq_none_iff.mp hg] at hlen; simp at hlen; omega
      | some x => exact ⟨x, rfl⟩
    rw [if_pos hlen, hx] at hlist
    refine ⟨w1, _, K.take limit, hlist, h6, h7, h8, h10, rfl, by simp, fun x hx => (hcor x hx).1, hasc,
      fun x hx => (hcor x hx).2, ?_, fun h => (by cases h), ?_⟩
    · intro k v hk hcur
      have hK := (k3 k v).mpr ⟨hk, hcur⟩
      rw [← List.take_append_drop limit K] at hK
      rcases List.mem_append.mp hK with hK | hK
      · exact .inl hK
      · refine .inr ⟨_, rfl, ?_⟩
        rw [← List.take_append_drop limit K, List.pairwise_append] at k2
        exact k2.2.2 x (List.mem_of_getLast? hx) _ hK
    · intro c hc
      cases hc
      exact ⟨hlen, x.1, x.2, hx, rfl⟩
  · rw [if_neg hlen] at hlist
    have hall : K.take limit = K := by
      rw [List.length_take] at hlen
      exact List.take_of_length_le (by omega)
    refine ⟨w1, _, K.take limit, hlist, h6, h7, h8, h10, rfl, by simp, fun x hx => (hcor x hx).1, hasc,
      fun x hx => (hcor x hx).2, ?_, fun _ => (by rw [List.length_take] at hlen ⊢; omega), ?_⟩
    · intro k v hk hcur
      exact .inl (by rw [hall]; exact (k3 k v).mpr ⟨hk, hcur⟩)
    · intro c hc
      cases hc

/-! ### All pages -/

/-- All requests of a client: the worlds in which they are served, and the pages. -/
inductive CrawlRecords (cfg : Config R) (L : Lib C R) (be : Backend) (q collection : Key) (limit : Nat) :
    World C R → Option Key → List (World C R × Page (Found C R)) → Prop
  | last {w w' cursor items} (h : listRecords cfg L be w q collection limit cursor = (w', .ok ⟨items, none⟩)) :
      CrawlRecords cfg L be q collection limit w cursor [(w, ⟨items, none⟩)]
  | more {w w' cursor items c w1 rest}
      (h : listRecords cfg L be w q collection limit cursor = (w', .ok ⟨items, some c⟩))
      (hs : Relation.ReflTransGen (Step L be .untorn) w' w1)
      (h' : CrawlRecords cfg L be q collection limit w1 (some c) rest) :
      CrawlRecords cfg L be q collection limit w cursor ((w, ⟨items, some c⟩) :: rest)

theorem Names.shows (hL : L.OK Z) (hr : Reach L be .untorn w) {q : Key} {d : Did}
    (hn : Names cfg be w q d) : ∃ m, Shows L be w d m := by
  obtain ⟨_, name, k1, k2, k3⟩ := hn
  rcases load_spec (cfg := cfg) (hr.plain hL).1.core k1 k2 with
    ⟨_, h4⟩ | ⟨d', st, w1, r, o, g1, g2, g3, g4, g5, g6, g7⟩
  · exact absurd ((k3 d none).2 ⟨rfl, rfl⟩) (h4 d none)
  · obtain ⟨rfl, rfl⟩ := (k3 d' st).1 g1
    obtain ⟨g8, _⟩ := loadRepo_did hL hr g2 g3 g4
    have hr1 : Reach L be .untorn w1 := by
      have := Step.loadRepo (L := L) (be := be) (al := .untorn) (w := w) name
      rw [g2] at this
      exact .step hr this
    obtain ⟨m, hm⟩ := (hr1.inv hL (fun h => h)).1.core.heap r o g3
    exact ⟨m, w1, r, o, g8, g3, hm.shows hL⟩

theorem reach_run (hr : Reach L be al w) {w' : World C R}
    (h : Relation.ReflTransGen (Step L be al) w w') : Reach L be al w' := by
  induction h with
  | refl => exact hr
  | tail _ h ih => exact .step ih h

section
variable {q : Key} {d : Did} {collection : Key} {limit : Nat}

theorem crawlRecords_spec (hL : L.OK Z) (hl : 1 ≤ limit) (hs : Supported cfg collection)
    (hcn : collection ≠ []) {cursor : Option Key} {pages : List (World C R × Page (Found C R))}
    (h : CrawlRecords cfg L be q collection limit w cursor pages) (hr : Reach L be .untorn w)
    (hn : ∀ x ∈ pages, Names cfg be x.1 q d)
    (hc : ∀ c, cursor = some c → ∃ s, c = pathOf collection s) :
    ∃ kss : List (List (Key × R)),
      List.Forall₂ (fun x ks => ∃ cursor m, Shows L be x.1 d m ∧
        ShowsPage L d collection m limit cursor x.2 ks) pages kss ∧
      kss.flatten.Pairwise (fun a b => pathOf collection a.1 ≤ pathOf collection b.1) ∧
      (∀ x ∈ kss.flatten, ∀ c, cursor = some c → c ≤ pathOf collection x.1) ∧
      ∀ k r, (∀ x ∈ pages, ∀ m, Shows L be x.1 d m → m (pathOf collection k) = some r) →
        (∀ c, cursor = some c → c ≤ pathOf collection k) → (k, r) ∈ kss.flatten := by
  induction h with
  | @last w w' cursor items h =>
    have hn0 := hn _ List.mem_cons_self
    obtain ⟨m, hm⟩ := hn0.shows hL hr
    obtain ⟨w1, p, ks, g1, _, _, _, _, g2⟩ := C42_page hL hr hn0 hm hs hcn hl hc
    rw [h] at g1
    cases g1
    refine ⟨[ks], .cons ⟨cursor, m, hm, g2⟩ .nil, ?_, ?_, ?_⟩
    · simpa using g2.ascending.imp fun h => h.le
    · simpa using g2.after
    · intro k r hk hcur
      rcases g2.complete k r (hk _ List.mem_cons_self m hm) hcur with j | ⟨c, j, _⟩
      · simpa using j
      · cases j
  | @more w w' cursor items c w1 rest h hsteps _ ih =>
    have hn0 := hn _ List.mem_cons_self
    obtain ⟨m, hm⟩ := hn0.shows hL hr
    obtain ⟨w2, p, ks, g1, _, g3, _, _, g2⟩ := C42_page hL hr hn0 hm hs hcn hl hc
    rw [h] at g1
    cases g1
    obtain ⟨_, k0, r0, hlast, rfl⟩ := g2.last c rfl
    obtain ⟨kss, i1, i2, i3, i4⟩ := ih (reach_run g3 hsteps) (fun x hx => hn x (.tail _ hx))
      (fun c hc => ⟨k0, (Option.some.inj hc).symm⟩)
    have hmax : ∀ x ∈ ks, pathOf collection x.1 ≤ pathOf collection k0 := by
      intro x hx
      obtain ⟨ys, hys⟩ := List.getLast?_eq_some_iff.mp hlast
      have := g2.ascending
      rw [hys, List.pairwise_append] at this
      rw [hys] at hx
      rcases List.mem_append.mp hx with hx | hx
      · exact (this.2.2 x hx (k0, r0) (by simp)).le
      · rw [List.mem_singleton.mp hx]
    refine ⟨ks :: kss, .cons ⟨cursor, m, hm, g2⟩ i1, ?_, ?_, ?_⟩
    · rw [List.flatten_cons, List.pairwise_append]
      exact ⟨g2.ascending.imp fun h => h.le, i2, fun a ha b hb => (hmax a ha).trans (i3 b hb _ rfl)⟩
    · intro x hx c hc
      rw [List.flatten_cons] at hx
      rcases List.mem_append.mp hx with hx | hx
      · exact g2.after x hx c hc
      · exact (g2.after _ (List.mem_of_getLast? hlast) c hc).trans (i3 x hx _ rfl)
    · intro k r hk hcur
      rw [List.flatten_cons]
      rcases g2.complete k r (hk _ List.mem_cons_self m hm) hcur with j | ⟨c, j, hlt⟩
      · exact List.mem_append_left _ j
      · cases j
        exact List.mem_append_right _ (i4 k r (fun x hx => hk x (.tail _ hx))
          (fun c hc => by cases hc; exact hlt.le))

/-- Missing from the full claim (here and below): repos of MemoryStorage whose tree in memory a failed
commit has left torn. On DatastoreStorage, `Reach .untorn` is no restriction (`Reach.datastore`).

Whatever happens between the pages: all records that stay there are visited. Every page shows records
of the collection only, and in strictly ascending order of their paths; over all pages the order is
ascending too, so what is shown twice comes last on one page and first on the next: it is at the cursor. -/
theorem C42_crawl_partial (hL : L.OK Z) (hl : 1 ≤ limit) (hs : Supported cfg collection)
    (hcn : collection ≠ []) {pages : List (World C R × Page (Found C R))}
    (h : CrawlRecords cfg L be q collection limit w none pages) (hr : Reach L be .untorn w)
    (hn : ∀ x ∈ pages, Names cfg be x.1 q d) :
    ∃ kss : List (List (Key × R)),
      List.Forall₂ (fun x ks => x.2.items = ks.map (found L d collection) ∧
        (ks.Pairwise fun a b => pathOf collection a.1 < pathOf collection b.1) ∧
        ∃ m, Shows L be x.1 d m ∧ ∀ y ∈ ks, m (pathOf collection y.1) = some y.2) pages kss ∧
      kss.flatten.Pairwise (fun a b => pathOf collection a.1 ≤ pathOf collection b.1) ∧
      ∀ k r, (∀ x ∈ pages, ∀ m, Shows L be x.1 d m → m (pathOf collection k) = some r) →
        (k, r) ∈ kss.flatten := by
  obtain ⟨kss, h1, h2, _, h4⟩ := crawlRecords_spec hL hl hs hcn h hr hn (fun c hc => by cases hc)
  refine ⟨kss, h1.imp ?_, h2, fun k r hk => h4 k r hk (fun c hc => by cases hc)⟩
  rintro x ks ⟨cursor, m, hm, hp⟩
  exact ⟨hp.items, hp.ascending, m, hm, hp.correct⟩

/-- If nothing is written and `limit` is at least 2, the client comes to an end. -/
theorem C42_terminates_partial (hL : L.OK Z) (hl : 2 ≤ limit) (hs : Supported cfg collection)
    (hcn : collection ≠ []) (hr : Reach L be .untorn w) (hn : Names cfg be w q d) {m : Key → Option R}
    (hm : Shows L be w d m) :
    ∃ pages, CrawlRecords cfg L be q collection limit w none pages ∧
      ∀ x ∈ pages, Names cfg be x.1 q d ∧ Shows L be x.1 d m := by
  classical
  obtain ⟨_, _, o, _, ho, _, _, hid, _, hr1, _, hob, _⟩ := hn.load hL hr (fun h => h)
  obtain ⟨m', hm'⟩ := (hr1.inv hL (fun h => h)).1.core.heap _ o ho
  obtain rfl : m' = m := (hm'.shows hL).unique (hob m hm)
  obtain ⟨K, _, _, hK⟩ := pageEntries_spec hL hm' collection (cursor := none) (fun c hc => by cases hc)
  have key : ∀ n (w : World C R) cursor, Reach L be .untorn w → Names cfg be w q d → Shows L be w d m' →
      (∀ c, cursor = some c → ∃ s, c = pathOf collection s) →
      K.countP (fun x => decide (∀ c, cursor = some c → c < pathOf collection x.1)) ≤ n →
      ∃ pages, CrawlRecords cfg L be q collection limit w cursor pages ∧
        ∀ x ∈ pages, Names cfg be x.1 q d ∧ Shows L be x.1 d m' := by
    intro n
    induction n with
    | zero =>
      intro w cursor hr hn hm hc hcount
      obtain ⟨w1, ⟨items, pc⟩, ks, g1, _, g3, g4, g5, g2⟩ := C42_page hL hr hn hm hs hcn (show 1 ≤ limit by omega) hc
      cases pc with
      | none =>
        refine ⟨_, .last g1, fun x hx => ?_⟩
        rw [List.mem_singleton.mp hx]
        exact ⟨hn, hm⟩
      | some c =>
        exfalso
        obtain ⟨hlen, k0, r0, hlast, rfl⟩ := g2.last c rfl
        obtain ⟨ys, rfl⟩ := List.getLast?_eq_some_iff.mp hlast
        have hasc := g2.ascending
        rw [List.pairwise_append] at hasc
        obtain ⟨y, hy⟩ : ∃ y, y ∈ ys := by
          cases ys with
          | nil => simp at hlen; omega
          | cons y _ => exact ⟨y, List.mem_cons_self⟩
        have hlt := hasc.2.2 y hy (k0, r0) (by simp)
        have := List.countP_pos_iff (p := fun x : Key × R =>
            decide (∀ c, cursor = some c → c < pathOf collection x.1)).mpr
          ⟨(k0, r0), (hK k0 r0).mpr ⟨g2.correct (k0, r0) (by simp), fun c hc => by cases hc⟩,
            decide_eq_true fun c hc => lt_of_le_of_lt (g2.after y (by simp [hy]) c hc) hlt⟩
        omega
    | succ n ih =>
      intro w cursor hr hn hm hc hcount
      obtain ⟨w1, ⟨items, pc⟩, ks, g1, _, g3, g4, g5, g2⟩ := C42_page hL hr hn hm hs hcn (show 1 ≤ limit by omega) hc
      cases pc with
      | none =>
        refine ⟨_, .last g1, fun x hx => ?_⟩
        rw [List.mem_singleton.mp hx]
        exact ⟨hn, hm⟩
      | some c =>
        obtain ⟨hlen, k0, r0, hlast, rfl⟩ := g2.last c rfl
        obtain ⟨ys, rfl⟩ := List.getLast?_eq_some_iff.mp hlast
        have hasc := g2.ascending
        rw [List.pairwise_append] at hasc
        obtain ⟨y, hy⟩ : ∃ y, y ∈ ys := by
          cases ys with
          | nil => simp at hlen; omega
          | cons y _ => exact ⟨y, List.mem_cons_self⟩
        have hlt := hasc.2.2 y hy (k0, r0) (by simp)
        have hcur : ∀ c, cursor = some c → c < pathOf collection k0 := fun c hc =>
          lt_of_le_of_lt (g2.after y (by simp [hy]) c hc) hlt
        have : K.countP (fun x => decide (∀ c, some (pathOf collection k0) = some c → c < pathOf collection x.1)) <
            K.countP (fun x => decide (∀ c, cursor = some c → c < pathOf collection x.1)) := by
          refine countP_lt ?_ ⟨(k0, r0), (hK k0 r0).mpr ⟨g2.correct (k0, r0) (by simp), fun c hc => by cases hc⟩,
            decide_eq_true hcur, decide_eq_false fun h => lt_irrefl _ (h _ rfl)⟩
          intro z _ hz
          exact decide_eq_true fun c hc => (hcur c hc).trans (of_decide_eq_true hz _ rfl)
        obtain ⟨pages, j1, j2⟩ := ih w1 (some (pathOf collection k0)) g3 (hn.same g4) ((g5 d hid _).mpr hm)
          (fun c hc => ⟨k0, (Option.some.inj hc).symm⟩) (by omega)
        refine ⟨_, .more g1 .refl j1, fun x hx => ?_⟩
        rcases List.mem_cons.mp hx with rfl | hx
        · exact ⟨hn, hm⟩
        · exact j2 x hx
  exact key _ w none hr hn hm (fun c hc => by cases hc) le_rfl

/-- With a limit of 1 and the cursor of an existing record, the client gets the same record and the same
cursor again, and never comes to an end. -/
theorem C42_one_false (hL : L.OK Z) (hs : Supported cfg collection) (hcn : collection ≠ [])
    (hr : Reach L be .untorn w) (hn : Names cfg be w q d) {m : Key → Option R} (hm : Shows L be w d m)
    {k : Key} {r : R} (hk : m (pathOf collection k) = some r) :
    (listRecords cfg L be w q collection 1 (some (pathOf collection k))).2 =
      .ok ⟨[found L d collection (k, r)], some (pathOf collection k)⟩ := by
  obtain ⟨w1, ⟨items, pc⟩, ks, g1, _, _, _, _, g2⟩ := C42_page hL hr hn hm hs hcn (limit := 1) le_rfl
    (cursor := some (pathOf collection k)) (fun c hc => ⟨k, (Option.some.inj hc).symm⟩)
  have hsize := g2.size
  have hfirst : (k, r) ∈ ks := by
    rcases g2.complete k r hk (fun c hc => by cases hc; exact le_refl _) with h | ⟨c, h, hlt⟩
    · exact h
    · obtain ⟨_, k0, r0, hlast, rfl⟩ := g2.last c h
      exact absurd hlt (not_lt_of_ge (g2.after _ (List.mem_of_getLast? hlast) _ rfl))
  obtain ⟨x, rfl⟩ : ∃ x, ks = [x] := by
    match ks, hsize, hfirst with
    | [x], _, _ => exact ⟨x, rfl⟩
    | _ :: _ :: _, h, _ => simp at h
  obtain rfl := List.mem_singleton.mp hfirst
  have hi := g2.items
  cases pc with
  | none => exact absurd (g2.more rfl) (by simp)
  | some c =>
    obtain ⟨_, k0, r0, hlast, rfl⟩ := g2.last c rfl
    cases hlast
    dsimp only at hi
    rw [g1, hi]
    rfl

/-- With a limit of 0: IndexError. -/
theorem C42_zero (hL : L.OK Z) (hs : Supported cfg collection) (hcn : collection ≠ [])
    (hr : Reach L be .untorn w) (hn : Names cfg be w q d) {m : Key → Option R} (hm : Shows L be w d m) :
    (listRecords cfg L be w q collection 0 none).2 = .error .index := by
  obtain ⟨w1, r, o, h1, h2, h3, h4, h5, h6, h7, h8, h9, h10⟩ := hn.load hL hr (fun h => h)
  obtain ⟨m', hob⟩ := (h7.inv hL (fun h => h)).1.core.heap r o h2
  obtain ⟨K, k1, _⟩ := pageEntries_spec hL hob collection (cursor := none) (fun c hc => by cases hc)
  unfold listRecords
  rw [if_neg (by
      rcases hs with hs | hs
      · exact fun h => h.1 hs
      · exact fun h => h.2 hs), validate_ok hn hs _ _ (.inl rfl)]
  dsimp only
  rw [if_neg hcn, h1]
  dsimp only
  rw [h2]
  dsimp only
  rw [h3]
  dsimp only
  rw [k1, ok_bind]
  rfl

end

/-! ### Examples -/

/-- The URIs on a page of Alice's records, and the cursor. -/
def exPage (be : Backend) (collection : String) (limit : Nat) (cursor : Option String) :
    Except Err (Page Key) :=
  match (listRecords exCfg exL be (exW2 be) exHandle collection.toList limit (cursor.map (·.toList))).2 with
  | .ok p => .ok ⟨p.items.map (·.uri), p.cursor⟩
  | .error e => .error e

/-- Two pages; the cursor record is on both. -/
example (be : Backend) : exPage be "coll" 2 none = .ok ⟨["at://did:plc:alice/coll/a".toList,
      "at://did:plc:alice/coll/c".toList], some "coll/c".toList⟩ ∧
    exPage be "coll" 2 (some "coll/c") = .ok ⟨["at://did:plc:alice/coll/c".toList], none⟩ ∧
    exPage be "col" 2 none = .ok ⟨[], none⟩ ∧
    exPage be "coll" 0 none = .error .index := by
  cases be <;> decide +kernel

end Arroba.Xrpc
