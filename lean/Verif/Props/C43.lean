import Verif.Xrpc.ListProofs
import Verif.Xrpc.Example
import Verif.Storage.PlainReach
import Mathlib.Logic.Relation

/-!
# C43: listRepos pagination is complete

A client asks for page after page with the same limit, each time passing the cursor it got, until it
gets none. Between two pages, anything may happen on the server.
-/

namespace Arroba.Xrpc

open Arroba.Store

variable {C R : Type} [DecidableEq C] {L : Lib C R} {Z : Nat} {be : Backend} {al : Allow}
  {w : World C R}

/-- `load_repo(d)` finds a repo. -/
def RepoExists (be : Backend) (w : World C R) (d : Did) : Prop :=
  ∃ w1 s, loadRepo be w d = (w1, .ok (some s))

/-- What is listed about a repo is what `load_repo` finds: the head, its `rev` unless the head was imported,
and the status. -/
def Correct (L : Lib C R) (be : Backend) (w : World C R) (x : Listed C) : Prop :=
  isDid x.did ∧ ∃ w1 s o b co, loadRepo be w x.did = (w1, .ok (some s)) ∧ w1.heap[s]? = some o ∧
    o.head = some b ∧ b.val = .commit co ∧ co.did = x.did ∧ x.head = L.hash b.val ∧ (1 ≤ b.seq → x.rev = co.rev) ∧
    x.status = if o.status = some .tombstoned then some .deactivated else o.status

/-- Strictly ascending. -/
def Ascending (l : List Key) : Prop := l.Pairwise (· < ·)

/-- All requests of a client, and what it gets altogether; `w'` is the world at the end. -/
inductive Crawl (L : Lib C R) (be : Backend) (al : Allow) (limit : Nat) :
    World C R → Option Key → List (Listed C) → World C R → Prop
  | last {w cursor items} (h : listRepos L be w limit cursor = .ok ⟨items, none⟩) :
      Crawl L be al limit w cursor items w
  | more {w cursor items c w1 rest w'} (h : listRepos L be w limit cursor = .ok ⟨items, some c⟩)
      (hs : Relation.ReflTransGen (Step L be al) w w1)
      (h' : Crawl L be al limit w1 (some c) rest w') :
      Crawl L be al limit w cursor (items ++ rest) w'

/-! ### One page -/

theorem shownStatus_eq (s : Option Status) :
    shownStatus s = if s = some .tombstoned then some .deactivated else s := by
  unfold shownStatus
  split
  · rfl
  · rename_i h
    rw [if_neg (fun he => h he)]

theorem listed_ok (hw : PCore L Z be w.last w.last w) {b b' : Block C R} {co : Commit C}
    (hb' : dictGet w.blocks (L.hash b.val) = some b') (hv : b'.val = b.val) (hc : b.val = .commit co)
    (hs : b'.seq = b.seq) (st : Option Status) :
    ∃ rev, listed L b st = .ok ⟨co.did, L.hash b.val, rev, shownStatus st⟩ ∧ (1 ≤ b.seq → rev = co.rev) := by
  obtain ⟨rev, h, he⟩ : ∃ rev, Tid.intToTid 0 b.seq (some 0) = .ok rev ∧ (1 ≤ b.seq → rev = co.rev) := by
    by_cases h1 : 1 ≤ b.seq
    · exact ⟨co.rev, hs ▸ (hw.blocks.own hb' (hv.trans hc) (hs ▸ h1)).rev, fun _ => rfl⟩
    · have : b.seq = 0 := by omega
      rw [this]
      exact ⟨"2222222222222".toList, by decide +kernel, fun h => by omega⟩
  unfold listed
  rw [hc]
  dsimp only
  rw [h]
  exact ⟨rev, rfl, he⟩

/-- All pages show parts of one list: all repos, in order. -/
theorem loadRepos_spec (hL : L.OK Z) (hr : Reach L be al w) : ∃ l : List (Listed C),
    Ascending (l.map (·.did)) ∧ (∀ x ∈ l, Correct L be w x) ∧
    (∀ d, isDid d → RepoExists be w d → ∃ x ∈ l, x.did = d) ∧
    ∀ limit cursor, loadRepos L be w limit cursor =
      .ok ((l.filter fun x => if truthy cursor then decide (cursor.getD [] < x.did) else true).take limit) := by
  have hw := (hr.plain hL).1.core
  have ht := hr.tables
  cases be with
  | memory =>
    obtain ⟨ys, h1, h2⟩ := mapM_ok (l := w.repos) (f := repoEntry w)
      (P := fun dr (y : Did × Block C R × Option Status) => dr.1 = y.1 ∧ ∃ o, w.heap[dr.2]? = some o ∧
        o.did = some y.1 ∧ o.head = some y.2.1 ∧ y.2.2 = o.status) (by
        intro dr hdr
        obtain ⟨_, o, ho, hd⟩ := hw.repos dr.1 dr.2 hdr
        obtain ⟨b, co, g1, g2, g3⟩ := did_some hd
        exact ⟨(dr.1, b, o.status), by simp only [repoEntry, ho, hd, g1], rfl, o, ho, hd, g1, rfl⟩)
    have hkeys : ys.map (·.1) = w.repos.map (·.1) := forall₂_map (h2.imp fun _ _ h => h.1)
    have hsorted : (sortByDid ys).Pairwise (fun a b => a.1 < b.1) :=
      sortByDid_sorted (by rw [hkeys]; exact ht.repos)
    have hperm := sortByDid_perm ys
    obtain ⟨zs, h3, h4⟩ := mapM_ok (l := sortByDid ys) (f := fun x => listed L x.2.1 x.2.2)
      (P := fun y z => y.1 = z.did ∧ Correct L .memory w z) (by
        intro y hy
        obtain ⟨dr, g1, g2, o, g3, g4, g5, g6⟩ := forall₂_mem h2 (hperm.mem_iff.mp hy)
        obtain ⟨b', co, k1, k2, k3, k4⟩ := (hw.heap _ o g3).head _ g5
        have hdid : co.did = y.1 := by
          have := did_eq g5 k3
          rw [g4] at this
          exact (Option.some.inj this).symm
        have hid : isDid y.1 := hdid ▸ hw.blocks.did k1 (k2.trans k3)
        have hget : dictGet w.repos y.1 = some dr.2 := dictGet_of_mem ht.repos (g2 ▸ g1)
        obtain ⟨rev, e1, e2⟩ := listed_ok hw k1 k2 k3 k4 y.2.2
        refine ⟨_, e1, hdid.symm, ?_⟩
        rw [hdid]
        refine ⟨hid, w, dr.2, o, y.2.1, co, ?_, g3, g5, k3, hdid, rfl, e2, by rw [g6]; exact shownStatus_eq _⟩
        unfold loadRepo
        rw [if_neg (isDid_ne_nil hid)]
        dsimp only
        rw [hw.findRepo hid (l := w.repos) (fun _ h => h), hget])
    have hz : zs.map (·.did) = (sortByDid ys).map (·.1) := forall₂_map (h4.imp fun _ _ h => h.1)
    refine ⟨zs, ?_, ?_, ?_, ?_⟩
    · show List.Pairwise _ _
      rw [hz, List.pairwise_map]
      exact hsorted
    · intro z hz
      obtain ⟨_, _, g⟩ := forall₂_mem h4 hz
      exact g.2
    · rintro d hd ⟨w1, s, hl⟩
      have : dictGet w.repos d = some s := by
        rcases hw.loadDid hd with j | ⟨s', so, b, co', w1', j1, _, _, _, _, _, _, _, _, _, _, j12⟩
        · rw [j] at hl; cases hl
        · rw [j1] at hl; cases hl; exact j12.2
      have hm : d ∈ w.repos.map (·.1) := List.mem_map_of_mem (f := (·.1)) (dictGet_mem this)
      rw [← hkeys] at hm
      have hm : d ∈ (sortByDid ys).map (·.1) := (hperm.map _).mem_iff.mpr hm
      rw [← hz] at hm
      exact List.mem_map.mp hm
    · intro limit cursor
      unfold loadRepos
      dsimp only
      rw [h1, ok_bind]
      have hsel := mapM_select (k := (·.1)) (k' := (·.did))
        (fun d => if truthy cursor then decide (cursor.getD [] < d) else true) limit h3
        (h4.imp fun _ _ h => h.1)
      rw [← hsel]
      congr 2
      by_cases hc : truthy cursor = true
      · simp only [hc, if_true]
        exact dropWhile_sorted hsorted
      · simp only [hc]
        cases sortByDid ys <;> simp
  | datastore =>
    have hsorted : (sortByDid w.rows).Pairwise (fun a b => a.1 < b.1) := sortByDid_sorted ht.rows
    have hperm := sortByDid_perm w.rows
    obtain ⟨zs, h3, h4⟩ := mapM_ok (l := sortByDid w.rows) (f := rowEntry L w)
      (P := fun y z => y.1 = z.did ∧ Correct L .datastore w z) (by
        intro y hy
        have hy := hperm.mem_iff.mp hy
        obtain ⟨_, b, co, k1, k2, k3, _⟩ := hw.rows y.1 y.2 hy
        have hh : L.hash b.val = y.2.head := hw.blocks.addr _ _ k1
        have hid : isDid y.1 := k3 ▸ hw.blocks.did k1 k2
        have hread : w.read y.2.head = some b := k1
        obtain ⟨rev, e1, e2⟩ := listed_ok hw (b := b) (by rw [hh]; exact k1) rfl k2 rfl y.2.status
        refine ⟨⟨co.did, L.hash b.val, rev, shownStatus y.2.status⟩, ?_, k3.symm, ?_⟩
        · unfold rowEntry
          rw [hread]
          dsimp only
          exact e1
        · rw [k3]
          refine ⟨hid, ?_⟩
          have hrow : dictGet w.rows y.1 = some y.2 := dictGet_of_mem ht.rows hy
          rcases hw.loadDid hid with j | ⟨s, so, b', co', w1, j1, j2, j3, j4, j5, j6, j7, j8, j9, j10, j11, j12, row, j13, j14, j15⟩
          · exfalso
            unfold loadRepo at j
            rw [if_neg (isDid_ne_nil hid)] at j
            dsimp only at j
            rw [hw.findRow hid, hrow] at j
            dsimp only at j
            split at j <;> cases j
          · rw [hrow] at j13
            cases j13
            rw [k1] at j14
            cases j14
            rw [k2] at j4
            cases j4
            exact ⟨w1, s, so, b, co, j1, j2, j3, k2, k3, rfl, e2, by rw [j15]; exact shownStatus_eq _⟩)
    have hz : zs.map (·.did) = (sortByDid w.rows).map (·.1) := forall₂_map (h4.imp fun _ _ h => h.1)
    refine ⟨zs, ?_, ?_, ?_, ?_⟩
    · show List.Pairwise _ _
      rw [hz, List.pairwise_map]
      exact hsorted
    · intro z hz
      obtain ⟨_, _, g⟩ := forall₂_mem h4 hz
      exact g.2
    · rintro d hd ⟨w1, s, hl⟩
      obtain ⟨row, this⟩ : ∃ row, dictGet w.rows d = some row := by
        rcases hw.loadDid hd with j | ⟨s', so, b, co', w1', j1, _, _, _, _, _, _, _, _, _, _, _, row, j12, _⟩
        · rw [j] at hl; cases hl
        · exact ⟨row, j12⟩
      have hm : d ∈ w.rows.map (·.1) := List.mem_map_of_mem (f := (·.1)) (dictGet_mem this)
      have hm : d ∈ (sortByDid w.rows).map (·.1) := (hperm.map _).mem_iff.mpr hm
      rw [← hz] at hm
      exact List.mem_map.mp hm
    · intro limit cursor
      unfold loadRepos
      dsimp only
      exact mapM_select (k := (·.1)) (k' := (·.did))
        (fun d => if truthy cursor then decide (cursor.getD [] < d) else true) limit h3
        (h4.imp fun _ _ h => h.1)

/-! ### All pages -/

theorem RepoExists.step (hL : L.OK Z) (hr : Reach L be al w) {w' : World C R} (h : Step L be al w w') {d : Did}
    (hd : isDid d) (he : RepoExists be w d) : RepoExists be w' d := by
  have hp := (hr.plain hL).1
  have hs := Step.plain hL hp h
  have key : ∀ {w : World C R}, PWorld L Z be w → (RepoExists be w d ↔ headOf L be w d ≠ none) := by
    intro w hw
    constructor
    · rintro ⟨w1, s, hl⟩
      rcases hw.core.loadDid hd with j | ⟨s', so, b, co', w1', j1, j2, j3, _, _, _, _, _, _, _, _, j12⟩
      · rw [j] at hl; cases hl
      · cases be with
        | memory =>
          obtain ⟨rfl, j13⟩ := j12
          unfold headOf
          dsimp only
          rw [j13]
          dsimp only
          rw [j2, Option.bind_some, j3]
          simp
        | datastore =>
          obtain ⟨_, row, j13, _⟩ := j12
          unfold headOf
          dsimp only
          rw [j13]
          simp
    · intro hne
      rcases hw.core.loadDid hd with j | ⟨s', so, b, co', w1', j1, _⟩
      · exfalso
        apply hne
        unfold loadRepo at j
        rw [if_neg (isDid_ne_nil hd)] at j
        cases be with
        | memory =>
          dsimp only at j
          rw [hw.core.findRepo hd (l := w.repos) (fun _ h => h)] at j
          unfold headOf
          dsimp only
          cases hg : dictGet w.repos d with
          | none => rfl
          | some r => rw [hg] at j; cases j
        | datastore =>
          dsimp only at j
          rw [hw.core.findRow hd] at j
          unfold headOf
          dsimp only
          cases hg : dictGet w.rows d with
          | none => rfl
          | some r =>
            rw [hg] at j
            dsimp only at j
            split at j <;> cases j
      · exact ⟨w1', s', j1⟩
  rw [key hs.world]
  have he := (key hp).mp he
  cases hs.eff with
  | none h => rw [h]; exact he
  | create d' b co _ _ h => rw [h]; split; simp; exact he
  | commit d' b co _ _ _ _ h => rw [h]; split; simp; exact he
  | «import» d' co _ _ _ h => rw [h]; split; simp; exact he

theorem RepoExists.steps (hL : L.OK Z) (hr : Reach L be al w) {w' : World C R}
    (h : Relation.ReflTransGen (Step L be al) w w') {d : Did} (hd : isDid d) (he : RepoExists be w d) :
    Reach L be al w' ∧ RepoExists be w' d := by
  induction h with
  | refl => exact ⟨hr, he⟩
  | tail _ h ih => exact ⟨.step ih.1 h, ih.2.step hL ih.1 h hd⟩

theorem reach_steps (hr : Reach L be al w) {w' : World C R}
    (h : Relation.ReflTransGen (Step L be al) w w') : Reach L be al w' := by
  induction h with
  | refl => exact hr
  | tail _ h ih => exact .step ih h

/-- The DIDs a cursor lets through. -/
def Beyond (cursor : Option Key) (d : Did) : Prop := ∀ c, cursor = some c → c < d

/-- What a page is: at most `limit` repos, in order, correct, after the cursor, and not leaving out any up
to the last one. If there is a next cursor, it is the last one. -/
structure IsPage (L : Lib C R) (be : Backend) (w : World C R) (limit : Nat) (cursor : Option Key)
    (p : Page (Listed C)) : Prop where
  size : p.items.length ≤ limit
  ascending : Ascending (p.items.map (·.did))
  correct : ∀ x ∈ p.items, Correct L be w x
  after : ∀ x ∈ p.items, Beyond cursor x.did
  complete : ∀ d, isDid d → RepoExists be w d → Beyond cursor d → (∃ x ∈ p.items, x.did = d) ∨
    ∃ c, p.cursor = some c ∧ c < d
  last : ∀ c, p.cursor = some c → (∃ x ∈ p.items, x.did = c) ∧ ∀ x ∈ p.items, x.did ≤ c

theorem C43_page (hL : L.OK Z) (hr : Reach L be al w) {limit : Nat} (hl : 1 ≤ limit)
    {cursor : Option Key} (hc : ∀ c, cursor = some c → c ≠ []) :
    ∃ p, listRepos L be w limit cursor = .ok p ∧ IsPage L be w limit cursor p := by
  obtain ⟨l, h1, h2, h3, h4⟩ := loadRepos_spec hL hr
  have hp : ∀ x : Listed C, (if truthy cursor then decide (cursor.getD [] < x.did) else true) = true ↔
      Beyond cursor x.did := by
    intro x
    cases cursor with
    | none => simp [truthy, Beyond]
    | some c =>
      have ht : truthy (some c) = true := by
        cases c with
        | nil => exact absurd rfl (hc _ rfl)
        | cons => rfl
      simp [ht, Beyond]
  set l' := l.filter fun x => if truthy cursor then decide (cursor.getD [] < x.did) else true with hl'
  have hmem : ∀ x, x ∈ l' ↔ x ∈ l ∧ Beyond cursor x.did := by
    intro x
    rw [hl', List.mem_filter, hp]
  have hasc : Ascending (l'.map (·.did)) := by
    unfold Ascending at h1 ⊢
    rw [List.pairwise_map] at h1 ⊢
    exact h1.sublist List.filter_sublist
  have hasc' : Ascending ((l'.take limit).map (·.did)) := by
    unfold Ascending at hasc ⊢
    rw [List.pairwise_map] at hasc ⊢
    exact hasc.sublist (List.take_sublist _ _)
  have htake : ∀ x ∈ l'.take limit, x ∈ l ∧ Beyond cursor x.did := fun x hx =>
    (hmem x).mp (List.mem_of_mem_take hx)
  unfold listRepos
  rw [h4, ok_bind]
  by_cases hlen : (l'.take limit).length = limit
  · rw [if_pos hlen]
    obtain ⟨x, hx⟩ : ∃ x, (l'.take limit).getLast? = some x := by
      cases hg : (l'.take limit).getLast? with
      | none => rw [List.getLast?_eq_none_iff.mp hg] at hlen; simp at hlen; omega
      | some x => exact ⟨x, rfl⟩
    rw [hx]
    obtain ⟨ys, hys⟩ := List.getLast?_eq_some_iff.mp hx
    have hmax : ∀ y ∈ l'.take limit, y.did ≤ x.did := by
      intro y hy
      unfold Ascending at hasc'
      rw [hys, List.map_append, List.pairwise_append] at hasc'
      rw [hys] at hy
      rcases List.mem_append.mp hy with hy | hy
      · exact (hasc'.2.2 _ (List.mem_map_of_mem hy) x.did (by simp)).le
      · rw [List.mem_singleton.mp hy]
    refine ⟨_, rfl, ⟨by simp, hasc', fun y hy => h2 y (htake y hy).1, fun y hy => (htake y hy).2, ?_, ?_⟩⟩
    · intro d hd he ha
      obtain ⟨y, g1, rfl⟩ := h3 d hd he
      have hy : y ∈ l' := (hmem y).mpr ⟨g1, ha⟩
      rw [← List.take_append_drop limit l'] at hy
      rcases List.mem_append.mp hy with hy | hy
      · exact .inl ⟨y, hy, rfl⟩
      · refine .inr ⟨x.did, rfl, ?_⟩
        unfold Ascending at hasc
        rw [← List.take_append_drop limit l', List.map_append, List.pairwise_append] at hasc
        exact hasc.2.2 _ (List.mem_map_of_mem (by rw [hys]; simp)) _ (List.mem_map_of_mem hy)
    · intro c hc
      cases hc
      exact ⟨⟨x, by rw [hys]; simp, rfl⟩, hmax⟩
  · rw [if_neg hlen]
    have hall : l'.take limit = l' := by
      rw [List.length_take] at hlen
      exact List.take_of_length_le (by omega)
    refine ⟨_, rfl, ⟨by simp, hasc', fun y hy => h2 y (htake y hy).1, fun y hy => (htake y hy).2, ?_, ?_⟩⟩
    · intro d hd he ha
      obtain ⟨y, g1, rfl⟩ := h3 d hd he
      exact .inl ⟨y, by rw [hall]; exact (hmem y).mpr ⟨g1, ha⟩, rfl⟩
    · intro c hc
      cases hc

theorem Crawl.steps {limit : Nat} {cursor : Option Key} {l : List (Listed C)} {w' : World C R}
    (h : Crawl L be al limit w cursor l w') : Relation.ReflTransGen (Step L be al) w w' := by
  induction h with
  | last => exact .refl
  | more _ hs _ ih => exact hs.trans ih

theorem crawl_spec (hL : L.OK Z) {limit : Nat} (hl : 1 ≤ limit) {cursor : Option Key} {l : List (Listed C)}
    {w' : World C R} (h : Crawl L be al limit w cursor l w') (hr : Reach L be al w)
    (hc : ∀ c, cursor = some c → c ≠ []) :
    Ascending (l.map (·.did)) ∧ (∀ x ∈ l, Beyond cursor x.did) ∧
    (∀ d, isDid d → RepoExists be w d → Beyond cursor d → ∃ x ∈ l, x.did = d) ∧
    ∀ x ∈ l, ∃ wx, Relation.ReflTransGen (Step L be al) w wx ∧ Relation.ReflTransGen (Step L be al) wx w' ∧
      Correct L be wx x := by
  induction h with
  | @last w cursor items h =>
    obtain ⟨p, h1, h2⟩ := C43_page hL hr hl hc
    rw [h] at h1
    cases h1
    refine ⟨h2.ascending, h2.after, ?_, fun x hx => ⟨w, .refl, .refl, h2.correct x hx⟩⟩
    intro d hd he ha
    rcases h2.complete d hd he ha with g | ⟨c, g, _⟩
    · exact g
    · cases g
  | @more w cursor items c w1 rest w' h hs hrest ih =>
    obtain ⟨p, h1, h2⟩ := C43_page hL hr hl hc
    rw [h] at h1
    cases h1
    obtain ⟨⟨x, hx, rfl⟩, hmax⟩ := h2.last c rfl
    have hne : x.did ≠ [] := isDid_ne_nil (h2.correct x hx).1
    obtain ⟨i1, i2, i3, i4⟩ := ih (reach_steps hr hs) (fun c hc => by cases hc; exact hne)
    have hw' := hrest.steps
    refine ⟨?_, ?_, ?_, ?_⟩
    · unfold Ascending
      rw [List.map_append, List.pairwise_append]
      refine ⟨h2.ascending, i1, ?_⟩
      intro a ha b hb
      obtain ⟨y, hy, rfl⟩ := List.mem_map.mp ha
      obtain ⟨z, hz, rfl⟩ := List.mem_map.mp hb
      exact lt_of_le_of_lt (hmax y hy) (i2 z hz _ rfl)
    · intro y hy
      rcases List.mem_append.mp hy with hy | hy
      · exact h2.after y hy
      · intro c hc
        exact (h2.after x hx c hc).trans (i2 y hy _ rfl)
    · intro d hd he ha
      rcases h2.complete d hd he ha with ⟨y, hy, g⟩ | ⟨c, g, hlt⟩
      · exact ⟨y, List.mem_append_left _ hy, g⟩
      · cases g
        obtain ⟨y, hy, g⟩ := i3 d hd (RepoExists.steps hL hr hs hd he).2 (fun c hc => by cases hc; exact hlt)
        exact ⟨y, List.mem_append_right _ hy, g⟩
    · intro y hy
      rcases List.mem_append.mp hy with hy | hy
      · exact ⟨w, .refl, hs.trans hw', h2.correct y hy⟩
      · obtain ⟨wx, g1, g2, g3⟩ := i4 y hy
        exact ⟨wx, hs.trans g1, g2, g3⟩

/-- Whatever happens between the pages: the repos are listed in DID order and none twice; every repo that
exists when the client starts is listed; and what is listed is correct at some time while the client is at
it. -/
theorem C43_crawl (hL : L.OK Z) {limit : Nat} (hl : 1 ≤ limit) (hr : Reach L be al w)
    {l : List (Listed C)} {w' : World C R} (h : Crawl L be al limit w none l w') :
    Ascending (l.map (·.did)) ∧
    (∀ d, isDid d → RepoExists be w d → ∃ x ∈ l, x.did = d) ∧
    ∀ x ∈ l, ∃ wx, Relation.ReflTransGen (Step L be al) w wx ∧ Relation.ReflTransGen (Step L be al) wx w' ∧
      Correct L be wx x := by
  obtain ⟨h1, _, h3, h4⟩ := crawl_spec hL hl h hr (fun c hc => by cases hc)
  exact ⟨h1, fun d hd he => h3 d hd he (fun c hc => by cases hc), h4⟩

theorem countP_lt {α : Type} {p q : α → Bool} : ∀ {l : List α}, (∀ x ∈ l, p x = true → q x = true) →
    (∃ x ∈ l, q x = true ∧ p x = false) → l.countP p < l.countP q
  | [], _, ⟨_, h, _⟩ => by cases h
  | y :: l, h, ⟨x, hx, h1, h2⟩ => by
    rw [List.countP_cons, List.countP_cons]
    have hle : l.countP p ≤ l.countP q := List.countP_mono_left fun x hx => h x (.tail _ hx)
    rcases List.mem_cons.mp hx with rfl | hx
    · rw [h1, h2]
      simp
      omega
    · have := countP_lt (fun x hx => h x (.tail _ hx)) ⟨x, hx, h1, h2⟩
      have hy := h y List.mem_cons_self
      cases hp : p y
      · simp
        split <;> omega
      · rw [hy hp]
        simp
        exact this

/-- If no repo changes, the client comes to an end, and it has got exactly the repos. -/
theorem C43_terminates (hL : L.OK Z) {limit : Nat} (hl : 1 ≤ limit) (hr : Reach L be al w) :
    ∃ l, Crawl L be al limit w none l w ∧ Ascending (l.map (·.did)) ∧ (∀ x ∈ l, Correct L be w x) ∧
      ∀ d, isDid d → (RepoExists be w d ↔ ∃ x ∈ l, x.did = d) := by
  classical
  obtain ⟨all, _, _, hall, _⟩ := loadRepos_spec hL hr
  have key : ∀ n cursor, (∀ c, cursor = some c → c ≠ []) →
      all.countP (fun x => decide (Beyond cursor x.did)) ≤ n →
      ∃ l, Crawl L be al limit w cursor l w ∧ ∀ x ∈ l, Correct L be w x := by
    intro n
    induction n with
    | zero =>
      intro cursor hc hn
      obtain ⟨p, h1, h2⟩ := C43_page hL hr hl hc
      obtain ⟨items, pc⟩ := p
      cases pc with
      | none => exact ⟨items, .last h1, h2.correct⟩
      | some c =>
        exfalso
        obtain ⟨⟨x, hx, rfl⟩, _⟩ := h2.last c rfl
        obtain ⟨hd, w1, s, _, _, _, hload, _⟩ := h2.correct x hx
        obtain ⟨y, hy, hyd⟩ := hall x.did hd ⟨w1, s, hload⟩
        have := List.countP_pos_iff (p := fun x : Listed C => decide (Beyond cursor x.did)).mpr
          ⟨y, hy, decide_eq_true (hyd ▸ h2.after x hx)⟩
        omega
    | succ n ih =>
      intro cursor hc hn
      obtain ⟨p, h1, h2⟩ := C43_page hL hr hl hc
      obtain ⟨items, pc⟩ := p
      cases pc with
      | none => exact ⟨items, .last h1, h2.correct⟩
      | some c =>
        obtain ⟨⟨x, hx, rfl⟩, _⟩ := h2.last c rfl
        obtain ⟨hd, w1, s, _, _, _, hload, _⟩ := h2.correct x hx
        obtain ⟨y, hy, hyd⟩ := hall x.did hd ⟨w1, s, hload⟩
        have hlt : all.countP (fun x' => decide (Beyond (some x.did) x'.did)) <
            all.countP (fun x => decide (Beyond cursor x.did)) := by
          refine countP_lt ?_ ⟨y, hy, decide_eq_true (hyd ▸ h2.after x hx), decide_eq_false ?_⟩
          · intro z _ hz
            refine decide_eq_true fun c hc => ?_
            exact (h2.after x hx c hc).trans (of_decide_eq_true hz _ rfl)
          · intro hb
            have := hb _ rfl
            rw [hyd] at this
            exact lt_irrefl _ this
        obtain ⟨l, g1, g2⟩ := ih (some x.did) (fun c hc => by cases hc; exact isDid_ne_nil hd) (by omega)
        refine ⟨items ++ l, .more h1 .refl g1, fun z hz => ?_⟩
        rcases List.mem_append.mp hz with hz | hz
        · exact h2.correct z hz
        · exact g2 z hz
  obtain ⟨l, h1, h2⟩ := key _ none (fun c hc => by cases hc) le_rfl
  obtain ⟨h3, h4, _⟩ := C43_crawl hL hl hr h1
  refine ⟨l, h1, h3, h2, fun d hd => ⟨h4 d hd, ?_⟩⟩
  rintro ⟨x, hx, rfl⟩
  obtain ⟨_, w1, s, _, _, _, hload, _⟩ := h2 x hx
  exact ⟨w1, s, hload⟩

/-- With `limit` 0 there is no page: IndexError. -/
theorem C43_zero (hL : L.OK Z) (hr : Reach L be al w) (cursor : Option Key) :
    listRepos L be w 0 cursor = .error .index := by
  obtain ⟨l, _, _, _, h4⟩ := loadRepos_spec hL hr
  unfold listRepos
  rw [h4, ok_bind]
  simp

/-! ### Examples -/

/-- Two repos on two pages, and a third, empty page: the second one is full. -/
example (be : Backend) :
    listRepos exL be (exInactive be) 1 none = .ok ⟨[⟨exDid, (readHead exL be (exInactive be) exDid).getD (.record 0),
      "2222222222d22".toList, some .deactivated⟩], some exDid⟩ ∧
    listRepos exL be (exInactive be) 1 (some exDid) = .ok ⟨[⟨exDid2, (readHead exL be (exInactive be) exDid2).getD (.record 0),
      "2222222222722".toList, none⟩], some exDid2⟩ ∧
    listRepos exL be (exInactive be) 1 (some exDid2) = .ok ⟨[], none⟩ := by
  cases be <;> decide +kernel

end Arroba.Xrpc
