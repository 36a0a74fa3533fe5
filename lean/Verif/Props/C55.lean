import Verif.Blob.Runs
import Verif.Blob.TableProofs
import Verif.Xrpc.Example

/-!
# C55: listBlobs lists the blobs of a repo

A client asks for page after page with the same limit, each time passing the cursor it got, until it
gets none. Anything may happen between two pages.
-/

namespace Arroba.Blob

open Arroba.Store

variable {C R : Type} [DecidableEq C] {cfg : Xrpc.Config R} {be : Backend} {bcfg : Config} {S : Key → Prop}
  {log : List (Key × Key)}

/-- The blob with the key `k`, that is for the URL `k`, has the CID `c` and belongs to the repo. -/
def Shown (t : Table) (did k c : Key) : Prop :=
  ∃ e, dictGet t k = some e ∧ did ∈ e.repos ∧ e.blob.cid = some c ∧ c ≠ []

/-- All requests of a client and the CIDs it gets altogether. The list has the states in which the pages
are answered; nothing is assumed of how they come about. -/
inductive Crawl (cfg : Xrpc.Config R) (be : Backend) (did : Key) (limit : Nat) :
    List (World C R × Table) → Option Key → List Key → Prop
  | last {w t cursor cids}
      (h : (Xrpc.listBlobs cfg be w t did none limit cursor).2 = .ok ⟨cids, none⟩) :
      Crawl cfg be did limit [(w, t)] cursor cids
  | more {w t cursor cids c rest cids'}
      (h : (Xrpc.listBlobs cfg be w t did none limit cursor).2 = .ok ⟨cids, some c⟩)
      (h' : Crawl cfg be did limit rest (some c) cids') :
      Crawl cfg be did limit ((w, t) :: rest) cursor (cids ++ cids')

theorem listBlobs_ok {w : World C R} {t : Table} {did : Key} {limit : Nat} {cursor : Option Key}
    {p : Xrpc.Page Key} (h : (Xrpc.listBlobs cfg be w t did none limit cursor).2 = .ok p) :
    blobPage (blobRows t did limit cursor) limit = .ok p := by
  unfold Xrpc.listBlobs at h
  rw [if_neg (by simp [Xrpc.truthy])] at h
  split at h
  · cases h
  · exact h

theorem Run.ok {t : Table} {mem : List (Key × Entity)} (h : Run bcfg S t mem log) :
    t.OK ∧ ∀ x ∈ mem, x.1 ≠ [] := by
  induction h with
  | empty => exact ⟨.empty, fun _ h => nomatch h⟩
  | start h now hu hs repo ih =>
    refine ⟨getOrInsert_ok ih.1 hu, ?_⟩
    intro x hx
    rcases List.mem_cons.mp hx with rfl | hx
    · exact urlKey_ne hu
    · exact ih.2 x hx
  | query h hg ih =>
    refine ⟨ih.1, ?_⟩
    intro x hx
    rcases List.mem_cons.mp hx with rfl | hx
    · exact ih.1.keys _ (dictGet_mem hg)
    · exact ih.2 x hx
  | fetch h hm ha web now ih =>
    have := ih.2 _ hm
    refine ⟨fetchEntity_ok ih.1 this, ?_⟩
    intro x hx
    rcases List.mem_cons.mp hx with rfl | hx
    · exact this
    · exact ih.2 x hx

theorem crawl_spec {did : Key} {limit : Nat} (hl : 1 ≤ limit) {ss : List (World C R × Table)}
    {cursor : Option Key} {cids : List Key} (h : Crawl cfg be did limit ss cursor cids)
    (hok : ∀ s ∈ ss, s.2.OK) (hc : ∀ c, cursor = some c → c ≠ []) :
    ∃ rows : List (Key × Entity), cids = cidsOf rows ∧ (rows.map (·.1)).Pairwise (· < ·) ∧
      (∀ x ∈ rows, Beyond cursor x.1 ∧ did ∈ x.2.repos ∧ ∃ s ∈ ss, x ∈ s.2) ∧
      (∀ k, Beyond cursor k → (∀ s ∈ ss, ∃ e, (k, e) ∈ s.2 ∧ did ∈ e.repos) →
        ∃ s ∈ ss, ∃ e, (k, e) ∈ s.2 ∧ (k, e) ∈ rows) ∧
      limit * (ss.length - 1) ≤ rows.length := by
  induction h with
  | @last w t cursor cids h =>
    have ht : t.OK := hok (w, t) List.mem_cons_self
    obtain ⟨sel, next, h1, h2⟩ := page_spec ht (did := did) hl hc
    rw [listBlobs_ok h] at h1
    cases h1
    refine ⟨sel, rfl, h2.ascending, ?_, ?_, by simp⟩
    · intro x hx
      obtain ⟨g1, g2, g3⟩ := h2.mem x hx
      exact ⟨g3, g2, (w, t), List.mem_cons_self, g1⟩
    · intro k hk hs
      obtain ⟨e, g1, g2⟩ := hs (w, t) List.mem_cons_self
      rcases h2.complete _ g1 g2 hk with g | ⟨c, g, _⟩
      · exact ⟨(w, t), List.mem_cons_self, e, g1, g⟩
      · cases g
  | @more w t cursor cids c rest cids' h h' ih =>
    have ht : t.OK := hok (w, t) List.mem_cons_self
    obtain ⟨sel, next, h1, h2⟩ := page_spec ht (did := did) hl hc
    rw [listBlobs_ok h] at h1
    cases h1
    obtain ⟨hlen, ⟨x, hx, rfl⟩, hmax⟩ := h2.more c rfl
    have hxk : x.1 ≠ [] := ht.keys x (h2.mem x hx).1
    obtain ⟨rows, i1, i2, i3, i4, i5⟩ := ih (fun s hs => hok s (.tail _ hs))
      (fun c hc => by cases hc; exact hxk)
    have hne : 1 ≤ rest.length := by cases h' <;> simp
    refine ⟨sel ++ rows, ?_, ?_, ?_, ?_, ?_⟩
    · rw [i1]; unfold cidsOf; rw [List.filterMap_append]
    · rw [List.map_append, List.pairwise_append]
      refine ⟨h2.ascending, i2, ?_⟩
      intro a ha b hb
      obtain ⟨y, hy, rfl⟩ := List.mem_map.mp ha
      obtain ⟨z, hz, rfl⟩ := List.mem_map.mp hb
      exact lt_of_le_of_lt (hmax y hy) ((i3 z hz).1 _ rfl)
    · intro y hy
      rcases List.mem_append.mp hy with hy | hy
      · obtain ⟨g1, g2, g3⟩ := h2.mem y hy
        exact ⟨g3, g2, (w, t), List.mem_cons_self, g1⟩
      · obtain ⟨g1, g2, s, g3, g4⟩ := i3 y hy
        refine ⟨?_, g2, s, .tail _ g3, g4⟩
        intro c hc
        exact ((h2.mem x hx).2.2 c hc).trans (g1 _ rfl)
    · intro k hk hs
      obtain ⟨e, g1, g2⟩ := hs (w, t) List.mem_cons_self
      rcases h2.complete _ g1 g2 hk with g | ⟨c, g, hlt⟩
      · exact ⟨(w, t), List.mem_cons_self, e, g1, List.mem_append_left _ g⟩
      · cases g
        obtain ⟨s, j1, e, j2, j3⟩ := i4 k (fun c hc => by cases hc; exact hlt) (fun s hs' => hs s (.tail _ hs'))
        exact ⟨s, .tail _ j1, e, j2, List.mem_append_right _ j3⟩
    · rw [List.length_append, hlen]
      have : (rest.length + 1 - 1) = (rest.length - 1) + 1 := by omega
      rw [List.length_cons, this, Nat.mul_add]
      omega

/-- The pairs of URL key and CID behind the CIDs of rows. -/
def pairsOf (rows : List (Key × Entity)) : List (Key × Key) :=
  rows.filterMap fun x => (x.2.blob.cid.filter (· ≠ [])).map fun c => (x.1, c)

theorem mem_pairsOf {rows : List (Key × Entity)} {k c : Key} :
    (k, c) ∈ pairsOf rows ↔ c ≠ [] ∧ ∃ e, (k, e) ∈ rows ∧ e.blob.cid = some c := by
  unfold pairsOf
  rw [List.mem_filterMap]
  constructor
  · rintro ⟨⟨k', e⟩, h1, h2⟩
    obtain ⟨c', h3, h4⟩ := Option.map_eq_some_iff.mp h2
    cases h4
    obtain ⟨h5, h6⟩ := Option.filter_eq_some_iff.mp h3
    exact ⟨by simpa using h6, e, h1, h5⟩
  · rintro ⟨h1, e, h2, h3⟩
    refine ⟨(k, e), h2, ?_⟩
    dsimp only
    rw [h3]
    simp [Option.filter, h1]

theorem pairsOf_cids (rows : List (Key × Entity)) : (pairsOf rows).map (·.2) = cidsOf rows := by
  unfold pairsOf cidsOf
  rw [List.map_filterMap]
  congr 1
  funext x
  cases (x.2.blob.cid.filter (· ≠ [])) <;> rfl

theorem pairsOf_keys (rows : List (Key × Entity)) : ((pairsOf rows).map (·.1)).Sublist (rows.map (·.1)) := by
  induction rows with
  | nil => exact .slnil
  | cons x l ih =>
    unfold pairsOf at ih ⊢
    rw [List.filterMap_cons]
    cases hc : (x.2.blob.cid.filter (· ≠ [])) with
    | none => exact .cons _ ih
    | some c => exact .cons_cons _ ih

/-- **Whatever happens between the pages**, also concurrently: blobs are listed in the order of their
URLs, none twice; each belongs to the repo, with that CID, in the state of one of the pages; and every
blob that belongs to the repo with the same CID all the while is listed. -/
theorem C55_crawl {did : Key} {limit : Nat} (hl : 1 ≤ limit) {ss : List (World C R × Table)}
    (hrun : ∀ s ∈ ss, ∃ mem log, Run bcfg S s.2 mem log) {cids : List Key}
    (h : Crawl cfg be did limit ss none cids) :
    ∃ blobs : List (Key × Key), cids = blobs.map (·.2) ∧ (blobs.map (·.1)).Pairwise (· < ·) ∧
      (∀ x ∈ blobs, ∃ s ∈ ss, Shown s.2 did x.1 x.2) ∧
      ∀ k c, (∀ s ∈ ss, Shown s.2 did k c) → (k, c) ∈ blobs := by
  have hok : ∀ s ∈ ss, s.2.OK := fun s hs => let ⟨_, _, hr⟩ := hrun s hs; hr.ok.1
  obtain ⟨rows, h1, h2, h3, h4, _⟩ := crawl_spec hl h hok (fun c hc => by cases hc)
  refine ⟨pairsOf rows, by rw [h1, pairsOf_cids], h2.sublist (pairsOf_keys rows), ?_, ?_⟩
  · rintro ⟨k, c⟩ hx
    obtain ⟨g1, e, g2, g3⟩ := mem_pairsOf.mp hx
    obtain ⟨_, g4, s, g5, g6⟩ := h3 _ g2
    exact ⟨s, g5, e, dictGet_of_mem (hok s g5).nodup g6, g4, g3, g1⟩
  · intro k c hs
    obtain ⟨s, g1, e, g2, g3⟩ := h4 k (fun c hc => by cases hc) (by
      intro s hs'
      obtain ⟨e, j1, j2, _⟩ := hs s hs'
      exact ⟨e, dictGet_mem j1, j2⟩)
    obtain ⟨e', j1, _, j3, j4⟩ := hs s g1
    have : dictGet s.2 k = some e := dictGet_of_mem (hok s g1).nodup g2
    rw [j1] at this
    cases this
    exact mem_pairsOf.mpr ⟨j4, e, g3, j3⟩

/-- If nothing changes in between, it is exactly the blobs of the repo. -/
theorem C55_exact {did : Key} {limit : Nat} (hl : 1 ≤ limit) {ss : List (World C R × Table)} {t : Table}
    {mem : List (Key × Entity)} (hrun : Run bcfg S t mem log) (hst : ∀ s ∈ ss, s.2 = t) {cids : List Key}
    (h : Crawl cfg be did limit ss none cids) :
    ∃ blobs : List (Key × Key), cids = blobs.map (·.2) ∧ (blobs.map (·.1)).Pairwise (· < ·) ∧
      ∀ k c, (k, c) ∈ blobs ↔ Shown t did k c := by
  obtain ⟨blobs, h1, h2, h3, h4⟩ := C55_crawl hl (bcfg := bcfg) (S := S)
    (fun s hs => by rw [hst s hs]; exact ⟨mem, log, hrun⟩) h
  refine ⟨blobs, h1, h2, fun k c => ⟨fun hx => ?_, fun hx => h4 k c fun s hs => by rw [hst s hs]; exact hx⟩⟩
  obtain ⟨s, g1, g2⟩ := h3 _ hx
  rw [hst s g1] at g2
  exact g2

/-- The client gets to the end: every page but the last has `limit` further URLs, so if all URLs are
among `urls`, there are at most `urls.length / limit + 1` pages. -/
theorem C55_terminates {did : Key} {limit : Nat} (hl : 1 ≤ limit) {ss : List (World C R × Table)}
    (hrun : ∀ s ∈ ss, ∃ mem log, Run bcfg S s.2 mem log) {cids : List Key}
    (h : Crawl cfg be did limit ss none cids) {urls : List Key}
    (hurls : ∀ s ∈ ss, ∀ x ∈ s.2, x.1 ∈ urls) : limit * (ss.length - 1) ≤ urls.length := by
  have hok : ∀ s ∈ ss, s.2.OK := fun s hs => let ⟨_, _, hr⟩ := hrun s hs; hr.ok.1
  obtain ⟨rows, _, h2, h3, _, h5⟩ := crawl_spec hl h hok (fun c hc => by cases hc)
  have hnd : (rows.map (·.1)).Nodup := h2.imp fun h => ne_of_lt h
  have hsub : rows.map (·.1) ⊆ urls := by
    intro k hk
    obtain ⟨x, hx, rfl⟩ := List.mem_map.mp hk
    obtain ⟨_, _, s, g1, g2⟩ := h3 x hx
    exact hurls s g1 x g2
  have := (List.subperm_of_subset hnd hsub).length_le
  rw [List.length_map] at this
  omega

/-- A page is answered exactly if the repo is there and active, whatever the table holds. -/
theorem C55_answers {t : Table} {mem : List (Key × Entity)} (hrun : Run bcfg S t mem log) {w w' : World C R}
    {did : Key} {limit : Nat} (hl : 1 ≤ limit) {cursor : Option Key} (hc : ∀ c, cursor = some c → c ≠ []) :
    (∀ r, Xrpc.load cfg be w did = (w', .ok r) →
      ∃ p, Xrpc.listBlobs cfg be w t did none limit cursor = (w', .ok p)) ∧
    ∀ e, Xrpc.load cfg be w did = (w', .error e) →
      Xrpc.listBlobs cfg be w t did none limit cursor = (w', .error e) := by
  unfold Xrpc.listBlobs
  rw [if_neg (by simp [Xrpc.truthy])]
  refine ⟨fun r h => ?_, fun e h => by rw [h]⟩
  rw [h]
  obtain ⟨sel, next, h1, _⟩ := page_spec hrun.ok.1 (did := did) hl hc
  dsimp only
  rw [h1]
  exact ⟨_, rfl⟩

theorem Seq.ok {t : Table} {calls : List (Key × Option Key)} (h : Seq bcfg t calls) : t.OK := by
  induction h with
  | empty => exact .empty
  | create h web mimeOk maxSize now hu repo ih =>
    unfold getOrCreateIn
    exact finish_ok (getOrInsert_ok ih hu) hu
  | getBlob h web now hr ih =>
    refine getBlobLoop_ok ih ?_
    intro x hx
    exact ih.keys x (List.mem_filter.mp (hr.1.mem_iff.mp hx)).1

theorem IsResult.rows {t : Table} (h : t.OK) {cid : Key} {rows : List (Key × Entity)} (hr : IsResult t cid rows) :
    (rows.map (·.1)).Nodup ∧ ∀ x ∈ rows, dictGet t x.1 = some x.2 := by
  constructor
  · rw [(hr.1.map _).nodup_iff]
    exact h.nodup.sublist (List.filter_sublist.map _)
  · intro x hx
    exact dictGet_of_mem h.nodup (List.mem_filter.mp (hr.1.mem_iff.mp hx)).1

theorem getBlobLoop_run {web : Key → Resp} {now : Int} : ∀ {rows : List (Key × Entity)} {t : Table}
    {mem : List (Key × Entity)} {log : List (Key × Key)}, Run bcfg S t mem log → (rows.map (·.1)).Nodup →
    (∀ x ∈ rows, dictGet t x.1 = some x.2) →
    ∃ mem log, Run bcfg S (getBlobLoop bcfg web now t rows).1 mem log
  | [], _, mem, log, h, _, _ => ⟨mem, log, h⟩
  | (key, e) :: rest, t, mem, log, h, hn, hg => by
    rw [List.map_cons, List.nodup_cons] at hn
    have hrest : ∀ x ∈ rest, dictGet (fetchEntity bcfg web t now key e).1 x.1 = some x.2 := by
      intro x hx
      rw [fetchEntity_get]
      · exact hg x (.tail _ hx)
      · rintro he
        exact hn.1 (he ▸ List.mem_map_of_mem (f := (·.1)) hx)
    unfold getBlobLoop
    split
    · exact getBlobLoop_run h hn.2 fun x hx => hg x (.tail _ hx)
    · rename_i hi
      have hr := Run.fetch (.query h (hg _ List.mem_cons_self)) List.mem_cons_self (by simpa using hi) web now
      split <;> rename_i hf <;> rw [hf] at hrest hr
      · exact getBlobLoop_run hr hn.2 hrest
      · exact getBlobLoop_run hr hn.2 hrest
      · exact ⟨_, _, hr⟩
      · split
        · exact getBlobLoop_run hr hn.2 hrest
        · exact ⟨_, _, hr⟩

theorem Seq.run {t : Table} {calls : List (Key × Option Key)} (h : Seq bcfg t calls)
    (hS : ∀ x ∈ calls, S x.1) : ∃ mem log, Run bcfg S t mem log := by
  induction h with
  | empty => exact ⟨_, _, .empty⟩
  | @create t calls h web mimeOk maxSize now url hu repo ih =>
    obtain ⟨mem, log, ih⟩ := ih fun x hx => hS x (List.mem_append_left _ hx)
    have h1 := Run.start ih now hu (hS (url, repo) (by simp)) repo
    unfold getOrCreateIn finish
    dsimp only
    split
    · exact ⟨_, _, h1⟩
    · rename_i hi
      have h2 := Run.fetch h1 List.mem_cons_self (by simpa using hi) web now
      split
      · exact ⟨_, _, h2⟩
      · split <;> exact ⟨_, _, h2⟩
  | @getBlob t calls h web now cid rows hr ih =>
    obtain ⟨mem, log, ih⟩ := ih hS
    obtain ⟨g1, g2⟩ := hr.rows h.ok
    exact getBlobLoop_run ih g1 g2

/-- **Which blobs belong to a repo**, for calls one after the other: those with a `get_or_create` call
for that URL (its first 1500 characters) and repo. Missing: concurrent calls, see
`C55_concurrent_false`. -/
theorem C55_repos_partial {t : Table} {calls : List (Key × Option Key)} (h : Seq bcfg t calls) (k did : Key) :
    (∃ e, dictGet t k = some e ∧ did ∈ e.repos) ↔ ∃ url, (url, some did) ∈ calls ∧ urlKey url = k := by
  have key : ∀ {t t' : Table}, reposAt t' k = reposAt t k →
      ((∃ e, dictGet t' k = some e ∧ did ∈ e.repos) ↔ ∃ e, dictGet t k = some e ∧ did ∈ e.repos) := by
    intro t t' h
    unfold reposAt at h
    have : ∀ t : Table, (∃ e, dictGet t k = some e ∧ did ∈ e.repos) ↔
        ∃ l, (dictGet t k).map (·.repos) = some l ∧ did ∈ l := by
      intro t
      constructor
      · rintro ⟨e, h1, h2⟩; exact ⟨e.repos, by rw [h1]; rfl, h2⟩
      · rintro ⟨l, h1, h2⟩
        obtain ⟨e, h3, rfl⟩ := Option.map_eq_some_iff.mp h1
        exact ⟨e, h3, h2⟩
    rw [this, this, h]
  induction h with
  | empty => simp [dictGet]
  | @create t calls h web mimeOk maxSize now url hu repo ih =>
    obtain ⟨g1, g2, g3⟩ := getOrInsert_spec t now url repo
    unfold getOrCreateIn
    rw [key (finish_repos g2 k)]
    simp only [List.mem_append, List.mem_singleton, Prod.mk.injEq]
    by_cases hk : k = urlKey url
    · subst hk
      have : (∃ e, dictGet (getOrInsert t now url repo).1 (urlKey url) = some e ∧ did ∈ e.repos) ↔
          did ∈ (getOrInsert t now url repo).2.repos := by
        unfold reposAt at g2
        obtain ⟨e, j1, j2⟩ := Option.map_eq_some_iff.mp g2
        rw [← j2, j1]
        simp
      refine (this.trans (g3 did)).trans ((or_congr_left ih).trans ?_)
      constructor
      · rintro (⟨u, j1, j2⟩ | rfl)
        · exact ⟨u, .inl j1, j2⟩
        · exact ⟨url, .inr ⟨rfl, rfl⟩, rfl⟩
      · rintro ⟨u, j1 | ⟨_, j1⟩, j2⟩
        · exact .inl ⟨u, j1, j2⟩
        · exact .inr j1.symm
    · rw [g1 k hk]
      refine ih.trans ?_
      constructor
      · rintro ⟨u, j1, j2⟩; exact ⟨u, .inl j1, j2⟩
      · rintro ⟨u, j1 | ⟨rfl, _⟩, j2⟩
        · exact ⟨u, j1, j2⟩
        · exact absurd j2.symm hk
  | @getBlob t calls h web now cid rows hr ih =>
    obtain ⟨g1, g2⟩ := hr.rows h.ok
    exact (key (getBlobLoop_repos g1 g2 k)).trans ih

/-- Both together: after calls one after the other, a client that isn't interrupted gets, in the order of
the URLs, the CIDs of exactly those URLs that `get_or_create` was called with for the repo. (The `k` are
URLs' keys, their first 1500 characters; a URL whose content was never read has no CID.) -/
theorem C55_listed_partial {t : Table} {calls : List (Key × Option Key)} (h : Seq bcfg t calls) {did : Key}
    {limit : Nat} (hl : 1 ≤ limit) {ss : List (World C R × Table)} (hst : ∀ s ∈ ss, s.2 = t)
    {cids : List Key} (hc : Crawl cfg be did limit ss none cids) :
    ∃ blobs : List (Key × Key), cids = blobs.map (·.2) ∧ (blobs.map (·.1)).Pairwise (· < ·) ∧
      ∀ k c, (k, c) ∈ blobs ↔ (∃ url, (url, some did) ∈ calls ∧ urlKey url = k) ∧
        (dictGet t k).bind (·.blob.cid) = some c ∧ c ≠ [] := by
  obtain ⟨mem, log, hr⟩ := h.run (S := fun _ => True) (fun _ _ => trivial)
  obtain ⟨blobs, h1, h2, h3⟩ := C55_exact hl hr hst hc
  refine ⟨blobs, h1, h2, fun k c => ?_⟩
  rw [h3, ← C55_repos_partial h k did]
  constructor
  · rintro ⟨e, g1, g2, g3, g4⟩
    exact ⟨⟨e, g1, g2⟩, by rw [g1]; exact g3, g4⟩
  · rintro ⟨⟨e, g1, g2⟩, g3, g4⟩
    rw [g1] at g3
    exact ⟨e, g1, g2, g3, g4⟩

/-! ### Examples and counterexamples -/

def exBlobs : Config := { refetchAge := 604800000000, refetchTypes := ["image".toList],
                          maxBytes := 100000000 }

/-- A web server with a text at every URL. -/
def exWeb (url : Key) : Resp := .resp 200 "text/plain".toList none (.content ("cid-".toList ++ url) 3 none)

/-- Alice refers to two URLs, and Bob to one of them. -/
def exTable : Table :=
  let go t now url repo := (getOrCreateIn exBlobs exWeb (fun _ => true) none t now url (some repo)).1
  go (go (go [] 1 "u1".toList exDid) 2 "u2".toList exDid) 3 "u1".toList exDid2

theorem exTable_seq : Seq exBlobs exTable
    [("u1".toList, some exDid), ("u2".toList, some exDid), ("u1".toList, some exDid2)] :=
  .create (.create (.create .empty exWeb _ none 1 (by decide) _) exWeb _ none 2 (by decide) _) exWeb _ none 3
    (by decide) _

/-- Alice's blobs in two pages. -/
example (be : Backend) : Crawl (cfg := Xrpc.exCfg) be exDid 1
    [(exW1 be, exTable), (exW1 be, exTable), (exW1 be, exTable)] none
    ["cid-u1".toList, "cid-u2".toList] := by
  refine .more (cids := ["cid-u1".toList]) (c := "u1".toList) ?_
    (.more (cids := ["cid-u2".toList]) (c := "u2".toList) ?_ (.last (cids := []) ?_)) <;>
  cases be <;> decide +kernel

/-- Limit 0: IndexError. -/
theorem C55_zero {t : Table} {w w' : World C R} {did : Key} {cursor : Option Key} {r : Ref}
    (h : Xrpc.load cfg be w did = (w', .ok r)) :
    Xrpc.listBlobs cfg be w t did none 0 cursor = (w', .error .index) := by
  unfold Xrpc.listBlobs
  rw [if_neg (by simp [Xrpc.truthy]), h]
  rfl

/-- What is stored in the end in the following execution. -/
def exLast : Entity where
  url := some "u".toList
  repos := [exDid]
  updated := 4
  blob := Blob.mk (some "cid-u".toList) (some 3) "text/plain".toList none (some 4) false

/-- **False for concurrent calls.** Alice and Bob refer to a new URL at the same time. Alice's call has
the entity in memory while it fetches; Bob's transaction adds Bob's repo, and Bob's call returns a blob with
a CID. Then Alice's `put` overwrites the list of repos: the blob isn't listed for Bob. -/
theorem C55_concurrent_false : ∃ t mem log bob, Run exBlobs (fun _ => True) t mem log ∧ ("u".toList, bob) ∈ mem ∧
    bob.repos = [exDid, exDid2] ∧ bob.blob.cid = some "cid-u".toList ∧
    Shown t exDid "u".toList "cid-u".toList ∧ ¬ Shown t exDid2 "u".toList "cid-u".toList := by
  let a := getOrInsert [] 1 "u".toList (some exDid)
  let b := getOrInsert a.1 2 "u".toList (some exDid2)
  let b' := fetchEntity exBlobs exWeb b.1 3 "u".toList b.2
  let a' := fetchEntity exBlobs exWeb b'.1 4 "u".toList a.2
  refine ⟨a'.1, _, _, b'.2.1,
    .fetch (.fetch (.start (.start .empty 1 (url := "u".toList) (by decide) trivial (some exDid)) 2 (url := "u".toList)
      (by decide) trivial (some exDid2)) List.mem_cons_self (by decide +kernel) exWeb 3) (key := "u".toList) (e := a.2)
      (.tail _ (.tail _ List.mem_cons_self)) (by decide +kernel) exWeb 4,
    .tail _ List.mem_cons_self, by decide +kernel, by decide +kernel, ?_, ?_⟩
  · exact ⟨exLast, by decide +kernel, by decide +kernel, rfl, by decide⟩
  · rintro ⟨e, h1, h2, _⟩
    have : dictGet a'.1 "u".toList = some exLast := by decide +kernel
    rw [h1] at this
    cases this
    revert h2
    decide

end Arroba.Blob
