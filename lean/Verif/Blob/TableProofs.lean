import Verif.Blob.Table
import Verif.Xrpc.ListProofs
import Verif.Mst.DiffProofs2

/-! Helper lemmas: the table of blobs. -/

namespace Arroba.Blob

open Arroba.Xrpc (sortByDid_perm sortByDid_sorted)

/-- Keys are distinct, and not empty. -/
structure Table.OK (t : Table) : Prop where
  nodup : (t.map (·.1)).Nodup
  keys : ∀ x ∈ t, x.1 ≠ []

theorem Table.OK.empty : Table.OK [] := ⟨.nil, fun _ h => nomatch h⟩

theorem Table.OK.put {t : Table} (h : t.OK) {now : Int} {key : Key} {e : Entity} (hk : key ≠ []) :
    Table.OK (put t now key e) := by
  refine ⟨dictSet_nodup h.nodup, ?_⟩
  intro x hx
  have : x.1 ∈ (dictSet t key { e with updated := now }).map (·.1) := List.mem_map_of_mem (f := (·.1)) hx
  rw [keys_dictSet] at this
  rcases this with g | g
  · rw [g]; exact hk
  · obtain ⟨y, hy, he⟩ := List.mem_map.mp g
    rw [← he]; exact h.keys y hy

theorem urlKey_ne {url : Key} (h : url ≠ []) : urlKey url ≠ [] := by
  unfold urlKey
  split
  · cases url with
    | nil => exact absurd rfl h
    | cons a l => simp [maxKey]
  · exact h

theorem urlKey_short {url : Key} (h : url.length ≤ maxKey) : urlKey url = url := by
  unfold urlKey
  rw [if_neg (by omega)]

theorem dictGet_put (t : Table) (now : Int) (key : Key) (e : Entity) (k : Key) :
    dictGet (put t now key e) k = if k = key then some { e with updated := now } else dictGet t k := by
  unfold put
  rw [dictGet_dictSet]

theorem getOrInsert_ok {t : Table} (h : t.OK) {now : Int} {url : Key} (hu : url ≠ []) {repo : Option Key} :
    (getOrInsert t now url repo).1.OK := by
  have hk := urlKey_ne hu
  have h1 : (obtainEntity t now url repo).1.OK := by
    unfold obtainEntity
    split
    · exact h
    · exact h.put hk
  unfold getOrInsert addRepo
  split
  · exact h1
  · split
    · exact h1
    · exact h1.put hk

theorem fetchEntity_ok {cfg : Config} {web : Key → Resp} {t : Table} (h : t.OK) {now : Int} {key : Key}
    (hk : key ≠ []) {e : Entity} : (fetchEntity cfg web t now key e).1.OK := by
  unfold fetchEntity
  dsimp only
  split
  · exact h.put hk
  · exact h

/-! ### Repos -/

/-- The repos that an entity is stored with. -/
def reposAt (t : Table) (k : Key) : Option (List Key) := (dictGet t k).map (·.repos)

/-- What `get_or_insert` leaves behind. -/
theorem getOrInsert_spec (t : Table) (now : Int) (url : Key) (repo : Option Key) :
    (∀ k, k ≠ urlKey url → dictGet (getOrInsert t now url repo).1 k = dictGet t k) ∧
    reposAt (getOrInsert t now url repo).1 (urlKey url) = some (getOrInsert t now url repo).2.repos ∧
    ∀ d, d ∈ (getOrInsert t now url repo).2.repos ↔
      (∃ e, dictGet t (urlKey url) = some e ∧ d ∈ e.repos) ∨ repo = some d := by
  have h1 : (∀ k, k ≠ urlKey url → dictGet (obtainEntity t now url repo).1 k = dictGet t k) ∧
      reposAt (obtainEntity t now url repo).1 (urlKey url) = some (obtainEntity t now url repo).2.repos ∧
      ∀ d, (d ∈ (obtainEntity t now url repo).2.repos ∨ repo = some d ↔
        (∃ e, dictGet t (urlKey url) = some e ∧ d ∈ e.repos) ∨ repo = some d) := by
    unfold obtainEntity reposAt
    cases hg : dictGet t (urlKey url) with
    | some e => exact ⟨fun _ _ => rfl, by dsimp only; rw [hg]; rfl, by simp⟩
    | none =>
      refine ⟨fun k hk => by dsimp only; rw [dictGet_put, if_neg hk],
        by dsimp only; rw [dictGet_put, if_pos rfl]; rfl, ?_⟩
      intro d
      simp [Option.mem_toList]
  obtain ⟨g1, g2, g3⟩ := h1
  unfold getOrInsert addRepo
  cases repo with
  | none => exact ⟨g1, g2, fun d => by simpa using g3 d⟩
  | some r =>
    dsimp only
    split
    · rename_i hr
      refine ⟨g1, g2, fun d => ?_⟩
      rw [← g3 d]
      constructor
      · exact .inl
      · rintro (h | h)
        · exact h
        · cases h; exact hr
    · refine ⟨fun k hk => by rw [dictGet_put, if_neg hk, g1 k hk], ?_, fun d => ?_⟩
      · unfold reposAt; rw [dictGet_put, if_pos rfl]; rfl
      · rw [← g3 d, List.mem_append, List.mem_singleton, Option.some.injEq, @eq_comm _ r d]

theorem fetchEntity_get {cfg : Config} {web : Key → Resp} {t : Table} {now : Int} {key : Key} {e : Entity}
    {k : Key} (hk : k ≠ key) : dictGet (fetchEntity cfg web t now key e).1 k = dictGet t k := by
  unfold fetchEntity
  dsimp only
  split
  · rw [dictGet_put, if_neg hk]
  · rfl

theorem fetchEntity_repos {cfg : Config} {web : Key → Resp} {t : Table} {now : Int} {key : Key} {e : Entity}
    (h : reposAt t key = some e.repos) (k : Key) :
    reposAt (fetchEntity cfg web t now key e).1 k = reposAt t k := by
  by_cases hk : k = key
  · subst hk
    rw [h]
    unfold fetchEntity reposAt
    dsimp only
    split
    · rw [dictGet_put, if_pos rfl]; rfl
    · exact h
  · unfold reposAt
    rw [fetchEntity_get hk]

theorem getBlobLoop_repos {cfg : Config} {web : Key → Resp} {now : Int} : ∀ {rows : List (Key × Entity)}
    {t : Table}, (rows.map (·.1)).Nodup → (∀ x ∈ rows, dictGet t x.1 = some x.2) → ∀ k,
    reposAt (getBlobLoop cfg web now t rows).1 k = reposAt t k
  | [], _, _, _, _ => rfl
  | (key, e) :: rest, t, hn, h, k => by
    rw [List.map_cons, List.nodup_cons] at hn
    have hrest : ∀ x ∈ rest, dictGet (fetchEntity cfg web t now key e).1 x.1 = some x.2 := by
      intro x hx
      rw [fetchEntity_get]
      · exact h x (.tail _ hx)
      · rintro he
        exact hn.1 (he ▸ List.mem_map_of_mem (f := (·.1)) hx)
    have hrepos : reposAt (fetchEntity cfg web t now key e).1 k = reposAt t k :=
      fetchEntity_repos (by unfold reposAt; rw [h _ List.mem_cons_self]; rfl) k
    unfold getBlobLoop
    split
    · exact getBlobLoop_repos hn.2 (fun x hx => h x (.tail _ hx)) k
    · split <;> rename_i hf <;> rw [hf] at hrest hrepos
      · rw [getBlobLoop_repos hn.2 hrest]; exact hrepos
      · rw [getBlobLoop_repos hn.2 hrest]; exact hrepos
      · exact hrepos
      · split
        · rw [getBlobLoop_repos hn.2 hrest]; exact hrepos
        · exact hrepos

theorem getBlobLoop_ok {cfg : Config} {web : Key → Resp} {now : Int} : ∀ {rows : List (Key × Entity)}
    {t : Table}, t.OK → (∀ x ∈ rows, x.1 ≠ []) → (getBlobLoop cfg web now t rows).1.OK
  | [], _, h, _ => h
  | (key, e) :: rest, t, h, hk => by
    have hrest : ∀ x ∈ rest, x.1 ≠ [] := fun x hx => hk x (.tail _ hx)
    have hok : (fetchEntity cfg web t now key e).1.OK := fetchEntity_ok h (hk _ List.mem_cons_self)
    unfold getBlobLoop
    split
    · exact getBlobLoop_ok h hrest
    · split <;> rename_i hf <;> rw [hf] at hok
      · exact getBlobLoop_ok hok hrest
      · exact getBlobLoop_ok hok hrest
      · exact hok
      · split
        · exact getBlobLoop_ok hok hrest
        · exact hok

theorem finish_repos {cfg : Config} {web : Key → Resp} {mimeOk : Key → Bool} {maxSize : Option Int}
    {t : Table} {now : Int} {url : Key} {e : Entity} (h : reposAt t (urlKey url) = some e.repos) (k : Key) :
    reposAt (finish cfg web mimeOk maxSize t now url e).1 k = reposAt t k := by
  have := fetchEntity_repos (cfg := cfg) (web := web) (now := now) h k
  unfold finish
  split
  · rfl
  · dsimp only
    split
    · exact this
    · split <;> exact this

theorem finish_ok {cfg : Config} {web : Key → Resp} {mimeOk : Key → Bool} {maxSize : Option Int}
    {t : Table} (h : t.OK) {now : Int} {url : Key} (hu : url ≠ []) {e : Entity} :
    (finish cfg web mimeOk maxSize t now url e).1.OK := by
  have := fetchEntity_ok (cfg := cfg) (web := web) (now := now) (e := e) h (urlKey_ne hu)
  unfold finish
  split
  · exact h
  · dsimp only
    split
    · exact this
    · split <;> exact this

/-! ### Pages -/

/-- The rows that a cursor lets through. -/
def Beyond (cursor : Option Key) (k : Key) : Prop := ∀ c, cursor = some c → c < k

/-- What a page selects. -/
structure Selected (t : Table) (did : Key) (limit : Nat) (cursor : Option Key) (sel : List (Key × Entity))
    (next : Option Key) : Prop where
  ascending : (sel.map (·.1)).Pairwise (· < ·)
  mem : ∀ x ∈ sel, x ∈ t ∧ did ∈ x.2.repos ∧ Beyond cursor x.1
  more : ∀ c, next = some c → sel.length = limit ∧ (∃ x ∈ sel, x.1 = c) ∧ ∀ x ∈ sel, x.1 ≤ c
  complete : ∀ x ∈ t, did ∈ x.2.repos → Beyond cursor x.1 → x ∈ sel ∨ ∃ c, next = some c ∧ c < x.1

/-- The CIDs of rows. -/
def cidsOf (rows : List (Key × Entity)) : List Key := rows.filterMap fun x => x.2.blob.cid.filter (· ≠ [])

theorem cids_eq (rows : List (Key × Entity)) :
    ((rows.filter fun x => truthyStr x.2.blob.cid).filterMap fun x => x.2.blob.cid) = cidsOf rows := by
  induction rows with
  | nil => rfl
  | cons x l ih =>
    unfold cidsOf at ih ⊢
    rw [List.filter_cons, List.filterMap_cons, ← ih]
    cases hc : x.2.blob.cid with
    | none => rfl
    | some c =>
      cases c with
      | nil => rfl
      | cons a c =>
        show List.filterMap (fun x => x.2.blob.cid) (x :: _) = _
        rw [List.filterMap_cons, hc]
        rfl

theorem page_spec {t : Table} (h : t.OK) {did : Key} {limit : Nat} (hl : 1 ≤ limit) {cursor : Option Key}
    (hc : ∀ c, cursor = some c → c ≠ []) : ∃ sel next,
    blobPage (blobRows t did limit cursor) limit = .ok ⟨cidsOf sel, next⟩ ∧
      Selected t did limit cursor sel next := by
  have hp : ∀ x : Key × Entity, (if Xrpc.truthy cursor then decide (cursor.getD [] < x.1) else true) = true ↔
      Beyond cursor x.1 := by
    intro x
    cases cursor with
    | none => simp [Xrpc.truthy, Beyond]
    | some c =>
      have ht : Xrpc.truthy (some c) = true := by
        cases c with
        | nil => exact absurd rfl (hc _ rfl)
        | cons => rfl
      simp [ht, Beyond]
  unfold blobPage
  dsimp only
  rw [cids_eq]
  set l' := ((Xrpc.sortByDid t).filter fun x => decide (did ∈ x.2.repos)).filter fun x =>
    if Xrpc.truthy cursor then decide (cursor.getD [] < x.1) else true with hl'
  have hrows : blobRows t did limit cursor = l'.take limit := rfl
  rw [hrows]
  have hmem : ∀ x, x ∈ l' ↔ x ∈ t ∧ did ∈ x.2.repos ∧ Beyond cursor x.1 := by
    intro x
    rw [hl', List.mem_filter, hp, List.mem_filter, (sortByDid_perm t).mem_iff, and_assoc]
    simp
  have hasc : (l'.map (·.1)).Pairwise (· < ·) := by
    rw [List.pairwise_map]
    exact (sortByDid_sorted h.nodup).sublist (List.filter_sublist.trans List.filter_sublist)
  have hasc' : ((l'.take limit).map (·.1)).Pairwise (· < ·) := by
    rw [List.pairwise_map] at hasc ⊢
    exact hasc.sublist (List.take_sublist _ _)
  have htake : ∀ x ∈ l'.take limit, x ∈ t ∧ did ∈ x.2.repos ∧ Beyond cursor x.1 := fun x hx =>
    (hmem x).mp (List.mem_of_mem_take hx)
  refine ⟨l'.take limit, if (l'.take limit).length = limit then (l'.take limit).getLast?.map (·.1) else none,
    ?_, hasc', htake, ?_, ?_⟩
  · by_cases hlen : (l'.take limit).length = limit
    · rw [if_pos hlen, if_pos hlen]
      cases hg : (l'.take limit).getLast? with
      | none => rw [List.getLast?_eq_none_iff.mp hg] at hlen; simp at hlen; omega
      | some x => rfl
    · rw [if_neg hlen, if_neg hlen]
  · intro c hcur
    split at hcur
    · rename_i hlen
      obtain ⟨x, hx, rfl⟩ := Option.map_eq_some_iff.mp hcur
      obtain ⟨ys, hys⟩ := List.getLast?_eq_some_iff.mp hx
      refine ⟨hlen, ⟨x, by rw [hys]; simp, rfl⟩, ?_⟩
      intro y hy
      rw [hys, List.map_append, List.pairwise_append] at hasc'
      rw [hys] at hy
      rcases List.mem_append.mp hy with hy | hy
      · exact (hasc'.2.2 _ (List.mem_map_of_mem hy) x.1 (by simp)).le
      · rw [List.mem_singleton.mp hy]
    · cases hcur
  · intro x hx hd hb
    have hxl := (hmem x).mpr ⟨hx, hd, hb⟩
    split
    · rename_i hlen
      rw [← List.take_append_drop limit l'] at hxl
      rcases List.mem_append.mp hxl with hxl | hxl
      · exact .inl hxl
      · right
        cases hg : (l'.take limit).getLast? with
        | none => rw [List.getLast?_eq_none_iff.mp hg] at hlen; simp at hlen; omega
        | some y =>
          obtain ⟨ys, hys⟩ := List.getLast?_eq_some_iff.mp hg
          refine ⟨y.1, rfl, ?_⟩
          rw [← List.take_append_drop limit l', List.map_append, List.pairwise_append] at hasc
          exact hasc.2.2 _ (List.mem_map_of_mem (by rw [hys]; simp)) _ (List.mem_map_of_mem hxl)
    · rename_i hlen
      left
      rw [List.length_take] at hlen
      rw [List.take_of_length_le (by omega)]
      exact hxl

end Arroba.Blob
