import Verif.Xrpc.Reference

/-! Helper lemmas: pages of records from any cursor, and the collections of a repo. -/

namespace Arroba.Xrpc

open Arroba.Store Arroba.Tree

variable {C R : Type} [DecidableEq C] {L : Lib C R} {Z : Nat} {w : World C R}

theorem startsWith_self (collection s : Key) :
    startsWith (pathOf collection s) (collection ++ ['/']) = true := by
  unfold startsWith pathOf
  exact List.isPrefixOf_iff_prefix.mpr ⟨s, by simp⟩

/-- The entries of a page, from any cursor. -/
theorem pageEntries_all (hL : L.OK Z) {o : RepoObj C R} {m : Key → Option R}
    (ho : ObjRep L Z w.blocks o m) (collection : Key) (cursor : Option Key) : ∃ K : List (Key × R),
      (∀ limit, pageEntries L w o collection limit cursor =
        .ok ((K.take limit).map fun x => (pathOf collection x.1, L.rcid x.2))) ∧
      Listing m collection cursor K := by
  cases htr : truthy cursor with
  | false =>
    obtain ⟨K, h1, h2, h3⟩ := pageEntries_spec hL ho collection (cursor := none) (fun c h => by cases h)
    have hc : ∀ c, cursor = some c → c = [] := by
      rintro c rfl
      cases c with
      | nil => rfl
      | cons => cases htr
    refine ⟨K, fun limit => ?_, h2, fun k r => ?_⟩
    · rw [← h1 limit]
      unfold pageEntries
      rw [htr]
      rfl
    · rw [h3]
      constructor
      · rintro ⟨g, _⟩
        exact ⟨g, fun c h => by rw [hc c h]; exact key_nil_le _, fun c p h hne => absurd (hc c h) hne⟩
      · rintro ⟨g, _⟩
        exact ⟨g, fun c h => by cases h⟩
  | true =>
    obtain ⟨start, rfl, hne⟩ : ∃ c, cursor = some c ∧ c ≠ [] := by
      cases cursor with
      | none => cases htr
      | some c => cases c with
        | nil => cases htr
        | cons a b => exact ⟨_, rfl, by simp⟩
    obtain ⟨l, t, hi, ht, _⟩ := ho.tree
    have hf := hL.fuel
    have hb := hi.bound
    have hmem : ∀ k v, (k, v) ∈ leaves t ↔ ∃ r, m k = some r ∧ v = L.rcid r := by
      intro k v
      rw [mem_leaves_iff hi.sorted, hi.map]
      show (m k).map L.rcid = some v ↔ _
      cases m k with
      | none => simp
      | some r => simp [eq_comm]
    set G := (leaves t).filter fun kv => decide (start ≤ kv.1) with hG
    have hGs : G.Pairwise fun a b => a.1 < b.1 := List.Pairwise.filter _ hi.sorted
    set F := G.takeWhile fun kv => startsWith kv.1 (collection ++ ['/']) with hF
    have hent : ∀ limit, pageEntries L w o collection limit (some start) = .ok (F.take limit) := by
      intro limit
      unfold pageEntries
      dsimp only
      rw [htr, if_pos rfl, show w.rd = nodeIn w.blocks from rfl, Option.getD_some,
        pageLazy_spec hi.repr hi.wf hi.sorted (by omega)]
    have hsorted : F.Pairwise fun a b => a.1 < b.1 := hGs.sublist (List.takeWhile_sublist _)
    have hFm : ∀ k v, (k, v) ∈ F ↔ ∃ s r, k = pathOf collection s ∧ v = L.rcid r ∧
        m (pathOf collection s) = some r ∧ start ≤ pathOf collection s ∧
        ∀ p, m p ≠ none → start ≤ p → ¬ p < collection ++ ['/'] := by
      intro k v
      by_cases hskip : ∃ p, m p ≠ none ∧ start ≤ p ∧ p < collection ++ ['/']
      · obtain ⟨p, p1, p2, p3⟩ := hskip
        have hnil : F = [] := by
          obtain ⟨r, hr⟩ := Option.ne_none_iff_exists'.mp p1
          have hp : (p, L.rcid r) ∈ G := by
            rw [hG, List.mem_filter]
            exact ⟨(hmem _ _).2 ⟨r, hr, rfl⟩, decide_eq_true p2⟩
          rw [hF]
          cases hg : G with
          | nil => rfl
          | cons x G' =>
            rw [hg] at hp hGs
            have hx : x.1 ≤ p := by
              rcases List.mem_cons.mp hp with h | h
              · exact (congrArg Prod.fst h).symm.le
              · exact ((List.pairwise_cons.mp hGs).1 _ h).le
            rw [List.takeWhile_cons_of_neg]
            intro h
            have := startsWith_le h
            exact absurd (lt_of_le_of_lt (this.trans hx) p3) (lt_irrefl _)
        rw [hnil]
        simp only [List.not_mem_nil, false_iff]
        rintro ⟨s, r, _, _, _, _, h⟩
        exact h p p1 p2 p3
      · have hno : ∀ p, m p ≠ none → start ≤ p → ¬ p < collection ++ ['/'] :=
          fun p p1 p2 p3 => hskip ⟨p, p1, p2, p3⟩
        rw [hF, takeWhile_prefix hGs, List.mem_filter, hG, List.mem_filter, hmem]
        · constructor
          · rintro ⟨⟨⟨r, h1, h2⟩, h3⟩, h4⟩
            obtain ⟨s, rfl⟩ := startsWith_path h4
            exact ⟨s, r, rfl, h2, h1, of_decide_eq_true h3, hno⟩
          · rintro ⟨s, r, rfl, h2, h1, h3, _⟩
            exact ⟨⟨⟨r, h1, h2⟩, decide_eq_true h3⟩, startsWith_self _ _⟩
        · intro x hx
          rw [hG, List.mem_filter] at hx
          obtain ⟨r, g1, _⟩ := (hmem x.1 x.2).1 hx.1
          exact not_lt.mp (hno x.1 (by rw [g1]; simp) (of_decide_eq_true hx.2))
    obtain ⟨K, h1, h2⟩ := eq_map (l := F) (g := fun x : Key × R => (pathOf collection x.1, L.rcid x.2))
      (P := fun x => m (pathOf collection x.1) = some x.2 ∧ start ≤ pathOf collection x.1 ∧
        ∀ p, m p ≠ none → start ≤ p → ¬ p < collection ++ ['/']) (by
        rintro ⟨k, v⟩ hx
        obtain ⟨s, r, rfl, rfl, h⟩ := (hFm k v).mp hx
        exact ⟨(s, r), rfl, h⟩)
    refine ⟨K, fun limit => by rw [hent, h1, ← List.map_take], ?_, ?_⟩
    · rw [h1, List.pairwise_map] at hsorted
      exact hsorted
    · intro k r
      constructor
      · intro h
        obtain ⟨g1, g2, g3⟩ := h2 (k, r) h
        exact ⟨g1, fun c h => by cases h; exact g2, fun c p h _ => by cases h; exact g3 p⟩
      · rintro ⟨g1, g2, g3⟩
        have := (hFm (pathOf collection k) (L.rcid r)).mpr
          ⟨k, r, rfl, rfl, g1, g2 _ rfl, fun p => g3 start p rfl hne⟩
        rw [h1] at this
        obtain ⟨⟨k', r'⟩, j1, j2⟩ := List.mem_map.mp this
        have hk : pathOf collection k' = pathOf collection k := (Prod.mk.inj j2).1
        have hr' := (h2 _ j1).1
        rw [show pathOf collection (k', r').1 = pathOf collection k from hk, g1] at hr'
        cases hr'
        unfold pathOf at hk
        have := List.append_cancel_left hk
        cases this
        exact j1

/-! ### Collections -/

/-- A later path starts a new collection, after all the others. -/
theorem collection_lt {c c' k : Key} (h : '/' ∉ c) (h' : '/' ∉ c') (hne : c' ≠ c)
    (hlt : c' ++ ['/'] < pathOf c k) : c' ++ ['/'] < c ++ ['/'] := by
  by_contra hn
  have h1 := startsWith_convex (not_lt.mp hn) hlt.le (startsWith_self c k)
  unfold startsWith at h1
  obtain ⟨s, hs⟩ := List.isPrefixOf_iff_prefix.mp h1
  have e : c' ++ '/' :: [] = c ++ '/' :: s := by rw [show c' ++ '/' :: [] = c' ++ ['/'] from rfl, ← hs]; simp
  have hcnt := congrArg (List.count '/') e
  simp only [List.count_append, List.count_cons_self, List.count_eq_zero_of_not_mem h,
    List.count_eq_zero_of_not_mem h', List.count_nil] at hcnt
  have hs0 : '/' ∉ s := List.count_eq_zero.1 (by omega)
  have e1 := pySplit_two.2 ⟨rfl, h', (by simp : '/' ∉ ([] : Key))⟩
  have e2 := pySplit_two.2 ⟨e, h, hs0⟩
  rw [e1] at e2
  simp only [List.cons.injEq] at e2
  exact hne e2.1

theorem addContents_keys {w : World C R} : ∀ (kvs : List (Key × C))
    (acc cs : List (Key × List (Key × Val C R))),
    (∀ kv ∈ kvs, KeyGrammar kv.1) → kvs.Pairwise (fun a b => a.1 < b.1) →
    (acc.map (·.1)).Pairwise (fun a b => a ++ ['/'] < b ++ ['/']) →
    (∀ c ∈ acc.map (·.1), '/' ∉ c ∧ ∀ kv ∈ kvs, c ++ ['/'] < kv.1) →
    addContents w acc kvs = .ok cs →
    (cs.map (·.1)).Pairwise (fun a b => a ++ ['/'] < b ++ ['/']) ∧
    ∀ c, c ∈ cs.map (·.1) ↔ c ∈ acc.map (·.1) ∨ ∃ k, pathOf c k ∈ kvs.map (·.1)
  | [], acc, cs, _, _, h3, _, h => by
    cases h
    exact ⟨h3, fun c => by simp⟩
  | kv :: kvs, acc, cs, hg, hs, h3, h4, h => by
    obtain ⟨hs1, hs2⟩ := List.pairwise_cons.mp hs
    obtain ⟨a, k, e1, e2⟩ := grammar_parts (hg kv List.mem_cons_self)
    obtain ⟨e3, e4⟩ := grammar_split (e2 ▸ hg kv List.mem_cons_self)
    unfold addContents at h
    cases hb : w.read kv.2 with
    | none => unfold addContent at h; rw [e1] at h; simp only [hb] at h; cases h
    | some b =>
      have h1 : addContent w acc kv =
          .ok (dictSet acc a (dictSet ((dictGet acc a).getD []) k b.val)) := by
        unfold addContent; rw [e1]; simp only [hb]
      rw [h1, ok_bind] at h
      set v := dictSet ((dictGet acc a).getD []) k b.val
      have hkeys : (dictSet acc a v).map (·.1) =
          if a ∈ acc.map (·.1) then acc.map (·.1) else acc.map (·.1) ++ [a] := by
        clear_value v
        clear h h1 h3 h4
        induction acc with
        | nil => rfl
        | cons x acc ih =>
          unfold dictSet
          by_cases hx : x.1 = a
          · simp [hx]
          · rw [if_neg hx, List.map_cons, ih]
            have : (a ∈ (x :: acc).map (·.1)) ↔ a ∈ acc.map (·.1) := by
              rw [List.map_cons, List.mem_cons]
              exact ⟨fun h => h.resolve_left fun e => hx e.symm, .inr⟩
            by_cases hm : a ∈ acc.map (·.1)
            · rw [if_pos hm, if_pos (this.2 hm)]; rfl
            · rw [if_neg hm, if_neg (fun h => hm (this.1 h))]; rfl
      have ha : a ++ ['/'] ≤ kv.1 := by
        rw [e2]; exact startsWith_le (startsWith_self a k)
      have hnew : ((dictSet acc a v).map (·.1)).Pairwise (fun a b => a ++ ['/'] < b ++ ['/']) := by
        rw [hkeys]
        split
        · exact h3
        · rename_i hm
          rw [List.pairwise_append]
          refine ⟨h3, List.pairwise_singleton _ _, fun c hc x hx => ?_⟩
          rw [List.mem_singleton.mp hx]
          obtain ⟨g1, g2⟩ := h4 c hc
          refine collection_lt (k := k) e3 g1 (fun e => hm (e ▸ hc)) ?_
          have := g2 kv List.mem_cons_self
          rw [e2] at this
          exact this
      have hmemk : ∀ c, c ∈ (dictSet acc a v).map (·.1) ↔ c ∈ acc.map (·.1) ∨ c = a := by
        intro c
        rw [hkeys]
        split
        · rename_i hm
          exact ⟨.inl, fun h => h.elim (fun h => h) fun e => e ▸ hm⟩
        · rw [List.mem_append, List.mem_singleton]
      obtain ⟨r1, r2⟩ := addContents_keys kvs (dictSet acc a v) cs (fun x hx => hg x (.tail _ hx)) hs2 hnew (by
        intro c hc
        rcases (hmemk c).1 hc with hc | rfl
        · exact ⟨(h4 c hc).1, fun x hx => (h4 c hc).2 x (.tail _ hx)⟩
        · exact ⟨e3, fun x hx => lt_of_le_of_lt ha (hs1 x hx)⟩) h
      refine ⟨r1, fun c => ?_⟩
      rw [r2 c, hmemk c, List.map_cons]
      constructor
      · rintro ((hc | rfl) | ⟨k', hk'⟩)
        · exact .inl hc
        · exact .inr ⟨k, by rw [e2]; exact List.mem_cons_self⟩
        · exact .inr ⟨k', .tail _ hk'⟩
      · rintro (hc | ⟨k', hk'⟩)
        · exact .inl (.inl hc)
        · rcases List.mem_cons.mp hk' with e | hk'
          · refine .inl (.inr ?_)
            have := path_inj (a := c) (b := k') (by
              rw [show c ++ '/' :: k' = kv.1 from e]; exact hg kv List.mem_cons_self)
              (show c ++ '/' :: k' = a ++ '/' :: k from e.trans e2)
            exact this.1
          · exact .inr ⟨k', hk'⟩

/-- What `get_contents` has the collections of. -/
theorem getContents_keys (hL : L.OK Z) {o : RepoObj C R} {m : Key → Option R}
    (ho : ObjRep L Z w.blocks o m) : ∃ cs, getContents L w o = .ok cs ∧ Collections m (cs.map (·.1)) := by
  have hs := ho.shows hL
  obtain ⟨cs, h1, _⟩ := hs.contents
  obtain ⟨l, t, hi, ht, _⟩ := ho.tree
  refine ⟨cs, h1, ?_⟩
  unfold getContents at h1
  have hf := hL.fuel
  have hb := hi.bound
  rw [show w.rd = nodeIn w.blocks from rfl,
    list_spec none none hi.repr hi.wf hi.sorted (by omega), ok_bind] at h1
  have hall : (leaves t).filter (fun kv => decide (afterOK none kv.1 ∧ beforeOK none kv.1)) =
      leaves t := by
    rw [List.filter_eq_self]; intro a _; simp [afterOK, beforeOK]
  rw [hall] at h1
  have hmem : ∀ k, k ∈ (leaves t).map (·.1) ↔ ∃ r, m k = some r := by
    intro k
    rw [List.mem_map]
    constructor
    · rintro ⟨⟨k', v⟩, g1, rfl⟩
      rw [mem_leaves_iff hi.sorted, hi.map] at g1
      obtain ⟨r, g2, _⟩ := Option.map_eq_some_iff.mp g1
      exact ⟨r, g2⟩
    · rintro ⟨r, hr⟩
      refine ⟨(k, L.rcid r), ?_, rfl⟩
      rw [mem_leaves_iff hi.sorted, hi.map]
      show (m k).map L.rcid = _
      rw [hr]; rfl
  obtain ⟨g1, g2⟩ := addContents_keys (leaves t) [] cs (by
    intro kv hkv
    obtain ⟨r, hr⟩ := (hmem kv.1).1 (List.mem_map_of_mem hkv)
    exact hs.paths _ (by rw [hr]; simp)) hi.sorted List.Pairwise.nil (fun c hc => by cases hc) h1
  refine ⟨g1, fun c => ?_⟩
  rw [g2 c]
  constructor
  · rintro (h | ⟨k, h⟩)
    · cases h
    · obtain ⟨r, hr⟩ := (hmem _).1 h
      exact ⟨k, r, hr⟩
  · rintro ⟨k, r, hr⟩
    exact .inr ⟨k, (hmem _).2 ⟨r, hr⟩⟩

end Arroba.Xrpc
