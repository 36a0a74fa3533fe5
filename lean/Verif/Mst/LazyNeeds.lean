import Verif.Mst.LazyProofs

/-! Helper lemmas: the result depends on the blocks that were read, and on no others. -/

namespace Arroba

variable {C : Type} {E : Env C} {rd rd' : C → Option (NodeData C)}

open Arroba.Tree

/-- The second generator does the same as the first as long as `rd'` has the same blocks as `rd`. -/
def Follows (rd rd' : C → Option (NodeData C)) (g g' : Gen C) : Prop :=
  (∀ p, p <+: g.evs → (∀ c ∈ readsIn p, rd' c = rd c) → p <+: g'.evs) ∧
  ((∀ c ∈ readsIn g.evs, rd' c = rd c) → g' = g)

theorem Follows.refl (g : Gen C) : Follows rd rd' g g := ⟨fun _ h _ => h, fun _ => rfl⟩

theorem Gen.prefix_seq (a b : Gen C) : a.evs <+: (a.seq b).evs := by
  unfold Gen.seq
  cases a.stop with
  | some e => exact List.prefix_rfl
  | none => exact List.prefix_append _ _

theorem Follows.seq {a a' b b' : Gen C} (ha : Follows rd rd' a a') (hb : Follows rd rd' b b') :
    Follows rd rd' (a.seq b) (a'.seq b') := by
  cases hs : a.stop with
  | some e =>
    have e1 : a.seq b = a := by simp only [Gen.seq, hs]
    rw [e1]
    refine ⟨fun p hp h => (ha.1 p hp h).trans (Gen.prefix_seq _ _), fun h => ?_⟩
    rw [ha.2 h]
    simp only [Gen.seq, hs]
  | none =>
    have e1 : ∀ x, a.seq x = ⟨a.evs ++ x.evs, x.stop⟩ := fun x => by simp only [Gen.seq, hs]
    rw [e1 b]
    refine ⟨fun p hp h => ?_, fun h => ?_⟩
    · rcases List.prefix_or_prefix_of_prefix hp (List.prefix_append a.evs b.evs) with h' | ⟨q, rfl⟩
      · exact (ha.1 p h' h).trans (Gen.prefix_seq _ _)
      · have hq := (List.prefix_append_right_inj a.evs).1 hp
        simp only [readsIn_append, List.mem_append] at h
        rw [ha.2 fun c hc => h c (.inl hc), e1]
        exact (List.prefix_append_right_inj a.evs).2 (hb.1 q hq fun c hc => h c (.inr hc))
    · simp only [readsIn_append, List.mem_append] at h
      rw [ha.2 fun c hc => h c (.inl hc), hb.2 fun c hc => h c (.inr hc), e1]

theorem loopGen_follows {r r' : Node C → Gen C} (h : ∀ n, Follows rd rd' (r n) (r' n)) :
    ∀ es : List (Ent C), Follows rd rd' (loopGen r es) (loopGen r' es)
  | [] => .refl _
  | .leaf _ _ :: es => Follows.seq (.refl _) (loopGen_follows h es)
  | .tree n :: es => (h n).seq (loopGen_follows h es)

theorem getEntries_needs (n : Node C) (h : ∀ c ∈ readsIn (entryReads n), rd' c = rd c) :
    getEntries E rd' n = getEntries E rd n := by
  unfold getEntries
  unfold entryReads at h
  cases hn : n.entries with
  | some es => rfl
  | none =>
    rw [hn] at h
    dsimp only at h ⊢
    rw [h n.pointer (by simp [readsIn])]

theorem walkGen_follows : ∀ (f : Nat) (n : Node C) (k : Key),
    Follows rd rd' (walkGen E rd f n k) (walkGen E rd' f n k)
  | 0, _, _ => .refl _
  | f + 1, n, k => by
    have main : (∀ c ∈ readsIn (entryReads n), rd' c = rd c) →
        Follows rd rd' (walkGen E rd (f + 1) n k) (walkGen E rd' (f + 1) n k) := by
      intro h
      unfold walkGen
      rw [getEntries_needs n h]
      cases getEntries E rd n with
      | error e => exact .refl _
      | ok es =>
        dsimp only
        refine Follows.seq (.refl _) (Follows.seq ?_ (loopGen_follows (fun m => walkGen_follows f m k) _))
        unfold prevGen
        split
        · exact walkGen_follows f _ k
        · exact .refl _
    have hpre : entryReads n <+: (walkGen E rd (f + 1) n k).evs := by
      unfold walkGen
      cases getEntries E rd n with
      | error e => exact List.prefix_rfl
      | ok es => exact List.prefix_append _ _
    have hsub : ∀ p, p <+: (walkGen E rd (f + 1) n k).evs → p ≠ [] → ∀ c ∈ readsIn (entryReads n), c ∈ readsIn p := by
      intro p hp hne c hc
      unfold entryReads at hc hpre
      cases hn : n.entries with
      | some es => rw [hn] at hc; cases hc
      | none =>
        rw [hn] at hc hpre
        simp only [readsIn, List.mem_singleton] at hc
        subst hc
        cases p with
        | nil => exact absurd rfl hne
        | cons x p =>
          obtain ⟨s, hs⟩ := hpre
          rw [← hs] at hp
          obtain ⟨rfl, -⟩ := List.cons_prefix_cons.1 hp
          simp [readsIn]
    refine ⟨fun p hp h => ?_, fun h => ?_⟩
    · by_cases hne : p = []
      · rw [hne]; exact List.nil_prefix
      · exact (main fun c hc => h c (hsub p hp hne c hc)).1 p hp h
    · by_cases hne : (walkGen E rd (f + 1) n k).evs = []
      · refine (main fun c hc => ?_).2 h
        rw [hne, List.prefix_nil] at hpre
        rw [hpre] at hc
        cases hc
      · exact (main fun c hc => h c (hsub _ List.prefix_rfl hne c hc)).2 h

/-! ### Consumers -/

theorem listRun_needs (after before : Option Key) (s : Option Err) : ∀ evs : List (Ev C),
    ∃ p, p <+: evs ∧ (listRun after before s evs).reads = readsIn p ∧
      (p = evs ∨ ∀ s' q, listRun after before s' (p ++ q) = listRun after before s evs)
  | [] => ⟨[], List.prefix_rfl, by cases s <;> rfl, .inl rfl⟩
  | .read c :: r => by
    obtain ⟨p, h1, h2, h3⟩ := listRun_needs after before s r
    refine ⟨.read c :: p, List.cons_prefix_cons.2 ⟨rfl, h1⟩, by simp [listRun, Got.read, readsIn, h2], ?_⟩
    rcases h3 with rfl | h3
    · exact .inl rfl
    · exact .inr fun s' q => by simp only [List.cons_append, listRun, h3]
  | .leaf k v :: r => by
    obtain ⟨p, h1, h2, h3⟩ := listRun_needs after before s r
    by_cases g1 : some k = after
    · refine ⟨.leaf k v :: p, List.cons_prefix_cons.2 ⟨rfl, h1⟩, by simp [listRun, g1, readsIn, h2], ?_⟩
      rcases h3 with rfl | h3
      · exact .inl rfl
      · exact .inr fun s' q => by simp only [List.cons_append, listRun, if_pos g1, h3]
    · by_cases g2 : isPast before k = true
      · exact ⟨[.leaf k v], List.cons_prefix_cons.2 ⟨rfl, List.nil_prefix⟩, by simp [listRun, g1, g2, readsIn],
          .inr fun s' q => by simp [listRun, g1, g2]⟩
      · refine ⟨.leaf k v :: p, List.cons_prefix_cons.2 ⟨rfl, h1⟩, by simp [listRun, g1, g2, Got.cons, readsIn, h2], ?_⟩
        rcases h3 with rfl | h3
        · exact .inl rfl
        · exact .inr fun s' q => by simp only [List.cons_append, listRun, if_neg g1, if_neg g2, h3]

theorem prefixRun_needs (pre : Key) (s : Option Err) : ∀ evs : List (Ev C),
    ∃ p, p <+: evs ∧ (prefixRun pre s evs).reads = readsIn p ∧
      (p = evs ∨ ∀ s' q, prefixRun pre s' (p ++ q) = prefixRun pre s evs)
  | [] => ⟨[], List.prefix_rfl, by cases s <;> rfl, .inl rfl⟩
  | .read c :: r => by
    obtain ⟨p, h1, h2, h3⟩ := prefixRun_needs pre s r
    refine ⟨.read c :: p, List.cons_prefix_cons.2 ⟨rfl, h1⟩, by simp [prefixRun, Got.read, readsIn, h2], ?_⟩
    rcases h3 with rfl | h3
    · exact .inl rfl
    · exact .inr fun s' q => by simp only [List.cons_append, prefixRun, h3]
  | .leaf k v :: r => by
    obtain ⟨p, h1, h2, h3⟩ := prefixRun_needs pre s r
    by_cases g1 : startsWith k pre = true
    · refine ⟨.leaf k v :: p, List.cons_prefix_cons.2 ⟨rfl, h1⟩, by simp [prefixRun, g1, Got.cons, readsIn, h2], ?_⟩
      rcases h3 with rfl | h3
      · exact .inl rfl
      · exact .inr fun s' q => by simp only [List.cons_append, prefixRun, if_pos g1, h3]
    · exact ⟨[.leaf k v], List.cons_prefix_cons.2 ⟨rfl, List.nil_prefix⟩, by simp [prefixRun, g1, readsIn],
        .inr fun s' q => by simp [prefixRun, g1]⟩

theorem pageRun_needs (pre : Key) (s : Option Err) : ∀ (limit : Nat) (evs : List (Ev C)),
    ∃ p, p <+: evs ∧ (pageRun pre s limit evs).reads = readsIn p ∧
      (p = evs ∨ ∀ s' q, pageRun pre s' limit (p ++ q) = pageRun pre s limit evs)
  | 0, _ => ⟨[], List.nil_prefix, by simp [pageRun, readsIn], .inr fun s' q => by simp only [pageRun]⟩
  | n + 1, [] => ⟨[], List.prefix_rfl, by cases s <;> rfl, .inl rfl⟩
  | n + 1, .read c :: r => by
    obtain ⟨p, h1, h2, h3⟩ := pageRun_needs pre s (n + 1) r
    refine ⟨.read c :: p, List.cons_prefix_cons.2 ⟨rfl, h1⟩, by simp [pageRun, Got.read, readsIn, h2], ?_⟩
    rcases h3 with rfl | h3
    · exact .inl rfl
    · exact .inr fun s' q => by simp only [List.cons_append, pageRun, h3]
  | n + 1, .leaf k v :: r => by
    obtain ⟨p, h1, h2, h3⟩ := pageRun_needs pre s n r
    by_cases g1 : startsWith k pre = true
    · refine ⟨.leaf k v :: p, List.cons_prefix_cons.2 ⟨rfl, h1⟩, by simp [pageRun, g1, Got.cons, readsIn, h2], ?_⟩
      rcases h3 with rfl | h3
      · exact .inl rfl
      · exact .inr fun s' q => by simp only [List.cons_append, pageRun, if_pos g1, h3]
    · exact ⟨[.leaf k v], List.cons_prefix_cons.2 ⟨rfl, List.nil_prefix⟩, by simp [pageRun, g1, readsIn],
        .inr fun s' q => by simp [pageRun, g1]⟩

/-- A consumer that stops after a prefix of what the generator does. -/
theorem run_needs {g g' : Gen C} {run : Option Err → List (Ev C) → Got C}
    (hrun : ∃ p, p <+: g.evs ∧ (run g.stop g.evs).reads = readsIn p ∧
      (p = g.evs ∨ ∀ s' q, run s' (p ++ q) = run g.stop g.evs))
    (hg : Follows rd rd' g g') (h : ∀ c ∈ (run g.stop g.evs).reads, rd' c = rd c) :
    run g'.stop g'.evs = run g.stop g.evs := by
  obtain ⟨p, h1, h2, h3⟩ := hrun
  rw [h2] at h
  rcases h3 with rfl | h3
  · rw [hg.2 h]
  · obtain ⟨q, hq⟩ := hg.1 p h1 h
    rw [← hq]
    exact h3 _ _

theorem listLazy_needs (f : Nat) (n : Node C) (after before : Option Key)
    (h : ∀ c ∈ (listLazy E rd f n after before).reads, rd' c = rd c) :
    listLazy E rd' f n after before = listLazy E rd f n after before :=
  run_needs (run := listRun after before) (listRun_needs _ _ _ _) (walkGen_follows f n _) h

theorem listWithPrefixLazy_needs (f : Nat) (n : Node C) (pre : Key)
    (h : ∀ c ∈ (listWithPrefixLazy E rd f n pre).reads, rd' c = rd c) :
    listWithPrefixLazy E rd' f n pre = listWithPrefixLazy E rd f n pre :=
  run_needs (run := prefixRun pre) (prefixRun_needs _ _ _) (walkGen_follows f n _) h

theorem pageLazy_needs (f : Nat) (n : Node C) (pre : Key) (limit : Nat) (start : Key)
    (h : ∀ c ∈ (pageLazy E rd f n pre limit start).reads, rd' c = rd c) :
    pageLazy E rd' f n pre limit start = pageLazy E rd f n pre limit start :=
  run_needs (run := fun s => pageRun pre s limit) (pageRun_needs _ _ _ _) (walkGen_follows f n _) h

/-! ### Lookups -/

theorem atIndex_pred {n : Node C} {es : List (Ent C)} (he : getEntries E rd n = .ok es) (i : Nat) :
    atIndex E rd n ((i : Int) - 1) = .ok (if 0 < i then es[i - 1]? else none) := by
  unfold atIndex
  rw [he, ok_bind]
  cases i with
  | zero => simp
  | succ j =>
    by_cases hj : j < es.length
    · rw [if_pos ⟨by omega, by omega⟩, if_pos (Nat.succ_pos j)]
      congr 2
      omega
    · rw [if_neg (by omega), if_pos (Nat.succ_pos j), Nat.add_sub_cancel, List.getElem?_eq_none (by omega)]

theorem atIndex_nat {n : Node C} {es : List (Ent C)} (he : getEntries E rd n = .ok es) (i : Nat) :
    atIndex E rd n (i : Int) = .ok es[i]? := by
  unfold atIndex
  rw [he, ok_bind]
  by_cases hj : i < es.length
  · rw [if_pos ⟨by omega, by omega⟩]
    rfl
  · rw [if_neg (by omega), List.getElem?_eq_none (by omega)]

theorem get_entries {n : Node C} {es : List (Ent C)} (he : getEntries E rd n = .ok es) (f : Nat) (k : Key) :
    get E rd (f + 1) n k =
      match leafHit k es[findGeIdx k es]? with
      | some v => .ok (some v)
      | none =>
        match asTree (if 0 < findGeIdx k es then es[findGeIdx k es - 1]? else none) with
        | some p => get E rd f p k
        | none => .ok none := by
  have hi : findGtOrEqualLeafIndex E rd n k = .ok (findGeIdx k es : Int) := by
    unfold findGtOrEqualLeafIndex
    rw [he, ok_bind]
  conv => lhs; unfold get
  rw [hi, ok_bind, atIndex_nat he, ok_bind, atIndex_pred he]
  cases leafHit k es[findGeIdx k es]? with
  | some v => rfl
  | none => rfl

theorem get_needs : ∀ (f : Nat) (n : Node C) (k : Key), (∀ c ∈ getReads E rd f n k, rd' c = rd c) →
    get E rd' f n k = get E rd f n k
  | 0, _, _, _ => rfl
  | f + 1, n, k, h => by
    unfold getReads at h
    have hag := getEntries_needs (E := E) n fun c hc => h c (List.mem_append_left _ hc)
    cases he : getEntries E rd n with
    | error e =>
      unfold get findGtOrEqualLeafIndex
      rw [hag, he]
      rfl
    | ok es =>
      rw [he] at hag
      rw [get_entries he, get_entries hag]
      rw [he] at h
      dsimp only at h
      cases hl : leafHit k es[findGeIdx k es]? with
      | some v => rfl
      | none =>
        rw [hl] at h
        dsimp only at h ⊢
        cases hp : asTree (if 0 < findGeIdx k es then es[findGeIdx k es - 1]? else none) with
        | none => rfl
        | some p =>
          rw [hp] at h
          exact get_needs f p k fun c hc => h c (List.mem_append_right _ hc)

theorem getReads_length : ∀ {f : Nat} {t : Tree C} {L : Nat} {n : Node C} (k : Key),
    ReprN E rd L t n → WF E.zeros L t → Sorted t → (getReads E rd f n k).length ≤ L + 1
  | 0, _, _, _, _, _, _, _ => by simp [getReads]
  | f + 1, t, L, n, k, hn, hwf, hs => by
    have h1 : (readsIn (entryReads n)).length ≤ 1 := by
      unfold entryReads
      split <;> simp [readsIn]
    obtain ⟨A, B, l, r, rfl, he, hi, hA, hB⟩ := locate k hn hwf hs
    unfold getReads
    rw [he]
    dsimp only
    rw [hi, List.length_append]
    cases leafHit k (l ++ r)[l.length]? with
    | some v => simp only [List.length_nil]; omega
    | none =>
      dsimp only
      have hidx : asTree (if 0 < l.length then (l ++ r)[l.length - 1]? else none) = asTree l.getLast? := by
        rcases List.eq_nil_or_concat' l with rfl | ⟨l', x, rfl⟩
        · simp
        · simp
      rw [hidx]
      cases hA with
      | done hA he hlt hl => rw [hl]; simp only [List.length_nil]; omega
      | @sub A c M l m hL hA hm hc hne hlt =>
        subst hL
        have hwc : WF E.zeros M c := by
          obtain ⟨_, _, _, hw, _⟩ := WF_sub.1 (WF_app.1 (WF_app.1 hwf).1).2.1
          simp_all
        have hsc : Sorted c := Sorted_sub_nil.1 hs.app_left.app_right
        have := getReads_length (f := f) k hm hwc hsc
        simp only [List.getLast?_append, List.getLast?_singleton, Option.some_or, asTree]
        omega

end Arroba
