import Verif.Xrpc.Export
import Verif.Xrpc.ImportProofs
import Verif.Mst.VisitProofs
import Verif.Mst.DiffProofs2

/-! Helper lemmas: what `load_all` yields. -/

namespace Arroba.Xrpc

open Arroba.Store Arroba.Tree

variable {C R : Type} [DecidableEq C]

theorem rawDict_spec (w : World C R) : ∀ (cids : List C) (acc : List (Raw C R)),
    (acc.map (·.1)).Nodup → (∀ i ∈ acc, ∃ b, w.read i.1 = some b ∧ i.2 = (b.val, b.seq)) →
    ((rawDict w cids acc).map (·.1)).Nodup ∧ ∀ c x, (c, x) ∈ rawDict w cids acc ↔
      (c ∈ acc.map (·.1) ∨ c ∈ cids) ∧ ∃ b, w.read c = some b ∧ x = (b.val, b.seq)
  | [], acc, hn, ha => by
    refine ⟨hn, fun c x => ⟨fun h => ⟨.inl (List.mem_map.2 ⟨_, h, rfl⟩), ha _ h⟩, ?_⟩⟩
    rintro ⟨h | h, b, hb, rfl⟩
    · obtain ⟨⟨c', y⟩, hi, rfl⟩ := List.mem_map.1 h
      obtain ⟨b', hb', he⟩ := ha _ hi
      dsimp only at hb' he hb
      rw [hb] at hb'
      cases hb'
      rw [← he]
      exact hi
    · cases h
  | d :: cs, acc, hn, ha => by
    unfold rawDict
    cases hd : w.read d with
    | none =>
      dsimp only
      obtain ⟨h1, h2⟩ := rawDict_spec w cs acc hn ha
      refine ⟨h1, fun c x => (h2 c x).trans ⟨?_, ?_⟩⟩
      · rintro ⟨h, hb⟩
        exact ⟨h.imp_right (.tail _), hb⟩
      · rintro ⟨h, b, hb, hx⟩
        refine ⟨h.imp_right fun h => ?_, b, hb, hx⟩
        rcases List.mem_cons.1 h with rfl | h
        · rw [hd] at hb; cases hb
        · exact h
    | some b =>
      dsimp only
      obtain ⟨h1, h2⟩ := rawDict_spec w cs (dictSet acc d (b.val, b.seq)) (dictSet_nodup hn) (by
        intro i hi
        rcases mem_dictSet hi with rfl | hi
        · exact ⟨b, hd, rfl⟩
        · exact ha i hi)
      refine ⟨h1, fun c x => (h2 c x).trans ⟨?_, ?_⟩⟩
      · rintro ⟨h, hb⟩
        refine ⟨?_, hb⟩
        rw [keys_dictSet] at h
        rcases h with (rfl | h) | h
        · exact .inr (.head _)
        · exact .inl h
        · exact .inr (.tail _ h)
      · rintro ⟨h, hb⟩
        refine ⟨?_, hb⟩
        rw [keys_dictSet]
        rcases h with h | h
        · exact .inl (.inr h)
        · rcases List.mem_cons.1 h with rfl | h
          · exact .inl (.inl rfl)
          · exact .inr h

theorem readManyRaw_spec {be : Backend} {ord : List (Raw C R) → List (Raw C R)}
    (hord : ∀ l, (ord l).Perm l) {w : World C R} {cids : List C}
    (h : ∀ c ∈ cids, (w.read c).isSome) :
    ∃ items, readManyRaw be ord w cids = .ok items ∧ (items.map (·.1)).Nodup ∧
      ∀ c x, (c, x) ∈ items ↔ c ∈ cids ∧ ∃ b, w.read c = some b ∧ x = (b.val, b.seq) := by
  obtain ⟨h1, h2⟩ := rawDict_spec w cids [] List.nodup_nil (by simp)
  unfold readManyRaw
  cases be with
  | memory =>
    dsimp only
    rw [if_pos (List.all_eq_true.2 h)]
    exact ⟨_, rfl, h1, fun c x => by simpa using h2 c x⟩
  | datastore =>
    refine ⟨_, rfl, ((hord _).map _).nodup_iff.2 h1, fun c x => ?_⟩
    rw [(hord _).mem_iff]
    simpa using h2 c x

omit [DecidableEq C] in
theorem leafValues_append (a b : List (Ent C)) : leafValues (a ++ b) = leafValues a ++ leafValues b := by
  induction a with
  | nil => rfl
  | cons x xs ih => cases x <;> simp [leafValues, ih]

omit [DecidableEq C] in
theorem treePointers_append (a b : List (Ent C)) :
    treePointers (a ++ b) = treePointers a ++ treePointers b := by
  induction a with
  | nil => rfl
  | cons x xs ih => cases x <;> simp [treePointers, ih]

omit [DecidableEq C] in
theorem entries_values (layer : Option Int) : ∀ (es : List (EntryData C)) (last : Key),
    leafValues (deserializeEntries layer last es) = es.map (·.v)
  | [], _ => rfl
  | e :: es, last => by
    unfold deserializeEntries
    simp only [leafValues, leafValues_append, entries_values layer es, List.map_cons]
    cases e.t <;> rfl

omit [DecidableEq C] in
theorem entries_pointers (layer : Option Int) : ∀ (es : List (EntryData C)) (last : Key),
    treePointers (deserializeEntries layer last es) = es.filterMap (·.t)
  | [], _ => rfl
  | e :: es, last => by
    unfold deserializeEntries
    simp only [treePointers, treePointers_append, entries_pointers layer es, List.filterMap_cons]
    cases e.t <;> rfl

omit [DecidableEq C] in
theorem node_values (d : NodeData C) (layer : Option Int) :
    leafValues (deserializeNodeData d layer) = d.e.map (·.v) := by
  unfold deserializeNodeData
  rw [leafValues_append, entries_values]
  cases d.l <;> rfl

omit [DecidableEq C] in
theorem node_pointers (d : NodeData C) (layer : Option Int) :
    treePointers (deserializeNodeData d layer) = d.children := by
  unfold deserializeNodeData NodeData.children
  rw [treePointers_append, entries_pointers]
  cases d.l <;> rfl

omit [DecidableEq C] in
theorem children_eq' {z : Key → Nat} {H : NodeData C → C} : ∀ {t : Tree C} {L : Nat} (last : Key),
    WF z L t → (ser H t).1.toList ++ ((ser H t).2 last).filterMap (·.t) = (subs t).map (cidOf H) := by
  intro t
  induction t with
  | nil => intro L last _; rfl
  | leaf k v r ih =>
    intro L last hw
    have := ih k hw.2
    simp only [ser, subs, Option.toList_none, List.nil_append, List.filterMap_cons]
    cases h : (ser H r).1 with
    | none => rw [h] at this; simpa using this
    | some c => rw [h] at this; simpa using this
  | sub c r _ ih =>
    intro L last hw
    cases L with
    | zero => exact hw.elim
    | succ L =>
      obtain ⟨_, _, hs, hw⟩ := hw
      have h0 : (ser H r).1 = none := by
        cases r with
        | nil => rfl
        | leaf => rfl
        | sub => exact (hs trivial).elim
      have := ih last hw
      rw [h0] at this
      simp only [ser, subs, Option.toList_some, List.map_cons, List.singleton_append]
      rw [show H ⟨(ser H c).1, (ser H c).2 []⟩ = cidOf H c from rfl]
      simpa using this

omit [DecidableEq C] in
/-- The children of a node are its subtrees, in order. -/
theorem children_eq {z : Key → Nat} {H : NodeData C → C} {t : Tree C} {L : Nat} (hw : WF z L t) :
    (nodeOf H t).children = (subs t).map (cidOf H) := children_eq' [] hw

omit [DecidableEq C] in
theorem kids_eq (t : Tree C) : kids t = (subs t).flatMap nodes := by
  induction t with
  | nil => rfl
  | leaf k v r ih => exact ih
  | sub c r _ ih => simp [kids, subs, nodes, ih]

omit [DecidableEq C] in
theorem loadRound_spec {start : Int} : ∀ {items : List (Raw C R)},
    (∀ i ∈ items, ∃ d, i.2.1 = .node d) →
    loadRound start items = .ok
      ⟨(items.filter (fun i => decide (start ≤ i.2.2))).map (fun i => (i.1, i.2.1)),
        (items.filter (fun i => decide (start ≤ i.2.2))).flatMap
          (fun i => match i.2.1 with | .node d => d.e.map (·.v) | _ => []),
        (items.filter (fun i => decide (start ≤ i.2.2))).flatMap
          (fun i => match i.2.1 with | .node d => d.children | _ => [])⟩
  | [], _ => rfl
  | (c, v, seq) :: rest, h => by
    unfold loadRound
    obtain ⟨d, hd⟩ := h _ List.mem_cons_self
    dsimp only at hd
    subst hd
    have ih := loadRound_spec (start := start) (items := rest) (fun i hi => h i (.tail _ hi))
    by_cases hs : (seq : Int) < start
    · rw [if_pos hs, ih, List.filter_cons_of_neg (by simpa using hs)]
    · rw [if_neg hs, ih, List.filter_cons_of_pos (by simpa using hs)]
      simp only [node_values, node_pointers, List.map_cons, List.flatMap_cons]

/-- The sequence number of a stored block. -/
def seqAt (w : World C R) (c : C) : Nat := ((w.read c).map (·.seq)).getD 0

section
variable {w : World C R} {H : NodeData C → C} {start : Int}

/-- Not older than `start`. -/
def keep (H : NodeData C → C) (w : World C R) (start : Int) (s : Tree C) : Bool :=
  decide (start ≤ seqAt w (cidOf H s))

theorem nodes_split : ∀ {ts : List (Tree C)},
    (∀ s ∈ ts.flatMap nodes, ∀ u ∈ kids s, start ≤ seqAt w (cidOf H u) → start ≤ seqAt w (cidOf H s)) →
    ((ts.flatMap nodes).filter (keep H w start)).Perm (ts.filter (keep H w start) ++
      (((ts.filter (keep H w start)).flatMap subs).flatMap nodes).filter (keep H w start))
  | [], _ => .refl _
  | s :: ts, h => by
    have ih := nodes_split (ts := ts) (fun x hx => h x (by
      rw [List.flatMap_cons]; exact List.mem_append_right _ hx))
    rw [List.flatMap_cons, List.filter_append]
    by_cases hk : keep H w start s = true
    · rw [List.filter_cons_of_pos hk, List.flatMap_cons, List.flatMap_append, List.filter_append,
        ← kids_eq]
      rw [show nodes s = s :: kids s from rfl, List.filter_cons_of_pos hk, List.cons_append,
        List.cons_append]
      refine .cons _ ((ih.append_left _).trans ?_)
      rw [← List.append_assoc, ← List.append_assoc]
      exact List.Perm.append_right _ List.perm_append_comm
    · rw [List.filter_cons_of_neg hk]
      have h0 : (nodes s).filter (keep H w start) = [] := by
        rw [List.filter_eq_nil_iff]
        intro u hu hk'
        rcases List.mem_cons.1 hu with rfl | hu
        · exact hk hk'
        · apply hk
          unfold keep at hk' ⊢
          rw [decide_eq_true_eq] at hk' ⊢
          exact h s (by simp [nodes]) u hu hk'
      rw [h0]
      exact ih

/-- **The loop of `load_all`.** It yields exactly the nodes that are not older than `start`, each
once, and then the records mentioned in them. -/
theorem loadAllLoop_spec {z : Key → Nat} {be : Backend}
    {ord : Nat → List (Raw C R) → List (Raw C R)} (hord : ∀ f l, (ord f l).Perm l) :
    ∀ {f : Nat} {ts : List (Tree C)} {fetch records : List C}, fetch.Perm (ts.map (cidOf H)) →
    ((ts.flatMap nodes).map (cidOf H)).Nodup →
    (∀ s ∈ ts.flatMap nodes, ∃ b, w.read (cidOf H s) = some b ∧ b.val = .node (nodeOf H s)) →
    (∀ s ∈ ts, ∃ l, l + 1 ≤ f ∧ WF z l s) →
    (∀ s ∈ ts.flatMap nodes, ∀ e ∈ (nodeOf H s).e, (w.read e.v).isSome) →
    (∀ c ∈ records, (w.read c).isSome) →
    (∀ s ∈ ts.flatMap nodes, ∀ u ∈ kids s, start ≤ seqAt w (cidOf H u) → start ≤ seqAt w (cidOf H s)) →
    ∃ ys zs, loadAllLoop be ord w start f fetch records = .ok (ys ++ zs) ∧
      ys.Perm (((ts.flatMap nodes).filter (keep H w start)).map
        (fun s => (cidOf H s, .node (nodeOf H s)))) ∧
      (zs.map (·.1)).Nodup ∧
      ∀ c v, (c, v) ∈ zs ↔ (∃ b, w.read c = some b ∧ b.val = v) ∧
        (c ∈ records ∨ ∃ s ∈ ts.flatMap nodes, keep H w start s = true ∧
          c ∈ (nodeOf H s).e.map (·.v)) := by
  intro f
  induction f with
  | zero =>
    intro ts fetch records hp hn hst hf hv hr hm
    cases ts with
    | cons s ts => obtain ⟨l, hl, _⟩ := hf s (.head _); omega
    | nil =>
      have : fetch = [] := by simpa using hp
      subst this
      obtain ⟨items, h1, h2, h3⟩ := readManyRaw_spec (be := be) (hord 0) hr
      refine ⟨[], items.map (fun i => (i.1, i.2.1)), ?_, .refl _, ?_, ?_⟩
      · unfold loadAllLoop; rw [h1]; rfl
      · rw [List.map_map]; exact h2
      · intro c v
        rw [List.mem_map]
        constructor
        · rintro ⟨⟨c', x⟩, hi, he⟩
          obtain ⟨rfl, rfl⟩ := Prod.mk.inj he
          obtain ⟨g1, b, g2, rfl⟩ := (h3 _ _).1 hi
          exact ⟨⟨b, g2, rfl⟩, .inl g1⟩
        · rintro ⟨⟨b, hb, rfl⟩, hc | ⟨s, hs, _⟩⟩
          · exact ⟨(c, b.val, b.seq), (h3 _ _).2 ⟨hc, b, hb, rfl⟩, rfl⟩
          · simp at hs
  | succ f ih =>
    intro ts fetch records hp hn hst hf hv hr hm
    cases fetch with
    | nil =>
      have : ts = [] := by simpa using hp
      subst this
      obtain ⟨items, h1, h2, h3⟩ := readManyRaw_spec (be := be) (hord (f + 1)) hr
      refine ⟨[], items.map (fun i => (i.1, i.2.1)), ?_, .refl _, ?_, ?_⟩
      · unfold loadAllLoop; rw [h1]; rfl
      · rw [List.map_map]; exact h2
      · intro c v
        rw [List.mem_map]
        constructor
        · rintro ⟨⟨c', x⟩, hi, he⟩
          obtain ⟨rfl, rfl⟩ := Prod.mk.inj he
          obtain ⟨g1, b, g2, rfl⟩ := (h3 _ _).1 hi
          exact ⟨⟨b, g2, rfl⟩, .inl g1⟩
        · rintro ⟨⟨b, hb, rfl⟩, hc | ⟨s, hs, _⟩⟩
          · exact ⟨(c, b.val, b.seq), (h3 _ _).2 ⟨hc, b, hb, rfl⟩, rfl⟩
          · simp at hs
    | cons c0 cs =>
      have hmem : ∀ s ∈ ts, s ∈ ts.flatMap nodes := fun s hs =>
        List.mem_flatMap.2 ⟨s, hs, by simp [nodes]⟩
      have hfetch : ∀ c ∈ c0 :: cs, (w.read c).isSome := by
        intro c hc
        obtain ⟨s, hs, rfl⟩ := List.mem_map.1 (hp.mem_iff.1 hc)
        obtain ⟨b, hb, _⟩ := hst s (hmem s hs)
        rw [hb]; rfl
      obtain ⟨items, h1, h2, h3⟩ := readManyRaw_spec (be := be) (hord f) hfetch
      -- the items are the nodes `ts`
      let it : Tree C → Raw C R := fun s => (cidOf H s, .node (nodeOf H s), seqAt w (cidOf H s))
      have hsub : (ts.map (cidOf H)).Nodup := by
        refine hn.sublist (List.Sublist.map _ ?_)
        clear * -
        induction ts with
        | nil => exact .slnil
        | cons s ts ih =>
          rw [List.flatMap_cons]
          exact .cons_cons _ (ih.trans (List.sublist_append_right _ _))
      have hitn : (ts.map it).Nodup := by
        refine List.Nodup.of_map (f := fun i : Raw C R => i.1) ?_
        rw [List.map_map]; exact hsub
      have hit : items.Perm (ts.map it) := by
        refine (List.perm_ext_iff_of_nodup (List.Nodup.of_map _ h2) hitn).2 ?_
        rintro ⟨c, x⟩
        rw [h3, hp.mem_iff, List.mem_map, List.mem_map]
        constructor
        · rintro ⟨⟨s, hs, rfl⟩, b, hb, rfl⟩
          obtain ⟨b', hb', hv'⟩ := hst s (hmem s hs)
          rw [hb] at hb'
          cases hb'
          refine ⟨s, hs, ?_⟩
          simp only [it, seqAt, hb, hv', Option.map_some, Option.getD_some]
        · rintro ⟨s, hs, he⟩
          obtain ⟨rfl, rfl⟩ := Prod.mk.inj he
          obtain ⟨b', hb', hv'⟩ := hst s (hmem s hs)
          refine ⟨⟨s, hs, rfl⟩, b', hb', ?_⟩
          simp only [seqAt, hb', hv', Option.map_some, Option.getD_some]
      have hround := loadRound_spec (start := start) (items := items) (by
        intro i hi
        obtain ⟨s, _, rfl⟩ := List.mem_map.1 (hit.mem_iff.1 hi)
        exact ⟨_, rfl⟩)
      set ks := ts.filter (keep H w start) with hks
      have hkept : (items.filter (fun i => decide (start ≤ i.2.2))).Perm (ks.map it) := by
        refine (hit.filter _).trans ?_
        rw [List.filter_map]
        rfl
      have hkmem : ∀ s ∈ (ks.flatMap subs).flatMap nodes, s ∈ ts.flatMap nodes := by
        intro s hs
        obtain ⟨u, hu, hsu⟩ := List.mem_flatMap.1 hs
        obtain ⟨x, hx, hux⟩ := List.mem_flatMap.1 hu
        refine List.mem_flatMap.2 ⟨x, (List.mem_filter.1 hx).1, ?_⟩
        exact nodes_trans (s := u) (by simp [nodes, subs_kids hux]) hsu
      obtain ⟨ys, zs, g1, g2, g3, g4⟩ := ih (ts := ks.flatMap subs)
        (fetch := (items.filter (fun i => decide (start ≤ i.2.2))).flatMap
          (fun i => match i.2.1 with | .node d => d.children | _ => []))
        (records := records ++ (items.filter (fun i => decide (start ≤ i.2.2))).flatMap
          (fun i => match i.2.1 with | .node d => d.e.map (·.v) | _ => []))
        (by
          refine (hkept.flatMap_right _).trans ?_
          rw [List.flatMap_map, List.map_flatMap]
          refine List.Perm.of_eq (List.flatMap_congr fun s hs => ?_)
          obtain ⟨l, _, hw⟩ := hf s (List.mem_filter.1 hs).1
          exact children_eq hw)
        (by
          refine List.Nodup.sublist ?_ hn
          refine List.Sublist.map _ ?_
          rw [hks]
          clear * -
          induction ts with
          | nil => exact .slnil
          | cons s ts ih =>
            rw [List.flatMap_cons]
            by_cases hk : keep H w start s = true
            · rw [List.filter_cons_of_pos hk, List.flatMap_cons, List.flatMap_append, ← kids_eq]
              exact List.Sublist.append (List.sublist_cons_self _ _) ih
            · rw [List.filter_cons_of_neg hk]
              exact ih.trans (List.sublist_append_right _ _))
        (fun s hs => hst s (hkmem s hs))
        (by
          intro s hs
          obtain ⟨x, hx, hsx⟩ := List.mem_flatMap.1 hs
          obtain ⟨l, hl, hw⟩ := hf x (List.mem_filter.1 hx).1
          clear * - hl hw hsx
          induction x generalizing l with
          | nil => simp [subs] at hsx
          | leaf k v r ih => exact ih hsx l hl hw.2
          | sub c r _ ih =>
            cases l with
            | zero => exact hw.elim
            | succ l =>
              simp only [subs, List.mem_cons] at hsx
              rcases hsx with rfl | hsx
              · exact ⟨l, by omega, hw.2.1⟩
              · exact ih hsx (l + 1) hl hw.2.2.2)
        (fun s hs => hv s (hkmem s hs))
        (by
          intro c hc
          rcases List.mem_append.1 hc with hc | hc
          · exact hr c hc
          · obtain ⟨i, hi, hci⟩ := List.mem_flatMap.1 hc
            obtain ⟨s, hs, rfl⟩ := List.mem_map.1 (hkept.mem_iff.1 hi)
            obtain ⟨e, he, rfl⟩ := List.mem_map.1 hci
            exact hv s (hmem s (List.mem_filter.1 hs).1) e he)
        (fun s hs => hm s (hkmem s hs))
      refine ⟨(items.filter (fun i => decide (start ≤ i.2.2))).map (fun i => (i.1, i.2.1)) ++ ys, zs,
        ?_, ?_, g3, ?_⟩
      · unfold loadAllLoop
        rw [h1]
        dsimp only
        rw [hround]
        dsimp only
        rw [g1]
        simp only [List.append_assoc]
      · refine List.Perm.trans ?_ ((nodes_split hm).map _).symm
        rw [List.map_append]
        refine List.Perm.append ?_ g2
        refine (hkept.map _).trans ?_
        rw [List.map_map]
        rfl
      · intro c v
        rw [g4]
        refine and_congr_right fun _ => ?_
        constructor
        · rintro (h | ⟨s, hs, hk, hc⟩)
          · rcases List.mem_append.1 h with h | h
            · exact .inl h
            · obtain ⟨i, hi, hci⟩ := List.mem_flatMap.1 h
              obtain ⟨s, hs, rfl⟩ := List.mem_map.1 (hkept.mem_iff.1 hi)
              exact .inr ⟨s, hmem s (List.mem_filter.1 hs).1, (List.mem_filter.1 hs).2, hci⟩
          · exact .inr ⟨s, hkmem s hs, hk, hc⟩
        · rintro (h | ⟨s, hs, hk, hc⟩)
          · exact .inl (List.mem_append_left _ h)
          · have := ((nodes_split hm).mem_iff (a := s)).1 (List.mem_filter.2 ⟨hs, hk⟩)
            rcases List.mem_append.1 this with h | h
            · refine .inl (List.mem_append_right _ (List.mem_flatMap.2 ⟨it s, ?_, hc⟩))
              exact hkept.mem_iff.2 (List.mem_map_of_mem h)
            · exact .inr ⟨s, (List.mem_filter.1 h).1, hk, hc⟩

end

end Arroba.Xrpc
