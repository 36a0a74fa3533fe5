import Verif.Mst.VisitProofs
import Verif.Mst.ListingProofs

/-! Helper lemmas: the result of `mst_diff` in terms of pure trees; `add_diff`. -/

namespace Arroba

variable {C : Type}

open Arroba.Tree

theorem dictSet_nodup {α β : Type} [DecidableEq α] {d : List (α × β)} {k : α} {v : β}
    (h : (d.map (·.1)).Nodup) : ((dictSet d k v).map (·.1)).Nodup := by
  induction d with
  | nil => simp [dictSet]
  | cons x xs ih =>
    obtain ⟨a, b⟩ := x
    rw [List.map_cons, List.nodup_cons] at h
    simp only [dictSet]
    split
    · rename_i he; subst he; exact List.nodup_cons.2 h
    · rename_i he
      rw [List.map_cons, List.nodup_cons]
      refine ⟨?_, ih h.2⟩
      rw [keys_dictSet]
      rintro (h' | h')
      · exact he h'
      · exact h.1 h'

/-- The three dicts have each key once. -/
def Diff.NodupKeys (d : Diff C) : Prop :=
  (d.adds.map (·.1)).Nodup ∧ (d.updates.map (·.1)).Nodup ∧ (d.deletes.map (·.1)).Nodup

section
variable [DecidableEq C] {H : NodeData C → C}

theorem PRun.nodupKeys {xs ys : List (Item C)} {d d' : Diff C} (h : PRun H xs ys d d') :
    d.NodupKeys → d'.NodupKeys := by
  induction h with
  | done => exact id
  | add _ _ ih => exact fun h => ih ⟨dictSet_nodup h.1, h.2.1, h.2.2⟩
  | delete _ _ ih => exact fun h => ih ⟨h.1, h.2.1, dictSet_nodup h.2.2⟩
  | same _ ih =>
    intro h
    apply ih
    split
    · exact ⟨h.1, dictSet_nodup h.2.1, h.2.2⟩
    · exact h
  | @right xs ys L t d _ _ ih =>
    intro h
    obtain ⟨h1, h2, h3⟩ := recordNewCid_adds d (cidOf H t)
    exact ih (by simpa only [Diff.NodupKeys, h1, h2, h3] using h)
  | @left xs ys L t d _ _ ih =>
    intro h
    obtain ⟨h1, h2, h3⟩ := recordRemovedCid_adds d (cidOf H t)
    exact ih (by simpa only [Diff.NodupKeys, h1, h2, h3] using h)
  | skip _ ih => exact ih

/-- Records of a diff run from scratch. -/
theorem PRun.isDiff {xs ys : List (Item C)} {d : Diff C} (h : PRun H xs ys Diff.empty d)
    (hx : SortedItems xs) (hy : SortedItems ys) :
    IsDiff (dictGet (itemLeaves xs)) (dictGet (itemLeaves ys)) d := by
  have hr := h.records hx hy
  have hk := h.nodupKeys ⟨by simp [Diff.empty], by simp [Diff.empty], by simp [Diff.empty]⟩
  refine ⟨fun k c => ?_, fun k c => ?_, fun k c => ?_, hk.1, hk.2.1, hk.2.2⟩
  · rw [(hr k).1]
    cases h1 : dictGet (itemLeaves xs) k <;> cases h2 : dictGet (itemLeaves ys) k <;>
      simp [addSpec, Diff.empty, dictGet, eq_comm]
  · rw [(hr k).2.1]
    cases h1 : dictGet (itemLeaves xs) k <;> cases h2 : dictGet (itemLeaves ys) k <;>
      simp only [updSpec, Diff.empty, dictGet] <;> try simp
    rename_i x y
    by_cases he : x = y
    · simp [he]
    · simp [he, eq_comm]
  · rw [(hr k).2.2]
    cases h1 : dictGet (itemLeaves xs) k <;> cases h2 : dictGet (itemLeaves ys) k <;>
      simp [delSpec, Diff.empty, dictGet, eq_comm]

/-- Block CIDs of a diff run from scratch. -/
theorem PRun.isCidDiff {xs ys : List (Item C)} {d : Diff C} (h : PRun H xs ys Diff.empty d)
    (hv : ∀ kv ∈ itemLeaves ys, ∀ nd, H nd ≠ kv.2)
    (hx : (itemCids H xs).Nodup) (hy : (itemCids H ys).Nodup) :
    (∀ c, (∃ nd, H nd = c) → (c ∈ d.newCids ↔ c ∈ itemCids H ys ∧ c ∉ itemCids H xs)) ∧
    (∀ c, c ∈ d.removedCids ↔ c ∈ itemCids H xs ∧ c ∉ itemCids H ys) := by
  obtain ⟨vl, vr, s, ⟨h1, h2⟩, h3, h4, h5⟩ := h.cids hv (vl := []) (vr := [])
    ⟨by simp [Diff.empty], by simp [Diff.empty]⟩ (by simpa using hx) (by simpa using hy)
  have e3 : ∀ c, c ∈ itemCids H xs ↔ c ∈ vl ∨ c ∈ s := fun c => by simpa using h3 c
  have e4 : ∀ c, c ∈ itemCids H ys ↔ c ∈ vr ∨ c ∈ s := fun c => by simpa using h4 c
  refine ⟨fun c hc => ?_, fun c => ?_⟩
  · rw [h1 c hc, e3, e4]
    have := h5 c
    tauto
  · rw [h2 c, e3, e4]
    have := h5 c
    tauto

end

section
variable [DecidableEq C] {E : Env C} {rd : C → Option (NodeData C)}

/-- `null_diff` is a run against nothing. -/
theorem nullLoop_spec {rec : Node C → Except Err (List (Ent C))} {xs : List (Item C)}
    {es : List (Ent C)} (h : List.Forall₂ (ReprItem E rd Fresh) xs es)
    (hrec : ∀ L t m, ReprItem E rd Fresh (.node L t) (.tree m) → Item.node L t ∈ xs →
      ∃ w, rec m = .ok w ∧ ∀ ys d d', PRun E.H [] ys (nullDiffLoop w d) d' →
        PRun E.H [] (.node L t :: ys) d d') :
    ∃ w, walkLoop rec es = .ok w ∧ ∀ ys d d', PRun E.H [] ys (nullDiffLoop w d) d' →
        PRun E.H [] (xs ++ ys) d d' := by
  induction h with
  | nil => exact ⟨[], rfl, fun ys d d' h => h⟩
  | @cons x e xs es hx _ ih =>
    obtain ⟨w, h1, h2⟩ := ih (fun L t m hm hmem => hrec L t m hm (by simp [hmem]))
    cases x with
    | leaf k v =>
      cases hx
      refine ⟨.leaf k v :: w, by simp [walkLoop, h1], fun ys d d' h => ?_⟩
      exact .add (by simp) (h2 ys _ d' h)
    | node L t =>
      obtain ⟨m, rfl, hm⟩ := hx
      obtain ⟨w', h3, h4⟩ := hrec L t m ⟨m, rfl, hm⟩ (by simp)
      refine ⟨w' ++ w, by simp [walkLoop, h1, h3], fun ys d d' h => ?_⟩
      refine h4 _ _ _ (h2 ys _ d' ?_)
      have happ : ∀ (a b : List (Ent C)) (d : Diff C),
          nullDiffLoop (a ++ b) d = nullDiffLoop b (nullDiffLoop a d) := by
        intro a
        induction a with
        | nil => intros; rfl
        | cons x xs ih => intro b d; cases x <;> simp [nullDiffLoop, ih]
      rw [← happ]; exact h

theorem walk_null : ∀ {f : Nat} {L : Nat} {t : Tree C} {n : Node C},
    ReprItem E rd Fresh (.node L t) (.tree n) → L + 1 ≤ f →
    ∃ w, walk E rd f n = .ok w ∧ ∀ ys d d', PRun E.H [] ys (nullDiffLoop w d) d' →
      PRun E.H [] (.node L t :: ys) d d'
  | 0, _, _, _, _, hf => by omega
  | f + 1, L, t, n, hn, hf => by
    obtain ⟨es, he, h1, _⟩ := node_entries .fresh hn
    obtain ⟨w, h2, h3⟩ := nullLoop_spec (rec := walk E rd f) h1 (fun L' t' m hm hmem =>
      walk_null hm (by
        have h' := items_node hmem
        obtain ⟨n', hn', hr, hfr, hw, hv⟩ := hn
        have : L ≠ 0 := by
          rintro rfl
          cases t with
          | nil => simp [items] at hmem
          | leaf k v r =>
            have : ∀ r : Tree C, WF E.zeros 0 r → subs r = [] := by
              intro r
              induction r with
              | nil => intro _; rfl
              | leaf k v r ih => intro h; exact ih h.2
              | sub c r _ _ => intro h; exact h.elim
            rw [this _ hw] at h'; simp at h'
          | sub c r => exact hw.elim
        omega))
    refine ⟨.tree n :: w, by simp [walk, he, h2], fun ys d d' h => ?_⟩
    refine .right (h3 ys _ d' ?_)
    simpa only [nullDiffLoop, hn.pointer] using h

end

section
variable [DecidableEq C] {E : Env C} {rd : C → Option (NodeData C)} {Z fuel : Nat} {n : Node C}
  {ops : List (Op C)} {outs : List (Option Err)}

/-- A reachable tree after `get_pointer()`. -/
theorem Run.refreshed (hinj : Function.Injective E.H) (hZ : ∀ k, E.zeros k ≤ Z) (hf : Z + 2 ≤ fuel)
    (h : Run E fuel rd n ops outs) :
    ∃ L t n', Inv E rd Z L t n (specRun ops).1 ∧ refresh E rd fuel n = .ok n' ∧
      ReprItem E rd Fresh (.node L t) (.tree n') ∧ getPointer E rd fuel n = .ok (cidOf E.H t) := by
  obtain ⟨_, _, L, t, hi, _⟩ := h.inv hinj hZ hf
  have hb := hi.bound
  obtain ⟨n', h1, h2, _, _, h3⟩ := refresh_spec' hi.repr hi.wf hi.valid (f := fuel) (by omega)
  exact ⟨L, t, n', hi, h1, ⟨n', rfl, h2, h3 h.clean, hi.wf, hi.valid⟩,
    getPointer_spec hi.repr hi.wf hi.valid (by omega)⟩

/-- `mst_diff` of two reachable trees is a run on their to-do lists. -/
theorem mstDiff_spec (hinj : Function.Injective E.H) (hZ : ∀ k, E.zeros k ≤ Z) (hf : Z + 2 ≤ fuel)
    {prev : Node C} {ops' : List (Op C)} {outs' : List (Option Err)}
    (h : Run E fuel rd n ops outs) (h' : Run E fuel rd prev ops' outs') :
    ∃ L t L' t', Inv E rd Z L t n (specRun ops).1 ∧ Inv E rd Z L' t' prev (specRun ops').1 ∧
      getPointer E rd fuel n = .ok (cidOf E.H t) ∧
      getPointer E rd fuel prev = .ok (cidOf E.H t') ∧
      ∃ N, ∀ steps, N ≤ steps → ∃ D, mstDiff E rd fuel steps n (some prev) = .ok D ∧
        PRun E.H [.node L' t'] [.node L t] Diff.empty D := by
  obtain ⟨L, t, m, hi, h1, h2, h3⟩ := h.refreshed hinj hZ hf
  obtain ⟨L', t', m', hi', h1', h2', h3'⟩ := h'.refreshed hinj hZ hf
  refine ⟨L, t, L', t', hi, hi', h3, h3', itemSize [Item.node L' t'] + itemSize [Item.node L t] + 1,
    fun steps hst => ?_⟩
  obtain ⟨D, h4, h5⟩ := diffLoop_spec hinj (steps := steps) (d := Diff.empty)
    (l := newWalker m') (r := newWalker m)
    (.inr (.inl ⟨m', L', t', rfl, rfl, h2'⟩)) (.inr (.inl ⟨m, L, t, rfl, rfl, h2⟩))
    (by simpa [SortedItems, Sorted] using hi'.sorted) (by simpa [SortedItems, Sorted] using hi.sorted) (by omega)
  exact ⟨D, by simp [mstDiff, h1, h1', h4], h5⟩

theorem nullDiff_spec (hinj : Function.Injective E.H) (hZ : ∀ k, E.zeros k ≤ Z) (hf : Z + 2 ≤ fuel)
    (h : Run E fuel rd n ops outs) :
    ∃ L t, Inv E rd Z L t n (specRun ops).1 ∧ getPointer E rd fuel n = .ok (cidOf E.H t) ∧
      ∀ steps, ∃ D, mstDiff E rd fuel steps n none = .ok D ∧
        PRun E.H [] [.node L t] Diff.empty D := by
  obtain ⟨L, t, m, hi, h1, h2, h3⟩ := h.refreshed hinj hZ hf
  have hb := hi.bound
  obtain ⟨w, h4, h5⟩ := walk_null h2 (f := fuel) (by omega)
  exact ⟨L, t, hi, h3, fun steps => ⟨_, by simp only [mstDiff, h1, ok_bind, nullDiff, h4], h5 [] _ _ .done⟩⟩

end

/-! ### `add_diff` -/

theorem dictGet_dictErase {α β : Type} [DecidableEq α] (d : List (α × β)) (k k' : α) :
    dictGet (dictErase d k) k' = if k' = k then none else dictGet d k' := by
  induction d with
  | nil => simp [dictErase, dictGet]
  | cons x xs ih =>
    obtain ⟨a, b⟩ := x
    simp only [dictErase, List.filter_cons] at ih ⊢
    by_cases h : a = k
    · subst h
      simp only [ne_eq, not_true_eq_false, decide_false, Bool.false_eq_true, if_false, ih, dictGet]
      by_cases h' : k' = a
      · simp [h']
      · have : ¬ a = k' := fun e => h' e.symm
        simp [h', this]
    · simp only [ne_eq, h, not_false_eq_true, decide_true, if_true, dictGet, ih]
      by_cases h' : a = k'
      · subst h'; simp [h]
      · simp [h']

theorem dictErase_nodup {α β : Type} [DecidableEq α] {d : List (α × β)} {k : α}
    (h : (d.map (·.1)).Nodup) : ((dictErase d k).map (·.1)).Nodup :=
  h.sublist (List.filter_sublist.map _)

/-- What a diff says about one key. -/
abbrev KeyView (C : Type) := Option (Change C) × Option (Change C) × Option (Change C)

def Diff.view (d : Diff C) (k : Key) : KeyView C :=
  (dictGet d.adds k, dictGet d.updates k, dictGet d.deletes k)

/-- Folding a step that only touches the key of its change, over a dict. -/
theorem fold_view {f : Diff C → Change C → Diff C} {g : Change C → KeyView C → KeyView C}
    (hf : ∀ d ch, (f d ch).view ch.key = g ch (d.view ch.key))
    (hf' : ∀ d ch k, k ≠ ch.key → (f d ch).view k = d.view k)
    (k : Key) : ∀ (l : List (Key × Change C)) (d : Diff C), (l.map (·.1)).Nodup →
    (∀ kc ∈ l, kc.2.key = kc.1) →
    ((l.map (·.2)).foldl f d).view k = match dictGet l k with
      | some ch => g ch (d.view k)
      | none => d.view k
  | [], d, _, _ => by simp [dictGet]
  | (k', ch) :: l, d, hn, hk => by
    rw [List.map_cons, List.nodup_cons] at hn
    have he : ch.key = k' := hk (k', ch) (by simp)
    simp only [List.map_cons, List.foldl_cons]
    rw [fold_view hf hf' k l (f d ch) hn.2 (fun kc hkc => hk kc (by simp [hkc]))]
    simp only [dictGet]
    by_cases h : k' = k
    · subst h
      have : dictGet l k' = none := dictGet_eq_none.2 fun x hx hx' =>
        hn.1 (List.mem_map.2 ⟨x, hx, hx'⟩)
      have h1 := hf d ch
      rw [he] at h1
      simp [this, h1]
    · have : k ≠ ch.key := by rw [he]; exact fun e => h e.symm
      simp only [h, if_false, hf' d ch k this]

section
variable [DecidableEq C]

/-- The three steps of `add_diff`, on one key. -/
def addG (a : Change C) : KeyView C → KeyView C
  | (x, u, some del) => (x, if del.cid ≠ a.cid then some ⟨a.key, a.cid, some del.cid⟩ else u, none)
  | (_, u, none) => (some ⟨a.key, a.cid, none⟩, u, none)
def updG (u : Change C) : KeyView C → KeyView C
  | (_, _, _) => (none, some u, none)
def delG (x : Change C) : KeyView C → KeyView C
  | (some _, u, d) => (none, u, d)
  | (none, _, _) => (none, none, some ⟨x.key, x.cid, none⟩)

/-- A step, if the dict has the key. -/
def optG (g : Change C → KeyView C → KeyView C) : Option (Change C) → KeyView C → KeyView C
  | some ch, v => g ch v
  | none, v => v

theorem addDiff_view {d e : Diff C} (hn : e.NodupKeys)
    (ha : ∀ kc ∈ e.adds, kc.2.key = kc.1) (hu : ∀ kc ∈ e.updates, kc.2.key = kc.1)
    (hd : ∀ kc ∈ e.deletes, kc.2.key = kc.1) (k : Key) :
    (d.addDiff e).view k = optG delG (dictGet e.deletes k) (optG updG (dictGet e.updates k)
      (optG addG (dictGet e.adds k) (d.view k))) := by
  have h1 : ∀ d : Diff C, ((e.adds.map (·.2)).foldl Diff.addDiffAdd d).view k =
      optG addG (dictGet e.adds k) (d.view k) := by
    intro d
    rw [fold_view (g := addG) ?_ ?_ k e.adds d hn.1 ha]
    · cases dictGet e.adds k <;> rfl
    · intro d ch
      unfold Diff.addDiffAdd
      cases h : dictGet d.deletes ch.key with
      | none => simp [Diff.view, Diff.recordAdd, dictGet_dictSet, addG, h]
      | some del =>
        by_cases hc : del.cid = ch.cid
        · simp [Diff.view, dictGet_dictErase, addG, h, hc]
        · simp [Diff.view, Diff.recordUpdate, dictGet_dictSet, dictGet_dictErase, addG, h, hc]
    · intro d ch k hk
      unfold Diff.addDiffAdd
      cases h : dictGet d.deletes ch.key with
      | none => simp [Diff.view, Diff.recordAdd, dictGet_dictSet, hk]
      | some del =>
        by_cases hc : del.cid = ch.cid
        · simp [Diff.view, dictGet_dictErase, hk, hc]
        · simp [Diff.view, Diff.recordUpdate, dictGet_dictSet, dictGet_dictErase, hk, hc]
  have h2 : ∀ d : Diff C, ((e.updates.map (·.2)).foldl Diff.addDiffUpdate d).view k =
      optG updG (dictGet e.updates k) (d.view k) := by
    intro d
    rw [fold_view (g := updG) ?_ ?_ k e.updates d hn.2.1 hu]
    · cases dictGet e.updates k <;> rfl
    · intro d ch
      simp [Diff.view, Diff.addDiffUpdate, dictGet_dictSet, dictGet_dictErase, updG]
    · intro d ch k hk
      simp [Diff.view, Diff.addDiffUpdate, dictGet_dictSet, dictGet_dictErase, hk]
  have h3 : ∀ d : Diff C, ((e.deletes.map (·.2)).foldl Diff.addDiffDelete d).view k =
      optG delG (dictGet e.deletes k) (d.view k) := by
    intro d
    rw [fold_view (g := delG) ?_ ?_ k e.deletes d hn.2.2 hd]
    · cases dictGet e.deletes k <;> rfl
    · intro d ch
      unfold Diff.addDiffDelete
      cases h : dictGet d.adds ch.key with
      | none => simp [Diff.view, Diff.recordDelete, dictGet_dictSet, dictGet_dictErase, delG, h]
      | some _ => simp [Diff.view, dictGet_dictErase, delG, h]
    · intro d ch k hk
      unfold Diff.addDiffDelete
      cases h : dictGet d.adds ch.key with
      | none => simp [Diff.view, Diff.recordDelete, dictGet_dictSet, dictGet_dictErase, hk]
      | some _ => simp [Diff.view, dictGet_dictErase, hk]
  have h4 : (d.addDiff e).view k = ((e.deletes.map (·.2)).foldl Diff.addDiffDelete
      ((e.updates.map (·.2)).foldl Diff.addDiffUpdate
        ((e.adds.map (·.2)).foldl Diff.addDiffAdd d))).view k := rfl
  rw [h4, h3, h2, h1]

theorem fold_nodupKeys {f : Diff C → Change C → Diff C}
    (hf : ∀ d ch, d.NodupKeys → (f d ch).NodupKeys) : ∀ (l : List (Change C)) (d : Diff C),
    d.NodupKeys → (l.foldl f d).NodupKeys
  | [], _, h => h
  | ch :: l, d, h => fold_nodupKeys hf l (f d ch) (hf d ch h)

theorem addDiff_nodupKeys {d e : Diff C} (h : d.NodupKeys) : (d.addDiff e).NodupKeys := by
  have h1 := fold_nodupKeys (f := Diff.addDiffAdd) (C := C) (fun d ch h => by
    unfold Diff.addDiffAdd
    split
    · refine ⟨?_, ?_, dictErase_nodup ?_⟩ <;> split <;>
        simp_all [Diff.NodupKeys, Diff.recordUpdate, dictSet_nodup]
    · exact ⟨dictSet_nodup h.1, h.2.1, h.2.2⟩) (e.adds.map (·.2)) d h
  have h2 := fold_nodupKeys (f := Diff.addDiffUpdate) (fun d ch h =>
    ⟨dictErase_nodup h.1, dictSet_nodup h.2.1, dictErase_nodup h.2.2⟩) (e.updates.map (·.2)) _ h1
  have h3 := fold_nodupKeys (f := Diff.addDiffDelete) (fun d ch h => by
    unfold Diff.addDiffDelete
    split
    · exact ⟨dictErase_nodup h.1, h.2.1, h.2.2⟩
    · exact ⟨h.1, dictErase_nodup h.2.1, dictSet_nodup h.2.2⟩) (e.deletes.map (·.2)) _ h2
  exact h3

end

end Arroba
