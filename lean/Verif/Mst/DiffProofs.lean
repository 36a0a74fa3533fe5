import Verif.Mst.WalkerProofs
import Mathlib.Data.List.Nodup

/-! Helper lemmas: the diff loop against a specification by lookups and sets. -/

namespace Arroba

variable {C : Type}

open Arroba.Tree

/-! ### Dicts and sets -/

theorem dictGet_dictSet {α β : Type} [DecidableEq α] (d : List (α × β)) (k : α) (v : β) (k' : α) :
    dictGet (dictSet d k v) k' = if k' = k then some v else dictGet d k' := by
  induction d with
  | nil =>
    by_cases h : k' = k
    · simp [dictSet, dictGet, h]
    · have : ¬ k = k' := fun e => h e.symm
      simp [dictSet, dictGet, h, this]
  | cons x xs ih =>
    obtain ⟨a, b⟩ := x
    simp only [dictSet]
    by_cases h : a = k
    · subst h
      by_cases h' : k' = a
      · simp [dictGet, h']
      · have : ¬ a = k' := fun e => h' e.symm
        simp [dictGet, h', this]
    · by_cases h' : a = k'
      · subst h'
        simp [dictGet, h]
      · simp [dictGet, h, h', ih]

theorem mem_setAdd [DecidableEq C] {s : List C} {x y : C} : y ∈ setAdd s x ↔ y ∈ s ∨ y = x := by
  unfold setAdd
  split
  · constructor
    · exact .inl
    · rintro (h | rfl) <;> assumption
  · simp

theorem mem_setRemove [DecidableEq C] {s : List C} {x y : C} :
    y ∈ setRemove s x ↔ y ∈ s ∧ y ≠ x := by simp [setRemove]

/-! ### Runs on to-do lists -/

section
variable [DecidableEq C] (H : NodeData C → C)

/-- Everything the loop of `mst_diff` can do on two to-do lists, whatever layers the walkers
report. -/
inductive PRun : List (Item C) → List (Item C) → Diff C → Diff C → Prop
  | done {d} : PRun [] [] d d
  | add {xs ys k v d d'} (hlt : ∀ kv ∈ itemLeaves xs, k < kv.1)
      (h : PRun xs ys (d.recordAdd k v) d') : PRun xs (.leaf k v :: ys) d d'
  | delete {xs ys k v d d'} (hlt : ∀ kv ∈ itemLeaves ys, k < kv.1)
      (h : PRun xs ys (d.recordDelete k v) d') : PRun (.leaf k v :: xs) ys d d'
  | same {xs ys k a b d d'}
      (h : PRun xs ys (if a ≠ b then d.recordUpdate k a b else d) d') :
      PRun (.leaf k a :: xs) (.leaf k b :: ys) d d'
  | right {xs ys L t d d'}
      (h : PRun xs (items L t ++ ys) (d.recordNewCid (cidOf H t)) d') :
      PRun xs (.node L t :: ys) d d'
  | left {xs ys L t d d'}
      (h : PRun (items L t ++ xs) ys (d.recordRemovedCid (cidOf H t)) d') :
      PRun (.node L t :: xs) ys d d'
  | skip {xs ys L L' t d d'} (h : PRun xs ys d d') :
      PRun (.node L t :: xs) (.node L' t :: ys) d d'

end

section
variable [DecidableEq C] {E : Env C} {rd : C → Option (NodeData C)}

theorem ReprItem.pointer {L : Nat} {t : Tree C} {n : Node C}
    (h : ReprItem E rd Fresh (.node L t) (.tree n)) : n.pointer = cidOf E.H t := by
  obtain ⟨n', hn', hr, hf, hw, hv⟩ := h
  cases hn'
  cases hf with
  | mk ho _ => exact hr.1.2.1 ho

/-- The records still to visit are in strictly increasing key order. -/
def SortedItems (xs : List (Item C)) : Prop := (itemLeaves xs).Pairwise (fun a b => a.1 < b.1)

omit [DecidableEq C] in
theorem SortedItems.expand {L : Nat} {t : Tree C} {xs : List (Item C)}
    (h : SortedItems (.node L t :: xs)) : SortedItems (items L t ++ xs) := by
  simpa [SortedItems] using h

omit [DecidableEq C] in
theorem SortedItems.tail {x : Item C} {xs : List (Item C)} (h : SortedItems (x :: xs)) :
    SortedItems xs := by
  cases x with
  | leaf k v => exact (List.pairwise_cons.1 h).2
  | node L t => exact (List.pairwise_append.1 h).2.1

omit [DecidableEq C] in
theorem SortedItems.head {k : Key} {v : C} {xs : List (Item C)}
    (h : SortedItems (.leaf k v :: xs)) : ∀ kv ∈ itemLeaves xs, k < kv.1 :=
  (List.pairwise_cons.1 h).1

/-- One iteration with both walkers pointing at something. -/
theorem diffBoth_spec (hinj : Function.Injective E.H) {l r : Walker C} {x y : Item C}
    {xs ys : List (Item C)} {d : Diff C} {left right : Ent C} (hl : WR E rd Fresh l (x :: xs))
    (hr : WR E rd Fresh r (y :: ys)) (hsx : SortedItems (x :: xs)) (hsy : SortedItems (y :: ys))
    (hx : ReprItem E rd Fresh x left) (hy : ReprItem E rd Fresh y right) :
    ∃ l' r' d₁ xs' ys', diffBoth E rd l r d left right = .ok (l', r', d₁) ∧ WR E rd Fresh l' xs' ∧
      WR E rd Fresh r' ys' ∧ SortedItems xs' ∧ SortedItems ys' ∧
      itemSize xs' + itemSize ys' < itemSize (x :: xs) + itemSize (y :: ys) ∧
      ∀ d', PRun E.H xs' ys' d₁ d' → PRun E.H (x :: xs) (y :: ys) d d' := by
  obtain ⟨ll, hll⟩ := hl.layer
  obtain ⟨rl, hrl⟩ := hr.layer
  cases x with
  | leaf lk lv =>
    cases hx
    obtain ⟨l', hl1, hl2⟩ := advance_leaf hl
    cases y with
    | leaf rk rv =>
      cases hy
      obtain ⟨r', hr1, hr2⟩ := advance_leaf hr
      unfold diffBoth
      by_cases he : lk = rk
      · subst he
        simp only [if_true, hl1, hr1, ok_bind]
        exact ⟨l', r', _, xs, ys, rfl, hl2, hr2, hsx.tail, hsy.tail, by simp; omega,
          fun d' h => .same h⟩
      · simp only [he, if_false]
        by_cases hlt : lk < rk
        · simp only [hlt, if_true, hl1, ok_bind]
          refine ⟨l', r, _, xs, _, rfl, hl2, hr, hsx.tail, hsy, by simp,
            fun d' h => .delete ?_ h⟩
          intro kv hkv
          simp only [itemLeaves_leaf, List.mem_cons] at hkv
          rcases hkv with rfl | hkv
          · exact hlt
          · exact lt_trans hlt (hsy.head kv hkv)
        · have hgt : rk < lk := lt_of_le_of_ne (not_lt.1 hlt) (Ne.symm he)
          simp only [hlt, if_false, hr1, ok_bind]
          refine ⟨l, r', _, _, ys, rfl, hl, hr2, hsx, hsy.tail, by simp,
            fun d' h => .add ?_ h⟩
          intro kv hkv
          simp only [itemLeaves_leaf, List.mem_cons] at hkv
          rcases hkv with rfl | hkv
          · exact hgt
          · exact lt_trans hgt (hsx.head kv hkv)
    | node L t =>
      have hp := hy
      obtain ⟨m, rfl, hm⟩ := hy
      have hptr := hp.pointer
      obtain ⟨r', hr1, hr2⟩ := stepInto_spec .fresh hr
      obtain ⟨r'', hr3, hr4⟩ := advance_node .fresh hr
      unfold diffBoth
      simp only [hll, hrl, ok_bind]
      split
      · simp only [hr3, ok_bind]
        exact ⟨l, r'', _, _, _, rfl, hl, hr4, hsx, hsy.expand, by simp, fun d' h => by
          simp only [Diff.recordRight, hptr] at h; exact .right h⟩
      · split
        · simp only [hr1, ok_bind, hptr]
          exact ⟨l, r', _, _, _, rfl, hl, hr2, hsx, hsy.expand, by simp,
            fun d' h => .right h⟩
        · simp only [hr1, ok_bind, hptr]
          exact ⟨l, r', _, _, _, rfl, hl, hr2, hsx, hsy.expand, by simp,
            fun d' h => .right h⟩
  | node L t =>
    have hp := hx
    obtain ⟨n, rfl, hn⟩ := hx
    have hptr := hp.pointer
    obtain ⟨l', hl1, hl2⟩ := stepInto_spec .fresh hl
    obtain ⟨l'', hl3, hl4⟩ := advance_node .fresh hl
    cases y with
    | leaf rk rv =>
      cases hy
      unfold diffBoth
      simp only [hll, hrl, ok_bind]
      split
      · simp only [hl1, ok_bind, hptr]
        exact ⟨l', r, _, _, _, rfl, hl2, hr, hsx.expand, hsy, by simp,
          fun d' h => .left h⟩
      · split
        · simp only [hl3, ok_bind]
          exact ⟨l'', r, _, _, _, rfl, hl4, hr, hsx.expand, hsy, by simp, fun d' h => by
            simp only [Diff.recordLeft, hptr] at h; exact .left h⟩
        · simp only [hl1, ok_bind, hptr]
          exact ⟨l', r, _, _, _, rfl, hl2, hr, hsx.expand, hsy, by simp,
            fun d' h => .left h⟩
    | node L' t' =>
      have hp' := hy
      obtain ⟨m, rfl, hm⟩ := hy
      have hptr' := hp'.pointer
      obtain ⟨r', hr1, hr2⟩ := stepInto_spec .fresh hr
      unfold diffBoth
      simp only [hll, hrl, ok_bind]
      split
      · simp only [hl1, ok_bind, hptr]
        exact ⟨l', r, _, _, _, rfl, hl2, hr, hsx.expand, hsy, by simp,
          fun d' h => .left h⟩
      · split
        · simp only [hr1, ok_bind, hptr']
          exact ⟨l, r', _, _, _, rfl, hl, hr2, hsx, hsy.expand, by simp,
            fun d' h => .right h⟩
        · split
          · rename_i heq
            obtain ⟨l3, hl5, hl6⟩ := stepOver_spec hl
            obtain ⟨r3, hr5, hr6⟩ := stepOver_spec hr
            have : t = t' := by
              rw [hptr, hptr'] at heq
              rcases cid_inj hn.2.2.1 hm.2.2.1 heq with h | h
              · exact h
              · exact absurd hinj h.not_inj
            subst this
            simp only [hl5, hr5, ok_bind]
            exact ⟨l3, r3, _, xs, ys, rfl, hl6, hr6, hsx.tail, hsy.tail, by simp; omega,
              fun d' h => .skip h⟩
          · simp only [hl1, hr1, ok_bind, hptr, hptr']
            exact ⟨l', r', _, _, _, rfl, hl2, hr2, hsx.expand, hsy.expand, by simp; omega,
              fun d' h => .right (.left h)⟩

/-- The loop terminates and does what `PRun` allows. -/
theorem diffLoop_spec (hinj : Function.Injective E.H) : ∀ {steps : Nat} {l r : Walker C}
    {xs ys : List (Item C)} {d : Diff C}, WR E rd Fresh l xs → WR E rd Fresh r ys → SortedItems xs →
    SortedItems ys → itemSize xs + itemSize ys < steps →
    ∃ d', diffLoop E rd steps (l, r, d) = .ok d' ∧ PRun E.H xs ys d d'
  | 0, _, _, _, _, _, _, _, _, _, h => by omega
  | steps + 1, l, r, xs, ys, d, hl, hr, hsx, hsy, hst => by
    unfold diffLoop
    cases xs with
    | nil =>
      cases ys with
      | nil => exact ⟨d, by simp [hl.done, hr.done], .done⟩
      | cons y ys =>
        obtain ⟨hd, e, hc, hre⟩ := hr.cur
        simp only [hl.done, hd, hc]
        cases y with
        | leaf k v =>
          cases hre
          obtain ⟨r', hr1, hr2⟩ := advance_leaf hr
          obtain ⟨d', h1, h2⟩ := diffLoop_spec hinj (d := d.recordRight (.leaf k v)) hl hr2 hsx
            hsy.tail (steps := steps) (by simp at hst ⊢; omega)
          exact ⟨d', by simp [hr1, h1], .add (by simp) h2⟩
        | node L t =>
          have hp := hre
          obtain ⟨m, rfl, hm⟩ := hre
          obtain ⟨r', hr1, hr2⟩ := advance_node .fresh hr
          obtain ⟨d', h1, h2⟩ := diffLoop_spec hinj (d := d.recordRight (.tree m)) hl hr2 hsx
            hsy.expand (steps := steps) (by simp at hst ⊢; omega)
          refine ⟨d', by simp [hr1, h1], .right ?_⟩
          simpa only [Diff.recordRight, hp.pointer] using h2
    | cons x xs =>
      obtain ⟨hd, e, hc, hre⟩ := hl.cur
      cases ys with
      | nil =>
        simp only [hr.done, hd, hc]
        cases x with
        | leaf k v =>
          cases hre
          obtain ⟨l', hl1, hl2⟩ := advance_leaf hl
          obtain ⟨d', h1, h2⟩ := diffLoop_spec hinj (d := d.recordLeft (.leaf k v)) hl2 hr hsx.tail
            hsy (steps := steps) (by simp at hst ⊢; omega)
          exact ⟨d', by simp [hl1, h1], .delete (by simp) h2⟩
        | node L t =>
          have hp := hre
          obtain ⟨m, rfl, hm⟩ := hre
          obtain ⟨l', hl1, hl2⟩ := advance_node .fresh hl
          obtain ⟨d', h1, h2⟩ := diffLoop_spec hinj (d := d.recordLeft (.tree m)) hl2 hr hsx.expand
            hsy (steps := steps) (by simp at hst ⊢; omega)
          refine ⟨d', by simp [hl1, h1], .left ?_⟩
          simpa only [Diff.recordLeft, hp.pointer] using h2
      | cons y ys =>
        obtain ⟨hd', e', hc', hre'⟩ := hr.cur
        simp only [hd, hd', hc, hc']
        obtain ⟨l', r', d₁, xs', ys', h1, h2, h3, h4, h5, h6, h7⟩ :=
          diffBoth_spec hinj (d := d) hl hr hsx hsy hre hre'
        obtain ⟨d', h8, h9⟩ := diffLoop_spec hinj (d := d₁) h2 h3 h4 h5 (steps := steps) (by omega)
        exact ⟨d', by simp [h1, h8], h7 d' h9⟩

end

/-! ### Effect on records -/

section
variable [DecidableEq C] {H : NodeData C → C}

/-- What an entry of `adds` must be, given the old and the new value of the key; `z` otherwise. -/
def addSpec (k : Key) (a b : Option C) (z : Option (Change C)) : Option (Change C) :=
  match a, b with
  | none, some v => some ⟨k, v, none⟩
  | _, _ => z

/-- The same for `updates`. -/
def updSpec (k : Key) (a b : Option C) (z : Option (Change C)) : Option (Change C) :=
  match a, b with
  | some x, some y => if x = y then z else some ⟨k, y, some x⟩
  | _, _ => z

/-- The same for `deletes`. -/
def delSpec (k : Key) (a b : Option C) (z : Option (Change C)) : Option (Change C) :=
  match a, b with
  | some x, none => some ⟨k, x, none⟩
  | _, _ => z

@[simp] theorem recordNewCid_adds (d : Diff C) (c : C) : (d.recordNewCid c).adds = d.adds ∧
    (d.recordNewCid c).updates = d.updates ∧ (d.recordNewCid c).deletes = d.deletes := by
  unfold Diff.recordNewCid; split <;> simp

@[simp] theorem recordRemovedCid_adds (d : Diff C) (c : C) :
    (d.recordRemovedCid c).adds = d.adds ∧ (d.recordRemovedCid c).updates = d.updates ∧
    (d.recordRemovedCid c).deletes = d.deletes := by
  unfold Diff.recordRemovedCid; split <;> simp

omit [DecidableEq C] in
theorem dictGet_none_of_lt {l : List (Key × C)} {k : Key} (h : ∀ kv ∈ l, k < kv.1) :
    dictGet l k = none := dictGet_eq_none.2 fun x hx => ne_of_gt (h x hx)

theorem PRun.records {xs ys : List (Item C)} {d d' : Diff C} (h : PRun H xs ys d d') :
    SortedItems xs → SortedItems ys → ∀ k,
    dictGet d'.adds k = addSpec k (dictGet (itemLeaves xs) k) (dictGet (itemLeaves ys) k)
      (dictGet d.adds k) ∧
    dictGet d'.updates k = updSpec k (dictGet (itemLeaves xs) k) (dictGet (itemLeaves ys) k)
      (dictGet d.updates k) ∧
    dictGet d'.deletes k = delSpec k (dictGet (itemLeaves xs) k) (dictGet (itemLeaves ys) k)
      (dictGet d.deletes k) := by
  induction h with
  | done => intro _ _ k; simp [addSpec, updSpec, delSpec, dictGet]
  | @add xs ys k v d d' hlt h ih =>
    intro hx hy k'
    obtain ⟨h1, h2, h3⟩ := ih hx hy.tail k'
    rw [h1, h2, h3]
    simp only [Diff.recordAdd, itemLeaves_leaf, dictGet, dictGet_dictSet]
    by_cases he : k = k'
    · subst he
      simp [dictGet_none_of_lt hlt, dictGet_none_of_lt hy.head, addSpec, updSpec, delSpec]
    · have : ¬ k' = k := fun e => he e.symm
      simp [he, this]
  | @delete xs ys k v d d' hlt h ih =>
    intro hx hy k'
    obtain ⟨h1, h2, h3⟩ := ih hx.tail hy k'
    rw [h1, h2, h3]
    simp only [Diff.recordDelete, itemLeaves_leaf, dictGet, dictGet_dictSet]
    by_cases he : k = k'
    · subst he
      simp [dictGet_none_of_lt hlt, dictGet_none_of_lt hx.head, addSpec, updSpec, delSpec]
    · have : ¬ k' = k := fun e => he e.symm
      simp [he, this]
  | @same xs ys k a b d d' h ih =>
    intro hx hy k'
    obtain ⟨h1, h2, h3⟩ := ih hx.tail hy.tail k'
    rw [h1, h2, h3]
    by_cases hab : a = b
    · subst hab
      simp only [ne_eq, not_true_eq_false, if_false, itemLeaves_leaf, dictGet]
      by_cases he : k = k'
      · subst he
        simp [dictGet_none_of_lt hy.head, dictGet_none_of_lt hx.head, addSpec, updSpec, delSpec]
      · simp [he]
    · simp only [ne_eq, hab, not_false_eq_true, if_true, Diff.recordUpdate, itemLeaves_leaf,
        dictGet, dictGet_dictSet]
      by_cases he : k = k'
      · subst he
        simp [dictGet_none_of_lt hy.head, dictGet_none_of_lt hx.head, addSpec, updSpec, delSpec,
          hab]
      · have : ¬ k' = k := fun e => he e.symm
        simp [he, this]
  | @right xs ys L t d d' h ih =>
    intro hx hy k
    simpa using ih hx hy.expand k
  | @left xs ys L t d d' h ih =>
    intro hx hy k
    simpa using ih hx.expand hy k
  | @skip xs ys L L' t d d' h ih =>
    intro hx hy k
    obtain ⟨h1, h2, h3⟩ := ih hx.tail hy.tail k
    rw [h1, h2, h3]
    simp only [itemLeaves_node, dictGet_append]
    cases hk : dictGet (leaves t) k with
    | none => simp
    | some v =>
      have hmem := dictGet_mem hk
      have hx' : dictGet (itemLeaves xs) k = none := dictGet_eq_none.2 fun x hx' =>
        ne_of_gt ((List.pairwise_append.1 hx).2.2 _ hmem _ hx')
      have hy' : dictGet (itemLeaves ys) k = none := dictGet_eq_none.2 fun x hy' =>
        ne_of_gt ((List.pairwise_append.1 hy).2.2 _ hmem _ hy')
      simp [hx', hy', addSpec, updSpec, delSpec]

/-! ### Effect on block CIDs -/

/-- The sets of a diff after visiting the nodes `vl` on the left and `vr` on the right. -/
def CidInv (H : NodeData C → C) (d : Diff C) (vl vr : List C) : Prop :=
  (∀ c, (∃ nd, H nd = c) → (c ∈ d.newCids ↔ c ∈ vr ∧ c ∉ vl)) ∧
  (∀ c, c ∈ d.removedCids ↔ c ∈ vl ∧ c ∉ vr)

theorem CidInv.new {d : Diff C} {vl vr : List C} {nd : NodeData C} (h : CidInv H d vl vr)
    (hn : H nd ∉ vr) : CidInv H (d.recordNewCid (H nd)) vl (H nd :: vr) := by
  unfold Diff.recordNewCid
  split
  · rename_i hm
    have hvl := ((h.2 _).1 hm).1
    refine ⟨fun c hc => ?_, fun c => ?_⟩
    · rw [h.1 c hc]
      simp only [List.mem_cons]
      constructor
      · rintro ⟨a, b⟩; exact ⟨.inr a, b⟩
      · rintro ⟨rfl | a, b⟩
        · exact absurd hvl b
        · exact ⟨a, b⟩
    · simp only [mem_setRemove, h.2 c, List.mem_cons]
      tauto
  · rename_i hm
    have hvl : H nd ∉ vl := fun h' => hm ((h.2 _).2 ⟨h', hn⟩)
    refine ⟨fun c hc => ?_, fun c => ?_⟩
    · simp only [mem_setAdd, h.1 c hc, List.mem_cons]
      constructor
      · rintro (⟨a, b⟩ | rfl)
        · exact ⟨.inr a, b⟩
        · exact ⟨.inl rfl, hvl⟩
      · rintro ⟨a | a, b⟩
        · exact .inr a
        · exact .inl ⟨a, b⟩
    · simp only [h.2 c, List.mem_cons]
      constructor
      · rintro ⟨a, b⟩
        refine ⟨a, ?_⟩
        rintro (rfl | h')
        · exact hvl a
        · exact b h'
      · rintro ⟨a, b⟩; exact ⟨a, fun h' => b (.inr h')⟩

theorem CidInv.removed {d : Diff C} {vl vr : List C} {nd : NodeData C} (h : CidInv H d vl vr)
    (hn : H nd ∉ vl) : CidInv H (d.recordRemovedCid (H nd)) (H nd :: vl) vr := by
  unfold Diff.recordRemovedCid
  split
  · rename_i hm
    have hvr := ((h.1 _ ⟨nd, rfl⟩).1 hm).1
    refine ⟨fun c hc => ?_, fun c => ?_⟩
    · simp only [mem_setRemove, h.1 c hc, List.mem_cons]
      tauto
    · rw [h.2 c]
      simp only [List.mem_cons]
      constructor
      · rintro ⟨a, b⟩; exact ⟨.inr a, b⟩
      · rintro ⟨rfl | a, b⟩
        · exact absurd hvr b
        · exact ⟨a, b⟩
  · rename_i hm
    have hvr : H nd ∉ vr := fun h' => hm ((h.1 _ ⟨nd, rfl⟩).2 ⟨h', hn⟩)
    refine ⟨fun c hc => ?_, fun c => ?_⟩
    · simp only [h.1 c hc, List.mem_cons]
      constructor
      · rintro ⟨a, b⟩
        refine ⟨a, ?_⟩
        rintro (rfl | h')
        · exact hvr a
        · exact b h'
      · rintro ⟨a, b⟩; exact ⟨a, fun h' => b (.inr h')⟩
    · simp only [mem_setAdd, h.2 c, List.mem_cons]
      constructor
      · rintro (⟨a, b⟩ | rfl)
        · exact ⟨.inr a, b⟩
        · exact ⟨.inl rfl, hvr⟩
      · rintro ⟨a | a, b⟩
        · exact .inr a
        · exact .inl ⟨a, b⟩

theorem CidInv.record {d : Diff C} {vl vr : List C} {v : C} (h : CidInv H d vl vr)
    (hv : ∀ nd, H nd ≠ v) {d₁ : Diff C} (h1 : ∀ c, c ∈ d₁.newCids ↔ c ∈ d.newCids ∨ c = v)
    (h2 : d₁.removedCids = d.removedCids) : CidInv H d₁ vl vr := by
  refine ⟨fun c hc => ?_, fun c => by rw [h2]; exact h.2 c⟩
  rw [h1, h.1 c hc]
  obtain ⟨nd, rfl⟩ := hc
  have := hv nd
  tauto

/-- Node CIDs of the items. -/
def itemCids (H : NodeData C → C) (xs : List (Item C)) : List C := (itemNodes xs).map (cidOf H)

theorem PRun.cids {xs ys : List (Item C)} {d d' : Diff C} (h : PRun H xs ys d d') :
    (∀ kv ∈ itemLeaves ys, ∀ nd, H nd ≠ kv.2) → ∀ {vl vr : List C}, CidInv H d vl vr →
    (vl ++ itemCids H xs).Nodup → (vr ++ itemCids H ys).Nodup →
    ∃ vl' vr' s : List C, CidInv H d' vl' vr' ∧
      (∀ c, (c ∈ vl ∨ c ∈ itemCids H xs) ↔ (c ∈ vl' ∨ c ∈ s)) ∧
      (∀ c, (c ∈ vr ∨ c ∈ itemCids H ys) ↔ (c ∈ vr' ∨ c ∈ s)) ∧
      (∀ c ∈ s, c ∉ vl' ∧ c ∉ vr') := by
  induction h with
  | @done d =>
    intro _ vl vr hi hx hy
    exact ⟨vl, vr, [], hi, by simp [itemCids], by simp [itemCids], by simp⟩
  | @add xs ys k v d d' hlt h ih =>
    intro hv vl vr hi hx hy
    exact ih (fun kv hkv => hv kv (by simp [hkv]))
      (hi.record (v := v) (fun nd => hv (k, v) (by simp) nd)
        (by simp [Diff.recordAdd, mem_setAdd]) rfl) hx hy
  | @delete xs ys k v d d' hlt h ih =>
    intro hv vl vr hi hx hy
    exact ih hv ⟨hi.1, hi.2⟩ hx hy
  | @same xs ys k a b d d' h ih =>
    intro hv vl vr hi hx hy
    refine ih (fun kv hkv => hv kv (by simp [hkv])) ?_ hx hy
    split
    · exact hi.record (v := b) (fun nd => hv (k, b) (by simp) nd)
        (by simp [Diff.recordUpdate, mem_setAdd]) rfl
    · exact hi
  | @right xs ys L t d d' h ih =>
    intro hv vl vr hi hx hy
    have hy' : (vr ++ cidOf H t :: itemCids H (items L t ++ ys)).Nodup := by
      simpa [itemCids] using hy
    have hnin : cidOf H t ∉ vr := fun hm =>
      (List.nodup_append.1 hy').2.2 _ hm _ (by simp) rfl
    obtain ⟨vl', vr', s, h1, h2, h3, h4⟩ := ih (by simpa using hv) (hi.new (nd := nodeOf H t) hnin)
      hx (by
        exact List.perm_middle.nodup_iff.1 hy')
    refine ⟨vl', vr', s, h1, h2, fun c => ?_, h4⟩
    rw [← h3 c]
    simp only [itemCids, itemNodes_node, itemNodes_append, itemNodes_items, List.map_cons,
      List.mem_cons, cidOf]
    tauto
  | @left xs ys L t d d' h ih =>
    intro hv vl vr hi hx hy
    have hx' : (vl ++ cidOf H t :: itemCids H (items L t ++ xs)).Nodup := by
      simpa [itemCids] using hx
    have hnin : cidOf H t ∉ vl := fun hm =>
      (List.nodup_append.1 hx').2.2 _ hm _ (by simp) rfl
    obtain ⟨vl', vr', s, h1, h2, h3, h4⟩ := ih hv (hi.removed (nd := nodeOf H t) hnin)
      (by
        exact List.perm_middle.nodup_iff.1 hx') hy
    refine ⟨vl', vr', s, h1, fun c => ?_, h3, h4⟩
    rw [← h2 c]
    simp only [itemCids, itemNodes_node, itemNodes_append, itemNodes_items, List.map_cons,
      List.mem_cons, cidOf]
    tauto
  | @skip xs ys L L' t d d' h ih =>
    intro hv vl vr hi hx hy
    have ex : itemCids H (.node L t :: xs) = (nodes t).map (cidOf H) ++ itemCids H xs := by
      simp [itemCids, nodes]
    have ey : itemCids H (.node L' t :: ys) = (nodes t).map (cidOf H) ++ itemCids H ys := by
      simp [itemCids, nodes]
    rw [ex] at hx ⊢
    rw [ey] at hy ⊢
    have nx := List.nodup_append.1 hx
    have ny := List.nodup_append.1 hy
    have nx2 := List.nodup_append.1 nx.2.1
    have ny2 := List.nodup_append.1 ny.2.1
    obtain ⟨vl', vr', s, h1, h2, h3, h4⟩ := ih (fun kv hkv => hv kv (by simp [hkv])) hi
      (List.nodup_append.2 ⟨nx.1, nx2.2.1, fun a ha b hb => nx.2.2 a ha b (by simp [hb])⟩)
      (List.nodup_append.2 ⟨ny.1, ny2.2.1, fun a ha b hb => ny.2.2 a ha b (by simp [hb])⟩)
    refine ⟨vl', vr', (nodes t).map (cidOf H) ++ s, h1, fun c => ?_, fun c => ?_, ?_⟩
    · simp only [List.mem_append]
      rw [or_left_comm, h2 c, or_left_comm]
    · simp only [List.mem_append]
      rw [or_left_comm, h3 c, or_left_comm]
    · intro c hc
      rcases List.mem_append.1 hc with hc | hc
      · refine ⟨fun hm => ?_, fun hm => ?_⟩
        · rcases (h2 c).2 (.inl hm) with h' | h'
          · exact nx.2.2 c h' c (by simp [hc]) rfl
          · exact nx2.2.2 c hc c h' rfl
        · rcases (h3 c).2 (.inl hm) with h' | h'
          · exact ny.2.2 c h' c (by simp [hc]) rfl
          · exact ny2.2.2 c hc c h' rfl
      · exact h4 c hc

/-- Record CIDs that enter `new_cids`. -/
theorem PRun.recordCids {xs ys : List (Item C)} {d d' : Diff C} (h : PRun H xs ys d d') :
    SortedItems xs → SortedItems ys → ∀ c, (∀ nd, H nd ≠ c) →
    (c ∈ d'.newCids ↔ c ∈ d.newCids ∨
      ∃ k, dictGet (itemLeaves ys) k = some c ∧ dictGet (itemLeaves xs) k ≠ some c) := by
  induction h with
  | done => intro _ _ c _; simp [dictGet]
  | @add xs ys k v d d' hlt h ih =>
    intro hx hy c hc
    rw [ih hx hy.tail c hc]
    simp only [Diff.recordAdd, mem_setAdd, itemLeaves_leaf, dictGet]
    constructor
    · rintro ((h1 | rfl) | ⟨k', h1, h2⟩)
      · exact .inl h1
      · exact .inr ⟨k, by simp, by simp [dictGet_none_of_lt hlt]⟩
      · refine .inr ⟨k', ?_, h2⟩
        have : k ≠ k' := by
          rintro rfl; rw [dictGet_none_of_lt hy.head] at h1; cases h1
        simp [this, h1]
    · rintro (h1 | ⟨k', h1, h2⟩)
      · exact .inl (.inl h1)
      · by_cases he : k = k'
        · simp only [he, if_true, Option.some.injEq] at h1; exact .inl (.inr h1.symm)
        · simp only [he, if_false] at h1; exact .inr ⟨k', h1, h2⟩
  | @delete xs ys k v d d' hlt h ih =>
    intro hx hy c hc
    rw [ih hx.tail hy c hc]
    simp only [Diff.recordDelete, itemLeaves_leaf, dictGet]
    constructor
    · rintro (h1 | ⟨k', h1, h2⟩)
      · exact .inl h1
      · refine .inr ⟨k', h1, ?_⟩
        have : k ≠ k' := by
          rintro rfl; rw [dictGet_none_of_lt hlt] at h1; cases h1
        simp [this, h2]
    · rintro (h1 | ⟨k', h1, h2⟩)
      · exact .inl h1
      · by_cases he : k = k'
        · subst he; rw [dictGet_none_of_lt hlt] at h1; cases h1
        · simp only [he, if_false] at h2; exact .inr ⟨k', h1, h2⟩
  | @same xs ys k a b d d' h ih =>
    intro hx hy c hc
    rw [ih hx.tail hy.tail c hc]
    simp only [itemLeaves_leaf, dictGet]
    have e1 : c ∈ (if a ≠ b then d.recordUpdate k a b else d).newCids ↔
        c ∈ d.newCids ∨ (a ≠ b ∧ c = b) := by
      split
      · rename_i hab; simp [Diff.recordUpdate, mem_setAdd, hab]
      · rename_i hab; simp [hab]
    rw [e1]
    constructor
    · rintro ((h1 | ⟨hab, rfl⟩) | ⟨k', h1, h2⟩)
      · exact .inl h1
      · exact .inr ⟨k, by simp, by simpa using hab⟩
      · refine .inr ⟨k', ?_⟩
        have : k ≠ k' := by
          rintro rfl; rw [dictGet_none_of_lt hy.head] at h1; cases h1
        simp [this, h1, h2]
    · rintro (h1 | ⟨k', h1, h2⟩)
      · exact .inl (.inl h1)
      · by_cases he : k = k'
        · simp only [he, if_true, Option.some.injEq, ne_eq] at h1 h2
          subst h1
          exact .inl (.inr ⟨h2, rfl⟩)
        · simp only [he, if_false] at h1 h2; exact .inr ⟨k', h1, h2⟩
  | @right xs ys L t d d' h ih =>
    intro hx hy c hc
    rw [ih hx hy.expand c hc]
    have e1 : c ∈ (d.recordNewCid (cidOf H t)).newCids ↔ c ∈ d.newCids := by
      have : c ≠ cidOf H t := fun e => hc (nodeOf H t) e.symm
      unfold Diff.recordNewCid
      split <;> simp [mem_setAdd, this]
    simp [e1]
  | @left xs ys L t d d' h ih =>
    intro hx hy c hc
    rw [ih hx.expand hy c hc]
    have e1 : c ∈ (d.recordRemovedCid (cidOf H t)).newCids ↔ c ∈ d.newCids := by
      have : c ≠ cidOf H t := fun e => hc (nodeOf H t) e.symm
      unfold Diff.recordRemovedCid
      split <;> simp [mem_setRemove, this]
    simp [e1]
  | @skip xs ys L L' t d d' h ih =>
    intro hx hy c hc
    rw [ih hx.tail hy.tail c hc]
    refine or_congr Iff.rfl (exists_congr fun k => ?_)
    simp only [itemLeaves_node, dictGet_append]
    cases hk : dictGet (leaves t) k with
    | none => simp
    | some v =>
      have hmem := dictGet_mem hk
      have hy' : dictGet (itemLeaves ys) k = none := dictGet_eq_none.2 fun x hy' =>
        ne_of_gt ((List.pairwise_append.1 hy).2.2 _ hmem _ hy')
      simp [hy']

end

/-! ### Nodes of a tree are pairwise distinct -/

section

theorem kids_ne_nil {z : Key → Nat} {t : Tree C} : ∀ {L : Nat}, WF z L t → ∀ s ∈ kids t,
    s ≠ nil ∧ ∀ kv ∈ leaves s, kv ∈ leaves t := by
  induction t with
  | nil => intro L _ s hs; simp [kids] at hs
  | leaf k v r ih =>
    intro L hw s hs
    obtain ⟨h1, h2⟩ := ih hw.2 s hs
    exact ⟨h1, fun kv hkv => by simp [leaves, h2 kv hkv]⟩
  | sub c r ihc ihr =>
    intro L hw s hs
    obtain ⟨M, rfl, hc, hwc, _, hwr⟩ := WF_sub.1 hw
    simp only [kids, List.mem_append, List.mem_cons] at hs
    rcases hs with (rfl | hs) | hs
    · exact ⟨hc, fun kv hkv => by simp [leaves, hkv]⟩
    · obtain ⟨h1, h2⟩ := ihc hwc s hs
      exact ⟨h1, fun kv hkv => by simp [leaves, h2 kv hkv]⟩
    · obtain ⟨h1, h2⟩ := ihr hwr s hs
      exact ⟨h1, fun kv hkv => by simp [leaves, h2 kv hkv]⟩

theorem kids_length {t s : Tree C} (h : s ∈ kids t) : (kids s).length < (kids t).length := by
  induction t with
  | nil => simp [kids] at h
  | leaf k v r ih => exact ih h
  | sub c r ihc ihr =>
    simp only [kids, List.mem_append, List.mem_cons] at h
    simp only [kids, List.length_append, List.length_cons]
    rcases h with (rfl | h) | h
    · omega
    · have := ihc h; omega
    · have := ihr h; omega

theorem kids_nodup {z : Key → Nat} {t : Tree C} : ∀ {L : Nat}, WF z L t → Sorted t →
    (kids t).Nodup := by
  induction t with
  | nil => intro L _ _; simp [kids]
  | leaf k v r ih => intro L hw hs; exact ih hw.2 (List.pairwise_cons.1 hs).2
  | sub c r ihc ihr =>
    intro L hw hs
    obtain ⟨M, rfl, hc, hwc, _, hwr⟩ := WF_sub.1 hw
    have hp := List.pairwise_append.1 hs
    have hne : ∀ a b : Tree C, WF z M c → a ∈ nodes c → b ∈ kids r → a ≠ b := by
      rintro a b _ ha hb rfl
      obtain ⟨h1, h2⟩ := kids_ne_nil hwr a hb
      obtain ⟨N, hN⟩ : ∃ N, WF z N a := WF_nodes hwr a (by simp [nodes, hb])
      obtain ⟨kv, hkv⟩ := List.exists_mem_of_ne_nil _ (WF_leaves_ne hN h1)
      have : kv ∈ leaves c := by
        simp only [nodes, List.mem_cons] at ha
        rcases ha with rfl | ha
        · exact hkv
        · exact (kids_ne_nil hwc a ha).2 kv hkv
      exact lt_irrefl _ (hp.2.2 kv this kv (h2 kv hkv))
    simp only [kids]
    refine List.nodup_append.2 ⟨List.nodup_cons.2 ⟨?_, ihc hwc hp.1⟩, ihr hwr hp.2.1, ?_⟩
    · intro h; exact absurd (kids_length h) (by omega)
    · intro a ha b hb; exact hne a b hwc (by simpa [nodes] using ha) hb

theorem nodes_nodup {z : Key → Nat} {t : Tree C} {L : Nat} (hw : WF z L t) (hs : Sorted t) :
    (nodes t).Nodup :=
  List.nodup_cons.2 ⟨fun h => absurd (kids_length h) (by omega), kids_nodup hw hs⟩

theorem cids_nodup {z : Key → Nat} {H : NodeData C → C} (hinj : Function.Injective H) {t : Tree C}
    {L : Nat} (hw : WF z L t) (hs : Sorted t) : ((nodes t).map (cidOf H)).Nodup := by
  refine List.Nodup.map_on ?_ (nodes_nodup hw hs)
  intro a ha b hb h
  obtain ⟨_, hwa⟩ := WF_nodes hw a ha
  obtain ⟨_, hwb⟩ := WF_nodes hw b hb
  rcases cid_inj hwa hwb h with h | h
  · exact h
  · exact absurd hinj h.not_inj

end

end Arroba
