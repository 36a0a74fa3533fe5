import Verif.Mst.DiffProofs2

/-! # C14: composing diffs with `Diff.add_diff` -/

namespace Arroba

variable {C : Type}

/-- The clauses of `IsDiff` for one key. -/
def IsDiffAt (old new : Key → Option C) (d : Diff C) (k : Key) : Prop :=
  (∀ c, dictGet d.adds k = some c ↔ ∃ v, old k = none ∧ new k = some v ∧ c = ⟨k, v, none⟩) ∧
  (∀ c, dictGet d.updates k = some c ↔
    ∃ x y, old k = some x ∧ new k = some y ∧ x ≠ y ∧ c = ⟨k, y, some x⟩) ∧
  (∀ c, dictGet d.deletes k = some c ↔ ∃ x, old k = some x ∧ new k = none ∧ c = ⟨k, x, none⟩)

/-- The map obtained by performing the changes of a diff. -/
def applyDiff (d : Diff C) (m : Key → Option C) (k : Key) : Option C :=
  match dictGet d.adds k, dictGet d.updates k, dictGet d.deletes k with
  | some ch, _, _ => some ch.cid
  | none, some ch, _ => some ch.cid
  | none, none, some _ => none
  | none, none, none => m k

section
variable [DecidableEq C] {a b c : Key → Option C} {d e : Diff C}

/-- What a diff says about a key, as a function of old and new value. -/
def keyViewOf (k : Key) : Option C → Option C → KeyView C
  | none, none => (none, none, none)
  | none, some v => (some ⟨k, v, none⟩, none, none)
  | some x, none => (none, none, some ⟨k, x, none⟩)
  | some x, some y => (none, if x = y then none else some ⟨k, y, some x⟩, none)

theorem option_ext_iff {α : Type} {o : Option α} {p : α → Prop} (h : ∀ c, o = some c ↔ p c)
    {o' : Option α} (h' : ∀ c, o' = some c ↔ p c) : o = o' := by
  cases o with
  | some x => exact ((h' x).2 ((h x).1 rfl)).symm
  | none =>
    cases o' with
    | none => rfl
    | some y => have := (h y).2 ((h' y).1 rfl); cases this

theorem keyViewOf_spec (k : Key) (x y : Option C) :
    (∀ c, (keyViewOf k x y).1 = some c ↔ ∃ v, x = none ∧ y = some v ∧ c = ⟨k, v, none⟩) ∧
    (∀ c, (keyViewOf k x y).2.1 = some c ↔
      ∃ u v, x = some u ∧ y = some v ∧ u ≠ v ∧ c = ⟨k, v, some u⟩) ∧
    (∀ c, (keyViewOf k x y).2.2 = some c ↔ ∃ u, x = some u ∧ y = none ∧ c = ⟨k, u, none⟩) := by
  cases x with
  | none => cases y <;> simp [keyViewOf, eq_comm]
  | some u =>
    cases y with
    | none => simp [keyViewOf, eq_comm]
    | some v =>
      by_cases h : u = v <;> simp [keyViewOf, h, eq_comm]

theorem isDiffAt_iff {old new : Key → Option C} {d : Diff C} {k : Key} :
    IsDiffAt old new d k ↔ d.view k = keyViewOf k (old k) (new k) := by
  have h := keyViewOf_spec k (old k) (new k)
  constructor
  · intro h'
    exact Prod.ext (option_ext_iff h'.1 h.1)
      (Prod.ext (option_ext_iff h'.2.1 h.2.1) (option_ext_iff h'.2.2 h.2.2))
  · intro h'
    simp only [Diff.view] at h'
    rw [← h'] at h
    exact h

theorem IsDiff.at {old new : Key → Option C} {d : Diff C} (h : IsDiff old new d) (k : Key) :
    IsDiffAt old new d k := ⟨h.adds k, h.updates k, h.deletes k⟩

theorem mem_dictGet {α β : Type} [DecidableEq α] {l : List (α × β)} {kc : α × β}
    (hn : (l.map (·.1)).Nodup) (h : kc ∈ l) : dictGet l kc.1 = some kc.2 := by
  induction l with
  | nil => cases h
  | cons x xs ih =>
    obtain ⟨k, v⟩ := x
    rw [List.map_cons, List.nodup_cons] at hn
    simp only [List.mem_cons] at h
    rcases h with rfl | h
    · simp [dictGet]
    · have : ¬ k = kc.1 := fun e => hn.1 (List.mem_map.2 ⟨kc, h, e.symm⟩)
      simp [dictGet, this, ih hn.2 h]

theorem compose_view (h : IsDiff a b d) (h' : IsDiff b c e) (k : Key) :
    (d.addDiff e).view k = optG delG (keyViewOf k (b k) (c k)).2.2
      (optG updG (keyViewOf k (b k) (c k)).2.1 (optG addG (keyViewOf k (b k) (c k)).1
        (keyViewOf k (a k) (b k)))) := by
  have h1 := isDiffAt_iff.1 (h.at k)
  have h2 := isDiffAt_iff.1 (h'.at k)
  rw [addDiff_view ⟨h'.addKeys, h'.updateKeys, h'.deleteKeys⟩ ?_ ?_ ?_ k, h1, ← h2]
  · rfl
  · intro kc hkc
    obtain ⟨v, _, _, h⟩ := (h'.adds kc.1 kc.2).1 (mem_dictGet h'.addKeys hkc)
    rw [h]
  · intro kc hkc
    obtain ⟨_, v, _, _, _, h⟩ := (h'.updates kc.1 kc.2).1 (mem_dictGet h'.updateKeys hkc)
    rw [h]
  · intro kc hkc
    obtain ⟨v, _, _, h⟩ := (h'.deletes kc.1 kc.2).1 (mem_dictGet h'.deleteKeys hkc)
    rw [h]

/-- **C14 (target).** Composing the diff `a → b` with the diff `b → c` gives a diff that, performed
on `a`, yields `c`. -/
theorem C14_compose_applies (h : IsDiff a b d) (h' : IsDiff b c e) (k : Key) :
    applyDiff (d.addDiff e) a k = c k := by
  have hv := compose_view h h' k
  simp only [Diff.view] at hv
  unfold applyDiff
  generalize dictGet (d.addDiff e).adds k = A at hv
  generalize dictGet (d.addDiff e).updates k = U at hv
  generalize dictGet (d.addDiff e).deletes k = D at hv
  revert hv
  rcases a k with _ | x <;> rcases b k with _ | y <;> rcases c k with _ | z
  · simp +contextual [keyViewOf, optG]
  · simp +contextual [keyViewOf, optG, addG]
  · simp +contextual [keyViewOf, optG, delG]
  · by_cases h : y = z <;> simp +contextual [keyViewOf, optG, updG, h]
  · simp +contextual [keyViewOf, optG]
  · by_cases h : x = z <;> simp +contextual [keyViewOf, optG, addG, h]
  · simp +contextual [keyViewOf, optG, delG]
  · by_cases h : y = z
    · subst h
      by_cases h' : x = y <;> simp +contextual [keyViewOf, optG, h']
    · simp +contextual [keyViewOf, optG, updG, h]

/-- **C14, partial.** At every key the composed diff is exactly the diff `a → c`, provided the key
was not (added or updated by the first diff and then updated by the second) and not (updated by
the first and then deleted by the second). The full statement drops that proviso and is false,
see `C14_compose_false`. -/
theorem C14_compose_partial (h : IsDiff a b d) (h' : IsDiff b c e) (k : Key)
    (hk : a k = b k ∨ b k = c k ∨ b k = none ∨ (a k = none ∧ c k = none)) :
    IsDiffAt a c (d.addDiff e) k := by
  rw [isDiffAt_iff, compose_view h h' k]
  revert hk
  rcases a k with _ | x <;> rcases b k with _ | y <;> rcases c k with _ | z
  · simp [keyViewOf, optG]
  · simp [keyViewOf, optG, addG]
  · simp [keyViewOf, optG, delG]
  · intro h; simp at h; subst h; simp [keyViewOf, optG]
  · simp [keyViewOf, optG]
  · by_cases h : x = z <;> simp [keyViewOf, optG, addG, h]
  · intro h; simp at h; subst h; simp [keyViewOf, optG, delG]
  · intro h
    simp at h
    rcases h with rfl | rfl
    · by_cases h : x = z <;> simp [keyViewOf, optG, updG, h]
    · by_cases h : x = y <;> simp [keyViewOf, optG, h]

theorem addDiff_cids (d e : Diff C) : (d.addDiff e).removedCids = d.removedCids ∧
    ∀ x, (x ∈ d.newCids ∨ x ∈ e.newCids → x ∈ (d.addDiff e).newCids) ∧
      (x ∈ (d.addDiff e).newCids → x ∈ d.newCids ∨ x ∈ e.newCids ∨
        (∃ kc ∈ e.adds, kc.2.cid = x) ∨ ∃ kc ∈ e.updates, kc.2.cid = x) := by
  have adds : ∀ (l : List (Change C)) (d : Diff C),
      (l.foldl Diff.addDiffAdd d).removedCids = d.removedCids ∧
      ∀ x, (x ∈ d.newCids → x ∈ (l.foldl Diff.addDiffAdd d).newCids) ∧
        (x ∈ (l.foldl Diff.addDiffAdd d).newCids → x ∈ d.newCids ∨ ∃ c ∈ l, c.cid = x) := by
    intro l
    induction l with
    | nil => intro d; exact ⟨rfl, fun x => ⟨id, .inl⟩⟩
    | cons a l ih =>
      intro d
      obtain ⟨h1, h2⟩ := ih (d.addDiffAdd a)
      have hr : (d.addDiffAdd a).removedCids = d.removedCids := by
        unfold Diff.addDiffAdd
        split
        · dsimp only; split <;> rfl
        · rfl
      have hn : ∀ x, (x ∈ d.newCids → x ∈ (d.addDiffAdd a).newCids) ∧
          (x ∈ (d.addDiffAdd a).newCids → x ∈ d.newCids ∨ a.cid = x) := by
        intro x
        unfold Diff.addDiffAdd
        split
        · dsimp only
          split
          · simp only [Diff.recordUpdate, mem_setAdd]
            exact ⟨.inl, fun h => h.imp_right Eq.symm⟩
          · exact ⟨id, .inl⟩
        · simp only [Diff.recordAdd, mem_setAdd]
          exact ⟨.inl, fun h => h.imp_right Eq.symm⟩
      refine ⟨h1.trans hr, fun x => ⟨fun h => (h2 x).1 ((hn x).1 h), fun h => ?_⟩⟩
      rcases (h2 x).2 h with h | ⟨c, hc, h⟩
      · exact ((hn x).2 h).imp_right fun h => ⟨a, .head _, h⟩
      · exact .inr ⟨c, .tail _ hc, h⟩
  have upds : ∀ (l : List (Change C)) (d : Diff C),
      (l.foldl Diff.addDiffUpdate d).removedCids = d.removedCids ∧
      ∀ x, (x ∈ d.newCids → x ∈ (l.foldl Diff.addDiffUpdate d).newCids) ∧
        (x ∈ (l.foldl Diff.addDiffUpdate d).newCids → x ∈ d.newCids ∨ ∃ c ∈ l, c.cid = x) := by
    intro l
    induction l with
    | nil => intro d; exact ⟨rfl, fun x => ⟨id, .inl⟩⟩
    | cons a l ih =>
      intro d
      obtain ⟨h1, h2⟩ := ih (d.addDiffUpdate a)
      have hn : ∀ x, x ∈ (d.addDiffUpdate a).newCids ↔ x ∈ d.newCids ∨ x = a.cid := by
        intro x
        simp only [Diff.addDiffUpdate, mem_setAdd]
      refine ⟨h1, fun x => ⟨fun h => (h2 x).1 ((hn x).2 (.inl h)), fun h => ?_⟩⟩
      rcases (h2 x).2 h with h | ⟨c, hc, h⟩
      · exact ((hn x).1 h).imp_right fun h => ⟨a, .head _, h.symm⟩
      · exact .inr ⟨c, .tail _ hc, h⟩
  have dels : ∀ (l : List (Change C)) (d : Diff C),
      (l.foldl Diff.addDiffDelete d).removedCids = d.removedCids ∧
      (l.foldl Diff.addDiffDelete d).newCids = d.newCids := by
    intro l
    induction l with
    | nil => intro d; exact ⟨rfl, rfl⟩
    | cons a l ih =>
      intro d
      obtain ⟨h1, h2⟩ := ih (d.addDiffDelete a)
      have hr : (d.addDiffDelete a).removedCids = d.removedCids ∧
          (d.addDiffDelete a).newCids = d.newCids := by
        unfold Diff.addDiffDelete
        split <;> exact ⟨rfl, rfl⟩
      exact ⟨h1.trans hr.1, h2.trans hr.2⟩
  have news : ∀ (l s : List C) (x : C), x ∈ l.foldl setAdd s ↔ x ∈ s ∨ x ∈ l := by
    intro l
    induction l with
    | nil => intro s x; simp
    | cons a l ih =>
      intro s x
      rw [List.foldl_cons, ih, mem_setAdd, List.mem_cons, or_assoc]
  obtain ⟨a1, a2⟩ := adds (e.adds.map (·.2)) d
  obtain ⟨u1, u2⟩ := upds (e.updates.map (·.2)) ((e.adds.map (·.2)).foldl Diff.addDiffAdd d)
  obtain ⟨d1, d2⟩ := dels (e.deletes.map (·.2))
    ((e.updates.map (·.2)).foldl Diff.addDiffUpdate ((e.adds.map (·.2)).foldl Diff.addDiffAdd d))
  refine ⟨(d1.trans u1).trans a1, fun x => ?_⟩
  unfold Diff.addDiff
  dsimp only
  rw [news, d2]
  refine ⟨fun h => h.imp_left fun h => (u2 x).1 ((a2 x).1 h), ?_⟩
  rintro (h | h)
  · rcases (u2 x).2 h with h | ⟨c, hc, h⟩
    · rcases (a2 x).2 h with h | ⟨c, hc, h⟩
      · exact .inl h
      · obtain ⟨kc, hk, rfl⟩ := List.mem_map.1 hc
        exact .inr (.inr (.inl ⟨kc, hk, h⟩))
    · obtain ⟨kc, hk, rfl⟩ := List.mem_map.1 hc
      exact .inr (.inr (.inr ⟨kc, hk, h⟩))
  · exact .inr (.inl h)

/-- **C14 (blocks).** If `d` lists what is in the second set of blocks and not in the first, and `e`
what is in the third and not in the second, then their composition lists what is in the third and
not in the first. -/
theorem C14_blocks {d e : Diff C} {A B D : C → Prop} (h : ∀ x, B x → A x ∨ x ∈ d.newCids)
    (h' : ∀ x, D x → B x ∨ x ∈ e.newCids) (x : C) (hx : D x) : A x ∨ x ∈ (d.addDiff e).newCids := by
  have := ((addDiff_cids d e).2 x).1
  rcases h' x hx with g | g
  · exact (h x g).imp_right fun g => this (.inl g)
  · exact .inr (this (.inr g))

/-- **C14, false for removed blocks.** The composition never lists the blocks that the second diff
removes. -/
theorem C14_removed_false (d e : Diff C) : (d.addDiff e).removedCids = d.removedCids :=
  (addDiff_cids d e).1

end

/-- A map with at most one record. -/
def one (o : Option Nat) : Key → Option Nat := fun k => if k = ['k'] then o else none

/-- The diff between two such maps. -/
def oneDiff (x y : Option Nat) : Diff Nat :=
  let v := keyViewOf ['k'] x y
  ⟨v.1.toList.map (fun c => (['k'], c)), v.2.1.toList.map (fun c => (['k'], c)),
    v.2.2.toList.map (fun c => (['k'], c)), [], []⟩

theorem oneDiff_isDiff (x y : Option Nat) : IsDiff (one x) (one y) (oneDiff x y) := by
  have key : ∀ (o : Option (Change Nat)) (k : Key),
      dictGet (o.toList.map (fun c => ((['k'] : Key), c))) k = if k = ['k'] then o else none := by
    intro o k
    cases o with
    | none => simp [dictGet]
    | some c =>
      by_cases h : k = ['k']
      · simp [dictGet, h]
      · have : ¬ (['k'] : Key) = k := fun e => h e.symm
        simp [dictGet, h, this]
  have nd : ∀ o : Option (Change Nat), ((o.toList.map (fun c => ((['k'] : Key), c))).map (·.1)).Nodup := by
    intro o; cases o <;> simp
  have at' : ∀ k, IsDiffAt (one x) (one y) (oneDiff x y) k := by
    intro k
    rw [isDiffAt_iff]
    simp only [Diff.view, oneDiff, key, one]
    by_cases h : k = ['k']
    · simp [h]
    · simp [h, keyViewOf]
  exact ⟨fun k => (at' k).1, fun k => (at' k).2.1, fun k => (at' k).2.2, nd _, nd _, nd _⟩

/-- **C14 is false as stated.** Adding a record and then updating it composes to an *update* from
the intermediate value; updating twice keeps the intermediate value as `prev` (and reports a
change even if the record is back at its original value); updating and then deleting reports the
intermediate CID as deleted. -/
theorem C14_compose_false :
    ¬ IsDiff (one none) (one (some 2)) ((oneDiff none (some 1)).addDiff (oneDiff (some 1) (some 2))) ∧
    ¬ IsDiff (one (some 0)) (one (some 2))
      ((oneDiff (some 0) (some 1)).addDiff (oneDiff (some 1) (some 2))) ∧
    ¬ IsDiff (one (some 0)) (one (some 0))
      ((oneDiff (some 0) (some 1)).addDiff (oneDiff (some 1) (some 0))) ∧
    ¬ IsDiff (one (some 0)) (one none)
      ((oneDiff (some 0) (some 1)).addDiff (oneDiff (some 1) none)) := by
  have key : ∀ x y z, IsDiff (one x) (one z) ((oneDiff x y).addDiff (oneDiff y z)) →
      ((oneDiff x y).addDiff (oneDiff y z)).view ['k'] = keyViewOf ['k'] x z := by
    intro x y z h
    simpa [one] using isDiffAt_iff.1 (h.at ['k'])
  refine ⟨fun h => ?_, fun h => ?_, fun h => ?_, fun h => ?_⟩ <;>
    exact absurd (key _ _ _ h) (by decide)

/-- Non-vacuity: the hypotheses of the theorems above are met by a deletion followed by an
addition of a different value, which composes to an update. -/
example : IsDiff (one (some 0)) (one none) (oneDiff (some 0) none) ∧
    IsDiff (one none) (one (some 1)) (oneDiff none (some 1)) ∧
    ((oneDiff (some 0) none).addDiff (oneDiff none (some 1))).updates =
      [(['k'], ⟨['k'], 1, some 0⟩)] :=
  ⟨oneDiff_isDiff _ _, oneDiff_isDiff _ _, by decide⟩

/-- And of the last two: blocks 1 and 2, then 2 and 3; the composition lists 3 as new, but not 1 as
removed. -/
example : let d : Diff Nat := ⟨[], [], [], [], []⟩
    let e : Diff Nat := ⟨[], [], [], [3], [1]⟩
    (d.addDiff e).newCids = [3] ∧ (d.addDiff e).removedCids = [] := by decide

end Arroba
