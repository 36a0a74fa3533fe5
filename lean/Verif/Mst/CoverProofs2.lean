import Verif.Mst.CoverProofs

/-! # Lemmas about `add_covering_proofs`: it loads every node beside the path -/

namespace Arroba

variable {C V : Type} [DecidableEq C]

open Arroba.Tree Arroba.Store

/-! ### Nodes with the keys around them -/

/-- The first key of the entries themselves, or else `hi`. -/
def firstKey (hi : Option Key) : Tree C → Option Key
  | .nil => hi
  | .leaf k _ _ => some k
  | .sub _ r => firstKey hi r

/-- The nodes below the given entries, with the keys of the records directly before and after each, where `lo` and
`hi` are those around the entries. -/
def spans : Option Key → Option Key → Tree C → List (Option Key × Tree C × Option Key)
  | _, _, .nil => []
  | _, hi, .leaf k _ r => spans (some k) hi r
  | lo, hi, .sub c r => (lo, c, firstKey hi r) :: (spans lo (firstKey hi r) c ++ spans lo hi r)

/-- The children only. -/
def tops : Option Key → Option Key → Tree C → List (Option Key × Tree C × Option Key)
  | _, _, .nil => []
  | _, hi, .leaf k _ r => tops (some k) hi r
  | lo, hi, .sub c r => (lo, c, firstKey hi r) :: tops lo hi r

theorem spans_iff {x : Option Key × Tree C × Option Key} : ∀ {t : Tree C} {lo hi : Option Key},
    x ∈ spans lo hi t ↔ ∃ y ∈ tops lo hi t, x = y ∨ x ∈ spans y.1 y.2.2 y.2.1
  | .nil, _, _ => by simp [spans, tops]
  | .leaf k v r, lo, hi => by simp only [spans, tops]; exact spans_iff
  | .sub c r, lo, hi => by
    simp only [spans, tops, List.mem_cons, List.mem_append, exists_eq_or_imp, or_assoc]
    rw [spans_iff (t := r) (lo := lo) (hi := hi)]

theorem tops_subs {x : Option Key × Tree C × Option Key} : ∀ {t : Tree C} {lo hi : Option Key},
    x ∈ tops lo hi t → x.2.1 ∈ subs t
  | .nil, _, _, h => by simp [tops] at h
  | .leaf k v r, lo, hi, h => tops_subs (t := r) h
  | .sub c r, lo, hi, h => by
    simp only [tops, List.mem_cons] at h
    rcases h with rfl | h
    · simp [subs]
    · exact List.mem_cons_of_mem _ (tops_subs h)

/-- The records are strictly between `lo` and `hi`. -/
def Inner (lo hi : Option Key) (t : Tree C) : Prop :=
  ∀ x ∈ leaves t, (∀ k ∈ lo, k < x.1) ∧ (∀ k ∈ hi, x.1 < k)

/-- `p` is between `lo` and `hi`, inclusive. -/
def Within (p : Key) (lo hi : Option Key) : Prop := (∀ k ∈ lo, k ≤ p) ∧ (∀ k ∈ hi, p ≤ k)

theorem firstKey_cases (hi : Option Key) : ∀ (t : Tree C),
    firstKey hi t = hi ∨ ∃ x ∈ leaves t, firstKey hi t = some x.1
  | .nil => .inl rfl
  | .leaf k v r => .inr ⟨(k, v), by simp [leaves], rfl⟩
  | .sub c r => by
    rcases firstKey_cases hi r with h | ⟨x, h1, h2⟩
    · exact .inl h
    · exact .inr ⟨x, by simp [leaves, h1], h2⟩

theorem Inner.sub {lo hi : Option Key} {c r : Tree C} (h : Inner lo hi (.sub c r))
    (hs : Sorted (.sub c r)) : Inner lo (firstKey hi r) c := by
  intro x hx
  refine ⟨(h x (by simp [leaves, hx])).1, fun k hk => ?_⟩
  rcases firstKey_cases hi r with h1 | ⟨y, h1, h2⟩
  · rw [h1] at hk
    exact (h x (by simp [leaves, hx])).2 k hk
  · rw [h2] at hk
    cases hk
    exact (List.pairwise_append.1 hs).2.2 x hx y h1

theorem Sorted_child {c r : Tree C} (hs : Sorted (.sub c r)) : Sorted c := (List.pairwise_append.1 hs).1

theorem Sorted_rest {c r : Tree C} (hs : Sorted (.sub c r)) : Sorted r := (List.pairwise_append.1 hs).2.1

theorem Sorted_tail {k : Key} {v : C} {r : Tree C} (hs : Sorted (.leaf k v r)) : Sorted r :=
  (List.pairwise_cons.1 hs).2

theorem Inner.leaf {lo hi : Option Key} {k : Key} {v : C} {r : Tree C} (h : Inner lo hi (.leaf k v r))
    (hs : Sorted (.leaf k v r)) : Inner (some k) hi r := by
  intro x hx
  refine ⟨fun k' hk => ?_, (h x (by simp [leaves, hx])).2⟩
  cases hk
  exact (List.pairwise_cons.1 hs).1 x hx

theorem Inner.rest {lo hi : Option Key} {c r : Tree C} (h : Inner lo hi (.sub c r)) : Inner lo hi r :=
  fun x hx => h x (by simp [leaves, hx])

/-- A child is sorted, and its bounds are right. -/
theorem tops_inner {x : Option Key × Tree C × Option Key} : ∀ {t : Tree C} {lo hi : Option Key},
    Inner lo hi t → Sorted t → x ∈ tops lo hi t → Inner x.1 x.2.2 x.2.1 ∧ Sorted x.2.1
  | .nil, _, _, _, _, h => by simp [tops] at h
  | .leaf k v r, lo, hi, hi', hs, h => tops_inner (hi'.leaf hs) (Sorted_tail hs) h
  | .sub c r, lo, hi, hi', hs, h => by
    simp only [tops, List.mem_cons] at h
    rcases h with rfl | h
    · exact ⟨hi'.sub hs, Sorted_child hs⟩
    · exact tops_inner hi'.rest (Sorted_rest hs) h

/-- The keys around a child are within those around the entries. -/
theorem tops_bounds {x : Option Key × Tree C × Option Key} : ∀ {t : Tree C} {lo hi : Option Key},
    Inner lo hi t → Sorted t → x ∈ tops lo hi t →
    (∀ k ∈ lo, ∃ k' ∈ x.1, k ≤ k') ∧ (∀ k ∈ hi, ∃ k' ∈ x.2.2, k' ≤ k)
  | .nil, _, _, _, _, h => by simp [tops] at h
  | .leaf k v r, lo, hi, hi', hs, h => by
    obtain ⟨h1, h2⟩ := tops_bounds (hi'.leaf hs) (Sorted_tail hs) h
    refine ⟨fun k' hk' => ?_, h2⟩
    obtain ⟨k'', h3, h4⟩ := h1 k rfl
    exact ⟨k'', h3, le_trans (le_of_lt ((hi' (k, v) (by simp [leaves])).1 k' hk')) h4⟩
  | .sub c r, lo, hi, hi', hs, h => by
    simp only [tops, List.mem_cons] at h
    rcases h with rfl | h
    · refine ⟨fun k hk => ⟨k, hk, le_refl _⟩, fun k hk => ?_⟩
      rcases firstKey_cases hi r with h1 | ⟨y, h1, h2⟩
      · exact ⟨k, by rw [h1]; exact hk, le_refl _⟩
      · exact ⟨y.1, by rw [h2]; rfl, le_of_lt ((hi' y (by simp [leaves, h1])).2 k hk)⟩
    · exact tops_bounds hi'.rest (Sorted_rest hs) h

theorem Within.up {p : Key} {x : Option Key × Tree C × Option Key} {t : Tree C} {lo hi : Option Key}
    (hi' : Inner lo hi t) (hs : Sorted t) (h : x ∈ tops lo hi t) (hw : Within p x.1 x.2.2) :
    Within p lo hi := by
  obtain ⟨h1, h2⟩ := tops_bounds hi' hs h
  refine ⟨fun k hk => ?_, fun k hk => ?_⟩
  · obtain ⟨k', a, b⟩ := h1 k hk
    exact le_trans b (hw.1 k' a)
  · obtain ⟨k', a, b⟩ := h2 k hk
    exact le_trans (hw.2 k' a) b

/-- A node further down that is beside `p` is below a child that is beside `p`. -/
theorem Within.up_spans {p : Key} {x : Option Key × Tree C × Option Key} : ∀ {L : Nat} {z : Key → Nat}
    {t : Tree C} {lo hi : Option Key}, WF z L t → Inner lo hi t → Sorted t → x ∈ spans lo hi t →
    Within p x.1 x.2.2 → Within p lo hi
  | L, z, t, lo, hi, hwf, hin, hs, hx, hw => by
    obtain ⟨y, hy, hxy⟩ := spans_iff.1 hx
    obtain ⟨hyi, hys⟩ := tops_inner hin hs hy
    rcases hxy with rfl | hxy
    · exact hw.up hin hs hy
    · obtain ⟨M, hM, hwy⟩ : ∃ M, M < L ∧ WF z M y.2.1 := by
        have := tops_subs hy
        clear hxy hx hyi hys hy hin hs
        induction t with
        | nil => simp [subs] at this
        | leaf k v r ih => exact ih hwf.2 this
        | sub c r _ ih =>
          obtain ⟨M, rfl, _, h2, _, h4⟩ := WF_sub.1 hwf
          simp only [subs, List.mem_cons] at this
          rcases this with rfl | this
          · exact ⟨M, by omega, h2⟩
          · exact ih h4 this
      exact (Within.up_spans hwy hyi hys hxy hw).up hin hs hy
termination_by L => L

/-! ### What the scan finds -/

/-- How the scan treats the children that are beside the path. -/
def ScanOK (p : Key) (res : Option (Tree C) × Option (Tree C) × Option (Tree C))
    (x : Option Key × Tree C × Option Key) : Prop :=
  (x.1 ≠ some p ∧ (res.1 = some x.2.1 ∨ (res.1 = none ∧ res.2.1 = some x.2.1 ∧ x.2.2 = some p))) ∨
    (x.1 = some p ∧ res.1 = none ∧ res.2.2 = some x.2.1)

theorem scanT_past {p : Key} : ∀ {t : Tree C} {cur left right : Option (Tree C)},
    (∀ x ∈ leaves t, p < x.1) → (scanT p cur left right t).1 = cur
  | .nil, _, _, _, _ => rfl
  | .sub c r, cur, left, right, h => by
    simp only [scanT]
    exact scanT_past (fun x hx => h x (by simp [leaves, hx]))
  | .leaf k v .nil, cur, left, right, h => rfl
  | .leaf k v (.leaf k' v' r), cur, left, right, h => by
    have := scanT_past (t := .leaf k' v' r) (cur := cur) (left := left) (right := none)
      (fun x hx => h x (by simp only [leaves, List.mem_cons] at hx ⊢; exact .inr hx))
    exact this
  | .leaf k v (.sub c r), cur, left, right, h => by
    have hk := h (k, v) (by simp [leaves])
    simp only [scanT, ne_of_gt hk, hk, if_true, if_false]

/-- The child just before the scanned entries, and those in them. -/
theorem scanT_spec {p : Key} {z : Key → Nat} {L : Nat} {hi : Option Key} :
    ∀ {t : Tree C} {lo : Option Key} {cur left right : Option (Tree C)},
    WF z L t → Sorted t → Inner lo hi t → ¬ startsSub t → (∀ k ∈ lo, k < p) →
    (∀ c, cur = some c → left = some c → Within p lo (firstKey hi t) →
      ScanOK p (scanT p cur left right t) (lo, c, firstKey hi t)) ∧
    (∀ x ∈ tops lo hi t, Within p x.1 x.2.2 → ScanOK p (scanT p cur left right t) x)
  | .nil, lo, cur, left, right, _, _, _, _, hlo => by
    refine ⟨fun c hc hl hw => .inl ⟨?_, .inl hc⟩, fun x hx => by simp [tops] at hx⟩
    intro h
    exact absurd (hlo p h) (lt_irrefl _)
  | .sub c r, _, _, _, _, _, _, _, h, _ => absurd trivial h
  | .leaf k v .nil, lo, cur, left, right, _, _, _, _, hlo => by
    refine ⟨fun c hc hl hw => .inl ⟨?_, .inl hc⟩, fun x hx => by simp [tops] at hx⟩
    intro h
    exact absurd (hlo p h) (lt_irrefl _)
  | .leaf k v (.leaf k' v' r), lo, cur, left, right, hwf, hs, hin, _, hlo => by
    have hs' := Sorted_tail hs
    have hin' := hin.leaf hs
    have heq : scanT p cur left right (.leaf k v (.leaf k' v' r)) =
      scanT p cur left none (.leaf k' v' r) := rfl
    rw [heq]
    have hlo' : lo ≠ some p := fun h => absurd (hlo p h) (lt_irrefl _)
    by_cases hk : k < p
    · obtain ⟨_, h2⟩ := scanT_spec (cur := cur) (left := left) (right := none) hwf.2 hs' hin' (by simp [startsSub])
        (lo := some k) (by intro k'' h; cases h; exact hk)
      refine ⟨fun c hc hl hw => ?_, h2⟩
      exact absurd (hw.2 k rfl) (not_le.2 hk)
    · have hpast : ∀ x ∈ leaves (.leaf k' v' r), p < x.1 := fun x hx =>
        lt_of_le_of_lt (not_lt.1 hk) ((hin' x hx).1 k rfl)
      have h1 := scanT_past (cur := cur) (left := left) (right := none) hpast
      refine ⟨fun c hc hl hw => .inl ⟨hlo', .inl (h1.trans hc)⟩, fun x hx hw => ?_⟩
      exfalso
      have hx' : x ∈ tops (some k') hi r := hx
      have := (tops_bounds (hin'.leaf hs') (Sorted_tail hs') hx').1 k' rfl
      obtain ⟨k'', h3, h4⟩ := this
      have h5 := hpast (k', v') (by simp [leaves])
      exact absurd (hw.1 k'' h3) (not_le.2 (lt_of_lt_of_le h5 h4))
  | .leaf k v (.sub c r), lo, cur, left, right, hwf, hs, hin, _, hlo => by
    have hs' := Sorted_tail hs
    have hin' := hin.leaf hs
    obtain ⟨M, rfl, hc, hwc, hns, hwr⟩ := WF_sub.1 hwf.2
    have hlo' : lo ≠ some p := fun h => absurd (hlo p h) (lt_irrefl _)
    by_cases hkp : k = p
    · subst hkp
      have heq : scanT k cur left right (.leaf k v (.sub c r)) = (none, left, some c) := by
        simp [scanT]
      rw [heq]
      refine ⟨fun c' _ hl _ => .inl ⟨hlo', .inr ⟨rfl, hl, rfl⟩⟩, fun x hx hw => ?_⟩
      simp only [tops, List.mem_cons] at hx
      rcases hx with rfl | hx
      · exact .inr ⟨rfl, rfl, rfl⟩
      · exfalso
        cases r with
        | nil => simp [tops] at hx
        | sub => exact absurd trivial hns
        | leaf k' v' r' =>
          have hin2 := hin'.rest
          have hx' : x ∈ tops (some k') hi r' := hx
          obtain ⟨k'', h3, h4⟩ := (tops_bounds (hin2.leaf (Sorted_rest hs'))
            (Sorted_tail (Sorted_rest hs')) hx').1 k' rfl
          have h5 := (hin2 (k', v') (by simp [leaves])).1 k rfl
          exact absurd (hw.1 k'' h3) (not_le.2 (lt_of_lt_of_le h5 h4))
    · by_cases hpk : p < k
      · have heq : scanT p cur left right (.leaf k v (.sub c r)) = (cur, left, some c) := by
          simp [scanT, hkp, hpk]
        rw [heq]
        refine ⟨fun c' hc _ _ => .inl ⟨hlo', .inl hc⟩, fun x hx hw => ?_⟩
        exfalso
        have hx' : x ∈ tops (some k) hi (.sub c r) := hx
        obtain ⟨k'', h3, h4⟩ := (tops_bounds hin' hs' hx').1 k rfl
        exact absurd (hw.1 k'' h3) (not_le.2 (lt_of_lt_of_le hpk h4))
      · have hkp' : k < p := lt_of_le_of_ne (not_lt.1 hpk) hkp
        have heq : scanT p cur left right (.leaf k v (.sub c r)) =
            scanT p (some c) (some c) (some c) r := by
          simp [scanT, hkp, hpk]
        rw [heq]
        obtain ⟨h1, h2⟩ := scanT_spec (cur := some c) (left := some c) (right := some c) hwr
          (Sorted_rest hs') hin'.rest hns (lo := some k) (by intro k'' h; cases h; exact hkp')
        refine ⟨fun c' _ _ hw => absurd (hw.2 k rfl) (not_le.2 hkp'), fun x hx hw => ?_⟩
        simp only [tops, List.mem_cons] at hx
        rcases hx with rfl | hx
        · exact h1 c rfl rfl hw
        · exact h2 x hx hw

theorem scan_spec {p : Key} {z : Key → Nat} {L : Nat} {lo hi : Option Key} {t : Tree C}
    (hwf : WF z L t) (hs : Sorted t) (hin : Inner lo hi t) (hlo : ∀ k ∈ lo, k < p)
    {x : Option Key × Tree C × Option Key} (hx : x ∈ tops lo hi t) (hw : Within p x.1 x.2.2) :
    ScanOK p (scanT p (firstSub t) (firstSub t) (firstSub t) t) x := by
  cases t with
  | nil => simp [tops] at hx
  | leaf k v r => exact (scanT_spec hwf hs hin (by simp [startsSub]) hlo).2 x hx hw
  | sub c r =>
    obtain ⟨M, rfl, hc, hwc, hns, hwr⟩ := WF_sub.1 hwf
    obtain ⟨h1, h2⟩ := scanT_spec (cur := some c) (left := some c) (right := some c) hwr
      (Sorted_rest hs) hin.rest hns hlo
    simp only [firstSub, scanT]
    simp only [tops, List.mem_cons] at hx
    rcases hx with rfl | hx
    · exact h1 c rfl rfl hw
    · exact h2 x hx hw

end Arroba
