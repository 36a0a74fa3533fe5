import Verif.Mst.Basic
import Mathlib.Tactic.Ring
import Mathlib.Tactic.Linarith

/-! Helper lemmas: slices, searching inside a node, layers, pointers. -/

namespace Arroba

variable {C : Type}

open Arroba.Tree

theorem pySlice_left {α : Type} (l r : List α) :
    pySlice (l ++ r) 0 (some (l.length : Int)) = l := by
  simp [pySlice, sliceBound]

theorem pySlice_right {α : Type} (l r : List α) :
    pySlice (l ++ r) (l.length : Int) none = r := by
  have : ¬ ((l.length : Int) < 0) := by omega
  rw [pySlice, sliceBound, if_neg this, List.take_length]
  simp

theorem pySlice_right' {α : Type} (l : List α) (x : α) (r : List α) :
    pySlice (l ++ x :: r) ((l.length : Int) + 1) none = r := by
  have : l ++ x :: r = (l ++ [x]) ++ r := by simp
  have h := pySlice_right (l ++ [x]) r
  rw [this]
  simpa using h

theorem pySlice_right'' {α : Type} (l : List α) (x y : α) (r : List α) :
    pySlice (l ++ x :: y :: r) ((l.length : Int) + 2) none = r := by
  have : l ++ x :: y :: r = (l ++ [x, y]) ++ r := by simp
  have h := pySlice_right (l ++ [x, y]) r
  rw [this]
  simpa using h

namespace Tree

def TopLt (key : Key) : Tree C → Prop
  | nil => True
  | leaf k _ r => k < key ∧ TopLt key r
  | sub _ r => TopLt key r

def HeadGe (key : Key) : Tree C → Prop
  | nil => True
  | leaf k _ _ => key ≤ k
  | sub _ _ => False

theorem leaves_ne_of_not_endsSub {a : Tree C} : a ≠ nil → ¬ endsSub a → leaves a ≠ [] := by
  induction a with
  | nil => simp
  | leaf k v r => simp [leaves]
  | sub c r _ ih =>
    intro _ h
    simp only [endsSub, not_or] at h
    have := ih h.1 h.2
    simp [leaves, this]

theorem TopLt_app {key : Key} {a b : Tree C} : TopLt key (app a b) ↔ TopLt key a ∧ TopLt key b := by
  induction a <;> simp_all [app, TopLt, and_assoc]

theorem TopLt_all {key : Key} {a : Tree C} (hs : Sorted a) (ht : TopLt key a) (he : ¬ endsSub a) :
    ∀ x ∈ leaves a, x.1 < key := by
  induction a with
  | nil => simp [leaves]
  | leaf k v r ih =>
    intro x hx
    simp only [leaves, List.mem_cons] at hx
    rcases hx with rfl | hx
    · exact ht.1
    · exact ih (List.pairwise_cons.1 hs).2 ht.2 he x hx
  | sub c r _ ih =>
    simp only [endsSub, not_or] at he
    have hsr : Sorted r := (List.pairwise_append.1 hs).2.1
    have hr := ih hsr ht he.2
    intro x hx
    simp only [leaves, List.mem_append] at hx
    rcases hx with hx | hx
    · obtain ⟨y, hy⟩ := List.exists_mem_of_ne_nil _ (leaves_ne_of_not_endsSub he.1 he.2)
      exact lt_trans ((List.pairwise_append.1 hs).2.2 x hx y hy) (hr y hy)
    · exact hr x hx

theorem HeadGe_all {key : Key} {b : Tree C} (hs : Sorted b) (h : HeadGe key b) :
    ∀ y ∈ leaves b, key ≤ y.1 := by
  cases b with
  | nil => simp [leaves]
  | sub c r => exact absurd h (by simp [HeadGe])
  | leaf k v r =>
    intro y hy
    simp only [leaves, List.mem_cons] at hy
    rcases hy with rfl | hy
    · exact h
    · exact le_trans h (le_of_lt ((List.pairwise_cons.1 hs).1 y hy))

end Tree

theorem dictGet_append {α β : Type} [DecidableEq α] (a b : List (α × β)) (k : α) :
    dictGet (a ++ b) k = match dictGet a k with | some v => some v | none => dictGet b k := by
  induction a with
  | nil => simp [dictGet]
  | cons x xs ih =>
    obtain ⟨k', v⟩ := x
    simp only [List.cons_append, dictGet]
    split <;> simp_all

theorem dictGet_eq_none {α β : Type} [DecidableEq α] {l : List (α × β)} {k : α} :
    dictGet l k = none ↔ ∀ x ∈ l, x.1 ≠ k := by
  induction l with
  | nil => simp [dictGet]
  | cons x xs ih =>
    obtain ⟨k', v⟩ := x
    simp only [dictGet]
    split <;> simp_all

section
variable {E : Env C} {rd : C → Option (NodeData C)}

theorem findGe_decomp (key : Key) {t : Tree C} {L : Nat} {es : List (Ent C)}
    (h : ReprEs E rd L t es) :
    ∃ A B l r, t = app A B ∧ es = l ++ r ∧ findGeIdx key es = l.length ∧
      ReprEs E rd L A l ∧ ReprEs E rd L B r ∧ TopLt key A ∧ HeadGe key B := by
  induction t generalizing es with
  | nil =>
    obtain rfl := ReprEs_nil.1 h
    exact ⟨nil, nil, [], [], rfl, rfl, rfl, rfl, rfl, trivial, trivial⟩
  | leaf k v t ih =>
    obtain ⟨es', rfl, h'⟩ := ReprEs_leaf.1 h
    by_cases hk : key ≤ k
    · exact ⟨nil, leaf k v t, [], _, rfl, rfl, by simp [findGeIdx, hk], rfl, h, trivial, hk⟩
    · obtain ⟨A, B, l, r, rfl, rfl, hi, hA, hB, h1, h2⟩ := ih h'
      refine ⟨leaf k v A, B, _ :: l, r, rfl, rfl, by simp [findGeIdx, hk, hi], ⟨l, rfl, hA⟩, hB,
        ⟨not_le.1 hk, h1⟩, h2⟩
  | sub c t _ ih =>
    obtain ⟨n, es', rfl, hn, h'⟩ := h
    obtain ⟨A, B, l, r, rfl, rfl, hi, hA, hB, h1, h2⟩ := ih h'
    exact ⟨sub c A, B, _ :: l, r, rfl, rfl, by simp [findGeIdx, hi], ⟨n, l, rfl, hn, hA⟩, hB,
      h1, h2⟩

/-- What lies left of the search position: either nothing relevant, or a subtree in which
the key would have to be. -/
inductive LeftOf (E : Env C) (rd : C → Option (NodeData C)) (L : Nat) (key : Key) :
    Tree C → List (Ent C) → Prop
  | done {A l} (hA : ReprEs E rd L A l) (he : ¬ endsSub A) (hlt : ∀ x ∈ leaves A, x.1 < key)
      (hl : asTree l.getLast? = none) : LeftOf E rd L key A l
  | sub {A c M l m} (hL : L = M + 1) (hA : ReprEs E rd L A l) (hm : ReprN E rd M c m)
      (hc : c ≠ nil) (he : ¬ endsSub A) (hlt : ∀ x ∈ leaves A, x.1 < key) :
      LeftOf E rd L key (app A (Tree.sub c nil)) (l ++ [.tree m])

/-- What lies at the search position: the key itself, or only bigger keys. -/
inductive RightOf (E : Env C) (rd : C → Option (NodeData C)) (L : Nat) (key : Key) :
    Tree C → List (Ent C) → Prop
  | hit {v B r} (hB : ReprEs E rd L B r) (hgt : ∀ y ∈ leaves B, key < y.1) :
      RightOf E rd L key (Tree.leaf key v B) (.leaf key v :: r)
  | miss {B r} (hB : ReprEs E rd L B r) (hgt : ∀ y ∈ leaves B, key < y.1)
      (hs : ¬ startsSub B) (hr : leafHit key r.head? = none)
      (hr' : asTree r.head? = none) : RightOf E rd L key B r

theorem Tree.Sorted.app_left {a b : Tree C} (h : Sorted (app a b)) : Sorted a := by
  have := List.pairwise_append.1 (by simpa [Sorted] using h); exact this.1

theorem Tree.Sorted.app_right {a b : Tree C} (h : Sorted (app a b)) : Sorted b := by
  have := List.pairwise_append.1 (by simpa [Sorted] using h); exact this.2.1

theorem Tree.Sorted.app_lt {a b : Tree C} (h : Sorted (app a b)) :
    ∀ x ∈ leaves a, ∀ y ∈ leaves b, x.1 < y.1 := by
  have := List.pairwise_append.1 (by simpa [Sorted] using h); exact this.2.2

theorem Sorted_sub_nil {c : Tree C} : Sorted (sub c nil) ↔ Sorted c := by simp [Sorted, leaves]

theorem locate (key : Key) {t : Tree C} {L : Nat} {n : Node C} (hn : ReprN E rd L t n)
    (hwf : WF E.zeros L t) (hs : Sorted t) :
    ∃ A B l r, t = app A B ∧ getEntries E rd n = .ok (l ++ r) ∧
      findGeIdx key (l ++ r) = l.length ∧
      LeftOf E rd L key A l ∧ RightOf E rd L key B r := by
  obtain ⟨es, he, hes⟩ := getEntries_spec hn hwf
  obtain ⟨A, B, l, r, rfl, rfl, hi, hA, hB, h1, h2⟩ := findGe_decomp key hes
  refine ⟨A, B, l, r, rfl, he, hi, ?_, ?_⟩
  · obtain ⟨hwA, hwB, hadj⟩ := WF_app.1 hwf
    rcases snoc_cases A with rfl | ⟨a, k, v, rfl⟩ | ⟨a, c, rfl⟩
    · obtain rfl := ReprEs_nil.1 hA
      exact .done hA (by simp [endsSub]) (by simp [leaves]) (by simp [asTree])
    · have hne : ¬ endsSub (app a (leaf k v nil)) := by simp [endsSub_app, endsSub]
      refine .done hA hne (TopLt_all hs.app_left h1 hne) ?_
      obtain ⟨l1, l2, rfl, _, h⟩ := ReprEs_app.1 hA
      obtain ⟨es', rfl, h'⟩ := ReprEs_leaf.1 h
      obtain rfl := ReprEs_nil.1 h'
      simp [asTree]
    · obtain ⟨hwa, hwc, hadj'⟩ := WF_app.1 hwA
      obtain ⟨M, rfl, hc, hwc', _, _⟩ := WF_sub.1 hwc
      obtain ⟨l1, l2, rfl, hl1, h⟩ := ReprEs_app.1 hA
      obtain ⟨m, es', rfl, hm, h⟩ := ReprEs_sub.1 h
      obtain rfl := ReprEs_nil.1 h
      have hne : ¬ endsSub a := fun h => hadj' ⟨h, trivial⟩
      exact .sub rfl hl1 hm hc hne (TopLt_all hs.app_left.app_left (TopLt_app.1 h1).1 hne)
  · have hge := HeadGe_all hs.app_right h2
    cases B with
    | nil =>
      obtain rfl := ReprEs_nil.1 hB
      exact .miss hB (by simp [leaves]) (by simp [startsSub]) (by simp [leafHit]) (by simp [asTree])
    | sub c B' => exact absurd h2 (by simp [HeadGe])
    | leaf k v B' =>
      obtain ⟨es', rfl, h⟩ := ReprEs_leaf.1 hB
      have hlt := (List.pairwise_cons.1 hs.app_right).1
      by_cases hk : k = key
      · subst hk
        exact .hit h hlt
      · have hkk : key < k := lt_of_le_of_ne h2 (Ne.symm hk)
        refine .miss hB ?_ (by simp [startsSub]) (by simp [leafHit, hk]) (by simp [asTree])
        intro y hy
        simp only [leaves, List.mem_cons] at hy
        rcases hy with rfl | hy
        · exact hkk
        · exact lt_trans hkk (hlt y hy)

/-! ### Layers -/

theorem layerForEntries_spec {t : Tree C} {L : Nat} {es : List (Ent C)}
    (h : ReprEs E rd L t es) (hwf : WF E.zeros L t) :
    layerForEntries E es = some (L : Int) ∨
      (layerForEntries E es = none ∧ (t = nil ∨ ∃ c, t = sub c nil)) := by
  induction t generalizing es with
  | nil => obtain rfl := ReprEs_nil.1 h; exact .inr ⟨rfl, .inl rfl⟩
  | leaf k v r _ =>
    obtain ⟨es', rfl, h'⟩ := ReprEs_leaf.1 h
    left; simp [layerForEntries, hwf.1]
  | sub c r _ ih =>
    obtain ⟨M, rfl, hc, hwc, hns, hwr⟩ := WF_sub.1 hwf
    obtain ⟨m, es', rfl, hm, h'⟩ := ReprEs_sub.1 h
    rcases ih h' hwr with h1 | ⟨h1, rfl | ⟨c', rfl⟩⟩
    · left; simpa [layerForEntries] using h1
    · right; exact ⟨by simpa [layerForEntries] using h1, .inr ⟨c, rfl⟩⟩
    · exact absurd trivial hns

theorem attemptGetLayer_spec : ∀ {f : Nat} {t : Tree C} {L : Nat} {n : Node C},
    ReprN E rd L t n → WF E.zeros L t → t ≠ nil → L + 1 ≤ f →
    attemptGetLayer E rd f n = .ok (some (L : Int))
  | 0, _, _, _, _, _, _, hf => by omega
  | f + 1, t, L, n, hn, hwf, ht, hf => by
    unfold attemptGetLayer
    cases hl : n.layer with
    | some l => simp [hn.1.2.2 l hl]
    | none =>
      obtain ⟨es, he, hes⟩ := getEntries_spec hn hwf
      simp only [he, ok_bind]
      rcases layerForEntries_spec hes hwf with h | ⟨h, rfl | ⟨c, rfl⟩⟩
      · simp [h]
      · exact absurd rfl ht
      · obtain ⟨M, rfl, hc, hwc, _, _⟩ := WF_sub.1 hwf
        obtain ⟨m, es', rfl, hm, _⟩ := ReprEs_sub.1 hes
        simp only [h, childLayer]
        rw [attemptGetLayer_spec hm hwc hc (by omega)]
        simp

theorem getLayer_spec {f : Nat} {t : Tree C} {L : Nat} {n : Node C}
    (hn : ReprN E rd L t n) (hwf : WF E.zeros L t) (ht : t ≠ nil) (hf : L + 1 ≤ f) :
    getLayer E rd f n = .ok (L : Int) := by
  simp [getLayer, attemptGetLayer_spec hn hwf ht hf]

theorem getLayer_nil {f : Nat} {L : Nat} {n : Node C}
    (hn : ReprN E rd L nil n) (hf : 1 ≤ f) :
    getLayer E rd f n = .ok (n.layer.getD 0) := by
  obtain ⟨f, rfl⟩ : ∃ g, f = g + 1 := ⟨f - 1, by omega⟩
  unfold getLayer attemptGetLayer
  cases hl : n.layer with
  | some l => simp
  | none =>
    obtain ⟨es, he, hes⟩ := getEntries_spec hn (by simp [WF])
    obtain rfl := ReprEs_nil.1 hes
    simp [he, layerForEntries, childLayer]

/-! ### Pointers -/

theorem serializeEntries_spec {gp : Node C → Except Err C} {L : Nat}
    (hgp : ∀ M, L = M + 1 → ∀ c m, ReprN E rd M c m → WF E.zeros M c → ValidKeys c →
      gp m = .ok (cidOf E.H c)) :
    ∀ (t : Tree C) (last : Key) (es : List (Ent C)), ReprEs E rd L t es → WF E.zeros L t →
      ValidKeys t → ¬ startsSub t →
      serializeEntries gp last es = .ok ((ser E.H t).2 last)
  | nil, last, es, h, _, _, _ => by
    obtain rfl := ReprEs_nil.1 h
    simp [serializeEntries, ser]
  | sub _ _, _, _, _, _, _, h => absurd trivial h
  | leaf k v nil, last, es, h, hwf, hv, _ => by
    obtain ⟨es', rfl, h'⟩ := ReprEs_leaf.1 h
    obtain rfl := ReprEs_nil.1 h'
    have : validKey k = true := hv (k, v) (by simp [leaves])
    simp [serializeEntries, ser, ensureValidKey, this]
  | leaf k v (leaf k' v' r), last, es, h, hwf, hv, _ => by
    obtain ⟨es', rfl, h'⟩ := ReprEs_leaf.1 h
    have h'' := h'
    obtain ⟨es'', rfl, _⟩ := ReprEs_leaf.1 h''
    have hk : validKey k = true := hv (k, v) (by simp [leaves])
    have := serializeEntries_spec hgp (leaf k' v' r) k _ h' hwf.2
      (fun kv hkv => hv kv (by simp only [leaves, List.mem_cons] at hkv ⊢; exact .inr hkv))
      (by simp [startsSub])
    rw [serializeEntries]
    · simp [ensureValidKey, hk, this, ser]
    · simp
  | leaf k v (sub c r), last, es, h, hwf, hv, _ => by
    obtain ⟨es', rfl, h'⟩ := ReprEs_leaf.1 h
    obtain ⟨M, rfl, hc, hwc, hns, hwr⟩ := WF_sub.1 hwf.2
    obtain ⟨m, es'', rfl, hm, h''⟩ := ReprEs_sub.1 h'
    have hk : validKey k = true := hv (k, v) (by simp [leaves])
    have hvc : ValidKeys c := fun kv hkv => hv kv (by simp [leaves, hkv])
    have hvr : ValidKeys r := fun kv hkv => hv kv (by simp [leaves, hkv])
    have := serializeEntries_spec hgp r k _ h'' hwr hvr hns
    have hp := hgp M rfl c m hm hwc hvc
    rw [serializeEntries]
    simp [ensureValidKey, hk, this, ser, hp, cidOf, nodeOf]

theorem serializeNodeData_spec {gp : Node C → Except Err C} {L : Nat}
    (hgp : ∀ M, L = M + 1 → ∀ c m, ReprN E rd M c m → WF E.zeros M c → ValidKeys c →
      gp m = .ok (cidOf E.H c))
    {t : Tree C} {es : List (Ent C)} (h : ReprEs E rd L t es) (hwf : WF E.zeros L t)
    (hv : ValidKeys t) : serializeNodeData gp es = .ok (nodeOf E.H t) := by
  cases t with
  | nil =>
    obtain rfl := ReprEs_nil.1 h
    simp [serializeNodeData, serializeEntries, nodeOf, ser]
  | leaf k v r =>
    have h' := h
    obtain ⟨es', rfl, _⟩ := ReprEs_leaf.1 h'
    have := serializeEntries_spec hgp _ [] _ h hwf hv (by simp [startsSub])
    rw [serializeNodeData]
    · simp [this, nodeOf, ser]
    · simp
  | sub c r =>
    obtain ⟨M, rfl, hc, hwc, hns, hwr⟩ := WF_sub.1 hwf
    obtain ⟨m, es', rfl, hm, h'⟩ := ReprEs_sub.1 h
    have hvc : ValidKeys c := fun kv hkv => hv kv (by simp [leaves, hkv])
    have hvr : ValidKeys r := fun kv hkv => hv kv (by simp [leaves, hkv])
    have := serializeEntries_spec hgp r [] _ h' hwr hvr hns
    have hp := hgp M rfl c m hm hwc hvc
    rw [serializeNodeData]
    simp [this, hp, nodeOf, ser, cidOf]

theorem forcePointers_spec {gp : Node C → Except Err C} {L : Nat}
    (hgp : ∀ M, L = M + 1 → ∀ c m, ReprN E rd M c m → WF E.zeros M c → ValidKeys c →
      gp m = .ok (cidOf E.H c))
    {t : Tree C} {es : List (Ent C)} (h : ReprEs E rd L t es) (hwf : WF E.zeros L t)
    (hv : ValidKeys t) : forcePointers gp es = .ok () := by
  induction t generalizing es with
  | nil => obtain rfl := ReprEs_nil.1 h; rfl
  | leaf k v r ih =>
    obtain ⟨es', rfl, h'⟩ := ReprEs_leaf.1 h
    have := ih h' hwf.2 (fun kv hkv => hv kv (by simp [leaves, hkv]))
    simpa [forcePointers] using this
  | sub c r _ ih =>
    obtain ⟨M, rfl, hc, hwc, hns, hwr⟩ := WF_sub.1 hwf
    obtain ⟨m, es', rfl, hm, h'⟩ := ReprEs_sub.1 h
    have := ih h' hwr (fun kv hkv => hv kv (by simp [leaves, hkv]))
    have hp := hgp M rfl c m hm hwc (fun kv hkv => hv kv (by simp [leaves, hkv]))
    simp [forcePointers, hp, this]

theorem getPointer_spec : ∀ {f : Nat} {t : Tree C} {L : Nat} {n : Node C},
    ReprN E rd L t n → WF E.zeros L t → ValidKeys t → L + 1 ≤ f →
    getPointer E rd f n = .ok (cidOf E.H t)
  | 0, _, _, _, _, _, _, hf => by omega
  | f + 1, t, L, n, hn, hwf, hv, hf => by
    unfold getPointer
    cases ho : n.outdated with
    | false => simp [hn.1.2.1 ho]
    | true =>
      obtain ⟨es, he, hes⟩ := getEntries_spec hn hwf
      have hgp : ∀ M, L = M + 1 → ∀ c m, ReprN E rd M c m → WF E.zeros M c → ValidKeys c →
          getPointer E rd f m = .ok (cidOf E.H c) :=
        fun M hM c m hm hw hv => getPointer_spec hm hw hv (by omega)
      simp [he, forcePointers_spec hgp hes hwf hv, serializeNodeData_spec hgp hes hwf hv, cidOf]

theorem cidForEntries_spec {f : Nat} {t : Tree C} {L : Nat} {es : List (Ent C)}
    (h : ReprEs E rd L t es) (hwf : WF E.zeros L t) (hv : ValidKeys t) (hf : L ≤ f) :
    cidForEntries E rd f es = .ok (cidOf E.H t) := by
  unfold cidForEntries
  rw [serializeNodeData_spec (L := L) ?_ h hwf hv]
  · rfl
  · intro M hM c m hm hw hv
    exact getPointer_spec hm hw hv (by omega)

end

end Arroba
