import Verif.Mst.Locate

/-! Helper lemmas: correctness of each tree operation against the tree specification. -/

namespace Arroba

variable {C : Type}

open Arroba.Tree

namespace Tree

/-- `sub t r`, dropping an empty child. -/
def optSub : Tree C → Tree C → Tree C
  | nil, r => r
  | t, r => sub t r

@[simp] theorem leaves_optSub (t r : Tree C) : leaves (optSub t r) = leaves t ++ leaves r := by
  cases t <;> simp [optSub, leaves]

theorem optSub_of_ne {t r : Tree C} (h : t ≠ nil) : optSub t r = sub t r := by
  cases t <;> simp_all [optSub]

theorem WF_optSub {z : Key → Nat} {M : Nat} {t r : Tree C} (ht : WF z M t) (hr : WF z (M + 1) r)
    (hs : ¬ startsSub r) : WF z (M + 1) (optSub t r) := by
  cases t with
  | nil => exact hr
  | _ => exact ⟨by simp, ht, hs, hr⟩

theorem Trimmed_app_leaf (a : Tree C) (k : Key) (v : C) (b : Tree C) : Trimmed (app a (leaf k v b)) := by
  cases a with
  | nil => simp [app, Trimmed]
  | leaf => simp [app, Trimmed]
  | sub c r => cases r <;> simp [app, Trimmed]

theorem Trimmed_app_sub {a c c' b : Tree C} (h : Trimmed (app a (sub c b))) : Trimmed (app a (sub c' b)) := by
  cases a with
  | nil => cases b <;> simp_all [app, Trimmed]
  | leaf => simp [app, Trimmed]
  | sub c r => cases r <;> simp_all [app, Trimmed]

theorem endsSub_snoc (a c : Tree C) : endsSub (app a (sub c nil)) := by
  simp [endsSub_app, endsSub]

theorem endsSub_leaf_iff {k : Key} {v : C} {r : Tree C} :
    endsSub (leaf k v r) ↔ endsSub r := Iff.rfl

theorem ValidKeys_app {a b : Tree C} : ValidKeys (app a b) ↔ ValidKeys a ∧ ValidKeys b := by
  simp only [ValidKeys, leaves_app, List.mem_append]
  constructor
  · intro h; exact ⟨fun kv hk => h kv (.inl hk), fun kv hk => h kv (.inr hk)⟩
  · rintro ⟨h1, h2⟩ kv (hk | hk)
    · exact h1 kv hk
    · exact h2 kv hk

theorem ValidKeys_sub_nil {c : Tree C} : ValidKeys (sub c nil) ↔ ValidKeys c := by
  simp [ValidKeys, leaves]

end Tree

section
variable {E : Env C} {rd : C → Option (NodeData C)}

theorem atIndex_at {n : Node C} {l r : List (Ent C)} (h : getEntries E rd n = .ok (l ++ r)) :
    atIndex E rd n (l.length : Int) = .ok r.head? := by
  simp only [atIndex, h, ok_bind]
  cases r with
  | nil => simp
  | cons x xs => simp

theorem atIndex_next {n : Node C} {l r : List (Ent C)} {x : Ent C}
    (h : getEntries E rd n = .ok (l ++ x :: r)) :
    atIndex E rd n ((l.length : Int) + 1) = .ok r.head? := by
  have : l ++ x :: r = (l ++ [x]) ++ r := by simp
  rw [this] at h
  have := atIndex_at h
  simpa using this

theorem atIndex_prev {n : Node C} {l r : List (Ent C)} (h : getEntries E rd n = .ok (l ++ r)) :
    atIndex E rd n ((l.length : Int) - 1) = .ok l.getLast? := by
  rcases List.eq_nil_or_concat' l with rfl | ⟨l', x, rfl⟩
  · simp [atIndex, h]
  · have : l' ++ [x] ++ r = l' ++ (x :: r) := by simp
    rw [this] at h
    have := atIndex_at h
    simpa using this

theorem find_eq {n : Node C} {l r : List (Ent C)} {key : Key}
    (h : getEntries E rd n = .ok (l ++ r)) (hi : findGeIdx key (l ++ r) = l.length) :
    findGtOrEqualLeafIndex E rd n key = .ok (l.length : Int) := by
  simp [findGtOrEqualLeafIndex, h, hi]

theorem slice_left {n : Node C} {l r : List (Ent C)} (h : getEntries E rd n = .ok (l ++ r)) :
    slice E rd n 0 (some (l.length : Int)) = .ok l := by
  simp [slice, h, pySlice_left]

theorem slice_right {n : Node C} {l r : List (Ent C)} (h : getEntries E rd n = .ok (l ++ r)) :
    slice E rd n (l.length : Int) none = .ok r := by
  simp [slice, h, pySlice_right]

theorem slice_right1 {n : Node C} {l r : List (Ent C)} {x : Ent C}
    (h : getEntries E rd n = .ok (l ++ x :: r)) :
    slice E rd n ((l.length : Int) + 1) none = .ok r := by
  simp [slice, h, pySlice_right']

theorem slice_right2 {n : Node C} {l r : List (Ent C)} {x y : Ent C}
    (h : getEntries E rd n = .ok (l ++ x :: y :: r)) :
    slice E rd n ((l.length : Int) + 2) none = .ok r := by
  simp [slice, h, pySlice_right'']

theorem updateEntry_eq {n : Node C} {l r : List (Ent C)} {x y : Ent C}
    (h : getEntries E rd n = .ok (l ++ x :: r)) :
    updateEntry E rd n (l.length : Int) y = .ok (newTree n (l ++ y :: r)) := by
  simp [updateEntry, slice_left h, slice_right1 h]

theorem removeEntry_eq {n : Node C} {l r : List (Ent C)} {x : Ent C}
    (h : getEntries E rd n = .ok (l ++ x :: r)) :
    removeEntry E rd n (l.length : Int) = .ok (newTree n (l ++ r)) := by
  simp [removeEntry, slice_left h, slice_right1 h]

theorem spliceIn_eq {n : Node C} {l r : List (Ent C)} {y : Ent C}
    (h : getEntries E rd n = .ok (l ++ r)) :
    spliceIn E rd n y (l.length : Int) = .ok (newTree n (l ++ y :: r)) := by
  simp [spliceIn, slice_left h, slice_right h]

theorem replaceWithSplit_eq {n : Node C} {l r : List (Ent C)} {x y : Ent C}
    {a b : Option (Node C)} (h : getEntries E rd n = .ok (l ++ x :: r)) :
    replaceWithSplit E rd n (l.length : Int) a y b =
      .ok (newTree n (l ++ optTree a ++ [y] ++ optTree b ++ r)) := by
  simp [replaceWithSplit, slice_left h, slice_right1 h]

@[simp] theorem getEntries_newTree (n : Node C) (es : List (Ent C)) :
    getEntries E rd (newTree n es) = .ok es := rfl

@[simp] theorem getEntries_setLayer (n : Node C) (l : Int) :
    getEntries E rd (n.setLayer l) = getEntries E rd n := by
  simp [getEntries, Node.setLayer, Node.entries, Node.pointer]

/-! ### get -/

theorem get_spec {key : Key} : ∀ {f : Nat} {t : Tree C} {L : Nat} {n : Node C},
    ReprN E rd L t n → WF E.zeros L t → Sorted t → L + 1 ≤ f →
    get E rd f n key = .ok (dictGet (leaves t) key)
  | 0, _, _, _, _, _, _, hf => by omega
  | f + 1, t, L, n, hn, hwf, hs, hf => by
    obtain ⟨A, B, l, r, rfl, he, hi, hA, hB⟩ := locate key hn hwf hs
    unfold get
    simp only [find_eq he hi, ok_bind, atIndex_at he, atIndex_prev he]
    cases hB with
    | @hit v B r hB hgt =>
      have : dictGet (leaves A) key = none := dictGet_eq_none.2 fun x hx =>
        ne_of_lt (hs.app_lt x hx (key, v) (by simp [leaves]))
      simp [leafHit, dictGet_append, this, leaves, dictGet]
    | miss hB hgt hns hr hr' =>
      have hBn : dictGet (leaves B) key = none := dictGet_eq_none.2 fun y hy => ne_of_gt (hgt y hy)
      simp only [hr]
      cases hA with
      | done hA he hlt hl =>
        have hAn : dictGet (leaves A) key = none :=
          dictGet_eq_none.2 fun y hy => ne_of_lt (hlt y hy)
        simp [hl, dictGet_append, hAn, hBn]
      | @sub A c M l m hL hA hm hc hne hlt =>
        subst hL
        have hAn : dictGet (leaves A) key = none :=
          dictGet_eq_none.2 fun y hy => ne_of_lt (hlt y hy)
        have hwc : WF E.zeros M c := by
          obtain ⟨_, _, _, hw, _⟩ := WF_sub.1 (WF_app.1 (WF_app.1 hwf).1).2.1
          simp_all
        have hsc : Sorted c := Sorted_sub_nil.1 hs.app_left.app_right
        have := get_spec (key := key) hm hwc hsc (f := f) (by omega)
        simp only [List.getLast?_append, List.getLast?_singleton, Option.some_or, asTree, this]
        simp only [leaves_app, dictGet_append, hAn, hBn, leaves, List.append_nil]
        cases dictGet (leaves c) key <;> rfl

end

end Arroba
