import Verif.Mst.Ops

/-! Helper lemmas: update, split, merge. -/

namespace Arroba

variable {C : Type}

open Arroba.Tree

theorem Inserted.ctx {k : Key} {v : C} {l l' xs ys : List (Key × C)} (h : Inserted k v l l')
    (hx : ∀ x ∈ xs, x.1 < k) (hy : ∀ y ∈ ys, k < y.1) :
    Inserted k v (xs ++ l ++ ys) (xs ++ l' ++ ys) := by
  obtain ⟨as, bs, rfl, rfl, h1, h2⟩ := h
  refine ⟨xs ++ as, bs ++ ys, by simp, by simp, ?_, ?_⟩
  · intro x hx'
    rcases List.mem_append.1 hx' with h | h
    · exact hx x h
    · exact h1 x h
  · intro x hx'
    rcases List.mem_append.1 hx' with h | h
    · exact h2 x h
    · exact hy x h

theorem Replaced.ctx {k : Key} {v : C} {l l' : List (Key × C)} (xs ys : List (Key × C))
    (h : Replaced k v l l') : Replaced k v (xs ++ l ++ ys) (xs ++ l' ++ ys) := by
  obtain ⟨as, v₀, bs, rfl, rfl⟩ := h
  exact ⟨xs ++ as, v₀, bs ++ ys, by simp, by simp⟩

theorem Inserted.mem {k : Key} {v : C} {l l' : List (Key × C)} (h : Inserted k v l l')
    {x : Key × C} : x ∈ l' ↔ x = (k, v) ∨ x ∈ l := by
  obtain ⟨as, bs, rfl, rfl, _, _⟩ := h
  simp only [List.mem_append, List.mem_cons]; tauto

theorem Inserted.sorted {k : Key} {v : C} {l l' : List (Key × C)} (h : Inserted k v l l')
    (hs : l.Pairwise (fun a b => a.1 < b.1)) : l'.Pairwise (fun a b => a.1 < b.1) := by
  obtain ⟨as, bs, rfl, rfl, h1, h2⟩ := h
  rw [List.pairwise_append] at hs ⊢
  refine ⟨hs.1, List.pairwise_cons.2 ⟨h2, hs.2.1⟩, ?_⟩
  intro a ha b hb
  rcases List.mem_cons.1 hb with rfl | hb
  · exact h1 a ha
  · exact hs.2.2 a ha b hb

theorem Inserted.sorted' {k : Key} {v : C} {l l' : List (Key × C)} (h : Inserted k v l l')
    (hs : l'.Pairwise (fun a b => a.1 < b.1)) : l.Pairwise (fun a b => a.1 < b.1) := by
  obtain ⟨as, bs, rfl, rfl, h1, h2⟩ := h
  exact hs.sublist (by simp)

theorem Replaced.keys {k : Key} {v : C} {l l' : List (Key × C)} (h : Replaced k v l l') :
    l'.map (·.1) = l.map (·.1) := by
  obtain ⟨as, v₀, bs, rfl, rfl⟩ := h
  simp

section
variable {E : Env C} {rd : C → Option (NodeData C)}

theorem WF_mid {z : Key → Nat} {M : Nat} {a c c' b : Tree C} (hc : c' ≠ nil) (hw : WF z M c')
    (h : WF z (M + 1) (app (app a (sub c nil)) b)) : WF z (M + 1) (app (app a (sub c' nil)) b) := by
  obtain ⟨h1, h2, h3⟩ := WF_app.1 h
  obtain ⟨h4, h5, h6⟩ := WF_app.1 h1
  refine WF_app.2 ⟨WF_app.2 ⟨h4, ⟨hc, hw, by simp [startsSub], trivial⟩, h6⟩, h2, ?_⟩
  intro ⟨_, h⟩
  exact h3 ⟨endsSub_snoc _ _, h⟩

theorem WF_mid_child {z : Key → Nat} {M : Nat} {a c b : Tree C}
    (h : WF z (M + 1) (app (app a (sub c nil)) b)) : WF z M c := by
  obtain ⟨M', h1, _, hw, _⟩ := WF_sub.1 (WF_app.1 (WF_app.1 h).1).2.1
  obtain rfl : M = M' := by omega
  exact hw

theorem ReprEs_mid {M : Nat} {a c b : Tree C} {l r : List (Ent C)} {m : Node C}
    (ha : ReprEs E rd (M + 1) a l) (hm : ReprN E rd M c m) (hb : ReprEs E rd (M + 1) b r) :
    ReprEs E rd (M + 1) (app (app a (sub c nil)) b) (l ++ .tree m :: r) := by
  rw [app_assoc]
  exact ReprEs_app.2 ⟨l, _, rfl, ha, ReprEs_sub.2 ⟨m, r, rfl, hm, hb⟩⟩

/-! ### update -/

theorem update_spec {key : Key} {value : C} (hk : validKey key = true) :
    ∀ {f : Nat} {t : Tree C} {L : Nat} {n : Node C},
    ReprN E rd L t n → WF E.zeros L t → Sorted t → L + 1 ≤ f →
    (dictGet (leaves t) key = none ∧ update E rd f n key value = .error .key) ∨
    (∃ n' t', update E rd f n key value = .ok n' ∧ ReprN E rd L t' n' ∧ WF E.zeros L t' ∧
      Replaced key value (leaves t) (leaves t') ∧ t' ≠ nil ∧ (Trimmed t → Trimmed t'))
  | 0, _, _, _, _, _, _, hf => by omega
  | f + 1, t, L, n, hn, hwf, hs, hf => by
    obtain ⟨A, B, l, r, rfl, he, hi, hA, hB⟩ := locate key hn hwf hs
    unfold update
    simp only [ensureValidKey, hk, if_true, find_eq he hi, ok_bind, atIndex_at he, atIndex_prev he]
    cases hB with
    | @hit v B r hB hgt =>
      right
      simp only [leafHit, List.head?_cons, if_true, updateEntry_eq he]
      have hRA : ReprEs E rd L A l := by
        cases hA with
        | done hA => exact hA
        | @sub A c M l m hL hA hm =>
          subst hL
          exact ReprEs_app.2 ⟨l, _, rfl, hA, ReprEs_sub.2 ⟨m, [], rfl, hm, rfl⟩⟩
      refine ⟨_, app A (leaf key value B), rfl, ?_, ?_, ?_, ?_, ?_⟩
      · refine ReprN_newTree hn (ReprEs_app.2 ⟨l, _, rfl, hRA, ReprEs_leaf.2 ⟨r, rfl, hB⟩⟩)
      · obtain ⟨h1, h2, h3⟩ := WF_app.1 hwf
        exact WF_app.2 ⟨h1, h2, h3⟩
      · simp only [leaves_app, leaves]
        exact ⟨_, v, _, rfl, rfl⟩
      · simp [app_eq_nil]
      · intro _; exact Trimmed_app_leaf _ _ _ _
    | miss hB hgt hns hr hr' =>
      have hBn : dictGet (leaves B) key = none := dictGet_eq_none.2 fun y hy => ne_of_gt (hgt y hy)
      simp only [hr]
      cases hA with
      | done hA he hlt hl =>
        have hAn : dictGet (leaves A) key = none :=
          dictGet_eq_none.2 fun y hy => ne_of_lt (hlt y hy)
        left
        simp [hl, dictGet_append, hAn, hBn]
      | @sub A c M l m hL hA hm hc hne hlt =>
        subst hL
        have hAn : dictGet (leaves A) key = none :=
          dictGet_eq_none.2 fun y hy => ne_of_lt (hlt y hy)
        have hwc : WF E.zeros M c := WF_mid_child hwf
        have hsc : Sorted c := Sorted_sub_nil.1 hs.app_left.app_right
        simp only [List.getLast?_append, List.getLast?_singleton, Option.some_or, asTree]
        rcases update_spec (value := value) hk hm hwc hsc (f := f) (by omega) with
          ⟨h1, h2⟩ | ⟨n', t', h1, h2, h3, h4, h5, h6⟩
        · left
          simp only [h2, error_bind, leaves_app, dictGet_append, hAn, hBn, leaves, List.append_nil,
            h1, and_self]
        · right
          have he' : getEntries E rd n = .ok (l ++ .tree m :: r) := by simpa using he
          have hlen : (((l ++ [Ent.tree m]).length : Int) - 1) = (l.length : Int) := by simp
          simp only [h1, ok_bind, hlen, updateEntry_eq he']
          refine ⟨_, _, rfl, ReprN_newTree hn (ReprEs_mid hA h2 hB), WF_mid h5 h3 hwf, ?_, ?_, ?_⟩
          · have := h4.ctx (leaves A) (leaves B)
            simpa [leaves] using this
          · simp [app_eq_nil]
          · intro ht
            rw [app_assoc] at ht ⊢
            exact Trimmed_app_sub ht

/-! ### split -/

/-- An optional subtree: `none` stands for the empty tree. -/
def ReprO (E : Env C) (rd : C → Option (NodeData C)) (L : Nat) (t : Tree C) :
    Option (Node C) → Prop
  | none => t = nil
  | some n => t ≠ nil ∧ ReprN E rd L t n

theorem ReprEs_optSub {M : Nat} {t r : Tree C} {o : Option (Node C)} {es : List (Ent C)}
    (ho : ReprO E rd M t o) (hr : ReprEs E rd (M + 1) r es) :
    ReprEs E rd (M + 1) (optSub t r) (optTree o ++ es) := by
  cases o with
  | none => obtain rfl : t = nil := ho; exact hr
  | some n =>
    rw [optSub_of_ne ho.1]
    exact ReprEs_sub.2 ⟨n, es, rfl, ho.2, hr⟩

theorem nonEmpty_spec {L : Nat} {t : Tree C} {n : Node C} (hn : ReprN E rd L t n)
    (hwf : WF E.zeros L t) : ∃ o, nonEmpty E rd n = .ok o ∧ ReprO E rd L t o := by
  obtain ⟨es, he, hes⟩ := getEntries_spec hn hwf
  simp only [nonEmpty, he, ok_bind]
  refine ⟨_, rfl, ?_⟩
  cases es with
  | nil => exact ReprEs_eq_nil hes
  | cons x xs =>
    refine ⟨?_, hn⟩
    rintro rfl
    cases ReprEs_nil.1 hes

theorem splitAround_spec {key : Key} : ∀ {f : Nat} {t : Tree C} {L : Nat} {n : Node C},
    ReprN E rd L t n → WF E.zeros L t → Sorted t → dictGet (leaves t) key = none → L + 1 ≤ f →
    ∃ a b oa ob, splitAround E rd f n key = .ok (oa, ob) ∧ ReprO E rd L a oa ∧
      ReprO E rd L b ob ∧ WF E.zeros L a ∧ WF E.zeros L b ∧ leaves t = leaves a ++ leaves b ∧
      (∀ x ∈ leaves a, x.1 < key) ∧ (∀ y ∈ leaves b, key < y.1)
  | 0, _, _, _, _, _, _, _, hf => by omega
  | f + 1, t, L, n, hn, hwf, hs, hk, hf => by
    obtain ⟨A, B, l, r, rfl, he, hi, hA, hB⟩ := locate key hn hwf hs
    unfold splitAround
    simp only [find_eq he hi, ok_bind, slice_left he, slice_right he]
    obtain ⟨hwA, hwB, hadj⟩ := WF_app.1 hwf
    cases hB with
    | @hit v B r hB hgt =>
      exfalso
      rw [dictGet_eq_none] at hk
      exact hk (key, v) (by simp [leaves]) rfl
    | miss hB hgt hns hr hr' =>
      cases hA with
      | done hA he hlt hl =>
        obtain ⟨oa, ha1, ha2⟩ := nonEmpty_spec (ReprN_newTree hn hA) hwA
        obtain ⟨ob, hb1, hb2⟩ := nonEmpty_spec (ReprN_newTree hn hB) hwB
        simp only [hl, ha1, hb1, ok_bind]
        exact ⟨A, B, oa, ob, rfl, ha2, hb2, hwA, hwB, by simp, hlt, hgt⟩
      | @sub A c M l m hL hA hm hc hne hlt =>
        subst hL
        have hwc : WF E.zeros M c := WF_mid_child hwf
        have hsc : Sorted c := Sorted_sub_nil.1 hs.app_left.app_right
        have hkc : dictGet (leaves c) key = none := by
          rw [dictGet_eq_none] at hk ⊢
          intro x hx; exact hk x (by simp [leaves, hx])
        obtain ⟨a, b, oa, ob, h1, h2, h3, h4, h5, h6, h7, h8⟩ :=
          splitAround_spec hm hwc hsc hkc (f := f) (by omega)
        simp only [List.getLast?_append, List.getLast?_singleton, Option.some_or, asTree]
        have hg : getEntries E rd (newTree n (l ++ [Ent.tree m])) = .ok (l ++ .tree m :: []) := rfl
        have hlen : (((l ++ [Ent.tree m]).length : Int) - 1) = (l.length : Int) := by simp
        simp only [hlen, removeEntry_eq hg, ok_bind, h1, List.append_nil]
        have hL : ∃ n1, appendOpt E rd (newTree (newTree n (l ++ [Ent.tree m])) l) oa = .ok n1 ∧
            ReprN E rd (M + 1) (app A (optSub a nil)) n1 := by
          have hn1 : ReprN E rd (M + 1) (app A (Tree.sub c nil)) (newTree n (l ++ [Ent.tree m])) :=
            ReprN_newTree hn (ReprEs_app.2 ⟨l, _, rfl, hA, ReprEs_sub.2 ⟨m, [], rfl, hm, rfl⟩⟩)
          have hn2 := ReprN_newTree hn1 hA
          have := ReprEs_app.2 ⟨l, _, rfl, hA, ReprEs_optSub (r := nil) (es := []) h2 rfl⟩
          cases oa with
          | none =>
            refine ⟨_, rfl, ?_⟩
            obtain rfl : a = nil := h2
            simpa [optSub] using hn2
          | some s =>
            refine ⟨_, rfl, ?_⟩
            exact ReprN_newTree hn2 (by simpa [optTree] using this)
        have hR : ∃ n2, prependOpt E rd (newTree n r) ob = .ok n2 ∧
            ReprN E rd (M + 1) (optSub b B) n2 := by
          have hn2 := ReprN_newTree hn hB
          have := ReprEs_optSub h3 hB
          cases ob with
          | none =>
            refine ⟨_, rfl, ?_⟩
            obtain rfl : b = nil := h3
            simpa [optSub] using hn2
          | some s =>
            refine ⟨_, rfl, ?_⟩
            exact ReprN_newTree hn2 (by simpa [optTree] using this)
        obtain ⟨n1, e1, r1⟩ := hL
        obtain ⟨n2, e2, r2⟩ := hR
        simp only [e1, e2, ok_bind]
        have w1 : WF E.zeros (M + 1) (app A (optSub a nil)) := by
          refine WF_app.2 ⟨(WF_app.1 hwA).1, WF_optSub h4 (by simp [WF]) (by simp [startsSub]), ?_⟩
          exact fun h => hne h.1
        have w2 : WF E.zeros (M + 1) (optSub b B) := WF_optSub h5 hwB hns
        obtain ⟨oa', ha1, ha2⟩ := nonEmpty_spec r1 w1
        obtain ⟨ob', hb1, hb2⟩ := nonEmpty_spec r2 w2
        simp only [ha1, hb1, ok_bind]
        refine ⟨_, _, oa', ob', rfl, ha2, hb2, w1, w2, ?_, ?_, ?_⟩
        · simp [leaves, h6]
        · intro x hx
          simp only [leaves_app, leaves_optSub, leaves, List.append_nil, List.mem_append] at hx
          rcases hx with hx | hx
          · exact hlt x hx
          · exact h7 x hx
        · intro x hx
          simp only [leaves_optSub, List.mem_append] at hx
          rcases hx with hx | hx
          · exact h8 x hx
          · exact hgt x hx

/-! ### merge -/

theorem appendMerge_spec : ∀ {f : Nat} {a b : Tree C} {L : Nat} {n m : Node C},
    ReprN E rd L a n → ReprN E rd L b m → WF E.zeros L a → WF E.zeros L b →
    a ≠ nil → b ≠ nil → L + 2 ≤ f →
    ∃ n' t', appendMerge E rd f n m = .ok n' ∧ ReprN E rd L t' n' ∧ WF E.zeros L t' ∧
      leaves t' = leaves a ++ leaves b ∧ t' ≠ nil
  | 0, _, _, _, _, _, _, _, _, _, _, _, hf => by omega
  | f + 1, a, b, L, n, m, hn, hm, hwa, hwb, ha, hb, hf => by
    unfold appendMerge
    simp only [getLayer_spec hn hwa ha (f := f) (by omega),
      getLayer_spec hm hwb hb (f := f) (by omega), ok_bind, ne_eq, not_true_eq_false, if_false]
    obtain ⟨es, he, hes⟩ := getEntries_spec hn hwa
    obtain ⟨ms, hme, hms⟩ := getEntries_spec hm hwb
    have hne1 : es ≠ [] := by rintro rfl; exact ha (ReprEs_eq_nil hes)
    have hne2 : ms ≠ [] := by rintro rfl; exact hb (ReprEs_eq_nil hms)
    have hn' := ReprN_setLayer hn
    simp only [getEntries_setLayer, he, hme, ok_bind, List.isEmpty_iff, hne1, hne2, or_self,
      if_false]
    rcases snoc_cases a with rfl | ⟨a', k, v, rfl⟩ | ⟨a', c, rfl⟩
    · exact absurd rfl ha
    · obtain ⟨l1, l2, rfl, hl1, h⟩ := ReprEs_app.1 hes
      obtain ⟨es', rfl, h'⟩ := ReprEs_leaf.1 h
      obtain rfl := ReprEs_nil.1 h'
      simp only [List.getLast?_append, List.getLast?_singleton, Option.some_or, asTree]
      refine ⟨_, app (app a' (leaf k v nil)) b, rfl,
        ReprN_newTree hn' (ReprEs_app.2 ⟨_, _, rfl, hes, hms⟩), ?_, by simp, ?_⟩
      · exact WF_app.2 ⟨hwa, hwb, by simp [endsSub_app, endsSub]⟩
      · simp [app_eq_nil]
    · obtain ⟨l1, l2, rfl, hl1, h⟩ := ReprEs_app.1 hes
      obtain ⟨hwa', hwc, hadj⟩ := WF_app.1 hwa
      obtain ⟨M, rfl, hc, hwc', _, _⟩ := WF_sub.1 hwc
      obtain ⟨p, es', rfl, hp, h'⟩ := ReprEs_sub.1 h
      obtain rfl := ReprEs_nil.1 h'
      simp only [List.getLast?_append, List.getLast?_singleton, Option.some_or, asTree]
      cases b with
      | nil => exact absurd rfl hb
      | leaf k v b' =>
        have hms' := hms
        obtain ⟨ms', rfl, h''⟩ := ReprEs_leaf.1 hms'
        simp only [List.head?_cons]
        refine ⟨_, app (app a' (sub c nil)) (leaf k v b'), rfl,
          ReprN_newTree hn' (ReprEs_app.2 ⟨_, _, rfl, hes, hms⟩), ?_, by simp, ?_⟩
        · exact WF_app.2 ⟨hwa, hwb, by simp [startsSub]⟩
        · simp [app_eq_nil]
      | sub d b' =>
        obtain ⟨M', hMM, hd, hwd, hns, hwb'⟩ := WF_sub.1 hwb
        obtain rfl : M = M' := by omega
        obtain ⟨q, ms', rfl, hq, h''⟩ := ReprEs_sub.1 hms
        simp only [List.head?_cons]
        obtain ⟨n', t', h1, h2, h3, h4, h5⟩ :=
          appendMerge_spec hp hq hwc' hwd hc hd (f := f) (by omega)
        have hsl : pySlice (l1 ++ [Ent.tree p]) 0 (some (-1)) = l1 := by
          simp [pySlice, sliceBound]
        have hsr : pySlice (Ent.tree q :: ms') 1 none = ms' := by
          simp [pySlice, sliceBound]
        simp only [h1, ok_bind, hsl, hsr]
        refine ⟨_, app (app a' (sub t' nil)) b', rfl,
          ReprN_newTree hn' (by simpa using ReprEs_mid hl1 h2 h''), ?_, ?_, ?_⟩
        · refine WF_app.2 ⟨WF_app.2 ⟨hwa', ⟨h5, h3, by simp [startsSub], trivial⟩, ?_⟩, hwb', ?_⟩
          · exact fun h => hadj ⟨h.1, trivial⟩
          · exact fun h => hns h.2
        · simp [leaves, h4]
        · simp [app_eq_nil]

/-! ### trim -/

theorem trimTop_spec : ∀ {f : Nat} {t : Tree C} {L : Nat} {n : Node C},
    ReprN E rd L t n → WF E.zeros L t → L + 1 ≤ f →
    ∃ n' t' L', trimTop E rd f n = .ok n' ∧ ReprN E rd L' t' n' ∧ WF E.zeros L' t' ∧ Trimmed t' ∧
      leaves t' = leaves t ∧ L' ≤ L ∧ (t = nil → t' = nil ∧ n' = n) 
  | 0, _, _, _, _, _, hf => by omega
  | f + 1, t, L, n, hn, hwf, hf => by
    unfold trimTop
    obtain ⟨es, he, hes⟩ := getEntries_spec hn hwf
    simp only [he, ok_bind]
    cases t with
    | nil =>
      obtain rfl := ReprEs_nil.1 hes
      exact ⟨n, nil, L, rfl, hn, hwf, trivial, rfl, le_refl _, by simp⟩
    | leaf k v r =>
      obtain ⟨es', rfl, h'⟩ := ReprEs_leaf.1 hes
      refine ⟨n, leaf k v r, L, ?_, hn, hwf, trivial, rfl, le_refl _, by simp⟩
      cases es' <;> rfl
    | sub c r =>
      obtain ⟨M, rfl, hc, hwc, hns, hwr⟩ := WF_sub.1 hwf
      obtain ⟨m, es', rfl, hm, h'⟩ := ReprEs_sub.1 hes
      cases r with
      | nil =>
        obtain rfl := ReprEs_nil.1 h'
        obtain ⟨n', t', L', h1, h2, h3, h4, h5, h6, h7⟩ := trimTop_spec hm hwc (f := f) (by omega)
        exact ⟨n', t', L', h1, h2, h3, h4, by simp [h5, leaves], by omega, by simp⟩
      | sub d r' => exact absurd trivial hns
      | leaf k v r' =>
        obtain ⟨es'', rfl, h''⟩ := ReprEs_leaf.1 h'
        exact ⟨n, _, M + 1, rfl, hn, hwf, by simp [Trimmed], rfl, le_refl _, by simp⟩

end

end Arroba
