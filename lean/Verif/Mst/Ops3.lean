import Verif.Mst.Ops2

/-! Helper lemmas: add and delete. -/

namespace Arroba

variable {C : Type}

open Arroba.Tree

section
variable {E : Env C} {rd : C → Option (NodeData C)}

theorem create_spec {f : Nat} {t : Tree C} {L : Nat} {es : List (Ent C)} {layer : Option Int}
    (h : ReprEs E rd L t es) (hwf : WF E.zeros L t) (hv : ValidKeys t) (hf : L ≤ f) :
    create E rd f es layer = .ok (.mk (some es) (cidOf E.H t) layer false) := by
  simp [create, cidForEntries_spec h hwf hv hf]

theorem ReprN_mk {t : Tree C} {L : Nat} {es : List (Ent C)} {p : C} {o : Bool}
    (h : ReprEs E rd L t es) (hp : o = false → p = cidOf E.H t) :
    ReprN E rd L t (.mk (some es) p (some (L : Int)) o) := by
  refine ⟨⟨by simp [Node.entries], ?_, ?_⟩, ?_⟩
  · simpa [Node.outdated, Node.pointer] using hp
  · intro l hl; simp [Node.layer] at hl; exact hl.symm
  · intro es' h'; simp [Node.entries] at h'; exact h' ▸ h

theorem createParent_spec {f : Nat} {t : Tree C} {L : Nat} {n : Node C}
    (hn : ReprN E rd L t n) (hwf : WF E.zeros L t) (hv : ValidKeys t) (ht : t ≠ nil)
    (hf : L + 1 ≤ f) :
    ∃ n', createParent E rd f n = .ok n' ∧ ReprN E rd (L + 1) (sub t nil) n' := by
  have hes : ReprEs E rd (L + 1) (sub t nil) [.tree (n.setLayer L)] :=
    ReprEs_sub.2 ⟨_, [], rfl, ReprN_setLayer hn, rfl⟩
  have hw : WF E.zeros (L + 1) (sub t nil) := ⟨ht, hwf, by simp [startsSub], trivial⟩
  simp only [createParent, getLayer_spec hn hwf ht hf, ok_bind,
    create_spec hes hw (ValidKeys_sub_nil.2 hv) hf, Node.entries, Node.pointer, Node.layer]
  exact ⟨_, rfl, by simpa using ReprN_mk (o := true) hes (by simp)⟩

theorem addParents_spec {f : Nat} : ∀ {k : Nat} {t : Tree C} {L : Nat} {o : Option (Node C)},
    ReprO E rd L t o → WF E.zeros L t → ValidKeys t → L + k ≤ f →
    ∃ o' t', addParents E rd f k o = .ok o' ∧ ReprO E rd (L + k) t' o' ∧ WF E.zeros (L + k) t' ∧
      leaves t' = leaves t
  | 0, t, L, none, ho, hw, _, _ => ⟨none, t, rfl, ho, hw, rfl⟩
  | k + 1, t, L, none, ho, hw, _, _ =>
    ⟨none, nil, rfl, rfl, by simp [WF], by obtain rfl : t = nil := ho; rfl⟩
  | 0, t, L, some n, ho, hw, _, _ => ⟨some n, t, rfl, ho, hw, rfl⟩
  | k + 1, t, L, some n, ho, hw, hv, hf => by
    obtain ⟨n', h1, h2⟩ := createParent_spec (f := f) ho.2 hw hv ho.1 (by omega)
    have hw' : WF E.zeros (L + 1) (sub t nil) := ⟨ho.1, hw, by simp [startsSub], trivial⟩
    obtain ⟨o', t', e, r, w, lv⟩ := addParents_spec (f := f) (k := k) (L := L + 1) (o := some n')
      (t := sub t nil) ⟨by simp, h2⟩ hw' (ValidKeys_sub_nil.2 hv) (by omega)
    have heq : L + 1 + k = L + (k + 1) := by omega
    rw [heq] at r w
    refine ⟨o', t', ?_, r, w, by simp [lv, leaves]⟩
    simp [addParents, h1, e]

theorem dictGet_app_none {a b : Tree C} {key : Key} :
    dictGet (leaves (app a b)) key = none ↔
      dictGet (leaves a) key = none ∧ dictGet (leaves b) key = none := by
  simp only [leaves_app, dictGet_append]
  cases dictGet (leaves a) key <;> simp

/-- The layer the code will attribute to a node: right for non-empty nodes, the hint (or 0)
for an empty one. -/
def LayerOK (L : Nat) (t : Tree C) (n : Node C) : Prop :=
  t = nil → n.layer.getD 0 = (L : Int)

theorem keyZeros_eq {key : Key} {kn : Option Nat} (h : kn = none ∨ kn = some (E.zeros key)) :
    keyZeros E key kn = E.zeros key := by
  rcases h with rfl | rfl
  · rfl
  · cases hz : E.zeros key with
    | zero => simp [keyZeros, hz]
    | succ z => rfl

theorem add_spec {key : Key} {value : C} (hk : validKey key = true) :
    ∀ {f : Nat} {t : Tree C} {L : Nat} {n : Node C} {kn : Option Nat},
    kn = none ∨ kn = some (E.zeros key) →
    ReprN E rd L t n → WF E.zeros L t → Sorted t → ValidKeys t → LayerOK L t n →
    L + 2 ≤ f → E.zeros key + 1 ≤ f →
    (dictGet (leaves t) key ≠ none ∧ add E rd f n key value kn = .error .value) ∨
    (dictGet (leaves t) key = none ∧
      ∃ n' t', add E rd f n key value kn = .ok n' ∧ ReprN E rd (max L (E.zeros key)) t' n' ∧
      WF E.zeros (max L (E.zeros key)) t' ∧ Inserted key value (leaves t) (leaves t') ∧
      t' ≠ nil ∧ (Trimmed t → (t ≠ nil ∨ L ≤ E.zeros key) → Trimmed t'))
  | 0, _, _, _, _, _, _, _, _, _, _, hf, _ => by omega
  | f + 1, t, L, n, kn, hkn, hn, hwf, hs, hv, hly, hf, hf2 => by
    have hgl : getLayer E rd f n = .ok (L : Int) := by
      by_cases ht : t = nil
      · subst ht; rw [getLayer_nil hn (by omega), hly rfl]
      · exact getLayer_spec hn hwf ht (by omega)
    obtain ⟨A, B, l, r, rfl, he₀, hi, hA, hB⟩ := locate key hn hwf hs
    have hn' := ReprN_setLayer hn
    have he : getEntries E rd (n.setLayer L) = .ok (l ++ r) := by simpa using he₀
    unfold add
    simp only [ensureValidKey, hk, if_true, ok_bind, keyZeros_eq hkn, hgl, find_eq he hi,
      atIndex_at he, atIndex_prev he]
    obtain ⟨hwA, hwB, hadj⟩ := WF_app.1 hwf
    obtain ⟨hvA, hvB⟩ := ValidKeys_app.1 hv
    by_cases hzl : (E.zeros key : Int) = (L : Int)
    · -- the key belongs in this layer
      have hzl' : E.zeros key = L := by omega
      simp only [hzl, if_true]
      have hmax : max L (E.zeros key) = L := by omega
      rw [hmax]
      cases hB with
      | @hit v B r hB hgt =>
        left
        simp only [leafHit, List.head?_cons, if_true, and_true]
        rw [ne_eq, dictGet_app_none]
        simp [leaves, dictGet]
      | miss hB hgt hns hr hr' =>
        have hBn : dictGet (leaves B) key = none :=
          dictGet_eq_none.2 fun y hy => ne_of_gt (hgt y hy)
        simp only [hr]
        cases hA with
        | done hA hne hlt hl =>
          right
          have hAn : dictGet (leaves A) key = none :=
            dictGet_eq_none.2 fun y hy => ne_of_lt (hlt y hy)
          refine ⟨dictGet_app_none.2 ⟨hAn, hBn⟩, ?_⟩
          simp only [hl, spliceIn_eq he]
          refine ⟨_, app A (leaf key value B), rfl, ReprN_newTree hn'
            (ReprEs_app.2 ⟨_, _, rfl, hA, ReprEs_leaf.2 ⟨_, rfl, hB⟩⟩), ?_, ?_, ?_, ?_⟩
          · exact WF_app.2 ⟨hwA, ⟨hzl', hwB⟩, by simp [startsSub]⟩
          · exact ⟨leaves A, leaves B, by simp, by simp [leaves], hlt, hgt⟩
          · simp [app_eq_nil]
          · intros; exact Trimmed_app_leaf _ _ _ _
        | @sub A c M l m hL hA hm hc hne hlt =>
          subst hL
          have hAn : dictGet (leaves A) key = none :=
            dictGet_eq_none.2 fun y hy => ne_of_lt (hlt y hy)
          have hwc : WF E.zeros M c := WF_mid_child hwf
          have hsc : Sorted c := Sorted_sub_nil.1 hs.app_left.app_right
          have hkc : dictGet (leaves c) key = none := by
            refine dictGet_eq_none.2 fun x hx h => ?_
            have := WF_zeros_le hwc x hx
            rw [h] at this
            omega
          right
          refine ⟨dictGet_app_none.2 ⟨dictGet_app_none.2 ⟨hAn, by simpa [leaves] using hkc⟩,
            hBn⟩, ?_⟩
          simp only [List.getLast?_append, List.getLast?_singleton, Option.some_or, asTree]
          obtain ⟨a, b, oa, ob, h1, h2, h3, h4, h5, h6, h7, h8⟩ :=
            splitAround_spec (key := key) hm hwc hsc hkc (f := f) (by omega)
          have he' : getEntries E rd (n.setLayer ((M + 1 : Nat) : Int)) = .ok (l ++ .tree m :: r) := by
            simpa using he
          have hlen : (((l ++ [Ent.tree m]).length : Int) - 1) = (l.length : Int) := by simp
          simp only [h1, ok_bind, hlen, replaceWithSplit_eq he']
          have hw1 : WF E.zeros (M + 1) (leaf key value (optSub b B)) :=
            ⟨hzl', WF_optSub h5 hwB hns⟩
          refine ⟨_, app A (optSub a (leaf key value (optSub b B))), rfl,
            ReprN_newTree hn' ?_, ?_, ?_, ?_, ?_⟩
          · have := ReprEs_app.2 ⟨l, _, rfl, hA, ReprEs_optSub h2
              (ReprEs_leaf.2 ⟨_, rfl, ReprEs_optSub h3 hB⟩ :
                ReprEs E rd (M + 1) (leaf key value (optSub b B)) _)⟩
            simpa using this
          · exact WF_app.2 ⟨(WF_app.1 hwA).1, WF_optSub h4 hw1 (by simp [startsSub]),
              fun h => hne h.1⟩
          · refine ⟨leaves A ++ leaves a, leaves b ++ leaves B, by simp [leaves, h6],
              by simp [leaves], ?_, ?_⟩
            · intro x hx
              rcases List.mem_append.1 hx with h | h
              · exact hlt x h
              · exact h7 x h
            · intro x hx
              rcases List.mem_append.1 hx with h | h
              · exact h8 x h
              · exact hgt x h
          · rw [ne_eq, app_eq_nil]; rintro ⟨_, h⟩; cases a <;> simp [optSub] at h
          · intros
            cases a with
            | nil => exact Trimmed_app_leaf _ _ _ _
            | _ =>
              rw [optSub_of_ne (by simp)]
              cases A with
              | nil => simp [app, Trimmed]
              | leaf => simp [app, Trimmed]
              | sub c r => cases r <;> simp [app, Trimmed]
    · by_cases hlt : (E.zeros key : Int) < (L : Int)
      · -- the key belongs in a lower layer
        have hlt' : E.zeros key < L := by omega
        have hmax : max L (E.zeros key) = L := by omega
        simp only [hzl, if_false, hlt, if_true, hmax]
        obtain ⟨M, rfl⟩ : ∃ M, L = M + 1 := ⟨L - 1, by omega⟩
        have hBmiss : (∀ y ∈ leaves B, key < y.1) ∧ ¬ startsSub B ∧ ReprEs E rd (M + 1) B r := by
          cases hB with
          | hit hB hgt => have := hwB.1; omega
          | miss hB hgt hns hr hr' => exact ⟨hgt, hns, hB⟩
        obtain ⟨hgt, hns, hB⟩ := hBmiss
        have hBn : dictGet (leaves B) key = none :=
          dictGet_eq_none.2 fun y hy => ne_of_gt (hgt y hy)
        have hmaxM : max M (E.zeros key) = M := by omega
        cases hA with
        | done hA hne hltA hl =>
          right
          have hAn : dictGet (leaves A) key = none :=
            dictGet_eq_none.2 fun y hy => ne_of_lt (hltA y hy)
          refine ⟨dictGet_app_none.2 ⟨hAn, hBn⟩, ?_⟩
          simp only [hl]
          have hgl' : getLayer E rd f (n.setLayer ((M + 1 : Nat) : Int)) =
              .ok ((M + 1 : Nat) : Int) := by
            obtain ⟨g, rfl⟩ : ∃ g, f = g + 1 := ⟨f - 1, by omega⟩
            simp [getLayer, attemptGetLayer, Node.setLayer, Node.layer]
          have hcc : createChild E rd f (n.setLayer ((M + 1 : Nat) : Int)) =
              .ok (.mk (some []) (cidOf E.H nil) (some (M : Int)) false) := by
            simp only [createChild, hgl', ok_bind]
            rw [create_spec (t := nil) (L := M) rfl (by simp [WF]) (by simp [ValidKeys, leaves])
              (by omega)]
            simp
          simp only [hcc, ok_bind]
          have hrn : ReprN E rd M nil (.mk (some []) (cidOf E.H nil) (some (M : Int)) false) :=
            ReprN_mk rfl (by simp)
          rcases add_spec (value := value) hk (f := f) (kn := some (E.zeros key)) (.inr rfl) hrn
            (by simp [WF]) (by simp [Sorted, leaves]) (by simp [ValidKeys, leaves])
            (by intro _; simp [Node.layer]) (by omega) (by omega)
            with ⟨h1, _⟩ | ⟨_, n', t', h1, h2, h3, h4, h5, _⟩
          · simp [leaves, dictGet] at h1
          · rw [hmaxM] at h2 h3
            simp only [h1, ok_bind, spliceIn_eq he]
            refine ⟨_, app (app A (Tree.sub t' nil)) B, rfl,
              ReprN_newTree hn' (ReprEs_mid hA h2 hB), ?_, ?_, ?_, ?_⟩
            · refine WF_app.2 ⟨WF_app.2 ⟨hwA, ⟨h5, h3, by simp [startsSub], trivial⟩, ?_⟩, hwB, ?_⟩
              · exact fun h => hne h.1
              · exact fun h => hns h.2
            · have := h4.ctx hltA hgt
              simpa [leaves] using this
            · simp [app_eq_nil]
            · rintro ht (h | h)
              · rw [app_assoc]
                simp only [app, nil_app]
                cases A with
                | nil => cases B <;> simp_all [app, Trimmed]
                | leaf => simp [app, Trimmed]
                | sub c A' => cases A' <;> simp_all [app, Trimmed, endsSub]
              · omega
        | @sub A c M' l m hL hA hm hc hne hltA =>
          obtain rfl : M = M' := by omega
          have hAn : dictGet (leaves A) key = none :=
            dictGet_eq_none.2 fun y hy => ne_of_lt (hltA y hy)
          have hwc : WF E.zeros M c := WF_mid_child hwf
          have hsc : Sorted c := Sorted_sub_nil.1 hs.app_left.app_right
          have hvc : ValidKeys c := ValidKeys_sub_nil.1 (ValidKeys_app.1 hvA).2
          simp only [List.getLast?_append, List.getLast?_singleton, Option.some_or, asTree]
          have he' : getEntries E rd (n.setLayer ((M + 1 : Nat) : Int)) =
              .ok (l ++ .tree m :: r) := by simpa using he
          have hlen : (((l ++ [Ent.tree m]).length : Int) - 1) = (l.length : Int) := by simp
          rcases add_spec (value := value) hk (f := f) (kn := some (E.zeros key)) (.inr rfl) hm
            hwc hsc hvc (fun h => absurd h hc) (by omega) (by omega)
            with ⟨h1, h2⟩ | ⟨h0, n', t', h1, h2, h3, h4, h5, _⟩
          · left
            refine ⟨?_, by simp only [h2, error_bind]⟩
            rw [ne_eq, dictGet_app_none, dictGet_app_none]
            rintro ⟨⟨_, h⟩, _⟩
            exact h1 (by simpa [leaves] using h)
          · right
            refine ⟨dictGet_app_none.2 ⟨dictGet_app_none.2 ⟨hAn, by simpa [leaves] using h0⟩,
              hBn⟩, ?_⟩
            rw [hmaxM] at h2 h3
            simp only [h1, ok_bind, hlen, updateEntry_eq he']
            refine ⟨_, _, rfl, ReprN_newTree hn' (ReprEs_mid hA h2 hB), WF_mid h5 h3 hwf, ?_,
              ?_, ?_⟩
            · have := h4.ctx hltA hgt
              simpa [leaves] using this
            · simp [app_eq_nil]
            · intro ht _
              rw [app_assoc] at ht ⊢
              exact Trimmed_app_sub ht
      · -- the key belongs in a higher layer
        have hgt' : L < E.zeros key := by omega
        have hmax : max L (E.zeros key) = E.zeros key := by omega
        simp only [hzl, if_false, hlt, hmax]
        right
        have hkn' : dictGet (leaves (app A B)) key = none := by
          refine dictGet_eq_none.2 fun x hx h => ?_
          have := WF_zeros_le hwf x hx
          rw [h] at this
          omega
        refine ⟨hkn', ?_⟩
        obtain ⟨a, b, oa, ob, h1, h2, h3, h4, h5, h6, h7, h8⟩ :=
          splitAround_spec (key := key) hn' hwf hs hkn' (f := f) (by omega)
        have hva : ValidKeys a := fun kv hkv => hv kv (by rw [h6]; simp [hkv])
        have hvb : ValidKeys b := fun kv hkv => hv kv (by rw [h6]; simp [hkv])
        have hex : ((E.zeros key : Int) - (L : Int)).toNat - 1 = E.zeros key - 1 - L := by omega
        obtain ⟨oa', a', e1, r1, w1, l1⟩ := addParents_spec (f := f)
          (k := E.zeros key - 1 - L) h2 h4 hva (by omega)
        obtain ⟨ob', b', e2, r2, w2, l2⟩ := addParents_spec (f := f)
          (k := E.zeros key - 1 - L) h3 h5 hvb (by omega)
        have hLz : L + (E.zeros key - 1 - L) = E.zeros key - 1 := by omega
        rw [hLz] at r1 w1 r2 w2
        obtain ⟨Z, hZ⟩ : ∃ Z, E.zeros key = Z + 1 := ⟨E.zeros key - 1, by omega⟩
        simp only [h1, ok_bind, hex, e1, e2]
        simp only [hZ, Nat.add_sub_cancel] at r1 w1 r2 w2 ⊢
        have hes : ReprEs E rd (Z + 1) (optSub a' (leaf key value (optSub b' nil)))
            (optTree oa' ++ [.leaf key value] ++ optTree ob') := by
          have := ReprEs_optSub r1 (ReprEs_leaf.2 ⟨_, rfl,
            ReprEs_optSub r2 (ReprEs_nil.2 rfl : ReprEs E rd (Z + 1) nil [])⟩ :
                ReprEs E rd (Z + 1) (leaf key value (optSub b' nil)) _)
          simpa using this
        have hw : WF E.zeros (Z + 1) (optSub a' (leaf key value (optSub b' nil))) :=
          WF_optSub w1 ⟨hZ, WF_optSub w2 (by simp [WF]) (by simp [startsSub])⟩ (by simp [startsSub])
        have hins : Inserted key value (leaves (app A B))
            (leaves (optSub a' (leaf key value (optSub b' nil)))) :=
          ⟨leaves a, leaves b, h6, by simp [leaves, l1, l2], h7, h8⟩
        have hvt : ValidKeys (optSub a' (leaf key value (optSub b' nil))) := by
          intro kv hkv
          rcases hins.mem.1 hkv with rfl | h
          · exact hk
          · exact hv kv h
        simp only [create_spec hes hw hvt (by omega : Z + 1 ≤ f), ok_bind, Node.entries,
          Node.pointer, Node.layer]
        refine ⟨_, _, rfl, ReprN_mk hes (by simp), hw, hins, ?_, ?_⟩
        · intro h; cases a' <;> simp [optSub] at h
        · intros
          cases a' with
          | nil => simp [optSub, Trimmed]
          | _ => rw [optSub_of_ne (by simp)]; simp [Trimmed]

theorem deleteRecurse_spec {key : Key} : ∀ {f : Nat} {t : Tree C} {L : Nat} {n : Node C},
    ReprN E rd L t n → WF E.zeros L t → Sorted t → L + 2 ≤ f →
    (dictGet (leaves t) key = none ∧ deleteRecurse E rd f n key = .error .key) ∨
    (∃ n' t' v, deleteRecurse E rd f n key = .ok n' ∧ ReprN E rd L t' n' ∧ WF E.zeros L t' ∧
      Inserted key v (leaves t') (leaves t) ∧ n'.layer = n.layer)
  | 0, _, _, _, _, _, _, hf => by omega
  | f + 1, t, L, n, hn, hwf, hs, hf => by
    obtain ⟨A, B, l, r, rfl, he, hi, hA, hB⟩ := locate key hn hwf hs
    unfold deleteRecurse
    simp only [find_eq he hi, ok_bind, atIndex_at he, atIndex_prev he]
    obtain ⟨hwA, hwB, hadj⟩ := WF_app.1 hwf
    cases hB with
    | @hit v B r hB hgt =>
      right
      simp only [leafHit, List.head?_cons, if_true, atIndex_next he, ok_bind]
      have hltA : ∀ x ∈ leaves A, x.1 < key := fun x hx =>
        hs.app_lt x hx (key, v) (by simp [leaves])
      have hins : Inserted key v (leaves A ++ leaves B) (leaves (app A (leaf key v B))) :=
        ⟨leaves A, leaves B, rfl, by simp [leaves], hltA, hgt⟩
      have simple : ReprEs E rd L A l → ¬ (endsSub A ∧ startsSub B) →
          ∃ n' t' v', removeEntry E rd n (l.length : Int) = .ok n' ∧ ReprN E rd L t' n' ∧
            WF E.zeros L t' ∧ Inserted key v' (leaves t') (leaves (app A (leaf key v B))) ∧
            n'.layer = n.layer := by
        intro hRA hna
        rw [removeEntry_eq he]
        exact ⟨_, app A B, v, rfl, ReprN_newTree hn (ReprEs_app.2 ⟨_, _, rfl, hRA, hB⟩),
          WF_app.2 ⟨hwA, hwB.2, hna⟩, by simpa using hins, rfl⟩
      cases hA with
      | done hA hne hlt hl =>
        simp only [hl]
        exact simple hA (fun h => hne h.1)
      | @sub A c M l m hL hA hm hc hne hlt =>
        subst hL
        simp only [List.getLast?_append, List.getLast?_singleton, Option.some_or, asTree]
        have hRA : ReprEs E rd (M + 1) (app A (Tree.sub c nil)) (l ++ [.tree m]) :=
          ReprEs_app.2 ⟨l, _, rfl, hA, ReprEs_sub.2 ⟨m, [], rfl, hm, rfl⟩⟩
        have hwc : WF E.zeros M c := WF_mid_child hwf
        cases B with
        | nil =>
          obtain rfl := ReprEs_nil.1 hB
          exact simple hRA (fun h => h.2)
        | leaf k' v' B' =>
          obtain ⟨es', rfl, h'⟩ := ReprEs_leaf.1 hB
          exact simple hRA (fun h => h.2)
        | sub d B' =>
          obtain ⟨M', hMM, hd, hwd, hns, hwb'⟩ := WF_sub.1 hwB.2
          obtain rfl : M = M' := by omega
          obtain ⟨q, r', rfl, hq, h''⟩ := ReprEs_sub.1 hB
          simp only [List.head?_cons]
          obtain ⟨n', t', h1, h2, h3, h4, h5⟩ :=
            appendMerge_spec hm hq hwc hwd hc hd (f := f) (by omega)
          have he' : getEntries E rd n = .ok (l ++ (.tree m :: .leaf key v :: .tree q :: r')) := by
            simpa using he
          have he'' : getEntries E rd n =
              .ok ((l ++ [.tree m]) ++ (.leaf key v :: .tree q :: r')) := by simpa using he
          have hlen : (((l ++ [Ent.tree m]).length : Int) - 1) = (l.length : Int) := by simp
          have hs1 := slice_left he'
          have hs2 := slice_right2 he''
          simp only [h1, ok_bind, hlen, hs1, hs2]
          refine ⟨_, app (app A (Tree.sub t' nil)) B', v, rfl, ReprN_newTree hn
            (by simpa using ReprEs_mid hA h2 h''), ?_, ?_, rfl⟩
          · obtain ⟨h6, _, h7⟩ := WF_app.1 hwA
            refine WF_app.2 ⟨WF_app.2 ⟨h6, ⟨h5, h3, by simp [startsSub], trivial⟩,
              fun h => hne h.1⟩, hwb', fun h => hns h.2⟩
          · have : leaves (app (app A (Tree.sub t' nil)) B') =
                leaves (app A (Tree.sub c nil)) ++ leaves (Tree.sub d B') := by
              simp [leaves, h4]
            rw [this]; exact hins
    | miss hB hgt hns hr hr' =>
      have hBn : dictGet (leaves B) key = none :=
        dictGet_eq_none.2 fun y hy => ne_of_gt (hgt y hy)
      simp only [hr]
      cases hA with
      | done hA hne hlt hl =>
        left
        have hAn : dictGet (leaves A) key = none :=
          dictGet_eq_none.2 fun y hy => ne_of_lt (hlt y hy)
        simp only [hl, and_true]
        exact dictGet_app_none.2 ⟨hAn, hBn⟩
      | @sub A c M l m hL hA hm hc hne hlt =>
        subst hL
        have hAn : dictGet (leaves A) key = none :=
          dictGet_eq_none.2 fun y hy => ne_of_lt (hlt y hy)
        have hwc : WF E.zeros M c := WF_mid_child hwf
        have hsc : Sorted c := Sorted_sub_nil.1 hs.app_left.app_right
        simp only [List.getLast?_append, List.getLast?_singleton, Option.some_or, asTree]
        have he' : getEntries E rd n = .ok (l ++ .tree m :: r) := by simpa using he
        have hlen : (((l ++ [Ent.tree m]).length : Int) - 1) = (l.length : Int) := by simp
        rcases deleteRecurse_spec hm hwc hsc (f := f) (by omega) with
          ⟨h1, h2⟩ | ⟨n', t', v, h1, h2, h3, h4, h5⟩
        · left
          refine ⟨dictGet_app_none.2 ⟨dictGet_app_none.2 ⟨hAn, by simpa [leaves] using h1⟩,
            hBn⟩, by simp only [h2, error_bind]⟩
        · right
          obtain ⟨es, hes, hes'⟩ := getEntries_spec h2 h3
          simp only [h1, ok_bind, hes, hlen]
          have hins := h4.ctx hlt hgt
          cases es with
          | nil =>
            obtain rfl := ReprEs_eq_nil hes'
            simp only [List.isEmpty_nil, if_true, removeEntry_eq he']
            refine ⟨_, app A B, v, rfl, ReprN_newTree hn (ReprEs_app.2 ⟨_, _, rfl, hA, hB⟩),
              WF_app.2 ⟨(WF_app.1 hwA).1, hwB, fun h => hne h.1⟩, ?_, rfl⟩
            simpa [leaves] using hins
          | cons x xs =>
            have ht' : t' ≠ nil := by rintro rfl; cases ReprEs_nil.1 hes'
            simp only [List.isEmpty_cons, Bool.false_eq_true, if_false, updateEntry_eq he']
            refine ⟨_, _, v, rfl, ReprN_newTree hn (ReprEs_mid hA h2 hB), WF_mid ht' h3 hwf, ?_,
              rfl⟩
            simpa [leaves] using hins

theorem delete_spec {key : Key} {f : Nat} {t : Tree C} {L : Nat} {n : Node C}
    (hn : ReprN E rd L t n) (hwf : WF E.zeros L t) (hs : Sorted t) (hf : L + 2 ≤ f) :
    (dictGet (leaves t) key = none ∧ delete E rd f n key = .error .key) ∨
    (∃ n' t' L' v, delete E rd f n key = .ok n' ∧ ReprN E rd L' t' n' ∧ WF E.zeros L' t' ∧
      Inserted key v (leaves t') (leaves t) ∧ L' ≤ L ∧ Trimmed t' ∧
      (t' = nil → L' = L ∧ n'.layer = n.layer)) := by
  unfold delete
  rcases deleteRecurse_spec (key := key) hn hwf hs hf with
    ⟨h1, h2⟩ | ⟨n', t', v, h1, h2, h3, h4, h5⟩
  · left; exact ⟨h1, by simp [h2]⟩
  · right
    obtain ⟨n'', t'', L'', g1, g2, g3, g4, g5, g6, g7⟩ := trimTop_spec h2 h3 (f := f) (by omega)
    simp only [h1, ok_bind, g1]
    by_cases hnil : t' = nil
    · obtain ⟨rfl, rfl⟩ := g7 hnil
      subst hnil
      exact ⟨n'', nil, L, v, rfl, h2, h3, h4, le_refl _, trivial, fun _ => ⟨rfl, h5⟩⟩
    · refine ⟨n'', t'', L'', v, rfl, g2, g3, by rw [g5]; exact h4, g6, g4, ?_⟩
      rintro rfl
      exact absurd g5.symm (WF_leaves_ne h3 hnil)

end

end Arroba
