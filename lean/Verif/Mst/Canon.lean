import Verif.Mst.ExecProofs

/-! Helper lemmas: a valid tree is determined by its records, and (up to hash collisions) by
its root CID. -/

namespace Arroba

variable {C : Type}

open Arroba.Tree

/-- A well-formed node that does not start with a child starts (if at all) with a key of its
own layer. -/
theorem head_of_not_startsSub {z : Key → Nat} {r : Tree C} {L : Nat} (hw : WF z L r)
    (hns : ¬ startsSub r) : ∀ kv, (leaves r).head? = some kv → z kv.1 = L := by
  intro kv h
  cases r with
  | nil => simp [leaves] at h
  | sub _ _ => exact absurd trivial hns
  | leaf k v r' => simp only [leaves, List.head?_cons, Option.some.injEq] at h; rw [← h]; exact hw.1

theorem append_split_unique {α : Type} {p : α → Prop} {a b c d : List α}
    (ha : ∀ x ∈ a, p x) (hc : ∀ x ∈ c, p x) (hb : ∀ x, b.head? = some x → ¬ p x)
    (hd : ∀ x, d.head? = some x → ¬ p x) (h : a ++ b = c ++ d) : a = c ∧ b = d := by
  induction a generalizing c with
  | nil =>
    cases c with
    | nil => exact ⟨rfl, by simpa using h⟩
    | cons y ys =>
      exfalso
      simp only [List.nil_append] at h
      exact hb y (by simp [h]) (hc y (by simp))
  | cons x xs ih =>
    cases c with
    | nil =>
      exfalso
      simp only [List.nil_append, List.cons_append] at h
      exact hd x (by simp [← h]) (ha x (by simp))
    | cons y ys =>
      simp only [List.cons_append, List.cons.injEq] at h
      obtain ⟨rfl, h⟩ := h
      obtain ⟨rfl, rfl⟩ := ih (c := ys) (fun x hx => ha x (by simp [hx]))
        (fun x hx => hc x (by simp [hx])) h
      exact ⟨rfl, rfl⟩

/-- Two well-formed nodes of the same layer with the same records are the same tree. -/
theorem WF_unique {z : Key → Nat} {t t' : Tree C} : ∀ {L : Nat}, WF z L t → WF z L t' →
    leaves t = leaves t' → t = t' := by
  induction t generalizing t' with
  | nil =>
    intro L _ hw' h
    by_contra hne
    exact WF_leaves_ne hw' (Ne.symm hne) (by simpa [leaves] using h.symm)
  | leaf k v r ih =>
    intro L hw hw' h
    cases t' with
    | nil => simp [leaves] at h
    | leaf k' v' r' =>
      simp only [leaves, List.cons.injEq, Prod.mk.injEq] at h
      obtain ⟨⟨rfl, rfl⟩, h⟩ := h
      rw [ih hw.2 hw'.2 h]
    | sub c r' =>
      exfalso
      obtain ⟨M, rfl, hc, hwc, hns, hwr⟩ := WF_sub.1 hw'
      obtain ⟨x, xs, hx⟩ := List.exists_cons_of_ne_nil (WF_leaves_ne hwc hc)
      simp only [leaves, hx, List.cons_append, List.cons.injEq] at h
      have h1 := WF_zeros_le hwc x (by simp [hx])
      have h2 := hw.1
      rw [← h.1] at h1
      simp only at h1
      omega
  | sub c r ihc ihr =>
    intro L hw hw' h
    obtain ⟨M, rfl, hc, hwc, hns, hwr⟩ := WF_sub.1 hw
    cases t' with
    | nil => exact absurd (by simpa [leaves] using h) (WF_leaves_ne hw (by simp))
    | leaf k' v' r' =>
      exfalso
      obtain ⟨x, xs, hx⟩ := List.exists_cons_of_ne_nil (WF_leaves_ne hwc hc)
      simp only [leaves, hx, List.cons_append, List.cons.injEq] at h
      have h1 := WF_zeros_le hwc x (by simp [hx])
      have h2 := hw'.1
      rw [h.1] at h1
      simp only at h1
      omega
    | sub c' r' =>
      obtain ⟨M', hM, hc', hwc', hns', hwr'⟩ := WF_sub.1 hw'
      obtain rfl : M = M' := by omega
      simp only [leaves] at h
      obtain ⟨h1, h2⟩ := append_split_unique (p := fun kv : Key × C => z kv.1 ≤ M)
        (WF_zeros_le hwc) (WF_zeros_le hwc')
        (fun x hx => by have := head_of_not_startsSub hwr hns x hx; omega)
        (fun x hx => by have := head_of_not_startsSub hwr' hns' x hx; omega) h
      rw [ihc hwc hwc' h1, ihr hwr hwr' h2]

theorem exists_top_leaf {z : Key → Nat} {t : Tree C} {L : Nat} (hw : WF z L t) (ht : Trimmed t)
    (hne : t ≠ nil) : ∃ kv ∈ leaves t, z kv.1 = L := by
  cases t with
  | nil => exact absurd rfl hne
  | leaf k v r => exact ⟨(k, v), by simp [leaves], hw.1⟩
  | sub c r =>
    obtain ⟨M, rfl, hc, hwc, hns, hwr⟩ := WF_sub.1 hw
    cases r with
    | nil => simp [Trimmed] at ht
    | sub _ _ => exact absurd trivial hns
    | leaf k v r => exact ⟨(k, v), by simp [leaves], hwr.1⟩

/-- Two valid trees with the same records are the same tree, whatever their layers. -/
theorem canonical {z : Key → Nat} {t t' : Tree C} {L L' : Nat} (hw : WF z L t) (hw' : WF z L' t')
    (ht : Trimmed t) (ht' : Trimmed t') (h : leaves t = leaves t') : t = t' := by
  by_cases hn : t = nil
  · subst hn
    by_contra hne
    exact WF_leaves_ne hw' (Ne.symm hne) (by simpa [leaves] using h.symm)
  · have hn' : t' ≠ nil := by
      rintro rfl
      exact WF_leaves_ne hw hn (by simpa [leaves] using h)
    obtain ⟨kv, h1, h2⟩ := exists_top_leaf hw ht hn
    obtain ⟨kv', h3, h4⟩ := exists_top_leaf hw' ht' hn'
    have h5 := WF_zeros_le hw' kv (h ▸ h1)
    have h6 := WF_zeros_le hw kv' (h ▸ h3)
    obtain rfl : L = L' := by omega
    exact WF_unique hw hw' h

theorem sorted_ext {β : Type} {l l' : List (Key × β)}
    (hs : l.Pairwise (fun a b => a.1 < b.1)) (hs' : l'.Pairwise (fun a b => a.1 < b.1))
    (h : dictGet l = dictGet l') : l = l' := by
  induction l generalizing l' with
  | nil =>
    cases l' with
    | nil => rfl
    | cons y ys =>
      have := congrFun h y.1
      obtain ⟨k, v⟩ := y
      simp [dictGet] at this
  | cons x xs ih =>
    obtain ⟨k, v⟩ := x
    cases l' with
    | nil => have := congrFun h k; simp [dictGet] at this
    | cons y ys =>
      obtain ⟨k', v'⟩ := y
      rw [List.pairwise_cons] at hs hs'
      have hk : k = k' := by
        rcases lt_trichotomy k k' with hlt | heq | hgt
        · have := congrFun h k
          simp only [dictGet, if_true, ne_of_gt hlt, if_false] at this
          have hm := dictGet_mem this.symm
          exact absurd (hs'.1 _ hm) (not_lt.2 (le_of_lt hlt))
        · exact heq
        · have := congrFun h k'
          simp only [dictGet, if_true, ne_of_gt hgt, if_false] at this
          have hm := dictGet_mem this
          exact absurd (hs.1 _ hm) (not_lt.2 (le_of_lt hgt))
      subst hk
      have hv : v = v' := by have := congrFun h k; simpa [dictGet] using this
      subst hv
      rw [ih hs.2 hs'.2]
      funext x
      by_cases hx : k = x
      · subst hx
        rw [dictGet_eq_none.2 fun y hy => ne_of_gt (hs.1 y hy),
          dictGet_eq_none.2 fun y hy => ne_of_gt (hs'.1 y hy)]
      · have := congrFun h x; simpa [dictGet, hx] using this

/-- A hash collision between a node of `ts` and a node of `ts'`. -/
def Collision (H : NodeData C → C) (ts ts' : List (Tree C)) : Prop :=
  ∃ s ∈ ts, ∃ s' ∈ ts', nodeOf H s ≠ nodeOf H s' ∧ H (nodeOf H s) = H (nodeOf H s')

theorem Collision.mono {H : NodeData C → C} {a b a' b' : List (Tree C)} (h : Collision H a b)
    (ha : ∀ x ∈ a, x ∈ a') (hb : ∀ x ∈ b, x ∈ b') : Collision H a' b' := by
  obtain ⟨s, hs, s', hs', h⟩ := h
  exact ⟨s, ha s hs, s', hb s' hs', h⟩

theorem ser_inj {z : Key → Nat} {H : NodeData C → C} {t t' : Tree C} : ∀ {L L' : Nat} {last : Key},
    WF z L t → WF z L' t' → (ser H t).1 = (ser H t').1 → (ser H t).2 last = (ser H t').2 last →
    t = t' ∨ Collision H (kids t) (kids t') := by
  induction t generalizing t' with
  | nil =>
    intro L L' last _ _ h1 h2
    cases t' with
    | nil => exact .inl rfl
    | leaf k v r => simp [ser] at h2
    | sub c r => simp [ser] at h1
  | leaf k v r ih =>
    intro L L' last hw hw' h1 h2
    cases t' with
    | nil => simp [ser] at h2
    | sub c r => simp [ser] at h1
    | leaf k' v' r' =>
      simp only [ser, List.cons.injEq, EntryData.mk.injEq] at h2
      obtain ⟨⟨h3, h4, rfl, h5⟩, h6⟩ := h2
      have hk : k = k' := by
        have e1 := commonPrefixLen_recover last k
        have e2 := commonPrefixLen_recover last k'
        rw [← e1, ← e2, h4, h3]
      subst hk
      rcases ih hw.2 hw'.2 h5 h6 with rfl | hcol
      · exact .inl rfl
      · exact .inr hcol
  | sub c r ihc ihr =>
    intro L L' last hw hw' h1 h2
    obtain ⟨M, rfl, hc, hwc, hns, hwr⟩ := WF_sub.1 hw
    cases t' with
    | nil => simp [ser] at h1
    | leaf k' v' r' => simp [ser] at h1
    | sub c' r' =>
      obtain ⟨M', rfl, hc', hwc', hns', hwr'⟩ := WF_sub.1 hw'
      simp only [ser, Option.some.injEq] at h1 h2
      have n1 : (ser H r).1 = none := by
        cases r with
        | sub _ _ => exact absurd trivial hns
        | _ => rfl
      have n2 : (ser H r').1 = none := by
        cases r' with
        | sub _ _ => exact absurd trivial hns'
        | _ => rfl
      by_cases he : nodeOf H c = nodeOf H c'
      · simp only [nodeOf, NodeData.mk.injEq] at he
        rcases ihc hwc hwc' he.1 he.2 with rfl | hcol
        · rcases ihr hwr hwr' (n1.trans n2.symm) h2 with rfl | hcol
          · exact .inl rfl
          · exact .inr (hcol.mono (fun x hx => by simp [kids, hx]) (fun x hx => by simp [kids, hx]))
        · exact .inr (hcol.mono (fun x hx => by simp [kids, hx]) (fun x hx => by simp [kids, hx]))
      · exact .inr ⟨c, by simp [kids], c', by simp [kids], he, h1⟩

/-- Equal root CIDs: same tree, or an explicit hash collision between their nodes. -/
theorem cid_inj {z : Key → Nat} {H : NodeData C → C} {t t' : Tree C} {L L' : Nat}
    (hw : WF z L t) (hw' : WF z L' t') (h : cidOf H t = cidOf H t') :
    t = t' ∨ Collision H (nodes t) (nodes t') := by
  by_cases he : nodeOf H t = nodeOf H t'
  · have he' := he
    simp only [nodeOf, NodeData.mk.injEq] at he'
    rcases ser_inj hw hw' he'.1 he'.2 with h | h
    · exact .inl h
    · exact .inr (h.mono (fun x hx => by simp [nodes, hx]) (fun x hx => by simp [nodes, hx]))
  · exact .inr ⟨t, by simp [nodes], t', by simp [nodes], he, h⟩

theorem Collision.not_inj {H : NodeData C → C} {ts ts' : List (Tree C)} (h : Collision H ts ts') :
    ¬ Function.Injective H := by
  obtain ⟨s, _, s', _, h1, h2⟩ := h
  exact fun hi => h1 (hi h2)

end Arroba
