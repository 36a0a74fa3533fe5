import Verif.Mst.Spec

/-! Helper lemmas about trees, representation and lazy loading. -/

namespace Arroba

variable {C : Type}

namespace Tree

def endsSub : Tree C → Prop
  | nil => False
  | leaf _ _ r => endsSub r
  | sub _ r => r = nil ∨ endsSub r

@[simp] theorem app_nil (t : Tree C) : app t nil = t := by
  induction t <;> simp_all [app]

theorem app_assoc (a b c : Tree C) : app (app a b) c = app a (app b c) := by
  induction a <;> simp_all [app]

@[simp] theorem leaves_app (a b : Tree C) : leaves (app a b) = leaves a ++ leaves b := by
  induction a <;> simp_all [app, leaves]

@[simp] theorem nil_app (b : Tree C) : app nil b = b := rfl

theorem app_eq_nil {a b : Tree C} : app a b = nil ↔ a = nil ∧ b = nil := by
  cases a <;> simp [app]

theorem startsSub_app {a b : Tree C} :
    startsSub (app a b) ↔ startsSub a ∨ (a = nil ∧ startsSub b) := by
  cases a <;> simp [app, startsSub]

theorem endsSub_app {a b : Tree C} :
    endsSub (app a b) ↔ endsSub b ∨ (b = nil ∧ endsSub a) := by
  induction a with
  | nil => simp [app, endsSub]
  | leaf k v r ih => simp [app, endsSub, ih]
  | sub c r _ ih =>
    simp only [app, endsSub, ih, app_eq_nil]
    constructor
    · rintro (⟨rfl, rfl⟩ | h | ⟨rfl, h⟩) <;> simp_all [endsSub]
    · rintro (h | ⟨rfl, rfl | h⟩) <;> simp_all

theorem WF_sub {z : Key → Nat} {L : Nat} {c r : Tree C} :
    WF z L (sub c r) ↔ ∃ M, L = M + 1 ∧ c ≠ nil ∧ WF z M c ∧ ¬ startsSub r ∧ WF z L r := by
  cases L with
  | zero => simp [WF]
  | succ M =>
    constructor
    · rintro ⟨a, b, c, d⟩; exact ⟨M, rfl, a, b, c, d⟩
    · rintro ⟨M', h, a, b, c, d⟩
      obtain rfl : M = M' := by omega
      exact ⟨a, b, c, d⟩

theorem WF_app {z : Key → Nat} {L : Nat} {a b : Tree C} :
    WF z L (app a b) ↔ WF z L a ∧ WF z L b ∧ ¬ (endsSub a ∧ startsSub b) := by
  induction a with
  | nil => simp [app, WF, endsSub]
  | leaf k v r ih => simp [app, WF, endsSub, ih, and_assoc]
  | sub c r _ ih =>
    simp only [app, WF_sub, endsSub, ih, startsSub_app]
    constructor
    · rintro ⟨M, rfl, h1, h2, h3, h4, h5, h6⟩
      refine ⟨⟨M, rfl, h1, h2, ?_, h4⟩, h5, ?_⟩ <;> tauto
    · rintro ⟨⟨M, rfl, h1, h2, h3, h4⟩, h5, h6⟩
      refine ⟨M, rfl, h1, h2, ?_, h4, h5, ?_⟩ <;> tauto

theorem snoc_cases (t : Tree C) :
    t = nil ∨ (∃ a k v, t = app a (leaf k v nil)) ∨ (∃ a c, t = app a (sub c nil)) := by
  induction t with
  | nil => simp
  | leaf k v r ih =>
    right
    rcases ih with rfl | ⟨a, k', v', rfl⟩ | ⟨a, c, rfl⟩
    · exact .inl ⟨nil, k, v, rfl⟩
    · exact .inl ⟨leaf k v a, k', v', rfl⟩
    · exact .inr ⟨leaf k v a, c, rfl⟩
  | sub d r _ ih =>
    right
    rcases ih with rfl | ⟨a, k', v', rfl⟩ | ⟨a, c, rfl⟩
    · exact .inr ⟨nil, d, rfl⟩
    · exact .inl ⟨sub d a, k', v', rfl⟩
    · exact .inr ⟨sub d a, c, rfl⟩

theorem WF_leaves_ne {z : Key → Nat} : ∀ {t : Tree C} {L : Nat}, WF z L t → t ≠ nil → leaves t ≠ []
  | nil, _, _, h => absurd rfl h
  | leaf _ _ _, _, _, _ => by simp [leaves]
  | sub c r, L, h, _ => by
    obtain ⟨M, rfl, h1, h2, _, _⟩ := WF_sub.1 h
    have := WF_leaves_ne h2 h1
    simp [leaves, this]

theorem WF_zeros_le {z : Key → Nat} : ∀ {t : Tree C} {L : Nat}, WF z L t →
    ∀ kv ∈ leaves t, z kv.1 ≤ L
  | nil, _, _ => by simp [leaves]
  | leaf k v r, L, h => by
    obtain ⟨h1, h2⟩ := h
    intro kv hkv
    simp only [leaves, List.mem_cons] at hkv
    rcases hkv with rfl | hkv
    · simp [h1]
    · exact WF_zeros_le h2 kv hkv
  | sub c r, L, h => by
    obtain ⟨M, rfl, h1, h2, _, h4⟩ := WF_sub.1 h
    intro kv hkv
    simp only [leaves, List.mem_append] at hkv
    rcases hkv with hkv | hkv
    · have := WF_zeros_le h2 kv hkv; omega
    · exact WF_zeros_le h4 kv hkv

@[simp] theorem kids_app (a b : Tree C) : kids (app a b) = kids a ++ kids b := by
  induction a <;> simp_all [app, kids]

end Tree

open Arroba.Tree

theorem commonPrefixLen_take (a b : Key) :
    a.take (commonPrefixLen a b) = b.take (commonPrefixLen a b) := by
  induction a generalizing b with
  | nil => simp [commonPrefixLen]
  | cons x xs ih =>
    cases b with
    | nil => simp [commonPrefixLen]
    | cons y ys =>
      simp only [commonPrefixLen]
      split
      · rename_i h; subst h; simp [ih ys]
      · simp

theorem commonPrefixLen_recover (a b : Key) :
    a.take (commonPrefixLen a b) ++ b.drop (commonPrefixLen a b) = b := by
  rw [commonPrefixLen_take, List.take_append_drop]

section
variable {E : Env C} {rd : C → Option (NodeData C)}

theorem Stored.kid {t : Tree C} (h : Stored E rd t) {c : Tree C} (hc : ∀ s ∈ nodes c, s ∈ nodes t) :
    Stored E rd c := fun s hs => h s (hc s hs)

theorem ReprEs_app {a b : Tree C} {L : Nat} {es : List (Ent C)} :
    ReprEs E rd L (app a b) es ↔
      ∃ l r, es = l ++ r ∧ ReprEs E rd L a l ∧ ReprEs E rd L b r := by
  induction a generalizing es with
  | nil => simp [app, ReprEs]
  | leaf k v r ih =>
    simp only [app, ReprEs, ih]
    constructor
    · rintro ⟨es', rfl, l, r', rfl, h1, h2⟩
      exact ⟨_ :: l, r', rfl, ⟨l, rfl, h1⟩, h2⟩
    · rintro ⟨l, r', rfl, ⟨es', rfl, h1⟩, h2⟩
      exact ⟨_, rfl, es', r', rfl, h1, h2⟩
  | sub c r _ ih =>
    simp only [app, ReprEs, ih]
    constructor
    · rintro ⟨n, es', rfl, hn, l, r', rfl, h1, h2⟩
      exact ⟨_ :: l, r', rfl, ⟨n, l, rfl, hn, h1⟩, h2⟩
    · rintro ⟨l, r', rfl, ⟨n, es', rfl, hn, h1⟩, h2⟩
      exact ⟨n, _, rfl, hn, es', r', rfl, h1, h2⟩

theorem ReprEs_leaf {k : Key} {v : C} {r : Tree C} {L : Nat} {es : List (Ent C)} :
    ReprEs E rd L (leaf k v r) es ↔ ∃ es', es = .leaf k v :: es' ∧ ReprEs E rd L r es' := Iff.rfl

theorem ReprEs_sub {c r : Tree C} {L : Nat} {es : List (Ent C)} :
    ReprEs E rd (L + 1) (sub c r) es ↔
      ∃ n es', es = .tree n :: es' ∧ ReprN E rd L c n ∧ ReprEs E rd (L + 1) r es' := Iff.rfl

theorem ReprEs_nil {L : Nat} {es : List (Ent C)} : ReprEs E rd L nil es ↔ es = [] := Iff.rfl

theorem ReprEs_eq_nil {L : Nat} {t : Tree C} (h : ReprEs E rd L t []) : t = nil := by
  cases t with
  | nil => rfl
  | leaf k v r => obtain ⟨_, h, _⟩ := h; cases h
  | sub c r => obtain ⟨_, _, h, _⟩ := h; cases h

theorem ReprN_newTree {L : Nat} {t t' : Tree C} {n : Node C} {es : List (Ent C)}
    (hn : ReprN E rd L t n) (h : ReprEs E rd L t' es) : ReprN E rd L t' (newTree n es) := by
  refine ⟨⟨by simp [newTree, Node.entries], by simp [newTree, Node.outdated], ?_⟩, ?_⟩
  · exact hn.1.2.2
  · intro es' h'; simp [newTree, Node.entries] at h'; exact h' ▸ h

theorem ReprN_setLayer {L : Nat} {t : Tree C} {n : Node C}
    (hn : ReprN E rd L t n) : ReprN E rd L t (n.setLayer L) := by
  refine ⟨⟨hn.1.1, hn.1.2.1, ?_⟩, hn.2⟩
  intro l h; simp [Node.setLayer, Node.layer] at h; exact h.symm

theorem ReprEs_deserialize {t : Tree C} : ∀ {L : Nat} {last : Key} {layer : Option Int},
    WF E.zeros L t → (∀ l, layer = some l → l = (L : Int)) →
    (∀ s ∈ kids t, rd (cidOf E.H s) = some (nodeOf E.H s)) →
    ReprEs E rd L t
      ((match (ser E.H t).1 with
        | some c => [.tree (.mk none c (layer.map (· - 1)) false)]
        | none => []) ++ deserializeEntries layer last ((ser E.H t).2 last)) := by
  induction t with
  | nil => intros; simp [ser, deserializeEntries, ReprEs]
  | leaf k v r ih =>
    intro L last layer hwf hl hst
    simp only [ser, deserializeEntries, commonPrefixLen_recover, List.nil_append, ReprEs_leaf]
    exact ⟨_, rfl, ih hwf.2 hl hst⟩
  | sub c r _ ih =>
    intro L last layer hwf hl hst
    obtain ⟨M, rfl, h1, h2, h3, h4⟩ := WF_sub.1 hwf
    simp only [ser]
    rw [ReprEs_sub]
    refine ⟨_, _, rfl, ⟨⟨?_, ?_, ?_⟩, ?_⟩, ?_⟩
    · intro _
      refine ⟨rfl, fun s hs => hst s ?_⟩
      simp only [kids, nodes, List.mem_append] at hs ⊢
      exact .inl hs
    · intro _; rfl
    · intro l h
      simp only [Node.layer, Option.map_eq_some_iff] at h
      obtain ⟨a, ha, rfl⟩ := h
      have := hl a ha; push_cast at this; omega
    · intro es h; simp [Node.entries] at h
    · have hr : (ser E.H r).1 = none := by
        cases r with
        | sub _ _ => exact absurd trivial h3
        | _ => rfl
      have := ih (last := last) h4 hl (fun s hs => hst s (by simp [kids, hs]))
      rw [hr] at this
      simpa using this

theorem getEntries_spec {L : Nat} {t : Tree C} {n : Node C}
    (hn : ReprN E rd L t n) (hwf : WF E.zeros L t) :
    ∃ es, getEntries E rd n = .ok es ∧ ReprEs E rd L t es := by
  unfold getEntries
  cases he : n.entries with
  | some es => exact ⟨es, rfl, hn.2 es he⟩
  | none =>
    obtain ⟨ho, hst⟩ := hn.1.1 he
    have hp := hn.1.2.1 ho
    have hrd : rd n.pointer = some (nodeOf E.H t) := by
      rw [hp]; exact hst t (by simp [nodes])
    simp only [hrd]
    refine ⟨_, rfl, ?_⟩
    unfold deserializeNodeData
    have hlast : (nodeOf E.H t).e = (ser E.H t).2 [] := rfl
    rw [hlast]
    refine ReprEs_deserialize hwf ?_ (fun s hs => hst s (by simp [nodes, hs]))
    intro l hl
    have aux : ∀ (r : Tree C), WF E.zeros L r → ∀ e es, (ser E.H r).2 [] = e :: es →
        E.zeros e.k = L := by
      intro r
      induction r with
      | nil => intro _ e es h; simp [ser] at h
      | leaf k v r ih =>
        intro hw e es h
        simp only [ser, List.cons.injEq] at h
        rw [← h.1]
        have : commonPrefixLen [] k = 0 := by cases k <;> rfl
        simp [this, hw.1]
      | sub c r _ ih =>
        intro hw e es h
        obtain ⟨M, rfl, _, _, _, h4⟩ := WF_sub.1 hw
        exact ih h4 e es h
    cases hh : (ser E.H t).2 [] with
    | nil => simp [hh] at hl
    | cons e es =>
      simp only [hh, Option.some.injEq] at hl
      rw [← hl, aux t hwf e es hh]

end

end Arroba
