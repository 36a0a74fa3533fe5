import Verif.Mst.Heap
import Verif.Mst.ExecProofs

/-! Helper lemmas for C81: which tree each object of the heap stands for, and that reading and computing pointers does
not change that. -/

namespace Arroba

variable {C : Type}

open Arroba.Tree

/-! ### The monad -/

theorem HM.pure_eq {α : Type} (a : α) (h : Heap C) : (pure a : HM C α) h = (.ok a, h) := rfl

theorem HM.bind_ok {α β : Type} {x : HM C α} {f : α → HM C β} {h h' : Heap C} {a : α} (hx : x h = (.ok a, h')) :
    (x >>= f) h = f a h' := by
  show (match x h with | (.ok a, h') => f a h' | (.error e, h') => (.error e, h')) = _
  rw [hx]

theorem HM.bind_error {α β : Type} {x : HM C α} {f : α → HM C β} {h h' : Heap C} {e : Err}
    (hx : x h = (.error e, h')) : (x >>= f) h = (.error e, h') := by
  show (match x h with | (.ok a, h') => f a h' | (.error e, h') => (.error e, h')) = _
  rw [hx]

theorem hObj_eq {h : Heap C} {i : Nat} {o : Obj C} (ho : h[i]? = some o) : hObj i h = (.ok o, h) := by
  unfold hObj
  rw [ho]

/-! ### Which tree an object stands for -/

/-- For each object: the layer and the tree that it stands for. -/
abbrev Ghost (C : Type) := List (Nat × Tree C)

section
variable (E : Env C) (rd : C → Option (NodeData C))

/-- The entries of an object stand for the entries of the tree `t` on layer `L`. -/
def HEs (g : Ghost C) : Nat → Tree C → List (HEnt C) → Prop
  | _, nil, es => es = []
  | L, leaf k v r, es => E.zeros k = L ∧ ∃ es', es = .leaf k v :: es' ∧ HEs g L r es'
  | L, sub c r, es => ∃ M i es', L = M + 1 ∧ c ≠ nil ∧ es = .tree i :: es' ∧ g[i]? = some (M, c) ∧ HEs g L r es'

/-- The object stands for the tree `t` on layer `L`. -/
structure HObj (g : Ghost C) (L : Nat) (t : Tree C) (o : Obj C) : Prop where
  unloaded : o.entries = none → o.outdated = false ∧ Stored E rd t
  loaded : ∀ es, o.entries = some es → HEs E g L t es
  fresh : o.outdated = false → o.pointer = cidOf E.H t ∧ WF E.zeros L t ∧ ValidKeys t
  layer : ∀ l, o.layer = some l → l = (L : Int)

/-- All objects stand for their trees. -/
structure HInv (h : Heap C) (g : Ghost C) : Prop where
  len : h.length = g.length
  objs : ∀ (i : Nat) (o : Obj C) (L : Nat) (t : Tree C), h[i]? = some o → g[i]? = some (L, t) → HObj E rd g L t o

end

section
variable {E : Env C} {rd : C → Option (NodeData C)}

theorem prefix_get {α : Type} {g g' : List α} (hp : g <+: g') {i : Nat} {x : α} (h : g[i]? = some x) :
    g'[i]? = some x := by
  obtain ⟨s, rfl⟩ := hp
  rw [List.getElem?_append_left (by
    rcases Nat.lt_or_ge i g.length with hl | hl
    · exact hl
    · rw [List.getElem?_eq_none hl] at h; cases h)]
  exact h

theorem HEs.mono {g g' : Ghost C} (hp : g <+: g') : ∀ {t : Tree C} {L : Nat} {es : List (HEnt C)},
    HEs E g L t es → HEs E g' L t es
  | nil, _, _, h => h
  | leaf _ _ _, _, _, ⟨hz, es', h1, h2⟩ => ⟨hz, es', h1, h2.mono hp⟩
  | sub _ _, _, _, ⟨M, i, es', h0, h1, h2, h3, h4⟩ => ⟨M, i, es', h0, h1, h2, prefix_get hp h3, h4.mono hp⟩

theorem HObj.mono {g g' : Ghost C} (hp : g <+: g') {L : Nat} {t : Tree C} {o : Obj C} (h : HObj E rd g L t o) :
    HObj E rd g' L t o :=
  ⟨h.unloaded, fun es he => (h.loaded es he).mono hp, h.fresh, h.layer⟩

theorem HInv.get {h : Heap C} {g : Ghost C} (hi : HInv E rd h g) {i L : Nat} {t : Tree C} (hg : g[i]? = some (L, t)) :
    ∃ o, h[i]? = some o ∧ HObj E rd g L t o := by
  have hl : i < h.length := by
    rw [hi.len]
    rcases Nat.lt_or_ge i g.length with hl | hl
    · exact hl
    · rw [List.getElem?_eq_none hl] at hg; cases hg
  exact ⟨h[i], List.getElem?_eq_getElem hl, hi.objs i _ L t (List.getElem?_eq_getElem hl) hg⟩

theorem HInv.alloc {h : Heap C} {g : Ghost C} (hi : HInv E rd h g) {L : Nat} {t : Tree C} {o : Obj C}
    (ho : HObj E rd g L t o) : HInv E rd (h ++ [o]) (g ++ [(L, t)]) ∧ (g ++ [(L, t)])[h.length]? = some (L, t) := by
  have hp : g <+: g ++ [(L, t)] := List.prefix_append _ _
  refine ⟨⟨by rw [List.length_append, List.length_append, hi.len]; rfl, ?_⟩, ?_⟩
  · intro i o' L' t' h1 h2
    rcases Nat.lt_trichotomy i h.length with hl | hl | hl
    · rw [List.getElem?_append_left hl] at h1
      rw [List.getElem?_append_left (hi.len ▸ hl)] at h2
      exact (hi.objs i o' L' t' h1 h2).mono hp
    · rw [hl, List.getElem?_concat_length] at h1
      rw [hl, hi.len, List.getElem?_concat_length] at h2
      cases h1
      cases h2
      exact ho.mono hp
    · rw [List.getElem?_eq_none (by rw [List.length_append]; exact hl)] at h1
      cases h1
  · rw [hi.len, List.getElem?_concat_length]

theorem HInv.set {h : Heap C} {g : Ghost C} (hi : HInv E rd h g) {i L : Nat} {t : Tree C} {o : Obj C}
    (hg : g[i]? = some (L, t)) (ho : HObj E rd g L t o) : HInv E rd (h.set i o) g := by
  refine ⟨by rw [List.length_set]; exact hi.len, ?_⟩
  intro j o' L' t' h1 h2
  by_cases hj : i = j
  · subst hj
    rw [hg] at h2
    cases h2
    obtain ⟨o'', h3, _⟩ := hi.get hg
    rw [List.getElem?_set_self (by
      rcases Nat.lt_or_ge i h.length with hl | hl
      · exact hl
      · rw [List.getElem?_eq_none hl] at h3; cases h3)] at h1
    cases h1
    exact ho
  · rw [List.getElem?_set_ne hj] at h1
    exact hi.objs j o' L' t' h1 h2

/-! ### What never changes -/

/-- Each object keeps the tree that it stands for, and its layer once it knows it. -/
structure Ext (h : Heap C) (g : Ghost C) (h' : Heap C) (g' : Ghost C) : Prop where
  pre : g <+: g'
  keep : ∀ (i : Nat) (o : Obj C), h[i]? = some o → ∃ o', h'[i]? = some o' ∧ ∀ l, o.layer = some l → o'.layer = some l

theorem Ext.refl (h : Heap C) (g : Ghost C) : Ext h g h g :=
  ⟨List.prefix_refl _, fun _ o ho => ⟨o, ho, fun _ h => h⟩⟩

theorem Ext.trans {h h₁ h₂ : Heap C} {g g₁ g₂ : Ghost C} (a : Ext h g h₁ g₁) (b : Ext h₁ g₁ h₂ g₂) :
    Ext h g h₂ g₂ :=
  ⟨a.pre.trans b.pre, fun i o ho =>
    let ⟨o₁, k1, k2⟩ := a.keep i o ho
    let ⟨o₂, m1, m2⟩ := b.keep i o₁ k1
    ⟨o₂, m1, fun l hl => m2 l (k2 l hl)⟩⟩

theorem Ext.of_prefix {h h' : Heap C} {g g' : Ghost C} (hg : g <+: g') (hh : h <+: h') : Ext h g h' g' :=
  ⟨hg, fun _ o ho => ⟨o, prefix_get hh ho, fun _ h => h⟩⟩

theorem Ext.get {h h' : Heap C} {g g' : Ghost C} (a : Ext h g h' g') {i : Nat} {x : Nat × Tree C}
    (hx : g[i]? = some x) : g'[i]? = some x := prefix_get a.pre hx

theorem Ext.set {h : Heap C} {g : Ghost C} {i : Nat} {o o' : Obj C} (ho : h[i]? = some o)
    (hl : ∀ l, o.layer = some l → o'.layer = some l) : Ext h g (h.set i o') g := by
  refine ⟨List.prefix_refl _, fun j x hx => ?_⟩
  by_cases hj : i = j
  · subst hj
    rw [ho] at hx
    cases hx
    refine ⟨o', ?_, hl⟩
    rw [List.getElem?_set_self (by
      rcases Nat.lt_or_ge i h.length with hl | hl
      · exact hl
      · rw [List.getElem?_eq_none hl] at ho; cases ho)]
  · exact ⟨x, by rw [List.getElem?_set_ne hj]; exact hx, fun _ h => h⟩

/-! ### Loading entries -/

theorem hChild_spec {h : Heap C} {g : Ghost C} (hi : HInv E rd h g) {M : Nat} {c : Tree C} {layer : Option Int}
    (hl : ∀ l, layer = some l → l = ((M + 1 : Nat) : Int)) (hw : WF E.zeros M c) (hv : ValidKeys c)
    (hs : Stored E rd c) : ∃ h' g', hChild layer (some (cidOf E.H c)) h = (.ok [.tree h.length], h') ∧
      HInv E rd h' g' ∧ g <+: g' ∧ h <+: h' ∧ g'[h.length]? = some (M, c) := by
  obtain ⟨k1, k2⟩ := hi.alloc (L := M) (t := c) (o := ⟨none, cidOf E.H c, layer.map (· - 1), false⟩)
    ⟨fun _ => ⟨rfl, hs⟩, fun es he => (nomatch he), fun _ => ⟨rfl, hw, hv⟩, fun l he => by
      obtain ⟨a, ha, rfl⟩ := Option.map_eq_some_iff.1 he
      have := hl a ha
      push_cast at this
      omega⟩
  exact ⟨_, _, rfl, k1, List.prefix_append _ _, List.prefix_append _ _, k2⟩

theorem hDeserialize_spec {t : Tree C} : ∀ {L : Nat} {last : Key} {layer : Option Int} {h : Heap C} {g : Ghost C},
    HInv E rd h g → WF E.zeros L t → ValidKeys t → (∀ l, layer = some l → l = (L : Int)) →
    (∀ s ∈ kids t, rd (cidOf E.H s) = some (nodeOf E.H s)) →
    ∃ a b h₁ h' g', hChild layer (ser E.H t).1 h = (.ok a, h₁) ∧
      hDeserializeEntries layer last ((ser E.H t).2 last) h₁ = (.ok b, h') ∧
      HInv E rd h' g' ∧ g <+: g' ∧ h <+: h' ∧ HEs E g' L t (a ++ b) := by
  induction t with
  | nil =>
    intro L last layer h g hi _ _ _ _
    exact ⟨[], [], h, h, g, rfl, rfl, hi, List.prefix_refl _, List.prefix_refl _, rfl⟩
  | leaf k v r ih =>
    intro L last layer h g hi hw hv hl hst
    obtain ⟨a, b, h₁, h', g', k1, k2, k3, k4, k5, k6⟩ :=
      ih (last := k) hi hw.2 (fun kv hk => hv kv (by simp [leaves, hk])) hl hst
    refine ⟨[], .leaf k v :: (a ++ b), h, h', g', rfl, ?_, k3, k4, k5, hw.1, a ++ b, rfl, k6⟩
    simp only [ser, hDeserializeEntries, commonPrefixLen_recover]
    rw [HM.bind_ok k1, HM.bind_ok k2]
    rfl
  | sub c r _ ih =>
    intro L last layer h g hi hw hv hl hst
    obtain ⟨M, rfl, hc, hwc, hns, hwr⟩ := WF_sub.1 hw
    have hr : (ser E.H r).1 = none := by
      cases r with
      | sub _ _ => exact absurd trivial hns
      | _ => rfl
    obtain ⟨h₁, g₁, k1, k2, k3, k4, k5⟩ := hChild_spec (layer := layer) hi hl hwc
      (fun kv hk => hv kv (by simp [leaves, hk])) (fun s hs => hst s (by
        simp only [kids, nodes, List.mem_append] at hs ⊢
        exact .inl hs))
    obtain ⟨a, b, h₂, h', g', m1, m2, m3, m4, m5, m6⟩ := ih (last := last) k2 hwr
      (fun kv hk => hv kv (by simp [leaves, hk])) hl (fun s hs => hst s (by simp [kids, hs]))
    rw [hr] at m1
    cases m1
    exact ⟨_, b, h₁, h', g', k1, m2, m3, k3.trans m4, k4.trans m5, M, h.length, b, rfl, hc, rfl, prefix_get m4 k5, m6⟩

theorem ser_first {L : Nat} : ∀ (r : Tree C), WF E.zeros L r → ∀ e es, (ser E.H r).2 [] = e :: es →
    E.zeros e.k = L := by
  intro r
  induction r with
  | nil => intro _ e es h; simp [ser] at h
  | leaf k v r ih =>
    intro hw e es h
    simp only [ser, List.cons.injEq] at h
    rw [← h.1]
    have : commonPrefixLen [] k = 0 := by cases k <;> rfl
    simp [this, hw.1]
  | sub c r _ ih =>
    intro hw e es h
    obtain ⟨M, rfl, _, _, _, h4⟩ := WF_sub.1 hw
    exact ih h4 e es h

theorem hGetEntries_spec {h : Heap C} {g : Ghost C} (hi : HInv E rd h g) {i L : Nat} {t : Tree C}
    (hg : g[i]? = some (L, t)) : ∃ es h' g', hGetEntries E rd i h = (.ok es, h') ∧ HInv E rd h' g' ∧ Ext h g h' g' ∧
      HEs E g' L t es := by
  obtain ⟨o, ho, hob⟩ := hi.get hg
  unfold hGetEntries
  rw [HM.bind_ok (hObj_eq ho)]
  cases he : o.entries with
  | some es => exact ⟨es, h, g, rfl, hi, Ext.refl _ _, hob.loaded es he⟩
  | none =>
    obtain ⟨hou, hst⟩ := hob.unloaded he
    obtain ⟨hp, hw, hv⟩ := hob.fresh hou
    have hrd : rd o.pointer = some (nodeOf E.H t) := by
      rw [hp]; exact hst t (by simp [nodes])
    simp only [hrd]
    obtain ⟨a, b, h₁, h', g', k1, k2, k3, k4, k5, k6⟩ := hDeserialize_spec (last := []) (layer :=
        (match (nodeOf E.H t).e with
        | [] => none
        | e :: _ => some (E.zeros e.k : Int))) hi hw hv (by
      intro l hl
      cases hh : (ser E.H t).2 [] with
      | nil => simp [nodeOf, hh] at hl
      | cons e es =>
        simp only [nodeOf, hh, Option.some.injEq] at hl
        rw [← hl, ser_first t hw e es hh]) (fun s hs => hst s (by simp [nodes, hs]))
    have hd : hDeserializeNodeData (nodeOf E.H t) (match (nodeOf E.H t).e with
        | [] => none
        | e :: _ => some (E.zeros e.k : Int)) h = (.ok (a ++ b), h') := by
      unfold hDeserializeNodeData
      rw [HM.bind_ok (show hChild _ (nodeOf E.H t).l h = _ from k1),
        HM.bind_ok (show hDeserializeEntries _ [] (nodeOf E.H t).e h₁ = _ from k2)]
      rfl
    have ho' : h'[i]? = some o := prefix_get k5 ho
    refine ⟨a ++ b, h'.set i { o with entries := some (a ++ b) }, g', ?_, ?_,
      (Ext.of_prefix k4 k5).trans (.set ho' fun _ h => h), k6⟩
    · exact (HM.bind_ok hd).trans ((HM.bind_ok (hObj_eq ho')).trans rfl)
    · refine k3.set (prefix_get k4 hg) ⟨fun h => (nomatch h), ?_, hob.fresh, hob.layer⟩
      rintro es ⟨⟩
      exact k6

/-! ### Pointers -/

/-- What is assumed about the recursive calls of `get_pointer`. -/
def GPok (E : Env C) (rd : C → Option (NodeData C)) (L : Nat) (gp : Nat → HM C C) : Prop :=
  ∀ M c j h g, L = M + 1 → HInv E rd h g → g[j]? = some (M, c) → WF E.zeros M c → ValidKeys c →
    ∃ h' g', gp j h = (.ok (cidOf E.H c), h') ∧ HInv E rd h' g' ∧ Ext h g h' g'

theorem hEnsureValidKey_ok {k : Key} (hk : validKey k = true) (h : Heap C) : hEnsureValidKey k h = (.ok (), h) := by
  unfold hEnsureValidKey
  rw [if_pos hk]
  rfl

theorem hSerializeEntries_spec {L : Nat} {gp : Nat → HM C C} (hgp : GPok E rd L gp) : ∀ {t : Tree C} {last : Key}
    {h : Heap C} {g : Ghost C} {es : List (HEnt C)}, HInv E rd h g → HEs E g L t es → WF E.zeros L t → ValidKeys t →
    ¬ startsSub t → ∃ h' g', hSerializeEntries gp last es h = (.ok ((ser E.H t).2 last), h') ∧ HInv E rd h' g' ∧ Ext h g h' g'
  | nil, last, h, g, es, hi, hes, _, _, _ => by
    cases hes
    exact ⟨h, g, rfl, hi, Ext.refl _ _⟩
  | sub c r, _, _, _, _, _, _, _, _, hn => absurd trivial hn
  | leaf k v nil, last, h, g, es, hi, hes, hw, hv, _ => by
    obtain ⟨_, es', rfl, h2⟩ := hes
    cases h2
    refine ⟨h, g, ?_, hi, Ext.refl _ _⟩
    unfold hSerializeEntries
    rw [HM.bind_ok (hEnsureValidKey_ok (hv (k, v) (by simp [leaves])) h)]
    rfl
  | leaf k v (leaf k' v' r), last, h, g, es, hi, hes, hw, hv, _ => by
    obtain ⟨_, es', rfl, h2⟩ := hes
    obtain ⟨h', g', k1, k2, k3⟩ := hSerializeEntries_spec hgp (last := k) hi h2 hw.2
      (fun kv hk => hv kv (by simp only [leaves, List.mem_cons] at hk ⊢; exact .inr hk)) (fun h => h)
    obtain ⟨_, es'', rfl, _⟩ := h2
    refine ⟨h', g', ?_, k2, k3⟩
    unfold hSerializeEntries
    rw [HM.bind_ok (hEnsureValidKey_ok (hv (k, v) (by simp [leaves])) h), HM.bind_ok k1]
    rfl
  | leaf k v (sub c r), last, h, g, es, hi, hes, hw, hv, _ => by
    obtain ⟨_, es', rfl, M, j, es'', rfl, hc, rfl, hj, h2⟩ := hes
    obtain ⟨hz, M', hM, _, hwc, hns, hwr⟩ := (show _ ∧ _ from ⟨hw.1, WF_sub.1 hw.2⟩)
    obtain rfl : M = M' := by omega
    obtain ⟨h₁, g₁, k1, k2, k3⟩ := hgp M c j h g rfl hi hj hwc
      (fun kv hk => hv kv (by simp only [leaves, List.mem_cons, List.mem_append]; exact .inr (.inl hk)))
    obtain ⟨h', g', m1, m2, m3⟩ := hSerializeEntries_spec hgp (last := k) k2 (h2.mono k3.pre) hwr
      (fun kv hk => hv kv (by simp only [leaves, List.mem_cons, List.mem_append]; exact .inr (.inr hk))) hns
    refine ⟨h', g', ?_, m2, k3.trans m3⟩
    unfold hSerializeEntries
    rw [HM.bind_ok k1, HM.bind_ok (hEnsureValidKey_ok (hv (k, v) (by simp [leaves])) h₁), HM.bind_ok m1]
    rfl

theorem hSerializeNodeData_spec {L : Nat} {gp : Nat → HM C C} (hgp : GPok E rd L gp) {t : Tree C} {h : Heap C}
    {g : Ghost C} {es : List (HEnt C)} (hi : HInv E rd h g) (hes : HEs E g L t es) (hw : WF E.zeros L t)
    (hv : ValidKeys t) :
    ∃ h' g', hSerializeNodeData gp es h = (.ok (nodeOf E.H t), h') ∧ HInv E rd h' g' ∧ Ext h g h' g' := by
  have hleaf : ¬ startsSub t → (∀ i r, es ≠ .tree i :: r) → (ser E.H t).1 = none →
      ∃ h' g', hSerializeNodeData gp es h = (.ok (nodeOf E.H t), h') ∧ HInv E rd h' g' ∧ Ext h g h' g' := by
    intro hn hne hs
    obtain ⟨h', g', k1, k2, k3⟩ := hSerializeEntries_spec hgp (last := []) hi hes hw hv hn
    refine ⟨h', g', ?_, k2, k3⟩
    unfold hSerializeNodeData
    split
    · next i r => exact absurd rfl (hne i r)
    · rw [HM.bind_ok k1]
      unfold nodeOf
      rw [hs]
      rfl
  cases t with
  | nil => cases hes; exact hleaf (fun h => h) (fun _ _ h => (nomatch h)) rfl
  | leaf k v r => obtain ⟨_, es', rfl, _⟩ := hes; exact hleaf (fun h => h) (fun _ _ h => (nomatch h)) rfl
  | sub c r =>
    obtain ⟨M, j, es', rfl, hc, rfl, hj, h2⟩ := hes
    obtain ⟨M', hM, _, hwc, hns, hwr⟩ := WF_sub.1 hw
    obtain rfl : M = M' := by omega
    obtain ⟨h₁, g₁, k1, k2, k3⟩ := hgp M c j h g rfl hi hj hwc (fun kv hk => hv kv (by simp [leaves, hk]))
    obtain ⟨h', g', m1, m2, m3⟩ := hSerializeEntries_spec hgp (last := []) k2 (h2.mono k3.pre) hwr
      (fun kv hk => hv kv (by simp [leaves, hk])) hns
    refine ⟨h', g', ?_, m2, k3.trans m3⟩
    unfold hSerializeNodeData
    exact (HM.bind_ok k1).trans ((HM.bind_ok m1).trans rfl)

theorem hForcePointers_spec {L : Nat} {gp : Nat → HM C C} (hgp : GPok E rd L gp) : ∀ {t : Tree C}
    {h : Heap C} {g : Ghost C} {es : List (HEnt C)}, HInv E rd h g → HEs E g L t es → WF E.zeros L t → ValidKeys t →
    ∃ h' g', hForcePointers gp es h = (.ok (), h') ∧ HInv E rd h' g' ∧ Ext h g h' g'
  | nil, h, g, es, hi, hes, _, _ => by
    cases hes
    exact ⟨h, g, rfl, hi, Ext.refl _ _⟩
  | leaf k v r, h, g, es, hi, hes, hw, hv => by
    obtain ⟨_, es', rfl, h2⟩ := hes
    unfold hForcePointers
    exact hForcePointers_spec hgp hi h2 hw.2 (fun kv hk => hv kv (by simp [leaves, hk]))
  | sub c r, h, g, es, hi, hes, hw, hv => by
    obtain ⟨M, j, es', rfl, hc, rfl, hj, h2⟩ := hes
    obtain ⟨M', hM, _, hwc, hns, hwr⟩ := WF_sub.1 hw
    obtain rfl : M = M' := by omega
    obtain ⟨o, ho, _⟩ := hi.get hj
    have hvr : ValidKeys r := fun kv hk => hv kv (by simp [leaves, hk])
    unfold hForcePointers
    rw [HM.bind_ok (hObj_eq ho)]
    cases hou : o.outdated with
    | false => exact hForcePointers_spec hgp hi h2 hwr hvr
    | true =>
      obtain ⟨h₁, g₁, k1, k2, k3⟩ := hgp M c j h g rfl hi hj hwc (fun kv hk => hv kv (by simp [leaves, hk]))
      obtain ⟨h', g', m1, m2, m3⟩ := hForcePointers_spec hgp k2 (h2.mono k3.pre) hwr hvr
      refine ⟨h', g', ?_, m2, k3.trans m3⟩
      rw [if_pos rfl, HM.bind_ok k1, m1]

theorem hGetPointer_spec : ∀ {f i L : Nat} {t : Tree C} {h : Heap C} {g : Ghost C}, HInv E rd h g →
    g[i]? = some (L, t) → WF E.zeros L t → ValidKeys t → L + 1 ≤ f →
    ∃ h' g', hGetPointer E rd f i h = (.ok (cidOf E.H t), h') ∧ HInv E rd h' g' ∧ Ext h g h' g'
  | 0, _, _, _, _, _, _, _, _, _, hf => by omega
  | f + 1, i, L, t, h, g, hi, hg, hw, hv, hf => by
    obtain ⟨o, ho, hob⟩ := hi.get hg
    unfold hGetPointer
    rw [HM.bind_ok (hObj_eq ho)]
    cases hou : o.outdated with
    | false =>
      rw [if_neg (by simp)]
      exact ⟨h, g, by rw [(hob.fresh hou).1]; rfl, hi, Ext.refl _ _⟩
    | true =>
      rw [if_pos rfl]
      have hgp : GPok E rd L (hGetPointer E rd f) := fun M c j h g hL hi hg hw hv =>
        hGetPointer_spec hi hg hw hv (by omega)
      obtain ⟨es, h₁, g₁, a1, a2, a3, a4⟩ := hGetEntries_spec hi hg
      obtain ⟨h₂, g₂, b1, b2, b3⟩ := hForcePointers_spec hgp a2 a4 hw hv
      obtain ⟨h₃, g₃, c1, c2, c3⟩ := hSerializeNodeData_spec hgp b2 (a4.mono b3.pre) hw hv
      have hg₃ := c3.get (b3.get (a3.get hg))
      obtain ⟨o', ho', hob'⟩ := c2.get hg₃
      refine ⟨h₃.set i { o' with pointer := E.H (nodeOf E.H t), outdated := false }, g₃, ?_, c2.set hg₃ ?_,
        ((a3.trans b3).trans c3).trans (.set ho' fun _ h => h)⟩
      · rw [HM.bind_ok a1, HM.bind_ok b1, HM.bind_ok c1, HM.bind_ok (hObj_eq ho')]
        rfl
      · exact ⟨fun he => ⟨rfl, (hob'.unloaded he).2⟩, hob'.loaded, fun _ => ⟨rfl, hw, hv⟩, hob'.layer⟩

theorem hGetPointer_gp {f L : Nat} (hf : L ≤ f) : GPok E rd L (hGetPointer E rd f) :=
  fun _ _ _ _ _ hL hi hg hw hv => hGetPointer_spec hi hg hw hv (by omega)

/-! ### Layers -/

theorem hSetLayer_spec {h : Heap C} {g : Ghost C} (hi : HInv E rd h g) {i L : Nat} {t : Tree C}
    (hg : g[i]? = some (L, t)) : ∃ h', hSetLayer i (L : Int) h = (.ok (), h') ∧ HInv E rd h' g ∧ Ext h g h' g ∧
      ∀ o, h'[i]? = some o → o.layer = some (L : Int) := by
  obtain ⟨o, ho, hob⟩ := hi.get hg
  refine ⟨h.set i { o with layer := some (L : Int) }, ?_, hi.set hg ⟨hob.unloaded, hob.loaded, hob.fresh, ?_⟩,
    .set ho fun l hl => by rw [hob.layer l hl], ?_⟩
  · unfold hSetLayer
    rw [HM.bind_ok (hObj_eq ho)]
    rfl
  · rintro l ⟨⟩
    rfl
  · intro o' ho'
    rw [List.getElem?_set_self (by
      rcases Nat.lt_or_ge i h.length with hl | hl
      · exact hl
      · rw [List.getElem?_eq_none hl] at ho; cases ho)] at ho'
    cases ho'
    rfl

theorem HEs.layer {g : Ghost C} {L : Nat} : ∀ {t : Tree C} {es : List (HEnt C)}, HEs E g L t es →
    hLayerForEntries E es = some (L : Int) ∨
      hLayerForEntries E es = none ∧ (t = nil ∧ es = [] ∨ ∃ M c i es', L = M + 1 ∧ c ≠ nil ∧ es = .tree i :: es' ∧
        g[i]? = some (M, c))
  | nil, _, h => by cases h; exact .inr ⟨rfl, .inl ⟨rfl, rfl⟩⟩
  | leaf k v r, _, ⟨hz, es', h1, h2⟩ => by
    subst h1
    left
    simp [hLayerForEntries, hz]
  | sub c r, _, ⟨M, i, es', h0, h1, h2, h3, h4⟩ => by
    subst h2
    rcases h4.layer with h | ⟨h, _⟩
    · exact .inl h
    · exact .inr ⟨h, .inr ⟨M, c, i, es', h0, h1, rfl, h3⟩⟩

theorem hAttemptGetLayer_spec : ∀ {f i L : Nat} {t : Tree C} {h : Heap C} {g : Ghost C}, HInv E rd h g →
    g[i]? = some (L, t) → t ≠ nil → L + 1 ≤ f →
    ∃ h' g', hAttemptGetLayer E rd f i h = (.ok (some (L : Int)), h') ∧ HInv E rd h' g' ∧ Ext h g h' g'
  | 0, _, _, _, _, _, _, _, _, hf => by omega
  | f + 1, i, L, t, h, g, hi, hg, ht, hf => by
    obtain ⟨o, ho, hob⟩ := hi.get hg
    unfold hAttemptGetLayer
    rw [HM.bind_ok (hObj_eq ho)]
    cases hol : o.layer with
    | some l =>
      rw [hob.layer l hol]
      exact ⟨h, g, rfl, hi, Ext.refl _ _⟩
    | none =>
      obtain ⟨es, h₁, g₁, a1, a2, a3, a4⟩ := hGetEntries_spec hi hg
      dsimp only
      rw [HM.bind_ok a1]
      rcases a4.layer with hl | ⟨hl, ⟨h0, _⟩ | ⟨M, c, j, es', hM, hc, rfl, hj⟩⟩
      · obtain ⟨h', b1, b2, b3, _⟩ := hSetLayer_spec a2 (a3.get hg)
        refine ⟨h', g₁, ?_, b2, a3.trans b3⟩
        rw [hl]
        dsimp only
        rw [HM.bind_ok b1]
        rfl
      · exact absurd h0 ht
      · obtain ⟨h₂, g₂, b1, b2, b3⟩ := hAttemptGetLayer_spec (f := f) a2 hj hc (by omega)
        have hch : hChildLayer (hAttemptGetLayer E rd f) (.tree j :: es') h₁ = (.ok (some (L : Int)), h₂) := by
          unfold hChildLayer
          rw [HM.bind_ok b1, hM]
          rfl
        obtain ⟨h', c1, c2, c3, _⟩ := hSetLayer_spec b2 ((a3.trans b3).get hg)
        refine ⟨h', g₂, ?_, c2, (a3.trans b3).trans c3⟩
        rw [hl]
        dsimp only
        rw [HM.bind_ok hch]
        dsimp only
        rw [HM.bind_ok c1]
        rfl

/-- The layer of the object is known: it has entries, or it keeps the layer, or the layer is 0. -/
def LayerKnown (h : Heap C) (i L : Nat) (t : Tree C) : Prop :=
  t = nil → L = 0 ∨ ∀ o, h[i]? = some o → o.layer = some (L : Int)

theorem LayerKnown.mono {h h' : Heap C} {g g' : Ghost C} (hx : Ext h g h' g') (hi : HInv E rd h g) {i L : Nat}
    {t : Tree C} (hg : g[i]? = some (L, t)) (hk : LayerKnown h i L t) : LayerKnown h' i L t := by
  intro ht
  refine (hk ht).imp_right fun h1 o' ho' => ?_
  obtain ⟨o, ho, _⟩ := hi.get hg
  obtain ⟨o₁, k1, k2⟩ := hx.keep i o ho
  rw [ho'] at k1
  cases k1
  exact k2 _ (h1 o ho)

theorem hGetLayer_spec {f i L : Nat} {t : Tree C} {h : Heap C} {g : Ghost C} (hi : HInv E rd h g)
    (hg : g[i]? = some (L, t)) (hk : LayerKnown h i L t) (hf : L + 1 ≤ f) :
    ∃ h' g', hGetLayer E rd f i h = (.ok (L : Int), h') ∧ HInv E rd h' g' ∧ Ext h g h' g' ∧ LayerKnown h' i L t := by
  have hend : ∀ {l : Option Int} {h₁ g₁}, hAttemptGetLayer E rd f i h = (.ok l, h₁) → HInv E rd h₁ g₁ → Ext h g h₁ g₁ →
      l.getD 0 = (L : Int) → ∃ h' g', hGetLayer E rd f i h = (.ok (L : Int), h') ∧ HInv E rd h' g' ∧ Ext h g h' g' ∧
        LayerKnown h' i L t := by
    intro l h₁ g₁ k1 k2 k3 k4
    obtain ⟨h', b1, b2, b3, b4⟩ := hSetLayer_spec k2 (k3.get hg)
    refine ⟨h', g₁, ?_, b2, k3.trans b3, fun _ => .inr b4⟩
    unfold hGetLayer
    rw [HM.bind_ok k1, k4, HM.bind_ok b1]
    rfl
  by_cases ht : t = nil
  · obtain ⟨f, rfl⟩ : ∃ f', f = f' + 1 := ⟨f - 1, by omega⟩
    obtain ⟨o, ho, hob⟩ := hi.get hg
    cases hol : o.layer with
    | some l =>
      refine hend (l := some l) (h₁ := h) ?_ hi (Ext.refl _ _) (hob.layer l hol)
      unfold hAttemptGetLayer
      rw [HM.bind_ok (hObj_eq ho), hol]
      rfl
    | none =>
      rcases hk ht with h0 | h0
      · subst ht
        subst h0
        obtain ⟨es, h₁, g₁, a1, a2, a3, a4⟩ := hGetEntries_spec hi hg
        cases a4
        refine hend (l := none) (h₁ := h₁) ?_ a2 a3 rfl
        unfold hAttemptGetLayer
        rw [HM.bind_ok (hObj_eq ho), hol]
        dsimp only
        rw [HM.bind_ok a1]
        rfl
      · have := h0 o ho
        rw [hol] at this
        cases this
  · obtain ⟨h', g', k1, k2, k3⟩ := hAttemptGetLayer_spec hi hg ht hf
    exact hend k1 k2 k3 rfl

end

end Arroba
