import Verif.Mst.HeapSim2
import Verif.Mst.HeapExec

/-! Helper lemmas for C81: storing; the operations at the level of maps. -/

namespace Arroba

variable {C : Type}

open Arroba.Tree

section
variable {E : Env C} {rd : C → Option (NodeData C)}

/-! ### Blocks to store -/

theorem sim_unstoredKids [DecidableEq C] {L : Nat} {rec : Node C → Except Err (C × List (C × NodeData C))}
    {hrec : Nat → HM C (C × List (C × NodeData C))}
    (hr : ∀ M c n i h g, L = M + 1 → HInv E rd h g → g[i]? = some (M, c) → PN E M c n → WF E.zeros M c → ValidKeys c →
      Sim E rd True h g (rec n) (hrec i) (fun _ _ a y => a = y)) :
    ∀ {t : Tree C} {es : List (Ent C)} {hs : List (HEnt C)} {acc : List (C × NodeData C)} {h : Heap C} {g : Ghost C},
      HInv E rd h g → PEs E L t es → HEs E g L t hs → WF E.zeros L t → ValidKeys t →
      Sim E rd True h g (unstoredKids rec es acc) (hUnstoredKids hrec hs acc) (fun _ _ a y => a = y)
  | nil, es, hs, acc, h, g, hi, h1, h2, _, _ => by
    cases h1
    cases h2
    exact .pure hi rfl
  | leaf k v r, es, hs, acc, h, g, hi, ⟨_, es', h1, h2⟩, ⟨_, hs', h3, h4⟩, hw, hv => by
    subst h1
    subst h3
    unfold unstoredKids hUnstoredKids
    exact sim_unstoredKids hr (t := r) hi h2 h4 hw.2
      (fun kv hk => hv kv (by simp only [leaves, List.mem_cons]; exact .inr hk))
  | sub c r, es, hs, acc, h, g, hi, ⟨M, n, es', h0, h1, h2, h3, h4⟩, ⟨M', i, hs', k0, _, k2, k3, k4⟩, hw, hv => by
    subst h2
    subst k2
    obtain rfl : M = M' := by omega
    obtain ⟨M', hM, _, hwc, _, hwr⟩ := WF_sub.1 hw
    obtain rfl : M = M' := by omega
    unfold unstoredKids hUnstoredKids
    refine (hr M c n i h g h0 hi k3 h3 hwc (fun kv hk => hv kv (by simp only [leaves, List.mem_append]; exact .inl hk))).bind
      fun a y h₁ g₁ hi₁ x₁ ha => ?_
    subst ha
    exact sim_unstoredKids hr hi₁ h4 (k4.mono x₁.pre) hwr
      (fun kv hk => hv kv (by simp only [leaves, List.mem_append]; exact .inr hk))

theorem sim_getUnstoredBlocks [DecidableEq C] : ∀ {f L : Nat} {t : Tree C} {n : Node C} {i : Nat} {h : Heap C} {g : Ghost C},
    HInv E rd h g → g[i]? = some (L, t) → PN E L t n → WF E.zeros L t → ValidKeys t → L + 1 ≤ f →
    Sim E rd True h g (getUnstoredBlocks E rd f n) (hGetUnstoredBlocks E rd f i) (fun _ _ a y => a = y)
  | 0, _, _, _, _, _, _, _, _, _, _, _, hf => by omega
  | f + 1, L, t, n, i, h, g, hi, hg, hn, hw, hv, hf => by
    obtain ⟨h₁, g₁, k1, hi₁, x₁⟩ := hGetPointer_spec hi hg hw hv hf
    unfold getUnstoredBlocks hGetUnstoredBlocks
    have hs1 : Sim E rd True h g (getPointer E rd (f + 1) n) (hGetPointer E rd (f + 1) i)
        (fun _ _ a y => a = cidOf E.H t ∧ y = cidOf E.H t) := by
      rw [getPointer_spec (hn.repr (rd := rd)) hw hv hf]
      exact ⟨fun a ha => by cases ha; exact ⟨_, h₁, g₁, k1, hi₁, x₁, rfl, rfl⟩, fun _ e he => (nomatch he)⟩
    refine hs1.bind fun a y h₁ g₁ hi₁ x₁ ha => ?_
    obtain ⟨rfl, rfl⟩ := ha
    by_cases hst : (rd (cidOf E.H t)).isSome
    · rw [if_pos hst, if_pos hst]
      exact .pure hi₁ rfl
    rw [if_neg hst, if_neg hst]
    obtain ⟨es, e1, e2⟩ := hn.getEntries (rd := rd)
    obtain ⟨hs, h₂, g₂, m1, hi₂, x₂, m2⟩ := hGetEntries_spec hi₁ (x₁.get hg)
    have hs2 : Sim E rd True h₁ g₁ (getEntries E rd n) (hGetEntries E rd i)
        (fun _ g' a y => a = es ∧ y = hs ∧ HEs E g' L t hs) := by
      rw [e1]
      exact ⟨fun a ha => by cases ha; exact ⟨_, h₂, g₂, m1, hi₂, x₂, rfl, rfl, m2⟩, fun _ e he => (nomatch he)⟩
    refine hs2.bind fun a y h₂ g₂ hi₂ x₂ ha => ?_
    obtain ⟨rfl, rfl, hhs⟩ := ha
    obtain ⟨h₃, g₃, n1, hi₃, x₃⟩ := hSerializeNodeData_spec (hGetPointer_gp (f := f) (by omega)) hi₂ hhs hw hv
    have hs3 : Sim E rd True h₂ g₂ (serializeNodeData (getPointer E rd f) a) (hSerializeNodeData (hGetPointer E rd f) y)
        (fun _ _ a y => a = y) := by
      rw [serializeNodeData_spec (fun M hM c m hm hw' hv' => getPointer_spec hm hw' hv' (by omega)) (e2.repr (rd := rd)) hw hv]
      exact ⟨fun a ha => by cases ha; exact ⟨_, h₃, g₃, n1, hi₃, x₃, rfl⟩, fun _ e he => (nomatch he)⟩
    refine hs3.bind fun d d' h₃ g₃ hi₃ x₃ ha => ?_
    subst ha
    refine (sim_unstoredKids (fun M c n i h g hM hi hg hn hw hv => sim_getUnstoredBlocks hi hg hn hw hv (by omega)) hi₃ e2
      (hhs.mono x₃.pre) hw hv).bind fun a y h₄ g₄ hi₄ x₄ ha => ?_
    subst ha
    exact .pure hi₄ rfl

/-! ### A value for each tree -/

/-- The entries of a tree with everything loaded. -/
def fullEs (E : Env C) : Nat → Tree C → List (Ent C)
  | _, nil => []
  | L, leaf k v r => .leaf k v :: fullEs E L r
  | L, sub c r => .tree (.mk (some (fullEs E (L - 1) c)) (cidOf E.H c) (some ((L - 1 : Nat) : Int)) false) :: fullEs E L r

/-- The root of a tree with everything loaded. -/
def fullN (E : Env C) (L : Nat) (t : Tree C) : Node C := .mk (some (fullEs E L t)) (cidOf E.H t) (some (L : Int)) false

theorem fullEs_spec : ∀ {t : Tree C} {L : Nat}, WF E.zeros L t → ValidKeys t → PEs E L t (fullEs E L t)
  | nil, _, _, _ => rfl
  | leaf k v r, L, hw, hv => ⟨hw.1, _, rfl, fullEs_spec hw.2 (fun kv hk => hv kv (by
      simp only [leaves, List.mem_cons]; exact .inr hk))⟩
  | sub c r, L, hw, hv => by
    obtain ⟨M, rfl, hc, hwc, _, hwr⟩ := WF_sub.1 hw
    have hvc : ValidKeys c := fun kv hk => hv kv (by simp only [leaves, List.mem_append]; exact .inl hk)
    exact ⟨M, _, _, rfl, hc, rfl, ⟨⟨fun _ => ⟨rfl, hwc, hvc⟩, fun l hl => (by cases hl; rfl)⟩, _, rfl, fullEs_spec hwc hvc⟩,
      fullEs_spec hwr (fun kv hk => hv kv (by simp only [leaves, List.mem_append]; exact .inr hk))⟩

theorem fullN_spec {t : Tree C} {L : Nat} (hw : WF E.zeros L t) (hv : ValidKeys t) : PN E L t (fullN E L t) :=
  ⟨⟨fun _ => ⟨rfl, hw, hv⟩, fun l hl => (by cases hl; rfl)⟩, _, rfl, fullEs_spec hw hv⟩

theorem PEs.uniq : ∀ {t t' : Tree C} {L L' : Nat} {es : List (Ent C)}, PEs E L t es → ReprEs E rd L' t' es → t = t'
  | nil, nil, _, _, _, _, _ => rfl
  | nil, leaf _ _ _, _, _, _, h, ⟨_, h', _⟩ => by cases h; cases h'
  | nil, sub _ _, _, _, _, h, ⟨_, _, h', _⟩ => by cases h; cases h'
  | leaf _ _ _, nil, _, _, _, ⟨_, _, h, _⟩, h' => by cases h; cases h'
  | sub _ _, nil, _, _, _, ⟨_, _, _, _, _, h, _⟩, h' => by cases h; cases h'
  | leaf _ _ _, sub _ _, _, _, _, ⟨_, _, h, _⟩, ⟨_, _, h', _⟩ => by cases h; cases h'
  | sub _ _, leaf _ _ _, _, _, _, ⟨_, _, _, _, _, h, _⟩, ⟨_, h', _⟩ => by cases h; cases h'
  | leaf k v r, leaf k' v' r', _, _, _, ⟨_, es, h1, h2⟩, ⟨es', h1', h2'⟩ => by
    rw [h1] at h1'
    cases h1'
    rw [h2.uniq h2']
  | sub c r, sub c' r', _, _, _, ⟨M, n, es, _, _, h1, ⟨_, es₂, h3, h4⟩, h5⟩, ⟨n', es', h1', ⟨_, h4'⟩, h5'⟩ => by
    rw [h1] at h1'
    cases h1'
    rw [h5.uniq h5', h4.uniq (h4' _ h3)]

theorem PN.uniq {t t' : Tree C} {L L' : Nat} {n : Node C} (h : PN E L t n) (h' : ReprN E rd L' t' n) : t = t' := by
  obtain ⟨_, es, h1, h2⟩ := h
  exact h2.uniq (h'.2 es h1)

theorem PEs.level : ∀ {t : Tree C} {L L' : Nat} {es : List (Ent C)}, PEs E L t es → WF E.zeros L' t → t ≠ nil → L = L'
  | nil, _, _, _, _, _, h => absurd rfl h
  | leaf _ _ _, _, _, _, ⟨h, _⟩, hw, _ => by rw [← h, hw.1]
  | sub c r, _, _, _, ⟨M, n, es, h0, h1, _, ⟨_, es₂, _, h4⟩, _⟩, hw, _ => by
    obtain ⟨M', h0', _, hwc, _⟩ := WF_sub.1 hw
    rw [h0, h0', h4.level hwc h1]

/-! ### Heaps and stores that grow -/

theorem HInv.store {rd' : C → Option (NodeData C)} (hm : ∀ c d, rd c = some d → rd' c = some d) {h : Heap C} {g : Ghost C}
    (hi : HInv E rd h g) : HInv E rd' h g :=
  ⟨hi.len, fun i o L t ho hg => by
    have := hi.objs i o L t ho hg
    exact ⟨fun he => ⟨(this.unloaded he).1, (this.unloaded he).2.mono hm⟩, this.loaded, this.fresh, this.layer⟩⟩

theorem HEs.lower {g : Ghost C} {j L₀ : Nat} (hj : g[j]? = some (L₀, nil)) : ∀ {t : Tree C} {L : Nat} {es : List (HEnt C)},
    HEs E g L t es → HEs E (g.set j (0, nil)) L t es
  | nil, _, _, h => h
  | leaf _ _ _, _, _, ⟨h0, es', h1, h2⟩ => ⟨h0, es', h1, h2.lower hj⟩
  | sub c r, _, _, ⟨M, i, es', h0, h1, h2, h3, h4⟩ => by
    refine ⟨M, i, es', h0, h1, h2, ?_, h4.lower hj⟩
    by_cases hij : j = i
    · subst hij
      rw [hj] at h3
      cases h3
      exact absurd rfl h1
    · rw [List.getElem?_set_ne hij]
      exact h3

/-- An empty object that doesn't know its layer can be taken to be on layer 0. -/
theorem HInv.lower {h : Heap C} {g : Ghost C} (hi : HInv E rd h g) {j L : Nat} {o : Obj C} (hj : g[j]? = some (L, nil))
    (ho : h[j]? = some o) (hl : o.layer = none) : HInv E rd h (g.set j (0, nil)) := by
  refine ⟨by rw [List.length_set]; exact hi.len, fun i o' L' t ho' hg => ?_⟩
  by_cases hij : j = i
  · subst hij
    rw [ho] at ho'
    cases ho'
    have hlt : j < g.length := by
      rcases Nat.lt_or_ge j g.length with h | h
      · exact h
      · rw [List.getElem?_eq_none h] at hj; cases hj
    rw [List.getElem?_set_self hlt] at hg
    cases hg
    have := hi.objs j o L nil ho hj
    exact ⟨this.unloaded, fun es he => (this.loaded es he), fun he => ⟨(this.fresh he).1, trivial, (this.fresh he).2.2⟩,
      fun l h => by rw [hl] at h; cases h⟩
  · rw [List.getElem?_set_ne hij] at hg
    have := hi.objs i o' L' t ho' hg
    exact ⟨this.unloaded, fun es he => (this.loaded es he).lower hj, this.fresh, this.layer⟩

/-! ### Versions -/

/-- The object is a version of a tree with the contents `m`; it stands for `t`. -/
structure Ver (E : Env C) (Z : Nat) (h : Heap C) (g : Ghost C) (i : Nat) (L : Nat) (t : Tree C) (m : Key → Option C) :
    Prop where
  ghost : g[i]? = some (L, t)
  known : LayerKnown h i L t
  wf : WF E.zeros L t
  sorted : Sorted t
  valid : ValidKeys t
  bound : L ≤ Z
  map : dictGet (leaves t) = m

theorem Ver.mono {Z : Nat} {h h' : Heap C} {g g' : Ghost C} (hx : Ext h g h' g') (hi : HInv E rd h g) {i L : Nat}
    {t : Tree C} {m : Key → Option C} (hv : Ver E Z h g i L t m) : Ver E Z h' g' i L t m :=
  ⟨hx.get hv.ghost, hv.known.mono hx hi hv.ghost, hv.wf, hv.sorted, hv.valid, hv.bound, hv.map⟩

theorem Ver.inv {Z : Nat} {h : Heap C} {g : Ghost C} {i L : Nat} {t : Tree C} {m : Key → Option C}
    (hv : Ver E Z h g i L t m) : PN E L t (fullN E L t) ∧ Inv E rd Z L t (fullN E L t) m :=
  have hp := fullN_spec hv.wf hv.valid
  ⟨hp, hp.repr, hv.wf, hv.sorted, hv.valid, fun _ => rfl, hv.bound, hv.map⟩

theorem leaves_zeros {t : Tree C} : ∀ {L : Nat} {kv : Key × C}, WF E.zeros L t → kv ∈ leaves t → E.zeros kv.1 ≤ L := by
  induction t with
  | nil => intro L k _ h; cases h
  | leaf k' v r ih =>
    intro L kv hw h
    simp only [leaves, List.mem_cons] at h
    rcases h with rfl | h
    · rw [hw.1]
    · exact ih hw.2 h
  | sub c r ihc ihr =>
    intro L kv hw h
    obtain ⟨M, rfl, _, hwc, _, hwr⟩ := WF_sub.1 hw
    simp only [leaves, List.mem_append] at h
    rcases h with h | h
    · have := ihc hwc h; omega
    · exact ihr hwr h

theorem dictGet_zeros {t : Tree C} {L : Nat} {k : Key} (hw : WF E.zeros L t) (h : dictGet (leaves t) k ≠ none) :
    E.zeros k ≤ L := by
  cases hd : dictGet (leaves t) k with
  | none => exact absurd hd h
  | some v => exact leaves_zeros hw (dictGet_mem hd)

theorem hApplyOp_spec {Z : Nat} (hZ : ∀ k, E.zeros k ≤ Z) {fuel : Nat} (hf : Z + 2 ≤ fuel) {h : Heap C} {g : Ghost C}
    (hi : HInv E rd h g) {i L : Nat} {t : Tree C} {m : Key → Option C} (hv : Ver E Z h g i L t m) (op : Op C) :
    match (specStep m op).2 with
    | some e => ∃ h' g', hApplyOp E rd fuel i op h = (.error e, h') ∧ HInv E rd h' g' ∧ Ext h g h' g'
    | none => ∃ j h' g' L' t', hApplyOp E rd fuel i op h = (.ok j, h') ∧ HInv E rd h' g' ∧
        Ver E Z h' g' j L' t' (specStep m op).1 ∧
        ∀ i' L₁ t₁ m₁, Ver E Z h g i' L₁ t₁ m₁ → Ver E Z h' g' i' L₁ t₁ m₁ := by
  obtain ⟨hp, hI⟩ := hv.inv (rd := rd)
  have hN : NR E g L (fullN E L t) i := ⟨t, hp, hv.ghost⟩
  have hs := hI.step hZ hf op
  have hb := hv.bound
  have hsim : Sim E rd ((specStep m op).2 ≠ none) h g (applyOp E rd fuel (fullN E L t) op) (hApplyOp E rd fuel i op)
      (fun _ g' n j => ∃ M, M ≤ Z ∧ NR E g' M n j) := by
    cases op with
    | add k v =>
      have hzk := hZ k
      refine (sim_add hi hv.ghost hp hv.known (fun _ => rfl) (.inl rfl) (by omega) (by omega)).imp ?_
        fun _ _ _ _ hn => ⟨_, by omega, hn.nr⟩
      intro hne
      simp only [specStep] at hne
      split at hne
      · next h => exact .inr h
      · split at hne
        · next h =>
          rw [← hv.map] at h
          exact .inl (dictGet_zeros hv.wf h)
        · exact absurd rfl hne
    | update k v => exact (sim_update hi hN).imp id fun _ _ _ _ hn => ⟨_, by omega, hn.nr⟩
    | delete k => exact (sim_delete hi hN (by omega)).imp id fun _ _ _ _ ⟨M, h1, h2⟩ => ⟨M, by omega, h2⟩
  have herr : ∀ e, (specStep m op).2 = some e → e = .value ∨ e = .key := by
    intro e he
    cases op with
    | add k v =>
      simp only [specStep] at he
      split at he
      · cases he; exact .inl rfl
      · split at he
        · cases he; exact .inl rfl
        · cases he
    | update k v =>
      simp only [specStep] at he
      split at he
      · cases he; exact .inl rfl
      · split at he
        · cases he; exact .inr rfl
        · cases he
    | delete k =>
      simp only [specStep] at he
      split at he
      · cases he; exact .inr rfl
      · cases he
  cases he : (specStep m op).2 with
  | some e =>
    rw [he] at hs
    exact hsim.2 (by rw [he]; exact fun h => (nomatch h)) e hs.1 (herr e he)
  | none =>
    rw [he] at hs
    obtain ⟨n', t', L', k1, k2, _⟩ := hs
    obtain ⟨j, h', g', m1, hi', x', M, hM, t₂, hp₂, hg₂⟩ := hsim.1 n' k1
    obtain rfl := hp₂.uniq k2.repr
    by_cases ht : t₂ = nil
    · subst ht
      obtain ⟨o, ho, hob⟩ := hi'.get hg₂
      cases hol : o.layer with
      | some l =>
        refine ⟨j, h', g', M, nil, m1, hi', ⟨hg₂, fun _ => .inr fun o' ho' => ?_, trivial, k2.sorted, k2.valid, hM, k2.map⟩,
          fun i' L₁ t₁ m₁ hv' => hv'.mono x' hi⟩
        rw [ho] at ho'
        cases ho'
        rw [hol, hob.layer l hol]
      | none =>
        have hlt : j < g'.length := by
          rcases Nat.lt_or_ge j g'.length with h | h
          · exact h
          · rw [List.getElem?_eq_none h] at hg₂; cases hg₂
        refine ⟨j, h', g'.set j (0, nil), 0, nil, m1, hi'.lower hg₂ ho hol, ⟨List.getElem?_set_self hlt, fun _ => .inl rfl,
          trivial, k2.sorted, k2.valid, by omega, k2.map⟩, fun i' L₁ t₁ m₁ hv' => ?_⟩
        have hw := hv'.mono x' hi
        refine ⟨?_, hw.known, hw.wf, hw.sorted, hw.valid, hw.bound, hw.map⟩
        by_cases hij : j = i'
        · subst hij
          have hgg := hw.ghost
          rw [hg₂] at hgg
          cases hgg
          rcases hw.known rfl with h0 | h0
          · rw [h0]
            exact List.getElem?_set_self hlt
          · have := h0 o ho
            rw [hol] at this
            cases this
        · rw [List.getElem?_set_ne hij]
          exact hw.ghost
    · obtain ⟨_, es, _, hes⟩ := hp₂
      obtain rfl := hes.level k2.wf ht
      exact ⟨j, h', g', M, t₂, m1, hi', ⟨hg₂, fun h => absurd h ht, k2.wf, k2.sorted, k2.valid, hM, k2.map⟩,
          fun i' L₁ t₁ m₁ hv' => hv'.mono x' hi⟩

theorem hGet_spec {Z : Nat} {fuel : Nat} (hf : Z + 2 ≤ fuel) {h : Heap C} {g : Ghost C}
    (hi : HInv E rd h g) {i L : Nat} {t : Tree C} {m : Key → Option C} (hv : Ver E Z h g i L t m) (k : Key) :
    ∃ h' g', hGet E rd fuel i k h = (.ok (m k), h') ∧ HInv E rd h' g' ∧ Ext h g h' g' := by
  obtain ⟨hp, hI⟩ := hv.inv (rd := rd)
  have hb := hv.bound
  obtain ⟨y, h', g', k1, k2, k3, rfl⟩ := (sim_get (b := True) (f := fuel) (key := k) hi ⟨t, hp, hv.ghost⟩).1 _
    (get_spec hI.repr hv.wf hv.sorted (by omega))
  rw [← hv.map]
  exact ⟨h', g', k1, k2, k3⟩

theorem hUnstored_spec [DecidableEq C] {Z : Nat} {fuel : Nat} (hf : Z + 2 ≤ fuel) {h : Heap C} {g : Ghost C}
    (hi : HInv E rd h g) {i L : Nat} {t : Tree C} {m : Key → Option C} (hv : Ver E Z h g i L t m) :
    ∃ bl h' g', hGetUnstoredBlocks E rd fuel i h = (.ok (cidOf E.H t, bl), h') ∧ UnstoredOf E rd (nodes t) bl ∧
      HInv E rd h' g' ∧ Ext h g h' g' := by
  obtain ⟨hp, hI⟩ := hv.inv (rd := rd)
  have hb := hv.bound
  obtain ⟨bl, k1, k2⟩ := getUnstoredBlocks_spec hI.repr hv.wf hv.valid (f := fuel) (by omega)
  obtain ⟨y, h', g', m1, m2, m3, rfl⟩ := (sim_getUnstoredBlocks (f := fuel) hi hv.ghost hp hv.wf hv.valid (by omega)).1 _ k1
  exact ⟨bl, h', g', m1, k2, m2, m3⟩

/-! ### Programs -/

/-- All versions stand for their maps. -/
structure VInv (E : Env C) (Z : Nat) (s : VState C) (g : Ghost C) : Prop where
  store : StoreOK E s.rd
  heap : HInv E s.rd s.heap g
  vers : ∀ i ops, (i, ops) ∈ s.versions → ∃ L t, Ver E Z s.heap g i L t (specRun ops).1

/-- The versions of `s` stand for the same trees later. -/
def Keeps (E : Env C) (Z : Nat) (s : VState C) (g : Ghost C) (s' : VState C) (g' : Ghost C) : Prop :=
  (∀ x ∈ s.versions, x ∈ s'.versions) ∧
    ∀ i L t m, Ver E Z s.heap g i L t m → Ver E Z s'.heap g' i L t m

theorem Keeps.same {Z : Nat} {s : VState C} {g g' : Ghost C} (hv : VInv E Z s g) {rd' : C → Option (NodeData C)}
    (hs : StoreOK E rd') {h' : Heap C}
    (hi : HInv E rd' h' g') (hx : Ext s.heap g h' g') : ∃ g', VInv E Z ⟨rd', h', s.versions⟩ g' ∧
      Keeps E Z s g ⟨rd', h', s.versions⟩ g' :=
  ⟨g', ⟨hs, hi, fun i ops hm => let ⟨L, t, k⟩ := hv.vers i ops hm; ⟨L, t, k.mono hx hv.heap⟩⟩, fun _ h => h,
    fun _ _ _ _ k => k.mono hx hv.heap⟩

theorem VStep.inv [DecidableEq C] (hinj : Function.Injective E.H) {Z : Nat} (hZ : ∀ k, E.zeros k ≤ Z) {fuel : Nat}
    (hf : Z + 2 ≤ fuel) {s s' : VState C} (h : VStep E fuel s s') {g : Ghost C} (hv : VInv E Z s g) :
    ∃ g', VInv E Z s' g' ∧ Keeps E Z s g s' g' := by
  induction h with
  | @create i h' hc =>
    obtain ⟨h₁, g₁, k1, k2, k3, k4, k5⟩ := hCreate_nil hv.heap (f := fuel) (L := 0) (layer := none) (fun _ h => (nomatch h))
    rw [k1] at hc
    cases hc
    refine ⟨g₁, ⟨hv.store, k2, fun i ops hm => ?_⟩, fun _ h => .tail _ h, fun _ _ _ _ k => k.mono k3 hv.heap⟩
    rcases List.mem_cons.1 hm with h | h
    · cases h
      exact ⟨0, nil, k4, fun _ => .inl rfl, trivial, List.Pairwise.nil, (fun _ h => (nomatch h)), Nat.zero_le _, rfl⟩
    · obtain ⟨L, t, k⟩ := hv.vers i ops h
      exact ⟨L, t, k.mono k3 hv.heap⟩
  | @ok i ops op j h' hm ha =>
    obtain ⟨L, t, k⟩ := hv.vers i ops hm
    have := hApplyOp_spec hZ hf hv.heap k op
    cases he : (specStep (specRun ops).1 op).2 with
    | some e =>
      rw [he] at this
      obtain ⟨h₁, g₁, k1, _⟩ := this
      rw [ha] at k1
      cases k1
    | none =>
      rw [he] at this
      obtain ⟨j', h₁, g₁, L', t', k1, k2, k3, k4⟩ := this
      rw [ha] at k1
      cases k1
      refine ⟨g₁, ⟨hv.store, k2, fun i' ops' hm' => ?_⟩, fun _ h => .tail _ h, k4⟩
      rcases List.mem_cons.1 hm' with h | h
      · cases h
        rw [specRun_snoc]
        exact ⟨L', t', k3⟩
      · obtain ⟨L, t, k⟩ := hv.vers i' ops' h
        exact ⟨L, t, k4 _ _ _ _ k⟩
  | @fail i ops op e h' hm ha =>
    obtain ⟨L, t, k⟩ := hv.vers i ops hm
    have := hApplyOp_spec hZ hf hv.heap k op
    cases he : (specStep (specRun ops).1 op).2 with
    | some e =>
      rw [he] at this
      obtain ⟨h₁, g₁, k1, k2, k3⟩ := this
      rw [ha] at k1
      cases k1
      exact Keeps.same hv hv.store k2 k3
    | none =>
      rw [he] at this
      obtain ⟨j', h₁, g₁, L', t', k1, _⟩ := this
      rw [ha] at k1
      cases k1
  | @get i ops k r h' hm hg =>
    obtain ⟨L, t, kv⟩ := hv.vers i ops hm
    obtain ⟨h₁, g₁, k1, k2, k3⟩ := hGet_spec hf hv.heap kv k
    rw [hg] at k1
    cases k1
    exact Keeps.same hv hv.store k2 k3
  | @pointer i ops r h' hm hg =>
    obtain ⟨L, t, kv⟩ := hv.vers i ops hm
    have hb := kv.bound
    obtain ⟨h₁, g₁, k1, k2, k3⟩ := hGetPointer_spec (f := fuel) hv.heap kv.ghost kv.wf kv.valid (by omega)
    rw [hg] at k1
    cases k1
    exact Keeps.same hv hv.store k2 k3
  | @layer i ops r h' hm hg =>
    obtain ⟨L, t, kv⟩ := hv.vers i ops hm
    have hb := kv.bound
    obtain ⟨h₁, g₁, k1, k2, k3, _⟩ := hGetLayer_spec (f := fuel) hv.heap kv.ghost kv.known (by omega)
    rw [hg] at k1
    cases k1
    exact Keeps.same hv hv.store k2 k3
  | @entries i r h' hl hg =>
    rw [hv.heap.len] at hl
    obtain ⟨es, h₁, g₁, k1, k2, k3, _⟩ := hGetEntries_spec hv.heap (i := i) (L := (g[i]).1) (t := (g[i]).2)
      (List.getElem?_eq_getElem hl)
    rw [hg] at k1
    cases k1
    exact Keeps.same hv hv.store k2 k3
  | @store rd' hs hm => exact Keeps.same hv hs (hv.heap.store hm) (.refl _ _)
  | @persist i ops c bl h' hm hg =>
    obtain ⟨L, t, kv⟩ := hv.vers i ops hm
    obtain ⟨bl', h₁, g₁, k1, k2, k3, k4⟩ := hUnstored_spec hf hv.heap kv
    rw [hg] at k1
    cases k1
    obtain ⟨_, m1, m2⟩ := writeBlocks_stored hinj hv.store (WF_nodes kv.wf) k2
    exact Keeps.same hv m1 (k3.store m2) k4
  | @load i ops c h' j h'' hm hg hs hl =>
    obtain ⟨L, t, kv⟩ := hv.vers i ops hm
    have hb := kv.bound
    obtain ⟨h₁, g₁, k1, k2, k3⟩ := hGetPointer_spec (f := fuel) hv.heap kv.ghost kv.wf kv.valid (by omega)
    rw [hg] at k1
    cases k1
    cases hl
    have hstd := hv.store.stored hinj kv.wf hs
    have hfin : ∀ L', L' ≤ Z → WF E.zeros L' t → (t = nil → L' = 0) →
        ∃ g', VInv E Z ⟨s.rd, h' ++ [⟨none, cidOf E.H t, none, false⟩], (h'.length, ops) :: s.versions⟩ g' ∧
          Keeps E Z s g ⟨s.rd, h' ++ [⟨none, cidOf E.H t, none, false⟩], (h'.length, ops) :: s.versions⟩ g' := by
      intro L' hL' hw' ht'
      obtain ⟨n1, n2⟩ := k2.alloc (L := L') (t := t) (o := ⟨none, cidOf E.H t, none, false⟩)
        ⟨fun _ => ⟨rfl, hstd⟩, fun _ h => (nomatch h), fun _ => ⟨rfl, hw', kv.valid⟩, fun _ h => (nomatch h)⟩
      have x := k3.trans (.of_prefix (List.prefix_append g₁ [(L', t)]) (List.prefix_append h' [⟨none, cidOf E.H t, none, false⟩]))
      refine ⟨_, ⟨hv.store, n1, fun i' ops' hm' => ?_⟩, fun _ h => .tail _ h, fun _ _ _ _ k => k.mono x hv.heap⟩
      rcases List.mem_cons.1 hm' with h | h
      · cases h
        exact ⟨L', t, n2, fun h => .inl (ht' h), hw', kv.sorted, kv.valid, hL', kv.map⟩
      · obtain ⟨L, t, k⟩ := hv.vers i' ops' h
        exact ⟨L, t, k.mono x hv.heap⟩
    by_cases ht : t = nil
    · exact hfin 0 (Nat.zero_le _) (by rw [ht]; trivial) (fun _ => rfl)
    · exact hfin L hb kv.wf (fun h => absurd h ht)

theorem VSteps.inv [DecidableEq C] (hinj : Function.Injective E.H) {Z : Nat} (hZ : ∀ k, E.zeros k ≤ Z) {fuel : Nat}
    (hf : Z + 2 ≤ fuel) {s s' : VState C} (h : Relation.ReflTransGen (VStep E fuel) s s') {g : Ghost C}
    (hv : VInv E Z s g) : ∃ g', VInv E Z s' g' ∧ Keeps E Z s g s' g' := by
  induction h with
  | refl => exact ⟨g, hv, fun _ h => h, fun _ _ _ _ h => h⟩
  | tail _ h ih =>
    obtain ⟨g₁, h1, h2⟩ := ih
    obtain ⟨g₂, h3, h4⟩ := h.inv hinj hZ hf h1
    exact ⟨g₂, h3, fun x hx => h4.1 x (h2.1 x hx), fun i L t m k => h4.2 _ _ _ _ (h2.2 _ _ _ _ k)⟩

theorem VReach.inv [DecidableEq C] (hinj : Function.Injective E.H) {Z : Nat} (hZ : ∀ k, E.zeros k ≤ Z) {fuel : Nat}
    (hf : Z + 2 ≤ fuel) {s : VState C} (h : VReach E fuel s) : ∃ g, VInv E Z s g := by
  obtain ⟨rd, hs, h⟩ := h
  obtain ⟨g, h1, _⟩ := VSteps.inv hinj hZ hf h (g := []) ⟨hs, ⟨rfl, fun i o L t h => (nomatch h)⟩, fun _ _ h => (nomatch h)⟩
  exact ⟨g, h1⟩

end

end Arroba
