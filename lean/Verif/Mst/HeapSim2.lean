import Verif.Mst.HeapSim

/-! Helper lemmas for C81: adding, serialising and storing. -/

namespace Arroba

variable {C : Type}

open Arroba.Tree

section
variable {E : Env C} {rd : C → Option (NodeData C)}

/-! ### If values can be serialised, then they stand for well-formed trees -/

theorem validKey_of_ensure {k : Key} {u : Unit} (h : ensureValidKey k = .ok u) : validKey k = true := by
  unfold ensureValidKey at h
  split at h
  · assumption
  · cases h

theorem serializeEntries_ok {L : Nat} {gp : Node C → Except Err C}
    (hgp : ∀ M c m p, L = M + 1 → PN E M c m → gp m = .ok p → WF E.zeros M c ∧ ValidKeys c ∧ p = cidOf E.H c) :
    ∀ {t : Tree C} {last : Key} {es : List (Ent C)} {d : List (EntryData C)}, PEs E L t es →
      serializeEntries gp last es = .ok d →
      ¬ startsSub t ∧ WF E.zeros L t ∧ ValidKeys t ∧ d = (ser E.H t).2 last
  | nil, last, es, d, h, hd => by
    cases h
    cases hd
    exact ⟨fun h => h, trivial, (fun _ h => (nomatch h)), rfl⟩
  | sub c r, last, es, d, h, hd => by
    obtain ⟨M, n, es', h0, h1, rfl, h3, h4⟩ := h
    cases hd
  | leaf k v nil, last, es, d, h, hd => by
    obtain ⟨hz, es', rfl, rfl⟩ := h
    unfold serializeEntries at hd
    obtain ⟨_, k1, k2⟩ := bind_ok hd
    cases k2
    refine ⟨fun h => h, ⟨hz, trivial⟩, ?_, rfl⟩
    intro kv hk
    simp only [leaves, List.mem_singleton] at hk
    subst hk
    exact validKey_of_ensure k1
  | leaf k v (leaf k' v' r), last, es, d, h, hd => by
    obtain ⟨hz, es', rfl, h2⟩ := h
    have h2' := h2
    obtain ⟨hz', es'', rfl, h3⟩ := h2
    unfold serializeEntries at hd
    obtain ⟨_, k1, k2⟩ := bind_ok hd
    obtain ⟨d', k3, k4⟩ := bind_ok k2
    obtain ⟨_, m2, m3, rfl⟩ := serializeEntries_ok hgp h2' k3
    cases k4
    refine ⟨fun h => h, ⟨hz, m2⟩, ?_, rfl⟩
    intro kv hk
    simp only [leaves, List.mem_cons] at hk
    rcases hk with rfl | hk
    · exact validKey_of_ensure k1
    · exact m3 kv (by simp only [leaves, List.mem_cons]; exact hk)
  | leaf k v (sub c r), last, es, d, h, hd => by
    obtain ⟨hz, es', rfl, M, n, es'', h0, h1, rfl, h3, h4⟩ := h
    unfold serializeEntries at hd
    obtain ⟨p, k1, k2⟩ := bind_ok hd
    obtain ⟨_, k3, k4⟩ := bind_ok k2
    obtain ⟨d', k5, k6⟩ := bind_ok k4
    obtain ⟨m1, m2, m3, rfl⟩ := serializeEntries_ok hgp h4 k5
    obtain ⟨n1, n2, rfl⟩ := hgp M c n p h0 h3 k1
    cases k6
    refine ⟨fun h => h, ⟨hz, WF_sub.2 ⟨M, h0, h1, n1, m1, m2⟩⟩, ?_, rfl⟩
    intro kv hk
    simp only [leaves, List.mem_cons, List.mem_append] at hk
    rcases hk with rfl | hk | hk
    · exact validKey_of_ensure k3
    · exact n2 kv hk
    · exact m3 kv hk

theorem serializeNodeData_ok {L : Nat} {gp : Node C → Except Err C}
    (hgp : ∀ M c m p, L = M + 1 → PN E M c m → gp m = .ok p → WF E.zeros M c ∧ ValidKeys c ∧ p = cidOf E.H c)
    {t : Tree C} {es : List (Ent C)} {d : NodeData C} (h : PEs E L t es) (hd : serializeNodeData gp es = .ok d) :
    WF E.zeros L t ∧ ValidKeys t ∧ d = nodeOf E.H t := by
  cases t with
  | sub c r =>
    obtain ⟨M, n, es', h0, h1, rfl, h3, h4⟩ := h
    unfold serializeNodeData at hd
    obtain ⟨p, k1, k2⟩ := bind_ok hd
    obtain ⟨d', k3, k4⟩ := bind_ok k2
    obtain ⟨m1, m2, m3, rfl⟩ := serializeEntries_ok hgp h4 k3
    obtain ⟨n1, n2, rfl⟩ := hgp M c n p h0 h3 k1
    cases k4
    refine ⟨WF_sub.2 ⟨M, h0, h1, n1, m1, m2⟩, ?_, rfl⟩
    intro kv hk
    simp only [leaves, List.mem_append] at hk
    exact hk.elim (n2 kv) (m3 kv)
  | nil =>
    cases h
    cases hd
    exact ⟨trivial, (fun _ h => (nomatch h)), rfl⟩
  | leaf k v r =>
    have h' := h
    obtain ⟨hz, es', rfl, h2⟩ := h'
    unfold serializeNodeData at hd
    obtain ⟨d', k1, k2⟩ := bind_ok hd
    obtain ⟨m1, m2, m3, rfl⟩ := serializeEntries_ok hgp h k1
    cases k2
    exact ⟨m2, m3, rfl⟩

theorem getPointer_ok : ∀ {f L : Nat} {t : Tree C} {n : Node C} {p : C}, PN E L t n → getPointer E rd f n = .ok p →
    WF E.zeros L t ∧ ValidKeys t ∧ p = cidOf E.H t
  | 0, _, _, _, _, _, h => by cases h
  | f + 1, L, t, n, p, hn, h => by
    unfold getPointer at h
    split at h
    · obtain ⟨es, k1, k2⟩ := bind_ok h
      obtain ⟨_, _, k4⟩ := bind_ok k2
      obtain ⟨d, k5, k6⟩ := bind_ok k4
      obtain ⟨es', e1, e2⟩ := hn.getEntries (rd := rd)
      rw [e1] at k1
      cases k1
      cases k6
      obtain ⟨a, b, rfl⟩ := serializeNodeData_ok (fun M c m p _ hm hp => getPointer_ok hm hp) e2 k5
      exact ⟨a, b, rfl⟩
    · next ho =>
      cases h
      obtain ⟨h1, h2, h3⟩ := hn.1.1 (by simpa using ho)
      exact ⟨h2, h3, h1⟩

/-! ### `create` -/

theorem sim_create {h : Heap C} {g : Ghost C} (hi : HInv E rd h g) {f L : Nat} {es : List (Ent C)}
    {hs : List (HEnt C)} (hes : List.Forall₂ (ER E g L) es hs) (hf : L ≤ f) :
    Sim E rd False h g (create E rd f es (some (L : Int))) (hCreate E rd f hs (some (L : Int)))
      (fun h' g' n i => NR E g' L n i ∧ (es ≠ [] → NR1 E g' L n i) ∧ ∀ o, h'[i]? = some o → o.entries ≠ none) := by
  refine ⟨fun n hn => ?_, fun h => h.elim⟩
  obtain ⟨t, h1, h2, h3⟩ := ers_tree hes
  unfold create cidForEntries at hn
  obtain ⟨p, k1, k2⟩ := bind_ok hn
  obtain ⟨d, k3, k4⟩ := bind_ok k1
  cases k2
  cases k4
  obtain ⟨a, b, rfl⟩ := serializeNodeData_ok (fun M c m p _ hm hp => getPointer_ok hm hp) h1 k3
  obtain ⟨h', g', m1, m2, m3⟩ := hSerializeNodeData_spec (hGetPointer_gp hf) hi h2 a b
  obtain ⟨n1, n2⟩ := m2.alloc (L := L) (t := t) (o := ⟨some hs, E.H (nodeOf E.H t), some (L : Int), false⟩)
    ⟨fun h => (nomatch h), fun es' he' => (by cases he'; exact h2.mono m3.pre), fun _ => ⟨rfl, a, b⟩,
      fun l hl => (by cases hl; rfl)⟩
  have hp : PN E L t (.mk (some es) (E.H (nodeOf E.H t)) (some (L : Int)) false) :=
    ⟨⟨fun _ => ⟨rfl, a, b⟩, fun l hl => (by cases hl; rfl)⟩, es, rfl, h1⟩
  refine ⟨h'.length, _, _, ?_, n1, m3.trans (.of_prefix (List.prefix_append _ _) (List.prefix_append _ _)),
    ⟨t, hp, n2⟩, fun hne => ⟨t, h3 hne, hp, n2⟩, fun o ho => ?_⟩
  · unfold hCreate
    rw [HM.bind_ok m1]
    rfl
  · rw [List.getElem?_append_right (Nat.le_refl _), Nat.sub_self] at ho
    cases ho
    exact fun h => (nomatch h)

theorem hCreate_nil {h : Heap C} {g : Ghost C} (hi : HInv E rd h g) {f L : Nat} {layer : Option Int}
    (hl : ∀ l, layer = some l → l = (L : Int)) :
    ∃ h' g', hCreate E rd f [] layer h = (.ok h.length, h') ∧ HInv E rd h' g' ∧ Ext h g h' g' ∧
      g'[h.length]? = some (L, nil) ∧ ∀ o, h'[h.length]? = some o → o.layer = layer := by
  obtain ⟨n1, n2⟩ := hi.alloc (L := L) (t := nil) (o := ⟨some [], cidOf E.H nil, layer, false⟩)
    ⟨fun h => (nomatch h), fun es' he' => (by cases he'; rfl), fun _ => ⟨rfl, trivial, fun _ h => (nomatch h)⟩, hl⟩
  refine ⟨_, _, rfl, n1, .of_prefix (List.prefix_append _ _) (List.prefix_append _ _), n2, fun o ho => ?_⟩
  rw [List.getElem?_append_right (Nat.le_refl _), Nat.sub_self] at ho
  cases ho
  rfl

theorem sim_outdate {h : Heap C} {g : Ghost C} (hi : HInv E rd h g) {b : Prop} {L : Nat} {n : Node C} {i : Nat}
    (hn : NR1 E g L n i) (hld : ∀ o, h[i]? = some o → o.entries ≠ none) :
    Sim E rd b h g (.ok (.mk n.entries n.pointer n.layer true)) (do hOutdate i; pure i)
      (fun _ g' n i => NR1 E g' L n i) := by
  refine ⟨fun a ha => ?_, fun _ e he => (nomatch he)⟩
  cases ha
  obtain ⟨t, ht, ⟨⟨_, hl⟩, hes⟩, hg⟩ := hn
  obtain ⟨o, ho, hob⟩ := hi.get hg
  refine ⟨i, h.set i { o with outdated := true }, g, ?_, hi.set hg ⟨fun h => absurd h (hld o ho), hob.loaded,
    (fun h => (nomatch h)), hob.layer⟩, .set ho (fun l hl => hl), t, ht, ⟨⟨(fun h => (nomatch h)), hl⟩, hes⟩, hg⟩
  have : hOutdate i h = (.ok (), h.set i { o with outdated := true }) := by
    unfold hOutdate
    rw [HM.bind_ok (hObj_eq ho)]
    rfl
  rw [HM.bind_ok this]
  rfl

theorem sim_createParent {h : Heap C} {g : Ghost C} (hi : HInv E rd h g) {f L : Nat} {n : Node C} {i : Nat}
    (hn : NR1 E g L n i) (hf : L + 1 ≤ f) :
    Sim E rd False h g (createParent E rd f n) (hCreateParent E rd f i) (fun _ g' n i => NR1 E g' (L + 1) n i) := by
  unfold createParent hCreateParent
  refine (sim_getLayer1 hi hn hf).bind fun l l' h₁ g₁ hi₁ x₁ hl => ?_
  obtain ⟨rfl, rfl⟩ := hl
  have hn₁ : NR1 E g₁ L (n.setLayer (L : Int)) i := by
    obtain ⟨t, ht, k1, k2⟩ := hn
    exact ⟨t, ht, k1.setLayer, x₁.get k2⟩
  have := sim_create hi₁ (f := f) (List.Forall₂.cons (ER.mkTree (rfl : L + 1 = L + 1) hn₁) .nil) hf
  dsimp only
  refine Sim.bind this fun p j h₂ g₂ hi₂ _ hp => ?_
  exact sim_outdate hi₂ (hp.2.1 (fun h => (nomatch h))) hp.2.2

theorem sim_addParents {f : Nat} : ∀ {k : Nat} {h : Heap C} {g : Ghost C} {L : Nat} {n : Option (Node C)}
    {i : Option Nat}, HInv E rd h g → ORM E L g n i → L + k ≤ f →
    Sim E rd False h g (addParents E rd f k n) (hAddParents E rd f k i) (fun _ g' n i => ORM E (L + k) g' n i)
  | 0, h, g, L, n, i, hi, hn, hf => by
    match n, i, hn with
    | some n, some i, hn => exact .pure hi hn
    | none, none, _ => exact .pure hi trivial
  | k + 1, h, g, L, n, i, hi, hn, hf => by
    match n, i, hn with
    | none, none, _ => exact .pure hi trivial
    | some n, some i, hn =>
      unfold addParents hAddParents
      refine (sim_createParent hi hn (by omega)).bind fun p j h₁ g₁ hi₁ _ hp => ?_
      have := sim_addParents (f := f) (k := k) (L := L + 1) (n := some p) (i := some j) hi₁ hp (by omega)
      exact this.imp id fun _ _ _ _ h => by
        have e : L + 1 + k = L + (k + 1) := by omega
        rw [e] at h
        exact h

theorem sim_createChild {h : Heap C} {g : Ghost C} (hi : HInv E rd h g) {b : Prop} {f M : Nat} {t : Tree C} {n : Node C}
    {i : Nat} (hg : g[i]? = some (M + 1, t)) (hn : PN E (M + 1) t n) (hk : LayerKnown h i (M + 1) t)
    (hl : LayerOK (M + 1) t n) (hf : M + 2 ≤ f) :
    Sim E rd b h g (createChild E rd f n) (hCreateChild E rd f i)
      (fun h' g' m j => PN E M nil m ∧ m.layer = some (M : Int) ∧ g'[j]? = some (M, nil) ∧ LayerKnown h' j M nil) := by
  unfold createChild hCreateChild
  refine (sim_getLayer hi hg hn hk hl hf).bind fun l l' h₁ g₁ hi₁ x₁ hl => ?_
  obtain ⟨rfl, rfl, _⟩ := hl
  have e : ((M + 1 : Nat) : Int) - 1 = (M : Int) := by omega
  rw [e]
  have hc : create E rd f [] (some (M : Int)) = .ok (.mk (some []) (cidOf E.H nil) (some (M : Int)) false) := rfl
  rw [hc]
  obtain ⟨h', g', k1, k2, k3, k4, k5⟩ := hCreate_nil hi₁ (f := f) (L := M) (layer := some (M : Int))
    (fun l hl => by cases hl; rfl)
  refine ⟨fun a ha => ?_, fun _ e he => (nomatch he)⟩
  cases ha
  exact ⟨_, h', g', k1, k2, k3, ⟨⟨fun _ => ⟨rfl, trivial, fun _ h => (nomatch h)⟩, fun l hl => (by cases hl; rfl)⟩, [], rfl, rfl⟩,
    rfl, k4, fun _ => .inr k5⟩

/-! ### `add` -/

theorem sim_add {key : Key} {value : C} : ∀ {f : Nat} {kn : Option Nat} {h : Heap C} {g : Ghost C} {L : Nat} {t : Tree C}
    {n : Node C} {i : Nat}, HInv E rd h g → g[i]? = some (L, t) → PN E L t n → LayerKnown h i L t → LayerOK L t n →
    kn = none ∨ kn = some (E.zeros key) → L + 2 ≤ f → E.zeros key + 1 ≤ f →
    Sim E rd (E.zeros key ≤ L ∨ validKey key = false) h g (add E rd f n key value kn) (hAdd E rd f i key value kn)
      (fun _ g' m j => NR1 E g' (max L (E.zeros key)) m j)
  | 0, _, _, _, _, _, _, _, _, _, _, _, _, _, hf, _ => by omega
  | f + 1, kn, h, g, L, t, n, i, hi, hg, hn, hk, hl, hkn, hf, hf' => by
    unfold add hAdd
    cases hv : validKey key with
    | false =>
      have e1 : ensureValidKey key = .error .value := by unfold ensureValidKey; rw [hv]; rfl
      have e2 : hEnsureValidKey (C := C) key h = (.error .value, h) := by unfold hEnsureValidKey; rw [hv]; rfl
      rw [e1]
      exact ⟨fun a ha => (nomatch ha), fun _ e he _ => by cases he; exact ⟨h, g, HM.bind_error e2, hi, .refl _ _⟩⟩
    | true =>
    refine (sim_validKey hi key).bind fun _ _ h₀ g₀ hi₀ x₀ _ => ?_
    rw [keyZeros_eq hkn]
    dsimp only
    have hk₀ := hk.mono x₀ hi hg
    replace hg := x₀.get hg
    refine (sim_getLayer hi₀ hg hn hk₀ hl (f := f) (by omega)).bind fun l l' h₁ g₁ hi₁ x₁ hl' => ?_
    obtain ⟨rfl, rfl, hk₁⟩ := hl'
    have hn' := hn.setLayer
    replace hg := x₁.get hg
    have hN : NR E g₁ L (n.setLayer (L : Int)) i := ⟨t, hn', hg⟩
    have hl₁ : LayerOK L t (n.setLayer (L : Int)) := fun _ => rfl
    by_cases hz : (E.zeros key : Int) = (L : Int)
    · rw [if_pos hz, if_pos hz]
      have hz' : E.zeros key = L := by omega
      have hmax : max L (E.zeros key) = L := by omega
      rw [hmax]
      refine (sim_find hi₁ hN key).bind fun x _ h₂ g₂ hi₂ x₂ hx => ?_
      subst hx
      refine (sim_atIndex hi₂ (hN.mono x₂) _).bind fun a a' h₃ g₃ hi₃ x₃ ha => ?_
      rw [← or_leafHit ha]
      cases leafHit key a with
      | some v => exact .raise hi₃
      | none =>
        dsimp only
        have hN₃ := (hN.mono x₂).mono x₃
        refine (sim_atIndex hi₃ hN₃ _).bind fun a a' h₄ g₄ hi₄ x₄ ha => ?_
        have ha := or_asTree ha
        generalize asTree a = c at ha ⊢
        generalize hAsTree a' = c' at ha ⊢
        match c, c', ha with
        | none, none, _ =>
          exact (sim_spliceIn hi₄ (hN₃.mono x₄) _ (ER.mkLeaf hz')).imp id fun _ _ _ _ h => h.2 trivial
        | some p, some q, ⟨M, hM, hp⟩ =>
          subst hM
          refine (sim_splitAround hi₄ hp.nr).bind fun lr lr' h₅ g₅ hi₅ x₅ hlr => ?_
          exact (sim_replaceWithSplit hi₅ ((hN₃.mono x₄).mono x₅) _ hlr.1 hlr.2 (ER.mkLeaf hz')).imp id
            fun _ _ _ _ h => h.2 trivial
    rw [if_neg hz, if_neg hz]
    by_cases hlt : (E.zeros key : Int) < (L : Int)
    · rw [if_pos hlt, if_pos hlt]
      have hmax : max L (E.zeros key) = L := by omega
      rw [hmax]
      obtain ⟨M, rfl⟩ : ∃ M, L = M + 1 := ⟨L - 1, by omega⟩
      have hmax' : max M (E.zeros key) = M := by omega
      refine (sim_find hi₁ hN key).bind fun x _ h₂ g₂ hi₂ x₂ hx => ?_
      subst hx
      have hN₂ := hN.mono x₂
      refine (sim_atIndex hi₂ hN₂ _).bind fun a a' h₃ g₃ hi₃ x₃ ha => ?_
      have ha := or_asTree ha
      generalize asTree a = c at ha ⊢
      generalize hAsTree a' = c' at ha ⊢
      match c, c', ha with
      | some p, some q, ⟨M', hM, t', ht', hp, hq⟩ =>
        obtain rfl : M = M' := by omega
        refine Sim.bind ((sim_add hi₃ hq hp (fun h => absurd h ht') (fun h => absurd h ht') (.inr rfl) (by omega)
          (by omega)).imp (fun _ => .inl (by omega)) (fun _ _ _ _ h => h)) fun r r' h₄ g₄ hi₄ x₄ hr => ?_
        rw [hmax'] at hr
        exact (sim_updateEntry hi₄ ((hN₂.mono x₃).mono x₄) _ (ER.mkTree rfl hr)).imp id fun _ _ _ _ h => h.2 trivial
      | none, none, _ =>
        have hg₃ := x₃.get (x₂.get hg)
        have hk₃ := (hk₁.mono x₂ hi₁ hg).mono x₃ hi₂ (x₂.get hg)
        refine (sim_createChild hi₃ hg₃ hn' hk₃ hl₁ (by omega)).bind fun s s' h₄ g₄ hi₄ x₄ hs => ?_
        obtain ⟨s1, s2, s3, s4⟩ := hs
        refine Sim.bind ((sim_add hi₄ s3 s1 s4 (fun _ => by rw [s2]; rfl) (.inr rfl) (by omega)
          (by omega)).imp (fun _ => .inl (by omega)) (fun _ _ _ _ h => h)) fun r r' h₅ g₅ hi₅ x₅ hr => ?_
        rw [hmax'] at hr
        exact (sim_spliceIn hi₅ (((hN₂.mono x₃).mono x₄).mono x₅) _ (ER.mkTree rfl hr)).imp id fun _ _ _ _ h => h.2 trivial
    · rw [if_neg hlt, if_neg hlt]
      have hmax : max L (E.zeros key) = E.zeros key := by omega
      rw [hmax]
      refine Sim.imp (b := False) ?_ (fun h => h.elim (fun h => by omega) (fun h => by cases h)) (fun _ _ _ _ h => h)
      obtain ⟨K, hK⟩ : ∃ K, E.zeros key = K + 1 := ⟨E.zeros key - 1, by omega⟩
      have hx : L + (((E.zeros key : Int) - (L : Int)).toNat - 1) = K := by omega
      refine (sim_splitAround hi₁ hN).bind fun lr lr' h₂ g₂ hi₂ x₂ hlr => ?_
      refine (sim_addParents hi₂ hlr.1 (by omega)).bind fun l l' h₃ g₃ hi₃ x₃ hl => ?_
      refine (sim_addParents hi₃ (hlr.2.mono x₃) (by omega)).bind fun r r' h₄ g₄ hi₄ x₄ hr => ?_
      rw [hx] at hl hr
      have hes : List.Forall₂ (ER E g₄ (K + 1)) (optTree l ++ [.leaf key value] ++ optTree r)
          (hOptTree l' ++ [.leaf key value] ++ hOptTree r') :=
        List.rel_append (List.rel_append (hl.mono x₄).ers (.cons (ER.mkLeaf hK) .nil)) hr.ers
      rw [← hK] at hes
      refine (sim_create hi₄ hes (by omega)).bind fun p j h₅ g₅ hi₅ x₅ hp => ?_
      exact sim_outdate hi₅ (hp.2.1 (by simp)) hp.2.2

end

end Arroba
