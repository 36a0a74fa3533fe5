import Verif.Mst.Ops3

/-! Helper lemmas: pointer caches. `refresh` brings every loaded node up to date, and the code
never leaves an outdated node below one that is up to date. -/

namespace Arroba

variable {C : Type}

open Arroba.Tree

/-- No loaded node of the object graph is outdated. -/
inductive Fresh : Node C → Prop
  | mk {n : Node C} (ho : n.outdated = false)
      (h : ∀ es, n.entries = some es → ∀ m, .tree m ∈ es → Fresh m) : Fresh n

/-- No loaded node is outdated below one that is up to date. -/
inductive Clean : Node C → Prop
  | fresh {n : Node C} (h : Fresh n) : Clean n
  | mk {n : Node C} (ho : n.outdated = true)
      (h : ∀ es, n.entries = some es → ∀ m, .tree m ∈ es → Clean m) : Clean n

/-- All child nodes among the entries are clean. -/
def CleanEs (es : List (Ent C)) : Prop := ∀ m, .tree m ∈ es → Clean m

theorem Clean.entries {n : Node C} (h : Clean n) {es : List (Ent C)} (he : n.entries = some es) :
    CleanEs es := by
  intro m hm
  cases h with
  | fresh h => cases h with | mk ho h => exact .fresh (h es he m hm)
  | mk ho h => exact h es he m hm

theorem Clean.fresh_of {n : Node C} (h : Clean n) (ho : n.outdated = false) : Fresh n := by
  cases h with
  | fresh h => exact h
  | mk h' _ => rw [ho] at h'; cases h'

theorem Clean.of_entries {n : Node C} (ho : n.outdated = true)
    (h : ∀ es, n.entries = some es → CleanEs es) : Clean n := .mk ho h

theorem Clean.newTree {n : Node C} {es : List (Ent C)} (h : CleanEs es) : Clean (newTree n es) :=
  .mk rfl fun es' he => by cases he; exact h

theorem CleanEs.append {a b : List (Ent C)} (ha : CleanEs a) (hb : CleanEs b) :
    CleanEs (a ++ b) := fun m hm => (List.mem_append.1 hm).elim (ha m) (hb m)

theorem CleanEs.sublist {a b : List (Ent C)} (hb : CleanEs b) (h : a.Sublist b) : CleanEs a :=
  fun m hm => hb m (h.subset hm)

theorem CleanEs.leaf (k : Key) (v : C) : CleanEs [.leaf k v] := by
  intro m hm; simp at hm

theorem CleanEs.tree {n : Node C} (h : Clean n) : CleanEs [.tree n] := by
  intro m hm; simp at hm; exact hm ▸ h

theorem CleanEs.opt {o : Option (Node C)} (h : ∀ n, o = some n → Clean n) :
    CleanEs (optTree o) := by
  cases o with
  | none => intro m hm; simp [optTree] at hm
  | some n => exact .tree (h n rfl)

theorem CleanEs.nil : CleanEs ([] : List (Ent C)) := by intro m hm; simp at hm

theorem pySlice_sublist {α : Type} (l : List α) (a : Int) (b : Option Int) :
    (pySlice l a b).Sublist l :=
  (List.drop_sublist _ _).trans (List.take_sublist _ _)

theorem asTree_mem {o : Option (Ent C)} {m : Node C} (h : asTree o = some m) :
    o = some (.tree m) := by
  cases o with
  | none => simp [asTree] at h
  | some e => cases e <;> simp_all [asTree]

theorem Clean.setLayer {n : Node C} (h : Clean n) (l : Int) : Clean (n.setLayer l) := by
  cases h with
  | fresh h => cases h with | mk ho h => exact .fresh (.mk ho h)
  | mk ho h => exact .mk ho h

theorem Fresh.load {p : C} {l : Option Int} : Fresh (.mk none p l false) :=
  .mk rfl (by simp [Node.entries])

theorem CleanEs.deserialize {layer : Option Int} (d : NodeData C) :
    ∀ m, .tree m ∈ deserializeNodeData d layer → Fresh m := by
  have h1 : ∀ (es : List (EntryData C)) (last : Key) (m : Node C),
      .tree m ∈ deserializeEntries layer last es → Fresh m := by
    intro es
    induction es with
    | nil => intro last m hm; simp [deserializeEntries] at hm
    | cons e es ih =>
      intro last m hm
      simp only [deserializeEntries, List.mem_cons, List.mem_append, reduceCtorEq, false_or] at hm
      rcases hm with hm | hm
      · cases h : e.t with
        | none => simp [h] at hm
        | some c => simp only [h, List.mem_singleton, Ent.tree.injEq] at hm; exact hm ▸ .load
      · exact ih _ m hm
  intro m hm
  simp only [deserializeNodeData, List.mem_append] at hm
  rcases hm with hm | hm
  · cases h : d.l with
    | none => simp [h] at hm
    | some c => simp only [h, List.mem_singleton, Ent.tree.injEq] at hm; exact hm ▸ .load
  · exact h1 _ _ m hm

section
variable {E : Env C} {rd : C → Option (NodeData C)}

theorem Fresh.getEntries {n : Node C} (h : Fresh n) {es : List (Ent C)}
    (he : getEntries E rd n = .ok es) : ∀ m, .tree m ∈ es → Fresh m := by
  unfold Arroba.getEntries at he
  cases hn : n.entries with
  | some es' =>
    rw [hn] at he; cases he
    cases h with | mk ho h => exact h es hn
  | none =>
    rw [hn] at he
    cases hr : rd n.pointer with
    | none => simp [hr] at he
    | some d => simp only [hr, Except.ok.injEq] at he; subst he; exact CleanEs.deserialize d

theorem Clean.getEntries {n : Node C} (h : Clean n) {es : List (Ent C)}
    (he : getEntries E rd n = .ok es) : CleanEs es := by
  unfold Arroba.getEntries at he
  cases hn : n.entries with
  | some es' => rw [hn] at he; cases he; exact h.entries hn
  | none =>
    rw [hn] at he
    cases hr : rd n.pointer with
    | none => simp [hr] at he
    | some d =>
      simp only [hr, Except.ok.injEq] at he; subst he
      exact fun m hm => .fresh (CleanEs.deserialize d m hm)

theorem Clean.slice {n : Node C} (h : Clean n) {a : Int} {b : Option Int} {es : List (Ent C)}
    (he : slice E rd n a b = .ok es) : CleanEs es := by
  obtain ⟨es', h1, h2⟩ := bind_ok he
  simp only [Except.ok.injEq] at h2
  subst h2
  exact (h.getEntries h1).sublist (pySlice_sublist _ _ _)

theorem Clean.atIndex {n : Node C} (h : Clean n) {i : Int} {o : Option (Ent C)}
    (he : atIndex E rd n i = .ok o) {m : Node C} (hm : asTree o = some m) : Clean m := by
  obtain ⟨es', h1, h2⟩ := bind_ok he
  have := asTree_mem hm
  subst this
  split at h2
  · simp only [Except.ok.injEq] at h2
    exact h.getEntries h1 m (List.mem_of_getElem? h2)
  · cases h2

theorem Clean.updateEntry {n : Node C} (h : Clean n) {i : Int} {e : Ent C} (hc : CleanEs [e])
    {n' : Node C} (he : updateEntry E rd n i e = .ok n') : Clean n' := by
  obtain ⟨a, h1, he⟩ := bind_ok he
  obtain ⟨b, h2, he⟩ := bind_ok he
  cases he
  exact .newTree (((h.slice h1).append hc).append (h.slice h2))

theorem Clean.removeEntry {n : Node C} (h : Clean n) {i : Int}
    {n' : Node C} (he : removeEntry E rd n i = .ok n') : Clean n' := by
  obtain ⟨a, h1, he⟩ := bind_ok he
  obtain ⟨b, h2, he⟩ := bind_ok he
  cases he
  exact .newTree ((h.slice h1).append (h.slice h2))

theorem Clean.spliceIn {n : Node C} (h : Clean n) {i : Int} {e : Ent C} (hc : CleanEs [e])
    {n' : Node C} (he : spliceIn E rd n e i = .ok n') : Clean n' := by
  obtain ⟨a, h1, he⟩ := bind_ok he
  obtain ⟨b, h2, he⟩ := bind_ok he
  cases he
  exact .newTree (((h.slice h1).append hc).append (h.slice h2))

theorem Clean.replaceWithSplit {n : Node C} (h : Clean n) {i : Int} {e : Ent C}
    {l r : Option (Node C)} (hc : CleanEs [e]) (hl : ∀ m, l = some m → Clean m)
    (hr : ∀ m, r = some m → Clean m) {n' : Node C}
    (he : replaceWithSplit E rd n i l e r = .ok n') : Clean n' := by
  obtain ⟨a, h1, he⟩ := bind_ok he
  obtain ⟨b, h2, he⟩ := bind_ok he
  cases he
  exact .newTree (((((h.slice h1).append (.opt hl)).append hc).append (.opt hr)).append
    (h.slice h2))

theorem Clean.nonEmpty {n : Node C} (h : Clean n) {o : Option (Node C)}
    (he : nonEmpty E rd n = .ok o) : ∀ m, o = some m → Clean m := by
  obtain ⟨es, h1, h2⟩ := bind_ok he
  simp only [Except.ok.injEq] at h2
  rintro m rfl
  split at h2
  · cases h2
  · cases h2; exact h

theorem Clean.appendOpt {n : Node C} (h : Clean n) {o : Option (Node C)}
    (ho : ∀ m, o = some m → Clean m) {n' : Node C} (he : appendOpt E rd n o = .ok n') :
    Clean n' := by
  cases o with
  | none => cases he; exact h
  | some s =>
    obtain ⟨es, h1, h2⟩ := bind_ok he
    cases h2
    exact .newTree ((h.getEntries h1).append (.tree (ho s rfl)))

theorem Clean.prependOpt {n : Node C} (h : Clean n) {o : Option (Node C)}
    (ho : ∀ m, o = some m → Clean m) {n' : Node C} (he : prependOpt E rd n o = .ok n') :
    Clean n' := by
  cases o with
  | none => cases he; exact h
  | some s =>
    obtain ⟨es, h1, h2⟩ := bind_ok he
    cases h2
    exact .newTree ((CleanEs.tree (ho s rfl)).append (h.getEntries h1))

theorem Clean.splitAround {key : Key} : ∀ {f : Nat} {n : Node C}, Clean n →
    ∀ {lr : Option (Node C) × Option (Node C)}, splitAround E rd f n key = .ok lr →
    (∀ m, lr.1 = some m → Clean m) ∧ (∀ m, lr.2 = some m → Clean m)
  | 0, _, _, _, he => by cases he
  | f + 1, n, h, lr, he => by
    unfold Arroba.splitAround at he
    obtain ⟨i, _, he⟩ := bind_ok he
    obtain ⟨ld, hld, he⟩ := bind_ok he
    obtain ⟨rdd, hrd, he⟩ := bind_ok he
    have hl := h.slice hld
    have hr := h.slice hrd
    simp only at he
    split at he
    · rename_i m hm
      obtain ⟨l1, h1, he⟩ := bind_ok he
      obtain ⟨sp, h2, he⟩ := bind_ok he
      obtain ⟨l2, h3, he⟩ := bind_ok he
      obtain ⟨r2, h4, he⟩ := bind_ok he
      obtain ⟨a, h5, he⟩ := bind_ok he
      obtain ⟨b, h6, he⟩ := bind_ok he
      cases he
      have hmc : Clean m := hl m (List.mem_of_getLast? (asTree_mem hm))
      obtain ⟨hs1, hs2⟩ := Clean.splitAround hmc h2
      have c1 := (Clean.newTree (n := n) hl).removeEntry h1
      exact ⟨(c1.appendOpt hs1 h3).nonEmpty h5,
        ((Clean.newTree (n := n) hr).prependOpt hs2 h4).nonEmpty h6⟩
    · obtain ⟨a, h5, he⟩ := bind_ok he
      obtain ⟨b, h6, he⟩ := bind_ok he
      cases he
      exact ⟨(Clean.newTree (n := n) hl).nonEmpty h5, (Clean.newTree (n := n) hr).nonEmpty h6⟩

theorem Clean.appendMerge : ∀ {f : Nat} {n m : Node C}, Clean n → Clean m →
    ∀ {r : Node C}, appendMerge E rd f n m = .ok r → Clean r
  | 0, _, _, _, _, _, he => by cases he
  | f + 1, n, m, hn, hm, r, he => by
    unfold Arroba.appendMerge at he
    obtain ⟨l1, _, he⟩ := bind_ok he
    obtain ⟨l2, _, he⟩ := bind_ok he
    split at he
    · cases he
    · obtain ⟨es, h1, he⟩ := bind_ok he
      obtain ⟨ms, h2, he⟩ := bind_ok he
      have c1 := (hn.setLayer l1).getEntries h1
      have c2 := hm.getEntries h2
      split at he
      · cases he
      · split at he
        · rename_i a b ha hb
          obtain ⟨mm, h3, he⟩ := bind_ok he
          cases he
          have ca := c1 _ (List.mem_of_getLast? (asTree_mem ha))
          have cb := c2 _ (List.mem_of_head? (asTree_mem hb))
          exact .newTree (((c1.sublist (pySlice_sublist _ _ _)).append
            (.tree (Clean.appendMerge ca cb h3))).append (c2.sublist (pySlice_sublist _ _ _)))
        · cases he
          exact .newTree (c1.append c2)

theorem Clean.outdate {n : Node C} (h : Clean n) :
    Clean (.mk n.entries n.pointer n.layer true) :=
  .mk rfl fun es he => h.entries he

theorem create_clean {fuel : Nat} {es : List (Ent C)} {l : Option Int} {n : Node C}
    (h : CleanEs es) (he : create E rd fuel es l = .ok n) :
    Clean (.mk n.entries n.pointer n.layer true) := by
  obtain ⟨p, _, he⟩ := bind_ok he
  cases he
  exact .mk rfl fun es' he' => by cases he'; exact h

theorem Clean.addParents {fuel : Nat} : ∀ {k : Nat} {o : Option (Node C)},
    (∀ m, o = some m → Clean m) → ∀ {r}, addParents E rd fuel k o = .ok r →
    ∀ m, r = some m → Clean m
  | k, none, _, r, he => by cases k <;> (cases he; simp)
  | 0, some n, h, r, he => by cases he; exact h
  | k + 1, some n, h, r, he => by
    unfold Arroba.addParents at he
    obtain ⟨p, h1, he⟩ := bind_ok he
    refine Clean.addParents ?_ he
    rintro m hm
    cases hm
    unfold createParent at h1
    obtain ⟨l, _, h1⟩ := bind_ok h1
    obtain ⟨q, h2, h1⟩ := bind_ok h1
    cases h1
    exact create_clean (.tree ((h n rfl).setLayer l)) h2

theorem Clean.add {key : Key} {v : C} : ∀ {f : Nat} {n : Node C} {kz : Option Nat}, Clean n →
    ∀ {n' : Node C}, add E rd f n key v kz = .ok n' → Clean n'
  | 0, _, _, _, _, he => by cases he
  | f + 1, n, kz, h, n', he => by
    unfold Arroba.add at he
    obtain ⟨_, _, he⟩ := bind_ok he
    obtain ⟨l, _, he⟩ := bind_ok he
    have hc := h.setLayer l
    simp only at he
    split at he
    · obtain ⟨i, _, he⟩ := bind_ok he
      obtain ⟨fo, _, he⟩ := bind_ok he
      split at he
      · cases he
      · obtain ⟨p, hp, he⟩ := bind_ok he
        split at he
        · rename_i m hm
          obtain ⟨lr, h2, he⟩ := bind_ok he
          obtain ⟨a, b⟩ := (hc.atIndex hp hm).splitAround h2
          exact hc.replaceWithSplit (.leaf key v) a b he
        · exact hc.spliceIn (.leaf key v) he
    · split at he
      · obtain ⟨i, _, he⟩ := bind_ok he
        obtain ⟨p, hp, he⟩ := bind_ok he
        split at he
        · rename_i m hm
          obtain ⟨s, h2, he⟩ := bind_ok he
          exact hc.updateEntry (.tree (Clean.add (hc.atIndex hp hm) h2)) he
        · obtain ⟨s0, h1, he⟩ := bind_ok he
          obtain ⟨s, h2, he⟩ := bind_ok he
          have : Clean s0 := by
            obtain ⟨l', _, h1⟩ := bind_ok h1
            obtain ⟨p', _, h1⟩ := bind_ok h1
            cases h1
            exact .fresh (.mk rfl fun es he => by cases he; simp)
          exact hc.spliceIn (.tree (Clean.add this h2)) he
      · obtain ⟨lr, h1, he⟩ := bind_ok he
        obtain ⟨a, b⟩ := hc.splitAround h1
        obtain ⟨l2, h2, he⟩ := bind_ok he
        obtain ⟨r2, h3, he⟩ := bind_ok he
        obtain ⟨root, h4, he⟩ := bind_ok he
        cases he
        exact create_clean (((CleanEs.opt (Clean.addParents a h2)).append (.leaf key v)).append
          (.opt (Clean.addParents b h3))) h4

theorem Clean.update {key : Key} {v : C} : ∀ {f : Nat} {n : Node C}, Clean n →
    ∀ {n' : Node C}, update E rd f n key v = .ok n' → Clean n'
  | 0, _, _, _, he => by cases he
  | f + 1, n, hc, n', he => by
    unfold Arroba.update at he
    obtain ⟨_, _, he⟩ := bind_ok he
    obtain ⟨i, _, he⟩ := bind_ok he
    obtain ⟨fo, _, he⟩ := bind_ok he
    split at he
    · exact hc.updateEntry (.leaf key v) he
    · obtain ⟨p, hp, he⟩ := bind_ok he
      split at he
      · rename_i m hm
        obtain ⟨s, h2, he⟩ := bind_ok he
        exact hc.updateEntry (.tree (Clean.update (hc.atIndex hp hm) h2)) he
      · cases he

theorem Clean.deleteRecurse {key : Key} : ∀ {f : Nat} {n : Node C}, Clean n →
    ∀ {n' : Node C}, deleteRecurse E rd f n key = .ok n' → Clean n'
  | 0, _, _, _, he => by cases he
  | f + 1, n, hc, n', he => by
    unfold Arroba.deleteRecurse at he
    obtain ⟨i, _, he⟩ := bind_ok he
    obtain ⟨fo, _, he⟩ := bind_ok he
    split at he
    · obtain ⟨p, hp, he⟩ := bind_ok he
      obtain ⟨q, hq, he⟩ := bind_ok he
      split at he
      · rename_i a b ha hb
        obtain ⟨mm, h1, he⟩ := bind_ok he
        obtain ⟨x, h2, he⟩ := bind_ok he
        obtain ⟨y, h3, he⟩ := bind_ok he
        cases he
        exact .newTree (((hc.slice h2).append (.tree ((hc.atIndex hp ha).appendMerge
          (hc.atIndex hq hb) h1))).append (hc.slice h3))
      · exact hc.removeEntry he
    · obtain ⟨p, hp, he⟩ := bind_ok he
      split at he
      · rename_i m hm
        obtain ⟨s, h2, he⟩ := bind_ok he
        obtain ⟨es, h3, he⟩ := bind_ok he
        split at he
        · exact hc.removeEntry he
        · exact hc.updateEntry (.tree (Clean.deleteRecurse (hc.atIndex hp hm) h2)) he
      · cases he

theorem Clean.trimTop : ∀ {f : Nat} {n : Node C}, Clean n →
    ∀ {n' : Node C}, trimTop E rd f n = .ok n' → Clean n'
  | 0, _, _, _, he => by cases he
  | f + 1, n, hc, n', he => by
    unfold Arroba.trimTop at he
    obtain ⟨es, h1, he⟩ := bind_ok he
    split at he
    · rename_i m
      exact Clean.trimTop (hc.getEntries h1 m (by simp)) he
    · cases he; exact hc

theorem Clean.delete {key : Key} {f : Nat} {n n' : Node C} (hc : Clean n)
    (he : delete E rd f n key = .ok n') : Clean n' := by
  obtain ⟨m, h1, he⟩ := bind_ok he
  exact (hc.deleteRecurse h1).trimTop he

/-! ### `refresh` -/

theorem refreshKids_spec {rec : Node C → Except Err (Node C)} {L : Nat}
    (hrec : ∀ M, L = M + 1 → ∀ c m, ReprN E rd M c m → WF E.zeros M c → ValidKeys c →
      ∃ m', rec m = .ok m' ∧ ReprN E rd M c m' ∧ (Clean m → Fresh m')) :
    ∀ {t : Tree C} {es : List (Ent C)}, ReprEs E rd L t es → WF E.zeros L t → ValidKeys t →
    ∃ es', refreshKids rec es = .ok es' ∧ ReprEs E rd L t es' ∧
      (CleanEs es → ∀ m, .tree m ∈ es' → Fresh m) := by
  intro t
  induction t with
  | nil =>
    intro es h _ _
    obtain rfl := ReprEs_nil.1 h
    exact ⟨[], rfl, rfl, by simp⟩
  | leaf k v r ih =>
    intro es h hw hv
    obtain ⟨es1, rfl, h'⟩ := ReprEs_leaf.1 h
    obtain ⟨es', h1, h2, h3⟩ := ih h' hw.2 (fun kv hkv => hv kv (by simp [leaves, hkv]))
    refine ⟨.leaf k v :: es', by simp [refreshKids, h1], ⟨_, rfl, h2⟩, fun hc m hm => ?_⟩
    simp only [List.mem_cons, reduceCtorEq, false_or] at hm
    exact h3 (fun m hm => hc m (by simp [hm])) m hm
  | sub c r _ ih =>
    intro es h hw hv
    obtain ⟨M, rfl, _, hwc, _, hwr⟩ := WF_sub.1 hw
    obtain ⟨m, es1, rfl, hm, h'⟩ := ReprEs_sub.1 h
    obtain ⟨m', hm1, hm2, hm3⟩ := hrec M rfl c m hm hwc
      (fun kv hkv => hv kv (by simp [leaves, hkv]))
    obtain ⟨es', h1, h2, h3⟩ := ih h' hwr (fun kv hkv => hv kv (by simp [leaves, hkv]))
    cases ho : m.outdated with
    | true =>
      refine ⟨.tree m' :: es', by simp [refreshKids, refreshOne, h1, ho, hm1], ReprEs_sub.2 ⟨_, _, rfl, hm2, h2⟩,
        fun hc x hx => ?_⟩
      simp only [List.mem_cons, Ent.tree.injEq] at hx
      rcases hx with rfl | hx
      · exact hm3 (hc m (by simp))
      · exact h3 (fun m hm => hc m (by simp [hm])) x hx
    | false =>
      refine ⟨.tree m :: es', by simp [refreshKids, refreshOne, h1, ho], ReprEs_sub.2 ⟨_, _, rfl, hm, h2⟩,
        fun hc x hx => ?_⟩
      simp only [List.mem_cons, Ent.tree.injEq] at hx
      rcases hx with rfl | hx
      · exact (hc x (by simp)).fresh_of ho
      · exact h3 (fun m hm => hc m (by simp [hm])) x hx

theorem refresh_spec' : ∀ {f : Nat} {t : Tree C} {L : Nat} {n : Node C},
    ReprN E rd L t n → WF E.zeros L t → ValidKeys t → L + 1 ≤ f →
    ∃ n', refresh E rd f n = .ok n' ∧ ReprN E rd L t n' ∧ n'.outdated = false ∧
      n'.layer = n.layer ∧ (Clean n → Fresh n')
  | 0, _, _, _, _, _, _, hf => by omega
  | f + 1, t, L, n, hn, hw, hv, hf => by
    unfold refresh
    cases ho : n.outdated with
    | false => exact ⟨n, by simp, hn, ho, rfl, fun h => h.fresh_of ho⟩
    | true =>
      obtain ⟨es, he, hes⟩ := getEntries_spec hn hw
      obtain ⟨es', h1, h2, h3⟩ := refreshKids_spec (rec := refresh E rd f) (L := L)
        (fun M hM c m hm hwc hvc => by
          obtain ⟨m', a, b, _, _, e⟩ := refresh_spec' (f := f) hm hwc hvc (by omega)
          exact ⟨m', a, b, e⟩) hes hw hv
      have hgp : ∀ M, L = M + 1 → ∀ c m, ReprN E rd M c m → WF E.zeros M c → ValidKeys c →
          getPointer E rd f m = .ok (cidOf E.H c) :=
        fun M hM c m hm hw hv => getPointer_spec hm hw hv (by omega)
      simp only [if_true, he, ok_bind, h1, serializeNodeData_spec hgp h2 hw hv]
      refine ⟨_, rfl, ⟨⟨by simp [Node.entries], fun _ => rfl, hn.1.2.2⟩, ?_⟩, rfl, rfl, ?_⟩
      · intro es'' h''; simp only [Node.entries, Option.some.injEq] at h''; exact h'' ▸ h2
      · intro hc
        refine .mk rfl fun es'' h'' => ?_
        simp only [Node.entries, Option.some.injEq] at h''
        subst h''
        exact h3 (hc.getEntries he)

theorem refresh_spec {f : Nat} {t : Tree C} {L : Nat} {n : Node C}
    (hn : ReprN E rd L t n) (hw : WF E.zeros L t) (hv : ValidKeys t) (hf : L + 1 ≤ f) :
    ∃ n', refresh E rd f n = .ok n' ∧ ReprN E rd L t n' ∧ n'.outdated = false ∧
      n'.layer = n.layer := by
  obtain ⟨n', a, b, c, d, _⟩ := refresh_spec' hn hw hv hf
  exact ⟨n', a, b, c, d⟩

theorem refreshKids_fresh {rec : Node C → Except Err (Node C)}
    (hrec : ∀ m, Clean m → ∀ m', rec m = .ok m' → Fresh m') : ∀ {es es' : List (Ent C)},
    CleanEs es → refreshKids rec es = .ok es' → ∀ m, .tree m ∈ es' → Fresh m := by
  intro es
  induction es with
  | nil => intro es' _ h2; cases h2; simp
  | cons e es ih =>
    intro es' hce h2
    have hce' : CleanEs es := fun m hm => hce m (by simp [hm])
    cases e with
    | leaf k v =>
      obtain ⟨r, h3, h2⟩ := bind_ok h2
      cases h2
      intro m hm
      simp only [List.mem_cons, reduceCtorEq, false_or] at hm
      exact ih hce' h3 m hm
    | tree x =>
      obtain ⟨x', h4, h2⟩ := bind_ok h2
      obtain ⟨r, h3, h2⟩ := bind_ok h2
      cases h2
      intro m hm
      simp only [List.mem_cons, Ent.tree.injEq] at hm
      rcases hm with rfl | hm
      · unfold refreshOne at h4
        split at h4
        · exact hrec x (hce x (by simp)) _ h4
        · rename_i hx
          cases h4
          exact (hce x (by simp)).fresh_of (by simpa using hx)
      · exact ih hce' h3 m hm

/-- `refresh` keeps the cache discipline. -/
theorem Clean.refresh : ∀ {f : Nat} {n : Node C}, Clean n → ∀ {n' : Node C},
    refresh E rd f n = .ok n' → Fresh n'
  | 0, _, _, _, he => by cases he
  | f + 1, n, hc, n', he => by
    unfold Arroba.refresh at he
    cases ho : n.outdated with
    | false => simp only [ho, Bool.false_eq_true, if_false, Except.ok.injEq] at he; subst he
               exact hc.fresh_of ho
    | true =>
      simp only [ho, if_true] at he
      obtain ⟨es, h1, he⟩ := bind_ok he
      obtain ⟨es', h2, he⟩ := bind_ok he
      obtain ⟨d, hd, he⟩ := bind_ok he
      cases he
      clear hd
      refine .mk rfl fun es'' h'' => ?_
      simp only [Node.entries, Option.some.injEq] at h''
      subst h''
      exact refreshKids_fresh (fun m hm m' h => Clean.refresh hm h) (hc.getEntries h1) h2

end

end Arroba
