import Verif.Mst.HeapWalk
import Verif.Mst.HeapSim3
import Verif.Mst.ListingProofs

/-! Helper lemmas for C85: what a generator has yet to yield. -/

namespace Arroba

variable {C : Type}

open Arroba.Tree

/-- What `walkFrom` gives, computed in one pass; `p` is the subtree just before. -/
def scanFrom (key : Key) : Option Nat → List (HEnt C) → List (HEnt C)
  | p, [] => p.toList.map .tree
  | p, .leaf k v :: es => if key ≤ k then p.toList.map .tree ++ .leaf k v :: es else scanFrom key none es
  | _, .tree i :: es => scanFrom key (some i) es

theorem scanFrom_eq (key : Key) : ∀ (es : List (HEnt C)) (p : Option Nat), scanFrom key p es =
    (if hFindGeIdx key es = 0 then p else hAsTree es[hFindGeIdx key es - 1]?).toList.map .tree ++ es.drop (hFindGeIdx key es)
  | [], p => by simp [scanFrom, hFindGeIdx]
  | .leaf k v :: es, p => by
    unfold scanFrom hFindGeIdx
    split
    · simp
    · rw [scanFrom_eq key es none]
      cases hFindGeIdx key es with
      | zero => simp [hAsTree]
      | succ n => simp
  | .tree i :: es, p => by
    unfold scanFrom hFindGeIdx
    rw [scanFrom_eq key es (some i)]
    cases hFindGeIdx key es with
    | zero => simp [hAsTree]
    | succ n => simp

theorem walkFrom_eq (key : Key) (es : List (HEnt C)) : walkFrom key es = scanFrom key none es := by
  rw [scanFrom_eq]
  unfold walkFrom pySlice sliceBound
  have h2 : ¬ ((hFindGeIdx key es : Int) < 0) := by omega
  simp only [if_neg h2, List.take_length]
  cases h : hFindGeIdx key es with
  | zero => simp
  | succ n =>
    have h1 : (0 : Int) < ((n + 1 : Nat) : Int) := by omega
    have h3 : ((((n + 1 : Nat) : Int) - 1).toNat) = n := by omega
    simp only [if_pos h1, h3, Nat.add_sub_cancel, if_neg (Nat.succ_ne_zero n)]
    have h4 : es.drop (min (n + 1) es.length) = es.drop (n + 1) := by
      rcases Nat.le_total (n + 1) es.length with hl | hl
      · rw [Nat.min_eq_left hl]
      · rw [Nat.min_eq_right hl, List.drop_eq_nil_of_le hl, List.drop_length]
    cases hAsTree es[n]? <;> simp [h4]

/-- What these entries will yield, and in how many steps at most. -/
inductive Pending (E : Env C) (Z : Nat) (h : Heap C) (g : Ghost C) (key : Key) : List (HEnt C) → List (Key × C) → Nat → Prop
  | nil : Pending E Z h g key [] [] 0
  | leaf {k v es ls n} (hk : key ≤ k) (hp : Pending E Z h g key es ls n) :
      Pending E Z h g key (.leaf k v :: es) ((k, v) :: ls) (n + 1)
  | tree {i L t m es ls n} (hv : Ver E Z h g i L t m) (hp : Pending E Z h g key es ls n) :
      Pending E Z h g key (.tree i :: es) ((leaves t).filter (fun kv => key ≤ kv.1) ++ ls)
        ((nodes t).length + (leaves t).length + n)

section
variable {E : Env C} {rd : C → Option (NodeData C)} {Z : Nat} {h h' : Heap C} {g g' : Ghost C} {key : Key}

theorem Pending.mono (hk : ∀ i L t m, Ver E Z h g i L t m → Ver E Z h' g' i L t m) {es : List (HEnt C)} {ls : List (Key × C)}
    {n : Nat} (hp : Pending E Z h g key es ls n) : Pending E Z h' g' key es ls n := by
  induction hp with
  | nil => exact .nil
  | leaf a _ ih => exact .leaf a ih
  | tree a _ ih => exact .tree (hk _ _ _ _ a) ih

theorem Pending.append {es es' : List (HEnt C)} {ls ls' : List (Key × C)} {n n' : Nat} (hp : Pending E Z h g key es ls n)
    (hp' : Pending E Z h g key es' ls' n') : Pending E Z h g key (es ++ es') (ls ++ ls') (n + n') := by
  induction hp with
  | nil => simpa using hp'
  | @leaf k v es ls n a _ ih =>
    rw [show n + 1 + n' = n + n' + 1 by omega]
    exact .leaf a ih
  | tree a _ ih =>
    rw [Nat.add_assoc, List.append_assoc]
    exact .tree a ih

theorem Pending.zero {es : List (HEnt C)} {ls : List (Key × C)} (hp : Pending E Z h g key es ls 0) : es = [] := by
  generalize hn : 0 = n at hp
  cases hp with
  | nil => rfl
  | leaf => omega
  | tree => simp only [nodes, List.length_cons] at hn; omega

/-- A child of a node is like a version. -/
theorem ver_child {M i : Nat} {c : Tree C} (hg : g[i]? = some (M, c)) (hc : c ≠ nil) (hw : WF E.zeros M c) (hs : Sorted c)
    (hv : ValidKeys c) (hM : M ≤ Z) : Ver E Z h g i M c (dictGet (leaves c)) :=
  ⟨hg, fun h => absurd h hc, hw, hs, hv, hM, rfl⟩

theorem sorted_sub {c r : Tree C} (h : Sorted (sub c r)) :
    Sorted c ∧ Sorted r ∧ ∀ a ∈ leaves c, ∀ b ∈ leaves r, a.1 < b.1 := by
  unfold Sorted at h
  simp only [leaves] at h
  exact List.pairwise_append.1 h

/-- If all the keys are late enough, the entries yield all of them. -/
theorem pending_all : ∀ {t : Tree C} {L : Nat} {es : List (HEnt C)}, HEs E g L t es → WF E.zeros L t → Sorted t → ValidKeys t →
    L ≤ Z → (∀ kv ∈ leaves t, key ≤ kv.1) →
    Pending E Z h g key es ((leaves t).filter (fun kv => key ≤ kv.1)) ((kids t).length + (leaves t).length)
  | nil, _, _, he, _, _, _, _, _ => by
    cases he
    exact .nil
  | leaf k v r, L, es, ⟨_, es', h1, h2⟩, hw, hs, hv, hL, hk => by
    subst h1
    have ih := pending_all (t := r) h2 hw.2 (List.Pairwise.of_cons hs) (fun kv hm => hv kv (by simp [leaves, hm])) hL
      (fun kv hm => hk kv (by simp [leaves, hm]))
    have hkk : key ≤ k := hk (k, v) (by simp [leaves])
    have := Pending.leaf (v := v) hkk ih
    simp only [leaves, kids, List.filter_cons, hkk, decide_true, if_true, List.length_cons]
    exact this
  | sub c r, L, es, ⟨M, i, es', h0, h1, h2, h3, h4⟩, hw, hs, hv, hL, hk => by
    subst h2
    obtain ⟨M', hM', hc, hwc, hns, hwr⟩ := WF_sub.1 hw
    obtain rfl : M = M' := by omega
    obtain ⟨s1, s2, s3⟩ := sorted_sub hs
    have ih := pending_all (t := r) h4 hwr s2 (fun kv hm => hv kv (by simp [leaves, hm])) hL
      (fun kv hm => hk kv (by simp [leaves, hm]))
    have := Pending.tree (ver_child (Z := Z) (h := h) h3 h1 hwc s1 (fun kv hm => hv kv (by simp [leaves, hm])) (by omega)) ih
    simp only [leaves, kids, List.filter_append, List.length_append, List.length_cons]
    rw [show (kids c).length + 1 + (kids r).length + ((leaves c).length + (leaves r).length) =
      (nodes c).length + (leaves c).length + ((kids r).length + (leaves r).length) by
        simp only [nodes, List.length_cons]; omega]
    exact this

/-- The subtree before the position, if there is one, and what it has. -/
def PrevOK (E : Env C) (Z : Nat) (h : Heap C) (g : Ghost C) (p : Option Nat) (lc : List (Key × C)) (nc : Nat) : Prop :=
  match p with
  | none => lc = [] ∧ nc = 0
  | some i => ∃ M c m, Ver E Z h g i M c m ∧ lc = leaves c ∧ nc = (nodes c).length + (leaves c).length

theorem PrevOK.pending {p : Option Nat} {lc : List (Key × C)} {nc : Nat} (hb : PrevOK E Z h g p lc nc) :
    Pending E Z h g key (p.toList.map .tree) (lc.filter (fun kv => key ≤ kv.1)) nc := by
  cases p with
  | none =>
    obtain ⟨rfl, rfl⟩ := hb
    exact .nil
  | some i =>
    obtain ⟨M, c, m, h1, rfl, rfl⟩ := hb
    have := Pending.tree (key := key) h1 .nil
    simpa using this

theorem pending_scan : ∀ {t : Tree C} {L : Nat} {es : List (HEnt C)} {p : Option Nat} {lc : List (Key × C)} {nc : Nat},
    HEs E g L t es → WF E.zeros L t → Sorted t → ValidKeys t → L ≤ Z → PrevOK E Z h g p lc nc →
    (p ≠ none → ¬ startsSub t) → (∀ a ∈ lc, ∀ b ∈ leaves t, a.1 < b.1) →
    ∃ n, n ≤ nc + (kids t).length + (leaves t).length ∧
      Pending E Z h g key (scanFrom key p es) ((lc ++ leaves t).filter (fun kv => key ≤ kv.1)) n
  | nil, _, _, p, lc, nc, he, _, _, _, _, hb, _, _ => by
    cases he
    refine ⟨nc, by omega, ?_⟩
    simpa [scanFrom, leaves] using hb.pending
  | leaf k v r, L, es, p, lc, nc, ⟨hz, es', h1, h2⟩, hw, hs, hv, hL, hb, _, hlt => by
    subst h1
    unfold scanFrom
    by_cases hk : key ≤ k
    · rw [if_pos hk, List.filter_append]
      have hall := pending_all (key := key) (h := h) (t := leaf k v r) (L := L) ⟨hz, es', rfl, h2⟩ hw hs hv hL (by
        intro kv hm
        simp only [leaves, List.mem_cons] at hm
        rcases hm with rfl | hm
        · exact hk
        · exact le_trans hk (le_of_lt (List.rel_of_pairwise_cons hs hm)))
      exact ⟨_, by omega, hb.pending.append hall⟩
    · rw [if_neg hk]
      obtain ⟨n, n1, n2⟩ := pending_scan (p := none) (lc := []) (nc := 0) h2 hw.2 (List.Pairwise.of_cons hs)
        (fun kv hm => hv kv (by simp [leaves, hm])) hL ⟨rfl, rfl⟩ (fun h => absurd rfl h) (fun _ h => (nomatch h))
      refine ⟨n, by simp only [kids, leaves, List.length_cons]; omega, ?_⟩
      have hlc : lc.filter (fun kv => decide (key ≤ kv.1)) = [] := by
        rw [List.filter_eq_nil_iff]
        intro a ha
        have := hlt a ha (k, v) (by simp [leaves])
        simpa using lt_of_lt_of_le this (le_of_lt (not_le.1 hk))
      rw [List.filter_append, hlc]
      simpa [leaves, hk] using n2
  | sub c r, L, es, p, lc, nc, ⟨M, i, es', h0, h1, h2, h3, h4⟩, hw, hs, hv, hL, hb, hns', hlt => by
    subst h2
    obtain rfl : p = none := by
      by_contra hp
      exact hns' hp trivial
    obtain ⟨rfl, rfl⟩ := hb
    obtain ⟨M', hM', hc, hwc, hns, hwr⟩ := WF_sub.1 hw
    obtain rfl : M = M' := by omega
    obtain ⟨s1, s2, s3⟩ := sorted_sub hs
    unfold scanFrom
    obtain ⟨n, n1, n2⟩ := pending_scan (p := some i) h4 hwr s2 (fun kv hm => hv kv (by simp [leaves, hm])) hL
      ⟨M, c, _, ver_child (Z := Z) (h := h) h3 h1 hwc s1 (fun kv hm => hv kv (by simp [leaves, hm])) (by omega), rfl, rfl⟩
      (fun _ => hns) s3
    refine ⟨n, ?_, ?_⟩
    · simp only [kids, leaves, nodes, List.length_cons, List.length_append] at n1 ⊢
      omega
    · simpa [leaves] using n2

end

/-- What is known of a generator for a version that stands for `t`. -/
def WalkOK (E : Env C) (Z : Nat) (h : Heap C) (g : Ghost C) (w : HWalk C) (t : Tree C) : Prop :=
  ∃ i L ls n, Ver E Z h g i L t (specRun w.version).1 ∧ Pending E Z h g (w.start.getD []) w.work ls n ∧
    w.yielded ++ ls = (leaves t).filter (fun kv => w.start.getD [] ≤ kv.1) ∧ w.steps + n ≤ (nodes t).length + (leaves t).length

section
variable {E : Env C} {rd : C → Option (NodeData C)} {Z : Nat} {h h' : Heap C} {g g' : Ghost C}

theorem WalkOK.mono (hk : ∀ i L t m, Ver E Z h g i L t m → Ver E Z h' g' i L t m) {w : HWalk C} {t : Tree C}
    (hw : WalkOK E Z h g w t) : WalkOK E Z h' g' w t := by
  obtain ⟨i, L, ls, n, h1, h2, h3, h4⟩ := hw
  exact ⟨i, L, ls, n, hk _ _ _ _ h1, h2.mono hk, h3, h4⟩

/-- What a node yields after its entries are read. -/
theorem hGetEntries_pending (hi : HInv E rd h g) (start : Option Key) {j M : Nat} {c : Tree C} {m : Key → Option C}
    {es : List (HEnt C)} {ls : List (Key × C)} {n : Nat} (hv : Ver E Z h g j M c m)
    (hp : Pending E Z h g (start.getD []) es ls n) :
    ∃ es' h' g' n', hGetEntries E rd j h = (.ok es', h') ∧ HInv E rd h' g' ∧ Ext h g h' g' ∧ j < h.length ∧
      n' < (nodes c).length + (leaves c).length + n ∧
      Pending E Z h' g' (start.getD []) (walkEntries start es' ++ es)
        ((leaves c).filter (fun kv => start.getD [] ≤ kv.1) ++ ls) n' := by
  obtain ⟨es', h', g', k1, k2, k3, k4⟩ := hGetEntries_spec hi hv.ghost
  have hk : ∀ i L t m, Ver E Z h g i L t m → Ver E Z h' g' i L t m := fun _ _ _ _ k => k.mono k3 hi
  have hlt : j < h.length := by
    rw [hi.len]
    rcases Nat.lt_or_ge j g.length with hl | hl
    · exact hl
    · have := hv.ghost
      rw [List.getElem?_eq_none hl] at this
      cases this
  obtain ⟨n', n1, n2⟩ : ∃ n', n' ≤ (kids c).length + (leaves c).length ∧
      Pending E Z h' g' (start.getD []) (walkEntries start es') ((leaves c).filter (fun kv => start.getD [] ≤ kv.1)) n' := by
    cases start with
    | none => exact ⟨_, Nat.le_refl _, pending_all k4 hv.wf hv.sorted hv.valid hv.bound (fun _ _ => key_nil_le _)⟩
    | some key =>
      obtain ⟨n', n1, n2⟩ := pending_scan (key := key) (h := h') (p := none) (lc := []) (nc := 0) k4 hv.wf hv.sorted hv.valid
        hv.bound ⟨rfl, rfl⟩ (fun h => absurd rfl h) (fun _ h => (nomatch h))
      refine ⟨n', by omega, ?_⟩
      rw [walkEntries, walkFrom_eq]
      exact n2
  refine ⟨es', h', g', n' + n, k1, k2, k3, hlt, ?_, n2.append (hp.mono hk)⟩
  simp only [nodes, List.length_cons]
  omega

/-- A step of a generator never raises, and the generator is still right afterwards. -/
theorem hAdvance_spec (hi : HInv E rd h g) {w : HWalk C} {t : Tree C} (hw : WalkOK E Z h g w t) :
    ∃ w' h' g', hAdvance E rd w h = (.ok w', h') ∧ HInv E rd h' g' ∧ Ext h g h' g' ∧ WalkOK E Z h' g' w' t ∧
      w'.version = w.version ∧ w'.start = w.start ∧ (w.work = [] → w' = w) ∧ (w.work ≠ [] → w'.steps = w.steps + 1) ∧
      (h' = h ∨ ∃ i es, i < h.length ∧ hGetEntries E rd i h = (.ok es, h')) := by
  obtain ⟨i, L, ls, n, h1, h2, h3, h4⟩ := hw
  obtain ⟨version, start, work, yielded, steps⟩ := w
  dsimp only at h1 h2 h3 h4
  unfold hAdvance
  cases h2 with
  | nil =>
    exact ⟨_, h, g, rfl, hi, .refl _ _, ⟨i, L, [], 0, h1, .nil, h3, h4⟩, rfl, rfl, fun _ => rfl, fun h => absurd rfl h, .inl rfl⟩
  | @leaf k v es ls n hk hp =>
    refine ⟨_, h, g, rfl, hi, .refl _ _, ⟨i, L, ls, n, h1, hp, ?_, ?_⟩, rfl, rfl, fun h => (nomatch h), fun _ => rfl, .inl rfl⟩
    · simpa using h3
    · dsimp only; omega
  | @tree j M c m es ls n hv hp =>
    obtain ⟨es', h', g', n', k1, k2, k3, k4, k5, k6⟩ := hGetEntries_pending hi start hv hp
    have hk : ∀ i L t m, Ver E Z h g i L t m → Ver E Z h' g' i L t m := fun _ _ _ _ k => k.mono k3 hi
    refine ⟨{ version := version, start := start, work := walkEntries start es' ++ es, yielded := yielded, steps := steps + 1 },
      h', g', ?_, k2, k3, ⟨i, L, _, n', hk _ _ _ _ h1, k6, h3, ?_⟩, rfl, rfl, fun h => (nomatch h), fun _ => rfl,
      .inr ⟨j, es', k4, k1⟩⟩
    · show (hGetEntries E rd j >>= _) h = _
      rw [HM.bind_ok k1]
      rfl
    · dsimp only
      omega

/-- Nodes are read, and nothing else happens. -/
def Reads (E : Env C) (rd : C → Option (NodeData C)) : Heap C → Heap C → Prop :=
  Relation.ReflTransGen fun h h' => ∃ i es, i < h.length ∧ hGetEntries E rd i h = (.ok es, h')

theorem hListLoop_spec (after before : Option Key) : ∀ (f : Nat) {h : Heap C} {g : Ghost C} {es : List (HEnt C)}
    {ls : List (Key × C)} {n : Nat}, HInv E rd h g → Pending E Z h g (after.getD []) es ls n → n < f →
    ∃ h', hListLoop E rd after before f es h = (.ok (listLoop after before ls), h') ∧ Reads E rd h h'
  | 0, _, _, _, _, _, _, _, hf => absurd hf (Nat.not_lt_zero _)
  | f + 1, h, g, _, _, _, hi, .nil, _ => ⟨h, rfl, .refl⟩
  | f + 1, h, g, _, _, _, hi, .leaf (k := k) (v := v) (es := es) (ls := ls) (n := n) hk hp, hf => by
    obtain ⟨h', k1, k2⟩ := hListLoop_spec after before f hi hp (by omega)
    rw [listLoop_isPast]
    unfold hListLoop
    by_cases ha : some k = after
    · rw [if_pos ha, if_pos ha]
      exact ⟨h', k1, k2⟩
    · rw [if_neg ha, if_neg ha]
      by_cases hb : isPast before k = true
      · rw [if_pos hb, if_pos hb]
        exact ⟨h, rfl, .refl⟩
      · rw [if_neg hb, if_neg hb]
        exact ⟨h', by rw [HM.bind_ok k1]; rfl, k2⟩
  | f + 1, h, g, _, _, _, hi, .tree (i := i) (es := es) (ls := ls) (n := n) hv hp, hf => by
    obtain ⟨es', h₁, g₁, n', k1, k2, k3, k4, k5, k6⟩ := hGetEntries_pending hi (some (after.getD [])) hv hp
    obtain ⟨h', l1, l2⟩ := hListLoop_spec after before f k2 k6 (by omega)
    refine ⟨h', ?_, .head ⟨i, es', k4, k1⟩ l2⟩
    unfold hListLoop
    rw [HM.bind_ok k1]
    exact l1

theorem hPrefixLoop_spec (pre : Key) : ∀ (f : Nat) {h : Heap C} {g : Ghost C} {es : List (HEnt C)}
    {ls : List (Key × C)} {n : Nat}, HInv E rd h g → Pending E Z h g pre es ls n → n < f →
    ∃ h', hPrefixLoop E rd pre f es h = (.ok (prefixLoop pre ls), h') ∧ Reads E rd h h'
  | 0, _, _, _, _, _, _, _, hf => absurd hf (Nat.not_lt_zero _)
  | f + 1, h, g, _, _, _, hi, .nil, _ => ⟨h, rfl, .refl⟩
  | f + 1, h, g, _, _, _, hi, .leaf (k := k) (v := v) (es := es) (ls := ls) (n := n) hk hp, hf => by
    obtain ⟨h', k1, k2⟩ := hPrefixLoop_spec pre f hi hp (by omega)
    unfold hPrefixLoop prefixLoop
    by_cases ha : startsWith k pre = true
    · rw [if_pos ha, if_pos ha]
      exact ⟨h', by rw [HM.bind_ok k1]; rfl, k2⟩
    · rw [if_neg ha, if_neg ha]
      exact ⟨h, rfl, .refl⟩
  | f + 1, h, g, _, _, _, hi, .tree (i := i) (es := es) (ls := ls) (n := n) hv hp, hf => by
    obtain ⟨es', h₁, g₁, n', k1, k2, k3, k4, k5, k6⟩ := hGetEntries_pending hi (some pre) hv hp
    obtain ⟨h', l1, l2⟩ := hPrefixLoop_spec pre f k2 k6 (by omega)
    refine ⟨h', ?_, .head ⟨i, es', k4, k1⟩ l2⟩
    unfold hPrefixLoop
    rw [HM.bind_ok k1]
    exact l1

theorem hLeavesLoop_spec : ∀ (f : Nat) {h : Heap C} {g : Ghost C} {es : List (HEnt C)}
    {ls : List (Key × C)} {n : Nat}, HInv E rd h g → Pending E Z h g [] es ls n → n < f →
    ∃ h', hLeavesLoop E rd f es h = (.ok ls, h') ∧ Reads E rd h h'
  | 0, _, _, _, _, _, _, _, hf => absurd hf (Nat.not_lt_zero _)
  | f + 1, h, g, _, _, _, hi, .nil, _ => ⟨h, rfl, .refl⟩
  | f + 1, h, g, _, _, _, hi, .leaf (k := k) (v := v) (es := es) (ls := ls) (n := n) hk hp, hf => by
    obtain ⟨h', k1, k2⟩ := hLeavesLoop_spec f hi hp (by omega)
    unfold hLeavesLoop
    exact ⟨h', by rw [HM.bind_ok k1]; rfl, k2⟩
  | f + 1, h, g, _, _, _, hi, .tree (i := i) (es := es) (ls := ls) (n := n) hv hp, hf => by
    obtain ⟨es', h₁, g₁, n', k1, k2, k3, k4, k5, k6⟩ := hGetEntries_pending hi none hv hp
    obtain ⟨h', l1, l2⟩ := hLeavesLoop_spec f k2 k6 (by omega)
    refine ⟨h', ?_, .head ⟨i, es', k4, k1⟩ l2⟩
    unfold hLeavesLoop
    rw [HM.bind_ok k1]
    exact l1

/-- The invariant: which tree each generator walks through. -/
structure WInv (E : Env C) (Z : Nat) (s : WState C) (g : Ghost C) (T : List (Tree C)) : Prop where
  v : VInv E Z s.v g
  len : s.walks.length = T.length
  walks : ∀ (j : Nat) w t, s.walks[j]? = some w → T[j]? = some t → WalkOK E Z s.v.heap g w t

variable [DecidableEq C] {fuel : Nat}

/-- A step keeps the invariant; the generators stay what they are; and the versions take a step of C81, or none. -/
theorem WStep.inv (hinj : Function.Injective E.H) (hZ : ∀ k, E.zeros k ≤ Z) (hf : Z + 2 ≤ fuel) {s s' : WState C}
    (hst : WStep E fuel s s') {T : List (Tree C)} (hv : WInv E Z s g T) :
    (∃ g' T', WInv E Z s' g' T' ∧ T <+: T') ∧ Relation.ReflTransGen (VStep E fuel) s.v s'.v ∧
      ∀ (j : Nat) w, s.walks[j]? = some w → ∃ w', s'.walks[j]? = some w' ∧ w'.version = w.version ∧ w'.start = w.start := by
  cases hst with
  | @other v' hs =>
    obtain ⟨g', k1, k2⟩ := hs.inv hinj hZ hf hv.v
    exact ⟨⟨g', T, ⟨k1, hv.len, fun j w t a b => (hv.walks j w t a b).mono k2.2⟩, List.prefix_refl _⟩, .single hs,
      fun j w hj => ⟨w, hj, rfl, rfl⟩⟩
  | @start i ops hm start =>
    obtain ⟨L, t, kv⟩ := hv.v.vers i ops hm
    refine ⟨⟨g, T ++ [t], ⟨hv.v, by simp [hv.len], fun j w t' a b => ?_⟩, List.prefix_append _ _⟩, .refl,
      fun j w hj => ⟨w, prefix_get (List.prefix_append _ _) hj, rfl, rfl⟩⟩
    dsimp only at a ⊢
    rcases Nat.lt_trichotomy j s.walks.length with hl | hl | hl
    · rw [List.getElem?_append_left hl] at a
      rw [List.getElem?_append_left (hv.len ▸ hl)] at b
      exact hv.walks j w t' a b
    · rw [hl, List.getElem?_concat_length] at a
      rw [hl, hv.len, List.getElem?_concat_length] at b
      cases a
      cases b
      refine ⟨i, L, _, _, kv, .tree kv .nil, ?_, ?_⟩
      · simp
      · simp
    · rw [List.getElem?_eq_none (by rw [List.length_append]; exact hl)] at a
      cases a
  | @next j w w' h' hw hn =>
    have hlt : j < s.walks.length := by
      rcases Nat.lt_or_ge j s.walks.length with hl | hl
      · exact hl
      · rw [List.getElem?_eq_none hl] at hw; cases hw
    obtain ⟨w₁, h₁, g₁, k1, k2, k3, k4, k5, k6, k7, k8, k9⟩ := hAdvance_spec hv.v.heap
      (hv.walks j w _ hw (List.getElem?_eq_getElem (hv.len ▸ hlt)))
    rw [k1] at hn
    cases hn
    have hk : ∀ i L t m, Ver E Z s.v.heap g i L t m → Ver E Z h' g₁ i L t m := fun _ _ _ _ k => k.mono k3 hv.v.heap
    refine ⟨⟨g₁, T, ⟨⟨hv.v.store, k2, fun i ops hm => ?_⟩, by simp [hv.len], fun j' w₂ t a b => ?_⟩, List.prefix_refl _⟩, ?_,
      fun j' w₂ hj => ?_⟩
    · obtain ⟨L, t, kv⟩ := hv.v.vers i ops hm
      exact ⟨L, t, hk _ _ _ _ kv⟩
    · dsimp only at a ⊢
      by_cases hjj : j = j'
      · subst hjj
        rw [List.getElem?_set_self hlt] at a
        cases a
        rw [List.getElem?_eq_getElem (hv.len ▸ hlt)] at b
        cases b
        exact k4
      · rw [List.getElem?_set_ne hjj] at a
        exact (hv.walks j' w₂ t a b).mono hk
    · rcases k9 with rfl | ⟨i, es, a1, a2⟩
      · exact .refl
      · exact .single (.entries a1 a2)
    · dsimp only
      by_cases hjj : j = j'
      · subst hjj
        rw [hw] at hj
        cases hj
        exact ⟨w', List.getElem?_set_self hlt, k5, k6⟩
      · exact ⟨w₂, by rw [List.getElem?_set_ne hjj]; exact hj, rfl, rfl⟩

theorem WSteps.inv (hinj : Function.Injective E.H) (hZ : ∀ k, E.zeros k ≤ Z) (hf : Z + 2 ≤ fuel) {s s' : WState C}
    (hst : Relation.ReflTransGen (WStep E fuel) s s') {T : List (Tree C)} (hv : WInv E Z s g T) :
    (∃ g' T', WInv E Z s' g' T' ∧ T <+: T') ∧ Relation.ReflTransGen (VStep E fuel) s.v s'.v ∧
      ∀ (j : Nat) w, s.walks[j]? = some w → ∃ w', s'.walks[j]? = some w' ∧ w'.version = w.version ∧ w'.start = w.start := by
  induction hst with
  | refl => exact ⟨⟨g, T, hv, List.prefix_refl _⟩, .refl, fun j w h => ⟨w, h, rfl, rfl⟩⟩
  | tail _ hs ih =>
    obtain ⟨⟨g₁, T₁, a1, a2⟩, a3, a4⟩ := ih
    obtain ⟨⟨g₂, T₂, b1, b2⟩, b3, b4⟩ := hs.inv hinj hZ hf a1
    refine ⟨⟨g₂, T₂, b1, a2.trans b2⟩, a3.trans b3, fun j w hj => ?_⟩
    obtain ⟨w₁, c1, c2, c3⟩ := a4 j w hj
    obtain ⟨w₂, d1, d2, d3⟩ := b4 j w₁ c1
    exact ⟨w₂, d1, d2.trans c2, d3.trans c3⟩

theorem WReach.inv (hinj : Function.Injective E.H) (hZ : ∀ k, E.zeros k ≤ Z) (hf : Z + 2 ≤ fuel) {s : WState C}
    (h : WReach E fuel s) : (∃ g T, WInv E Z s g T) ∧ VReach E fuel s.v := by
  obtain ⟨rd, hs, h⟩ := h
  obtain ⟨⟨g, T, a, _⟩, b, _⟩ := WSteps.inv hinj hZ hf h (g := []) (T := [])
    ⟨⟨hs, ⟨rfl, fun i o L t h => (nomatch h)⟩, fun _ _ h => (nomatch h)⟩, rfl, fun _ _ _ h => (nomatch h)⟩
  exact ⟨⟨g, T, a⟩, rd, hs, b⟩

end

end Arroba
