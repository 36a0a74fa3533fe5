import Verif.Mst.DiffProofs
import Verif.Mst.DiffSpec

/-! Helper lemmas: walks over pure trees against the block-level specification. -/

namespace Arroba

variable {C : Type}

open Arroba.Tree

/-- Every node below the root is below or equal to a direct child. -/
theorem kids_subs {t s : Tree C} (h : s ∈ kids t) : ∃ u ∈ subs t, s ∈ nodes u := by
  induction t with
  | nil => simp [kids] at h
  | leaf k v r ih => exact ih h
  | sub c r _ ih =>
    simp only [kids, List.mem_append] at h
    rcases h with h | h
    · exact ⟨c, by simp [subs], h⟩
    · obtain ⟨u, hu, hs⟩ := ih h
      exact ⟨u, by simp [subs, hu], hs⟩

section
variable {E : Env C} {rd : C → Option (NodeData C)}

/-- Node CIDs of a stored tree. -/
theorem nodeCid_iff {t : Tree C} {L : Nat} (hw : WF E.zeros L t) (hs : Stored E rd t) (c : C) :
    NodeCid rd (cidOf E.H t) c ↔ c ∈ (nodes t).map (cidOf E.H) := by
  constructor
  · intro h
    induction h with
    | root => exact List.mem_map.2 ⟨t, by simp [nodes], rfl⟩
    | @child c c' d h hd hc ih =>
      obtain ⟨s, hs1, rfl⟩ := List.mem_map.1 ih
      rw [hs s hs1] at hd
      cases hd
      obtain ⟨u, hu, rfl⟩ := children_subs hc
      exact List.mem_map.2 ⟨u, nodes_trans hs1 (by simp [nodes, subs_kids hu]), rfl⟩
  · intro h
    obtain ⟨s, hs1, rfl⟩ := List.mem_map.1 h
    have key : ∀ (t : Tree C) (L : Nat), WF E.zeros L t → Stored E rd t → ∀ root,
        NodeCid rd root (cidOf E.H t) → ∀ s ∈ nodes t, NodeCid rd root (cidOf E.H s) := by
      intro t
      induction hn : (nodes t).length using Nat.strong_induction_on generalizing t with
      | _ n ih =>
        intro L hw hst root hroot s hs
        simp only [nodes, List.mem_cons] at hs
        rcases hs with rfl | hs
        · exact hroot
        · obtain ⟨u, hu, hsu⟩ := kids_subs hs
          have hmem : u ∈ nodes t := by simp [nodes, subs_kids hu]
          obtain ⟨M, hM⟩ := WF_nodes hw u hmem
          refine ih (nodes u).length ?_ u rfl M hM (fun x hx => hst x (nodes_trans hmem hx)) root
            (.child hroot (hst t (by simp [nodes])) (subs_children hw hu)) s hsu
          have := kids_length (subs_kids hu)
          simp only [nodes, List.length_cons] at hn ⊢
          omega
    exact key t L hw hs _ .root s hs1

end

/-! ### Preorder of pure trees -/

/-- Visits of the entries of a node. -/
def preEs (H : NodeData C → C) : Tree C → List (Visit C)
  | nil => []
  | leaf k v r => .leaf k v :: preEs H r
  | sub c r => .node (cidOf H c) :: (preEs H c ++ preEs H r)

/-- Visits of a node. -/
def pre (H : NodeData C → C) (t : Tree C) : List (Visit C) := .node (cidOf H t) :: preEs H t

def Item.pre (H : NodeData C → C) : Item C → List (Visit C)
  | .leaf k v => [.leaf k v]
  | .node _ t => Arroba.pre H t

def itemPre (H : NodeData C → C) (xs : List (Item C)) : List (Visit C) := xs.flatMap (Item.pre H)

theorem itemPre_items (H : NodeData C → C) (L : Nat) (t : Tree C) :
    itemPre H (items L t) = preEs H t := by
  induction t with
  | nil => rfl
  | leaf k v r ih => simp only [items, itemPre, List.flatMap_cons, Item.pre, preEs] at ih ⊢; simp [ih]
  | sub c r _ ih =>
    simp only [items, itemPre, List.flatMap_cons, Item.pre, preEs, pre] at ih ⊢; simp [ih]

theorem itemPre_append (H : NodeData C → C) (a b : List (Item C)) :
    itemPre H (a ++ b) = itemPre H a ++ itemPre H b := by simp [itemPre]

theorem pre_spec {H : NodeData C → C} {rd : C → Option (NodeData C)} {z : Key → Nat} {t : Tree C} :
    ∀ {L : Nat}, WF z L t → (∀ s ∈ kids t, rd (cidOf H s) = some (nodeOf H s)) → ∀ last,
    ∃ vl ve, preEs H t = vl ++ ve ∧ PreOpt rd (ser H t).1 vl ∧ PreEs rd last ((ser H t).2 last) ve ∧
      (¬ startsSub t → vl = []) := by
  induction t with
  | nil => intro L _ _ last; exact ⟨[], [], rfl, .none, .nil, fun _ => rfl⟩
  | leaf k v r ih =>
    intro L hw hs last
    obtain ⟨vl, ve, h1, h2, h3, _⟩ := ih hw.2 hs k
    have hk := commonPrefixLen_recover last k
    refine ⟨[], .leaf k v :: (vl ++ ve), by simp [preEs, h1], .none, ?_, fun _ => rfl⟩
    have := PreEs.cons (rd := rd) (last := last)
      (e := ⟨commonPrefixLen last k, k.drop (commonPrefixLen last k), v, (ser H r).1⟩)
      (es := (ser H r).2 k) h2 (by simpa only [hk] using h3)
    simpa only [hk, ser] using this
  | sub c r ihc ihr =>
    intro L hw hs last
    obtain ⟨M, rfl, hc, hwc, hns, hwr⟩ := WF_sub.1 hw
    obtain ⟨vl, ve, h1, h2, h3, _⟩ := ihc hwc
      (fun s hs' => hs s (by simp only [kids, List.mem_append, List.mem_cons]; exact .inl (.inr hs'))) []
    obtain ⟨vl', ve', h1', h2', h3', h4'⟩ := ihr hwr
      (fun s hs' => hs s (by simp only [kids, List.mem_append]; exact .inr hs')) last
    have hnil := h4' hns
    subst hnil
    refine ⟨.node (cidOf H c) :: (vl ++ ve), ve', by simp [preEs, h1, h1'], ?_, h3', fun h =>
      absurd trivial h⟩
    exact .some (.mk (hs c (by simp [kids])) h2 h3)

theorem pre_stored {H : NodeData C → C} {rd : C → Option (NodeData C)} {z : Key → Nat} {t : Tree C}
    {L : Nat} (hw : WF z L t) (hs : ∀ s ∈ nodes t, rd (cidOf H s) = some (nodeOf H s)) :
    PreNode rd (cidOf H t) (pre H t) := by
  obtain ⟨vl, ve, h1, h2, h3, _⟩ := pre_spec (rd := rd) hw
    (fun s hs' => hs s (by simp [nodes, hs'])) []
  rw [pre, h1]
  exact .mk (hs t (by simp [nodes])) h2 h3

theorem items_node {L L' : Nat} {t t' : Tree C} (h : Item.node L' t' ∈ items L t) :
    L' = L - 1 ∧ t' ∈ subs t := by
  induction t with
  | nil => simp [items] at h
  | leaf k v r ih => simp [items] at h; exact ih h
  | sub c r _ ih =>
    simp only [items, List.mem_cons, Item.node.injEq] at h
    rcases h with ⟨rfl, rfl⟩ | h
    · exact ⟨rfl, by simp [subs]⟩
    · exact ⟨(ih h).1, by simp [subs, (ih h).2]⟩

theorem expand_bound {L₀ M : Nat} {t₀ s : Tree C} {xs : List (Item C)}
    (h : ∀ L t, Item.node L t ∈ Item.node M s :: xs → L ≤ L₀ ∧ t ∈ nodes t₀) :
    ∀ L t, Item.node L t ∈ items M s ++ xs → L ≤ L₀ ∧ t ∈ nodes t₀ := by
  intro L t hm
  rcases List.mem_append.1 hm with hm | hm
  · obtain ⟨h1, h2⟩ := items_node hm
    obtain ⟨h3, h4⟩ := h M s (by simp)
    exact ⟨by omega, nodes_trans h4 (by simp [nodes, subs_kids h2])⟩
  · exact h L t (by simp [hm])

/-! ### The walker visits the preorder -/

section
variable {E : Env C} {rd : C → Option (NodeData C)} {F : Node C → Prop} {fuel : Nat}

theorem WR.visits (hF : Hereditary E rd F) : ∀ (s : Nat) {xs : List (Item C)} {w : Walker C},
    itemSize xs ≤ s → (∀ L t, Item.node L t ∈ xs → L + 1 ≤ fuel) → WR E rd F w xs →
    Visits E rd fuel w (itemPre E.H xs)
  | s, [], w, _, _, h => .done h.done
  | s, .leaf k v :: xs, w, hs, hl, h => by
    obtain ⟨hd, e, hc, rfl⟩ := h.cur
    obtain ⟨w', h1, h2⟩ := advance_leaf h
    obtain ⟨s, rfl⟩ : ∃ s', s = s' + 1 := ⟨s - 1, by simp at hs; omega⟩
    exact .step hd hc rfl h1 (h2.visits hF s (by simpa using hs)
      (fun L t hm => hl L t (by simp [hm])))
  | s, .node L t :: xs, w, hs, hl, h => by
    obtain ⟨hd, e, hc, n, rfl, hr, hfn, hw, hv⟩ := h.cur
    obtain ⟨w', h1, h2⟩ := advance_node hF h
    obtain ⟨s, rfl⟩ : ∃ s', s = s' + 1 := ⟨s - 1, by simp at hs; omega⟩
    have hL : L + 1 ≤ fuel := hl L t (by simp)
    refine .step hd hc (v := .node (cidOf E.H t)) ?_ h1 ?_
    · simp [visitOf, getPointer_spec hr hw hv hL]
    · have := h2.visits hF s (by simp at hs ⊢; omega) (fun L' t' hm => by
        rcases List.mem_append.1 hm with hm | hm
        · have := (items_node hm).1
          omega
        · exact hl L' t' (by simp [hm]))
      rw [itemPre_append, itemPre_items] at this
      exact this

/-- Every walker obtained from a fresh one. -/
theorem WalkerOf.items (hF : Hereditary E rd F) {n : Node C} {w : Walker C} {L₀ : Nat}
    {t₀ : Tree C} (hr : ReprItem E rd F (.node L₀ t₀) (.tree n)) (h : WalkerOf E rd n w) :
    ∃ xs, WR E rd F w xs ∧ ∀ L t, Item.node L t ∈ xs → L ≤ L₀ ∧ t ∈ nodes t₀ := by
  induction h with
  | new =>
    refine ⟨_, .inr (.inl ⟨n, L₀, t₀, rfl, rfl, hr⟩), ?_⟩
    intro L t hm
    simp only [List.mem_singleton, Item.node.injEq] at hm
    obtain ⟨rfl, rfl⟩ := hm
    exact ⟨le_refl _, by simp [nodes]⟩
  | @advance w w' h ha ih =>
    obtain ⟨xs, hw, hx⟩ := ih
    cases xs with
    | nil =>
      simp only [Walker.advance, hw.done, if_true, Except.ok.injEq] at ha
      exact ⟨[], ha ▸ hw, by simp⟩
    | cons x xs =>
      cases x with
      | leaf k v =>
        obtain ⟨w₁, h1, h2⟩ := advance_leaf hw
        cases h1.symm.trans ha
        exact ⟨xs, h2, fun L t hm => hx L t (by simp [hm])⟩
      | node M s =>
        obtain ⟨w₁, h1, h2⟩ := advance_node hF hw
        cases h1.symm.trans ha
        exact ⟨_, h2, expand_bound hx⟩
  | @stepOver w w' h ha ih =>
    obtain ⟨xs, hw, hx⟩ := ih
    cases xs with
    | nil =>
      have hd := hw.done
      have : w' = w := by
        unfold Walker.stepOver at ha
        obtain ⟨stack, st⟩ := w
        cases stack <;> simp_all [Arroba.stepOver]
      exact ⟨[], this ▸ hw, by simp⟩
    | cons x xs =>
      obtain ⟨w₁, h1, h2⟩ := stepOver_spec hw
      cases h1.symm.trans ha
      exact ⟨xs, h2, fun L t hm => hx L t (by simp [hm])⟩
  | @stepInto w w' h ha ih =>
    obtain ⟨xs, hw, hx⟩ := ih
    cases xs with
    | nil =>
      simp only [Walker.stepInto, hw.done, if_true, Except.ok.injEq] at ha
      exact ⟨[], ha ▸ hw, by simp⟩
    | cons x xs =>
      cases x with
      | leaf k v =>
        obtain ⟨hd, e, hc, rfl⟩ := hw.cur
        simp only [Walker.stepInto, hd, hc, Bool.false_eq_true, if_false] at ha
        cases hwk : w.status.walking <;> simp [hwk] at ha
      | node M s =>
        obtain ⟨w₁, h1, h2⟩ := stepInto_spec hF hw
        cases h1.symm.trans ha
        exact ⟨_, h2, expand_bound hx⟩

end

end Arroba
