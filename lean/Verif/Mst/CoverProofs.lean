import Verif.Mst.Cover
import Verif.Mst.CoverSpec
import Verif.Mst.DiffProofs
import Verif.Storage.NodeProofs
import Mathlib.Data.List.Induction

/-! # Lemmas about `add_covering_proofs`: which nodes it loads -/

namespace Arroba

variable {C V : Type} [DecidableEq C]

open Arroba.Tree

/-! ### The dict -/

theorem dictGet_dictUpdate_fresh {α β : Type} [DecidableEq α] (g : α → β) :
    ∀ (cs : List α) (d : List (α × β)) (c : α), (∀ x ∈ cs, dictGet d x = none) →
      dictGet (dictUpdate d (cs.map fun c => (c, g c))) c =
        if c ∈ cs then some (g c) else dictGet d c := by
  intro cs d c h
  induction cs using List.reverseRecOn with
  | nil => simp [dictUpdate]
  | append_singleton cs x ih =>
    have ih := ih (fun y hy => h y (by simp [hy]))
    unfold dictUpdate at ih ⊢
    rw [List.map_append, List.foldl_append]
    simp only [List.map_cons, List.map_nil, List.foldl_cons, List.foldl_nil]
    rw [dictGet_dictSet, ih]
    by_cases hx : c = x
    · subst hx; simp
    · by_cases hc : c ∈ cs <;> simp [hx, hc]

theorem coverLoad_get (read : C → Option V) (B : Blocks C V) (cids : List (Option C)) (c : C) :
    dictGet (coverLoad read B cids) c =
      match dictGet B c with
      | some v => some v
      | none => if some c ∈ cids then some (read c) else none := by
  unfold coverLoad
  rw [dictGet_dictUpdate_fresh read _ B c (by
    intro x hx
    simpa using (List.mem_filter.1 hx).2)]
  cases h : dictGet B c with
  | some v => simp [List.mem_filter, h]
  | none => simp [List.mem_filter, h]

/-- Blocks are only added. -/
def Extends (B B' : Blocks C V) : Prop := ∀ c v, dictGet B c = some v → dictGet B' c = some v

theorem Extends.refl (B : Blocks C V) : Extends B B := fun _ _ h => h

theorem Extends.trans {A B D : Blocks C V} (h : Extends A B) (h' : Extends B D) : Extends A D :=
  fun c v hc => h' c v (h c v hc)

theorem coverLoad_extends (read : C → Option V) (B : Blocks C V) (cids : List (Option C)) :
    Extends B (coverLoad read B cids) := by
  intro c v h
  rw [coverLoad_get, h]

section
variable {E : Env C} {read : C → Option V} {dec : V → Option (NodeData C)}

/-- The blocks have the node `s`. -/
def Knows (E : Env C) (dec : V → Option (NodeData C)) (B : Blocks C V) (s : Tree C) : Prop :=
  readOnly dec B (cidOf E.H s) = some (nodeOf E.H s)

theorem Extends.readOnly {B B' : Blocks C V} (h : Extends B B') {c : C} {d : NodeData C}
    (hc : readOnly dec B c = some d) : readOnly dec B' c = some d := by
  unfold Arroba.readOnly coverGet at hc ⊢
  dsimp only at hc ⊢
  cases hd : dictGet B c with
  | none => rw [hd] at hc; simp at hc
  | some v => rw [hd] at hc; rw [h c v hd]; exact hc

theorem Knows.mono {B B' : Blocks C V} {s : Tree C} (hk : Knows E dec B s) (h : Extends B B') :
    Knows E dec B' s := h.readOnly hk

/-- Nodes of `t` are in storage, and those in the dict are what is in storage. -/
structure Good (E : Env C) (read : C → Option V) (dec : V → Option (NodeData C)) (t : Tree C)
    (B : Blocks C V) : Prop where
  stored : ∀ s ∈ nodes t, (read (cidOf E.H s)).bind dec = some (nodeOf E.H s)
  dict : ∀ s ∈ nodes t, (dictGet B (cidOf E.H s)).isSome → Knows E dec B s

theorem Good.load {t : Tree C} {B : Blocks C V} (h : Good E read dec t B) (cids : List (Option C)) :
    Good E read dec t (coverLoad read B cids) := by
  refine ⟨h.stored, fun s hs hd => ?_⟩
  rw [coverLoad_get] at hd
  cases hB : dictGet B (cidOf E.H s) with
  | some v => exact (h.dict s hs (by simp [hB])).mono (coverLoad_extends _ _ _)
  | none =>
    rw [hB] at hd
    by_cases hm : some (cidOf E.H s) ∈ cids
    · unfold Knows readOnly coverGet
      dsimp only
      rw [coverLoad_get, hB]
      simpa [hm] using h.stored s hs
    · simp [hm] at hd

theorem Good.knows {t : Tree C} {B : Blocks C V} (h : Good E read dec t B) {cids : List (Option C)}
    {s : Tree C} (hs : s ∈ nodes t) (hc : some (cidOf E.H s) ∈ cids) :
    Knows E dec (coverLoad read B cids) s := by
  refine (h.load cids).dict s hs ?_
  rw [coverLoad_get]
  cases dictGet B (cidOf E.H s) <;> simp [hc]

theorem Good.empty {t : Tree C} (h : ∀ s ∈ nodes t, (read (cidOf E.H s)).bind dec = some (nodeOf E.H s)) :
    Good E read dec t [] := ⟨h, fun _ _ h => by simp [dictGet] at h⟩

theorem Knows.data {B : Blocks C V} {s : Tree C} (h : Knows E dec B s) :
    coverData dec (coverGet B (some (cidOf E.H s))) = .ok (nodeOf E.H s) := by
  unfold Knows readOnly at h
  simp only [coverData, h]

theorem Knows.block {B : Blocks C V} {s : Tree C} (h : Knows E dec B s) :
    ∃ b, coverGet B (some (cidOf E.H s)) = some b := by
  unfold Knows readOnly at h
  cases hb : coverGet B (some (cidOf E.H s)) with
  | none => rw [hb] at h; cases h
  | some b => exact ⟨b, rfl⟩

/-! ### The scan of one node, on trees -/

/-- The leading child. -/
def firstSub : Tree C → Option (Tree C)
  | .sub c _ => some c
  | _ => none

/-- The last child, if nothing comes after it. -/
def lastSub : Tree C → Option (Tree C)
  | .nil => none
  | .leaf _ _ r => lastSub r
  | .sub c .nil => some c
  | .sub _ r => lastSub r

/-- `coverScan` on trees. -/
def scanT (path : Key) : Option (Tree C) → Option (Tree C) → Option (Tree C) → Tree C →
    Option (Tree C) × Option (Tree C) × Option (Tree C)
  | cur, left, right, .nil => (cur, left, right)
  | cur, left, right, .sub _ r => scanT path cur left right r
  | cur, left, _, .leaf k _ r =>
    match r with
    | .sub c r' =>
      if k = path then (none, left, some c)
      else if path < k then (cur, left, some c)
      else scanT path (some c) (some c) (some c) r'
    | r => scanT path cur left none r

theorem coverScan_ser {path : Key} (H : NodeData C → C) : ∀ {t : Tree C} {last : Key}
    {cur left right : Option (Tree C)},
    coverScan path last (cur.map (cidOf H)) (left.map (cidOf H)) (right.map (cidOf H)) ((ser H t).2 last) =
      ((scanT path cur left right t).1.map (cidOf H), (scanT path cur left right t).2.1.map (cidOf H),
        (scanT path cur left right t).2.2.map (cidOf H))
  | .nil, _, _, _, _ => by simp [ser, coverScan, scanT]
  | .sub c r, last, cur, left, right => by
    simp only [ser, scanT]
    exact coverScan_ser H
  | .leaf k v .nil, last, cur, left, right => by
    simp only [ser, coverScan, scanT, Option.map_none]
  | .leaf k v (.leaf k' v' r), last, cur, left, right => by
    have := coverScan_ser (path := path) H (t := .leaf k' v' r) (last := k) (cur := cur) (left := left)
      (right := none)
    simp only [ser, coverScan, commonPrefixLen_recover, Option.map_none] at this ⊢
    rw [this]
    rfl
  | .leaf k v (.sub c r), last, cur, left, right => by
    have := coverScan_ser (path := path) H (t := r) (last := k) (cur := some c) (left := some c)
      (right := some c)
    simp only [ser, coverScan, commonPrefixLen_recover, scanT]
    split
    · rfl
    · split
      · rfl
      · exact this

theorem scan_nodeOf {path : Key} (H : NodeData C → C) (t : Tree C) :
    coverScan path [] (nodeOf H t).l (nodeOf H t).l (nodeOf H t).l (nodeOf H t).e =
      ((scanT path (firstSub t) (firstSub t) (firstSub t) t).1.map (cidOf H),
        (scanT path (firstSub t) (firstSub t) (firstSub t) t).2.1.map (cidOf H),
        (scanT path (firstSub t) (firstSub t) (firstSub t) t).2.2.map (cidOf H)) := by
  have hl : (nodeOf H t).l = (firstSub t).map (cidOf H) := by
    cases t <;> rfl
  rw [hl]
  exact coverScan_ser H

theorem lastChild_ser (H : NodeData C → C) {z : Key → Nat} : ∀ {t : Tree C} {L : Nat} {last : Key}, WF z L t →
    (match ((ser H t).2 last).getLast? with | some e => e.t | none => (ser H t).1) =
      (lastSub t).map (cidOf H)
  | .nil, _, _, _ => rfl
  | .leaf k v r, L, last, h => by
    have ih := lastChild_ser H (t := r) (last := k) h.2
    simp only [ser, lastSub]
    cases hr : (ser H r).2 k with
    | nil => rw [hr] at ih; simpa using ih
    | cons e es =>
      rw [hr] at ih
      rw [List.getLast?_cons_cons, List.getLast?_cons] at *
      exact ih
  | .sub c r, L, last, h => by
    obtain ⟨M, rfl, _, _, h3, h4⟩ := WF_sub.1 h
    have ih := lastChild_ser H (t := r) (last := last) h4
    cases r with
    | nil => rfl
    | sub => exact absurd trivial h3
    | leaf k v r' =>
      simp only [lastSub]
      simp only [ser, lastSub] at ih ⊢
      cases hr : (ser H r').2 k with
      | nil => rw [hr] at ih; simpa using ih
      | cons e es =>
        rw [hr] at ih
        rw [List.getLast?_cons_cons, List.getLast?_cons] at *
        exact ih

theorem lastChild_nodeOf (H : NodeData C → C) {z : Key → Nat} {t : Tree C} {L : Nat} (h : WF z L t) :
    lastChild (nodeOf H t) = (lastSub t).map (cidOf H) := lastChild_ser H h

theorem l_nodeOf (H : NodeData C → C) (t : Tree C) : (nodeOf H t).l = (firstSub t).map (cidOf H) := by
  cases t <;> rfl

theorem firstSub_subs {t c : Tree C} (h : firstSub t = some c) : c ∈ subs t := by
  cases t <;> simp_all [firstSub, subs]

theorem lastSub_subs : ∀ {t c : Tree C}, lastSub t = some c → c ∈ subs t
  | .nil, _, h => by cases h
  | .leaf k v r, c, h => lastSub_subs (t := r) h
  | .sub d .nil, c, h => by cases h; simp [subs]
  | .sub d (.leaf k v r), c, h => List.mem_cons_of_mem _ (lastSub_subs (t := .leaf k v r) h)
  | .sub d (.sub e r), c, h => List.mem_cons_of_mem _ (lastSub_subs (t := .sub e r) h)

/-- All that a scan returns are children of the node (or what it started with). -/
theorem scanT_subs {path : Key} : ∀ {t : Tree C} {cur left right c : Option (Tree C)},
    (c = (scanT path cur left right t).1 ∨ c = (scanT path cur left right t).2.1 ∨
      c = (scanT path cur left right t).2.2) → ∀ s, c = some s →
    s ∈ subs t ∨ cur = some s ∨ left = some s ∨ right = some s
  | .nil, cur, left, right, c, h, s, hs => by
    subst hs
    simp only [scanT] at h
    rcases h with h | h | h
    · exact .inr (.inl h.symm)
    · exact .inr (.inr (.inl h.symm))
    · exact .inr (.inr (.inr h.symm))
  | .sub d r, cur, left, right, c, h, s, hs => by
    simp only [scanT] at h
    rcases scanT_subs h s hs with h | h
    · exact .inl (List.mem_cons_of_mem _ h)
    · exact .inr h
  | .leaf k v .nil, cur, left, right, c, h, s, hs => by
    subst hs
    simp only [scanT] at h
    rcases h with h | h | h
    · exact .inr (.inl h.symm)
    · exact .inr (.inr (.inl h.symm))
    · cases h
  | .leaf k v (.leaf k' v' r), cur, left, right, c, h, s, hs => by
    have := scanT_subs (t := .leaf k' v' r) (cur := cur) (left := left) (right := none) h s hs
    rcases this with h | h | h | h
    · exact .inl h
    · exact .inr (.inl h)
    · exact .inr (.inr (.inl h))
    · cases h
  | .leaf k v (.sub d r), cur, left, right, c, h, s, hs => by
    simp only [scanT] at h
    have hd : d ∈ subs (.leaf k v (.sub d r)) := by simp [subs]
    by_cases h1 : k = path
    · simp only [h1, if_true] at h
      subst hs
      rcases h with h | h | h
      · cases h
      · exact .inr (.inr (.inl h.symm))
      · cases h; exact .inl hd
    · by_cases h2 : path < k
      · simp only [h1, h2, if_true, if_false] at h
        subst hs
        rcases h with h | h | h
        · exact .inr (.inl h.symm)
        · exact .inr (.inr (.inl h.symm))
        · cases h; exact .inl hd
      · simp only [h1, h2, if_false] at h
        rcases scanT_subs h s hs with h | h | h | h
        · exact .inl (List.mem_cons_of_mem _ h)
        all_goals cases h; exact .inl hd

end

end Arroba
