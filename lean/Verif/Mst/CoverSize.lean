import Verif.Mst.CoverProofs3

/-! Helper lemmas: how many blocks `add_covering_proofs` adds. -/

namespace Arroba

variable {C V : Type} [DecidableEq C]

open Arroba.Tree Arroba.Store

theorem dictSet_length {α β : Type} [DecidableEq α] (d : List (α × β)) (k : α) (v : β) :
    (dictSet d k v).length ≤ d.length + 1 := by
  induction d with
  | nil => simp [dictSet]
  | cons x d ih =>
    obtain ⟨k', v'⟩ := x
    unfold dictSet
    split
    · simp
    · simpa using ih

theorem dictUpdate_length {α β : Type} [DecidableEq α] (d : List (α × β)) : ∀ (d' : List (α × β)),
    (dictUpdate d d').length ≤ d.length + d'.length := by
  intro d'
  induction d' generalizing d with
  | nil => simp [dictUpdate]
  | cons x d' ih =>
    have h1 := dictSet_length d x.1 x.2
    have h2 := ih (dictSet d x.1 x.2)
    unfold dictUpdate at h2 ⊢
    simp only [List.foldl_cons, List.length_cons] at h2 ⊢
    omega

theorem coverLoad_length (read : C → Option V) (B : Blocks C V) (cids : List (Option C)) :
    (coverLoad read B cids).length ≤ B.length + (cids.filterMap id).length := by
  unfold coverLoad
  have h1 := dictUpdate_length B
    (((cids.filterMap id).filter fun c => (dictGet B c).isNone).map fun c => (c, read c))
  have h2 := List.length_filter_le (fun c => (dictGet B c).isNone) (cids.filterMap id)
  simp only [List.length_map] at h1
  omega

variable {E : Env C} {read : C → Option V} {dec : V → Option (NodeData C)} {t : Tree C} {p : Key}

theorem coverSpine_size {next : NodeData C → Option C} {nextT : Tree C → Option (Tree C)}
    (hn : ∀ {s : Tree C} {L : Nat}, WF E.zeros L s → next (nodeOf E.H s) = (nextT s).map (cidOf E.H))
    (hsub : ∀ {s c : Tree C}, nextT s = some c → c ∈ subs s) :
    ∀ {f : Nat} {s : Tree C} {L : Nat} {B B' : Blocks C V} {b : Option V}, s ∈ nodes t → WF E.zeros L s →
    Good E read dec t B → coverData dec b = .ok (nodeOf E.H s) →
    coverSpine read dec next f B b = .ok B' → B'.length ≤ B.length + L
  | 0, _, _, _, _, _, _, _, _, _, h => by cases h
  | f + 1, s, L, B, B', b, hs, hw, hg, hb, h => by
    unfold coverSpine at h
    simp only [hb, ok_bind, hn hw] at h
    cases hc : nextT s with
    | none =>
      rw [hc] at h
      cases h
      omega
    | some c =>
      rw [hc] at h
      have hcs := hsub hc
      obtain ⟨M, rfl, hwc, _⟩ := WF_subs hw hcs
      have hcn := subs_nodes hs hcs
      have hk := hg.knows (cids := [some (cidOf E.H c)]) hcn (by simp)
      have h1 := coverSpine_size hn hsub (f := f) hcn hwc (hg.load [some (cidOf E.H c)]) hk.data h
      have h2 := coverLoad_length read B [some (cidOf E.H c)]
      simp only [List.filterMap_cons_some (rfl : id (some (cidOf E.H c)) = some (cidOf E.H c)), List.filterMap_nil,
        List.length_cons, List.length_nil] at h2
      omega

theorem filterMap_id_length {α : Type} (l : List (Option α)) : (l.filterMap id).length ≤ l.length :=
  List.length_filterMap_le _ _

/-- `coverDown` adds at most three blocks for every layer that it goes down. -/
theorem coverDown_size : ∀ {f : Nat} {s : Tree C} {L : Nat} {B B' : Blocks C V} {b l r : Option V},
    s ∈ nodes t → WF E.zeros L s → Good E read dec t B → coverData dec b = .ok (nodeOf E.H s) →
    coverDown read dec p f B b = .ok (B', l, r) →
    ∃ j left right, j ≤ L ∧ B'.length ≤ B.length + 3 * (L - j) ∧ Good E read dec t B' ∧
      l = coverGet B' (left.map (cidOf E.H)) ∧ r = coverGet B' (right.map (cidOf E.H)) ∧
      ∀ c, left = some c ∨ right = some c → c ∈ nodes t ∧ Knows E dec B' c ∧ WF E.zeros j c
  | 0, _, _, _, _, _, _, _, _, _, _, _, h => by cases h
  | f + 1, s, L, B, B', b, l, r, hs, hw, hg, hb, h => by
    unfold coverDown at h
    simp only [hb, ok_bind, scan_nodeOf] at h
    generalize hres : scanT p (firstSub s) (firstSub s) (firstSub s) s = res at h
    obtain ⟨cur, left, right⟩ := res
    have hsubs : ∀ c, cur = some c ∨ left = some c ∨ right = some c → c ∈ subs s := by
      intro c hc
      have := scanT_subs (path := p) (t := s) (cur := firstSub s) (left := firstSub s)
        (right := firstSub s) (c := some c) (by rw [hres]; simpa [eq_comm] using hc) c rfl
      rcases this with h | h | h | h
      · exact h
      all_goals exact firstSub_subs h
    dsimp only at h
    generalize hcs : [left.map (cidOf E.H), right.map (cidOf E.H), cur.map (cidOf E.H)] = cids at h
    have hg' := hg.load cids
    have hkn : ∀ c, cur = some c ∨ left = some c ∨ right = some c →
        Knows E dec (coverLoad read B cids) c := by
      intro c hc
      refine hg.knows (subs_nodes hs (hsubs c hc)) ?_
      subst hcs
      rcases hc with rfl | rfl | rfl <;> simp
    have hlen := coverLoad_length read B cids
    have hc3 : (cids.filterMap id).length ≤ 3 := by
      refine le_trans (filterMap_id_length _) ?_
      rw [← hcs]
      simp
    cases hcur : cur with
    | none =>
      subst hcur
      simp only [Option.map_none, Except.ok.injEq, Prod.mk.injEq] at h
      obtain ⟨rfl, rfl, rfl⟩ := h
      cases L with
      | zero =>
        have hno : ∀ c, left = some c ∨ right = some c → False := by
          intro c hc
          obtain ⟨M, hM, _⟩ := WF_subs hw (hsubs c (.inr hc))
          omega
        have hl0 : left = none := by
          cases left with
          | none => rfl
          | some c => exact (hno c (.inl rfl)).elim
        have hr0 : right = none := by
          cases right with
          | none => rfl
          | some c => exact (hno c (.inr rfl)).elim
        subst hl0 hr0
        refine ⟨0, none, none, le_refl _, ?_, hg', rfl, rfl, fun c hc => (hno c hc).elim⟩
        have : cids.filterMap id = [] := by rw [← hcs]; rfl
        rw [this] at hlen
        simpa using hlen
      | succ M =>
        refine ⟨M, left, right, by omega, by omega, hg', rfl, rfl, fun c hc => ?_⟩
        have hc' := hsubs c (.inr hc)
        obtain ⟨M', hM, hwl, _⟩ := WF_subs hw hc'
        obtain rfl : M = M' := by omega
        exact ⟨subs_nodes hs hc', hkn c (.inr hc), hwl⟩
    | some c =>
      subst hcur
      have hc := hsubs c (.inl rfl)
      obtain ⟨M, rfl, hwc, _⟩ := WF_subs hw hc
      simp only [Option.map_some] at h
      obtain ⟨j, l', r', h1, h2, h3⟩ := coverDown_size (f := f) (subs_nodes hs hc) hwc hg'
        (hkn c (.inl rfl)).data h
      exact ⟨j, l', r', by omega, by omega, h3⟩

theorem coverSide_size {next : NodeData C → Option C} {nextT : Tree C → Option (Tree C)}
    (hn : ∀ {s : Tree C} {L : Nat}, WF E.zeros L s → next (nodeOf E.H s) = (nextT s).map (cidOf E.H))
    (hsub : ∀ {s c : Tree C}, nextT s = some c → c ∈ subs s)
    {f j : Nat} {o : Option (Tree C)} {B B' B0 : Blocks C V}
    (ho : ∀ l, o = some l → l ∈ nodes t ∧ Knows E dec B0 l ∧ WF E.zeros j l)
    (hg : Good E read dec t B)
    (h : coverSide read dec next f B (coverGet B0 (o.map (cidOf E.H))) = .ok B') : B'.length ≤ B.length + j := by
  cases o with
  | none => cases h; omega
  | some l =>
    obtain ⟨h1, h2, h4⟩ := ho l rfl
    obtain ⟨b, hb⟩ := h2.block
    have hd := h2.data
    simp only [Option.map_some, hb] at hd h
    exact coverSpine_size hn hsub h1 h4 hg hd h

/-- One path costs at most three blocks for every layer, and the root. -/
theorem coverOne_size {f L : Nat} {B B' : Blocks C V} (hw : WF E.zeros L t) (hs : Sorted t) (hf : L + 1 ≤ f)
    (hg : Good E read dec t B) (h : coverOne read dec f (cidOf E.H t) B p = .ok B') :
    B'.length ≤ B.length + (3 * L + 1) := by
  have ht : t ∈ nodes t := List.mem_cons_self
  have hk := hg.knows (cids := [some (cidOf E.H t)]) ht (by simp)
  obtain ⟨B1, l, r, a1, a2, _, a4, _⟩ := coverDown_spec (p := p) ht hw hs hf
    (hg.load [some (cidOf E.H t)]) hk.data
  obtain ⟨j, l', r', c1, c2, c3, c4, c5, c6⟩ := coverDown_size ht hw (hg.load [some (cidOf E.H t)]) hk.data a1
  have hlen := coverLoad_length read B [some (cidOf E.H t)]
  simp only [List.filterMap_cons_some (rfl : id (some (cidOf E.H t)) = some (cidOf E.H t)), List.filterMap_nil,
    List.length_cons, List.length_nil] at hlen
  obtain ⟨B2, b1, b2, b3, b4⟩ := coverSide_spec (next := lastChild) (nextT := lastSub) (P := Before p)
    (lastChild_nodeOf E.H) lastSub_subs Before.step (fun l' h => a4 l' (.inl h)) hf a2 (.refl _)
  unfold coverOne at h
  simp only [a1, ok_bind, b1] at h
  have s1 := coverSide_size (next := lastChild) (nextT := lastSub) (lastChild_nodeOf E.H) lastSub_subs
    (fun x hx => c6 x (.inl hx)) c3 (c4 ▸ b1)
  have s2 := coverSide_size (next := NodeData.l) (nextT := firstSub) (fun _ => l_nodeOf E.H _) firstSub_subs
    (fun x hx => c6 x (.inr hx)) b2 (c5 ▸ h)
  omega

theorem addCoveringProofs_size {f L : Nat} (hw : WF E.zeros L t) (hs : Sorted t) (hf : L + 1 ≤ f) :
    ∀ {ps : List Key} {B B' : Blocks C V}, Good E read dec t B →
    addCoveringProofs read dec f (cidOf E.H t) ps B = .ok B' →
    B'.length ≤ B.length + ps.length * (3 * L + 1)
  | [], B, B', hg, h => by cases h; simp
  | p :: ps, B, B', hg, h => by
    obtain ⟨B1, a1, a2, _⟩ := coverOne_spec (p := p) hw hs hf hg
    unfold addCoveringProofs at h
    simp only [a1, ok_bind] at h
    have h1 := coverOne_size hw hs hf hg a1
    have h2 := addCoveringProofs_size hw hs hf a2 h
    rw [List.length_cons, Nat.add_mul]
    omega

end Arroba
