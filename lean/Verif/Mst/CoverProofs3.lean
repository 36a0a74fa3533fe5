import Verif.Mst.CoverProofs2

/-! # Lemmas about `add_covering_proofs`: the loops -/

namespace Arroba

variable {C V : Type} [DecidableEq C]

open Arroba.Tree Arroba.Store

variable {E : Env C} {read : C → Option V} {dec : V → Option (NodeData C)} {t : Tree C} {p : Key}

theorem subs_nodes {s c : Tree C} (hs : s ∈ nodes t) (hc : c ∈ subs s) : c ∈ nodes t :=
  Arroba.Store.nodes_trans hs (List.mem_cons_of_mem _ (subs_kids hc))

theorem WF_subs {z : Key → Nat} : ∀ {s c : Tree C} {L : Nat}, WF z L s → c ∈ subs s →
    ∃ M, L = M + 1 ∧ WF z M c ∧ c ≠ nil
  | .nil, _, _, _, h => by simp [subs] at h
  | .leaf k v r, c, L, h, hc => WF_subs (s := r) h.2 hc
  | .sub d r, c, L, h, hc => by
    obtain ⟨M, rfl, h1, h2, _, h4⟩ := WF_sub.1 h
    simp only [subs, List.mem_cons] at hc
    rcases hc with rfl | hc
    · exact ⟨M, rfl, h2, h1⟩
    · exact WF_subs h4 hc

theorem leaves_sublist_subs : ∀ {s c : Tree C}, c ∈ subs s → (leaves c).Sublist (leaves s)
  | .nil, _, h => by simp [subs] at h
  | .leaf k v r, c, h => (leaves_sublist_subs (s := r) h).cons _
  | .sub d r, c, h => by
    simp only [subs, List.mem_cons] at h
    rcases h with rfl | h
    · exact List.sublist_append_left _ _
    · exact (leaves_sublist_subs h).trans (List.sublist_append_right _ _)

theorem coverGet_data {B : Blocks C V} {o : Option (Tree C)} (h : ∀ c, o = some c → Knows E dec B c) {c : Tree C}
    (hc : o = some c) : coverData dec (coverGet B (o.map (cidOf E.H))) = .ok (nodeOf E.H c) := by
  subst hc
  exact (h c rfl).data

/-! ### The outermost nodes -/

theorem last_tops {z : Key → Nat} {y : Option Key × Tree C × Option Key} : ∀ {s : Tree C} {L : Nat} {lo : Option Key},
    WF z L s → (∀ x ∈ leaves s, x.1 < p) → y ∈ tops lo (some p) s → Within p y.1 y.2.2 →
    lastSub s = some y.2.1 ∧ y.2.2 = some p
  | .nil, _, _, _, _, h, _ => by simp [tops] at h
  | .leaf k v r, L, lo, hw, hi, h, hy =>
    last_tops (s := r) (lo := some k) hw.2 (fun x hx => hi x (by simp [leaves, hx])) h hy
  | .sub c .nil, L, lo, hw, hi, h, hy => by
    simp only [tops, List.mem_singleton] at h
    subst h
    exact ⟨rfl, rfl⟩
  | .sub c (.sub d r), L, lo, hw, hi, h, hy => by
    obtain ⟨M, rfl, _, _, h3, _⟩ := WF_sub.1 hw
    exact absurd trivial h3
  | .sub c (.leaf k v r), L, lo, hw, hi, h, hy => by
    obtain ⟨M, rfl, _, _, h3, h4⟩ := WF_sub.1 hw
    have h' : y = (lo, c, some k) ∨ y ∈ tops lo (some p) (.leaf k v r) := by
      simpa only [tops, firstKey, List.mem_cons] using h
    rcases h' with rfl | h'
    · have := hi (k, v) (by simp [leaves])
      exact absurd (hy.2 k rfl) (not_le.2 this)
    · exact last_tops (s := .leaf k v r) (lo := lo) h4 (fun x hx => hi x (by
        simp only [leaves, List.mem_append]; exact .inr hx)) h' hy

theorem first_tops {y : Option Key × Tree C × Option Key} {s : Tree C} {z : Key → Nat} {L : Nat}
    {hi : Option Key} (hw : WF z L s) (hi' : Inner (some p) hi s) (hs : Sorted s)
    (h : y ∈ tops (some p) hi s) (hy : Within p y.1 y.2.2) : firstSub s = some y.2.1 ∧ y.1 = some p := by
  cases s with
  | nil => simp [tops] at h
  | leaf k v r =>
    obtain ⟨k', h1, h2⟩ := (tops_bounds (hi'.leaf hs) (Sorted_tail hs) (t := r) h).1 k rfl
    have h3 := (hi' (k, v) (by simp [leaves])).1 p rfl
    exact absurd (hy.1 k' h1) (not_le.2 (lt_of_lt_of_le h3 h2))
  | sub c r =>
    obtain ⟨M, rfl, _, _, h3, h4⟩ := WF_sub.1 hw
    simp only [tops, List.mem_cons] at h
    rcases h with rfl | h
    · exact ⟨rfl, rfl⟩
    · exfalso
      cases r with
      | nil => simp [tops] at h
      | sub => exact h3 trivial
      | leaf k v r' =>
        have hin := hi'.rest
        obtain ⟨k', h1, h2⟩ := (tops_bounds (hin.leaf (Sorted_rest hs)) (Sorted_tail (Sorted_rest hs))
          (t := r') h).1 k rfl
        have h5 := (hin (k, v) (by simp [leaves])).1 p rfl
        exact absurd (hy.1 k' h1) (not_le.2 (lt_of_lt_of_le h5 h2))

/-- `coverSpine` loads every node that it comes by. `P s x`: `x` is below `s` and wanted. -/
theorem coverSpine_spec {next : NodeData C → Option C} {nextT : Tree C → Option (Tree C)}
    (hn : ∀ {s : Tree C} {L : Nat}, WF E.zeros L s → next (nodeOf E.H s) = (nextT s).map (cidOf E.H))
    (hsub : ∀ {s c : Tree C}, nextT s = some c → c ∈ subs s)
    {P : Tree C → Tree C → Prop}
    (hP : ∀ {s x : Tree C} {L : Nat}, WF E.zeros L s → P s x → ∃ c, nextT s = some c ∧ (x = c ∨ P c x)) :
    ∀ {f : Nat} {s : Tree C} {L : Nat} {B : Blocks C V} {b : Option V}, s ∈ nodes t → WF E.zeros L s → L + 1 ≤ f →
    Good E read dec t B → coverData dec b = .ok (nodeOf E.H s) →
    ∃ B', coverSpine read dec next f B b = .ok B' ∧ Good E read dec t B' ∧ Extends B B' ∧
      ∀ x, P s x → Knows E dec B' x
  | 0, _, _, _, _, _, _, hf, _, _ => by omega
  | f + 1, s, L, B, b, hs, hw, hf, hg, hb => by
    unfold coverSpine
    simp only [hb, ok_bind, hn hw]
    cases hc : nextT s with
    | none =>
      refine ⟨B, rfl, hg, .refl _, fun x hx => ?_⟩
      obtain ⟨c, h1, _⟩ := hP hw hx
      rw [hc] at h1; cases h1
    | some c =>
      have hcs := hsub hc
      obtain ⟨M, rfl, hwc, _⟩ := WF_subs hw hcs
      have hcn := subs_nodes hs hcs
      have hk := hg.knows (cids := [some (cidOf E.H c)]) hcn (by simp)
      obtain ⟨B', h1, h2, h3, h4⟩ := coverSpine_spec hn hsub hP (f := f) hcn hwc (by omega)
        (hg.load [some (cidOf E.H c)]) hk.data
      simp only [Option.map_some]
      refine ⟨B', h1, h2, (coverLoad_extends _ _ _).trans h3, fun x hx => ?_⟩
      obtain ⟨c', h5, h6⟩ := hP hw hx
      rw [hc] at h5
      cases h5
      rcases h6 with rfl | h6
      · exact hk.mono h3
      · exact h4 x h6

/-- A wanted node below the node before `p`. -/
def Before (p : Key) (s x : Tree C) : Prop :=
  ∃ lo y hi, Sorted s ∧ Inner lo (some p) s ∧ (y, x, hi) ∈ spans lo (some p) s ∧ Within p y hi

/-- A wanted node below the node after `p`. -/
def After (p : Key) (s x : Tree C) : Prop :=
  ∃ hi y hi', Sorted s ∧ Inner (some p) hi s ∧ (y, x, hi') ∈ spans (some p) hi s ∧ Within p y hi'

theorem Before.step {s x : Tree C} {z : Key → Nat} {L : Nat} (hw : WF z L s) (h : Before p s x) :
    ∃ c, lastSub s = some c ∧ (x = c ∨ Before p c x) := by
  obtain ⟨lo, a, b, hs, hi, hx, hab⟩ := h
  obtain ⟨y, hy, hxy⟩ := spans_iff.1 hx
  obtain ⟨hyi, hys⟩ := tops_inner hi hs hy
  have hwy : Within p y.1 y.2.2 := by
    rcases hxy with rfl | hxy
    · exact hab
    · obtain ⟨M, _, hwc, _⟩ := WF_subs hw (tops_subs hy)
      exact Within.up_spans hwc hyi hys hxy hab
  obtain ⟨h1, h2⟩ := last_tops hw (fun x hx => (hi x hx).2 p rfl) hy hwy
  refine ⟨_, h1, ?_⟩
  rcases hxy with rfl | hxy
  · exact .inl rfl
  · rw [h2] at hxy hyi
    exact .inr ⟨y.1, a, b, hys, hyi, hxy, hab⟩

theorem After.step {s x : Tree C} {z : Key → Nat} {L : Nat} (hw : WF z L s) (h : After p s x) :
    ∃ c, firstSub s = some c ∧ (x = c ∨ After p c x) := by
  obtain ⟨lo, a, b, hs, hi, hx, hab⟩ := h
  obtain ⟨y, hy, hxy⟩ := spans_iff.1 hx
  obtain ⟨hyi, hys⟩ := tops_inner hi hs hy
  have hwy : Within p y.1 y.2.2 := by
    rcases hxy with rfl | hxy
    · exact hab
    · obtain ⟨M, _, hwc, _⟩ := WF_subs hw (tops_subs hy)
      exact Within.up_spans hwc hyi hys hxy hab
  obtain ⟨h1, h2⟩ := first_tops hw hi hs hy hwy
  refine ⟨_, h1, ?_⟩
  rcases hxy with rfl | hxy
  · exact .inl rfl
  · rw [h2] at hxy hyi
    exact .inr ⟨y.2.2, a, b, hys, hyi, hxy, hab⟩

/-! ### Down the layers -/

theorem coverDown_spec : ∀ {f : Nat} {s : Tree C} {L : Nat} {B : Blocks C V} {b : Option V},
    s ∈ nodes t → WF E.zeros L s → Sorted s → L + 1 ≤ f → Good E read dec t B →
    coverData dec b = .ok (nodeOf E.H s) →
    ∃ B' left right, coverDown read dec p f B b =
        .ok (B', coverGet B' (left.map (cidOf E.H)), coverGet B' (right.map (cidOf E.H))) ∧
      Good E read dec t B' ∧ Extends B B' ∧
      (∀ l, left = some l ∨ right = some l → l ∈ nodes t ∧ Knows E dec B' l ∧ ∃ M, M ≤ L ∧ WF E.zeros M l) ∧
      ∀ lo hi, Inner lo hi s → lo ≠ some p → ∀ x ∈ spans lo hi s, Within p x.1 x.2.2 →
        Knows E dec B' x.2.1 ∨ (∃ l, left = some l ∧ Before p l x.2.1) ∨
          ∃ r, right = some r ∧ After p r x.2.1
  | 0, _, _, _, _, _, _, _, hf, _, _ => by omega
  | f + 1, s, L, B, b, hs, hw, hso, hf, hg, hb => by
    unfold coverDown
    simp only [hb, ok_bind, scan_nodeOf]
    generalize hres : scanT p (firstSub s) (firstSub s) (firstSub s) s = res
    obtain ⟨cur, left, right⟩ := res
    have hsubs : ∀ c, cur = some c ∨ left = some c ∨ right = some c → c ∈ subs s := by
      intro c hc
      have := scanT_subs (path := p) (t := s) (cur := firstSub s) (left := firstSub s)
        (right := firstSub s) (c := some c) (by rw [hres]; simpa [eq_comm] using hc) c rfl
      rcases this with h | h | h | h
      · exact h
      all_goals exact firstSub_subs h
    dsimp only
    generalize hcs : [left.map (cidOf E.H), right.map (cidOf E.H), cur.map (cidOf E.H)] = cids
    have hg' := hg.load cids
    have hkn : ∀ c, cur = some c ∨ left = some c ∨ right = some c →
        Knows E dec (coverLoad read B cids) c := by
      intro c hc
      refine hg.knows (subs_nodes hs (hsubs c hc)) ?_
      subst hcs
      rcases hc with rfl | rfl | rfl <;> simp
    have hscan : ∀ lo hi, Inner lo hi s → lo ≠ some p → ∀ y ∈ tops lo hi s, Within p y.1 y.2.2 →
        ScanOK p (cur, left, right) y := by
      intro lo hi hin hlo y hy hwy
      have hwp := hwy.up hin hso hy
      have := scan_spec hw hso hin (p := p) (fun k hk => lt_of_le_of_ne (hwp.1 k hk) (by
        rintro rfl; exact hlo hk)) hy hwy
      rwa [hres] at this
    have hup : ∀ lo hi, Inner lo hi s → ∀ y ∈ tops lo hi s, ∀ x,
        (x = y ∨ x ∈ spans y.1 y.2.2 y.2.1) → Within p x.1 x.2.2 → Within p y.1 y.2.2 := by
      intro lo hi hin y hy x hx hwx
      rcases hx with rfl | hx
      · exact hwx
      · obtain ⟨hyi, hys⟩ := tops_inner hin hso hy
        obtain ⟨M, _, hwc, _⟩ := WF_subs hw (tops_subs hy)
        exact Within.up_spans hwc hyi hys hx hwx
    cases hcur : cur with
    | none =>
      subst hcur
      refine ⟨_, left, right, rfl, hg', coverLoad_extends _ _ _, fun l hl => ?_, ?_⟩
      · have hl' := hsubs l (.inr hl)
        obtain ⟨M, rfl, hwl, _⟩ := WF_subs hw hl'
        exact ⟨subs_nodes hs hl', hkn l (.inr hl), M, by omega, hwl⟩
      · intro lo hi hin hlo x hx hwx
        obtain ⟨y, hy, hxy⟩ := spans_iff.1 hx
        obtain ⟨hyi, hys⟩ := tops_inner hin hso hy
        rcases hscan lo hi hin hlo y hy (hup lo hi hin y hy x hxy hwx) with ⟨_, h | ⟨_, h, h'⟩⟩ | ⟨h', _, h⟩
        · cases h
        · dsimp only at h
          rcases hxy with rfl | hxy
          · exact .inl (hkn _ (.inr (.inl h)))
          · rw [h'] at hxy hyi
            exact .inr (.inl ⟨_, h, y.1, x.1, x.2.2, hys, hyi, hxy, hwx⟩)
        · dsimp only at h
          rcases hxy with rfl | hxy
          · exact .inl (hkn _ (.inr (.inr h)))
          · rw [h'] at hxy hyi
            exact .inr (.inr ⟨_, h, y.2.2, x.1, x.2.2, hys, hyi, hxy, hwx⟩)
    | some c =>
      subst hcur
      have hc := hsubs c (.inl rfl)
      obtain ⟨M, rfl, hwc, _⟩ := WF_subs hw hc
      have hcs' : Sorted c := by
        have := leaves_sublist_subs hc
        exact hso.sublist this
      obtain ⟨B', l', r', h1, h2, h3, h4, h5⟩ := coverDown_spec (f := f) (subs_nodes hs hc) hwc hcs'
        (by omega) hg' (hkn c (.inl rfl)).data
      simp only [Option.map_some]
      refine ⟨B', l', r', h1, h2, (coverLoad_extends _ _ _).trans h3, fun l hl => ?_, ?_⟩
      · obtain ⟨a, b, M', c, d⟩ := h4 l hl
        exact ⟨a, b, M', by omega, d⟩
      · intro lo hi hin hlo x hx hwx
        obtain ⟨y, hy, hxy⟩ := spans_iff.1 hx
        obtain ⟨hyi, hys⟩ := tops_inner hin hso hy
        rcases hscan lo hi hin hlo y hy (hup lo hi hin y hy x hxy hwx) with ⟨hne, h | ⟨h, _⟩⟩ | ⟨_, h, _⟩
        · cases h
          rcases hxy with rfl | hxy
          · exact .inl ((hkn _ (.inl rfl)).mono h3)
          · exact h5 y.1 y.2.2 hyi hne x hxy hwx
        · cases h
        · cases h

theorem coverSide_spec {next : NodeData C → Option C} {nextT : Tree C → Option (Tree C)}
    (hn : ∀ {s : Tree C} {L : Nat}, WF E.zeros L s → next (nodeOf E.H s) = (nextT s).map (cidOf E.H))
    (hsub : ∀ {s c : Tree C}, nextT s = some c → c ∈ subs s)
    {P : Tree C → Tree C → Prop}
    (hP : ∀ {s x : Tree C} {L : Nat}, WF E.zeros L s → P s x → ∃ c, nextT s = some c ∧ (x = c ∨ P c x))
    {f : Nat} {o : Option (Tree C)} {B B0 : Blocks C V} {L : Nat}
    (ho : ∀ l, o = some l → l ∈ nodes t ∧ Knows E dec B0 l ∧ ∃ M, M ≤ L ∧ WF E.zeros M l) (hf : L + 1 ≤ f)
    (hg : Good E read dec t B) (hB : Extends B0 B) :
    ∃ B', coverSide read dec next f B (coverGet B0 (o.map (cidOf E.H))) = .ok B' ∧ Good E read dec t B' ∧
      Extends B B' ∧ ∀ l, o = some l → ∀ x, P l x → Knows E dec B' x := by
  cases o with
  | none => exact ⟨B, rfl, hg, .refl _, fun l hl => by cases hl⟩
  | some l =>
    obtain ⟨h1, h2, M, h3, h4⟩ := ho l rfl
    obtain ⟨b, hb⟩ := h2.block
    have hd := h2.data
    simp only [Option.map_some, hb] at hd ⊢
    obtain ⟨B', i1, i2, i3, i4⟩ := coverSpine_spec hn hsub hP (f := f) h1 h4 (by omega) hg hd
    exact ⟨B', i1, i2, i3, fun l' hl' => by cases hl'; exact i4⟩

theorem coverOne_spec {f L : Nat} {B : Blocks C V} (hw : WF E.zeros L t) (hs : Sorted t) (hf : L + 1 ≤ f)
    (hg : Good E read dec t B) :
    ∃ B', coverOne read dec f (cidOf E.H t) B p = .ok B' ∧ Good E read dec t B' ∧ Extends B B' ∧
      Knows E dec B' t ∧
      ∀ x ∈ spans none none t, Within p x.1 x.2.2 → Knows E dec B' x.2.1 := by
  have ht : t ∈ nodes t := List.mem_cons_self
  have hk := hg.knows (cids := [some (cidOf E.H t)]) ht (by simp)
  obtain ⟨B1, l, r, a1, a2, a3, a4, a5⟩ := coverDown_spec (p := p) ht hw hs hf
    (hg.load [some (cidOf E.H t)]) hk.data
  obtain ⟨B2, b1, b2, b3, b4⟩ := coverSide_spec (next := lastChild) (nextT := lastSub) (P := Before p)
    (lastChild_nodeOf E.H) lastSub_subs Before.step (fun l' h => a4 l' (.inl h)) hf a2 (.refl _)
  obtain ⟨B3, c1, c2, c3, c4⟩ := coverSide_spec (next := NodeData.l) (nextT := firstSub) (P := After p)
    (fun _ => l_nodeOf E.H _) firstSub_subs After.step (fun l' h => a4 l' (.inr h)) hf b2 b3
  refine ⟨B3, ?_, c2, (((coverLoad_extends _ _ _).trans a3).trans b3).trans c3,
    ((hk.mono a3).mono b3).mono c3, fun x hx hwx => ?_⟩
  · unfold coverOne
    simp only [a1, ok_bind, b1, c1]
  · rcases a5 none none (fun x _ => ⟨by simp, by simp⟩) (by simp) x hx hwx with h | ⟨l', h, h'⟩ | ⟨r', h, h'⟩
    · exact (h.mono b3).mono c3
    · exact (b4 l' h _ h').mono c3
    · exact c4 r' h _ h'

theorem addCoveringProofs_spec {f L : Nat} (hw : WF E.zeros L t) (hs : Sorted t) (hf : L + 1 ≤ f) :
    ∀ {ps : List Key} {B : Blocks C V}, Good E read dec t B →
    ∃ B', addCoveringProofs read dec f (cidOf E.H t) ps B = .ok B' ∧ Good E read dec t B' ∧ Extends B B' ∧
      ∀ p ∈ ps, Knows E dec B' t ∧ ∀ x ∈ spans none none t, Within p x.1 x.2.2 → Knows E dec B' x.2.1
  | [], B, hg => ⟨B, rfl, hg, .refl _, fun p hp => by cases hp⟩
  | p :: ps, B, hg => by
    obtain ⟨B1, a1, a2, a3, a4, a5⟩ := coverOne_spec (p := p) hw hs hf hg
    obtain ⟨B2, b1, b2, b3, b4⟩ := addCoveringProofs_spec hw hs hf (ps := ps) a2
    refine ⟨B2, ?_, b2, a3.trans b3, fun q hq => ?_⟩
    · unfold addCoveringProofs
      simp only [a1, ok_bind, b1]
    · rcases List.mem_cons.1 hq with rfl | hq
      · exact ⟨a4.mono b3, fun x hx hwx => (a5 x hx hwx).mono b3⟩
      · exact b4 q hq

end Arroba
