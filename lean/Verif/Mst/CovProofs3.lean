import Verif.Mst.CovProofs2
import Verif.Mst.CoverProofs3
import Verif.Mst.ExecProofs

/-! # Lemmas: the blocks of `add_covering_proofs` cover the operations' keys -/

namespace Arroba

variable {C : Type} [DecidableEq C]

open Arroba.Tree

/-- The entries of a node as just read from its block. -/
def LazyEs (H : NodeData C → C) : Tree C → List (Ent C) → Prop
  | .nil, es => es = []
  | .leaf k v r, es => ∃ es', es = .leaf k v :: es' ∧ LazyEs H r es'
  | .sub c r, es => ∃ n es', es = .tree n :: es' ∧
      (n.entries = none ∧ n.pointer = cidOf H c ∧ n.outdated = false) ∧ LazyEs H r es'

theorem lazy_deserialize (H : NodeData C → C) {z : Key → Nat} {layer : Option Int} :
    ∀ {t : Tree C} {L : Nat} {last : Key}, WF z L t →
    LazyEs H t ((match (ser H t).1 with
      | some c => [Ent.tree (.mk none c (layer.map (· - 1)) false)]
      | none => []) ++ deserializeEntries layer last ((ser H t).2 last))
  | .nil, _, _, _ => rfl
  | .leaf k v r, L, last, h => by
    have ih := lazy_deserialize (layer := layer) H (t := r) (last := k) h.2
    refine ⟨_, ?_, ih⟩
    simp only [ser, deserializeEntries, commonPrefixLen_recover, List.nil_append]
    rfl
  | .sub c r, L, last, h => by
    obtain ⟨M, rfl, _, _, h3, h4⟩ := WF_sub.1 h
    have ih := lazy_deserialize (layer := layer) H (t := r) (last := last) h4
    refine ⟨.mk none (cidOf H c) (layer.map (· - 1)) false, _, rfl, ⟨rfl, rfl, rfl⟩, ?_⟩
    have hr : (ser H r).1 = none := by
      cases r with
      | sub => exact absurd trivial h3
      | _ => rfl
    rw [hr] at ih
    exact ih

section
variable {E : Env C} {rd rd' : C → Option (NodeData C)} {D : Key → Prop}

theorem Touch_within {lo hi : Option Key} {c : Tree C} (hi' : Inner lo hi c) (hne : leaves c ≠ []) (h : Touch D lo hi) :
    ∃ p, D p ∧ Within p lo hi := by
  obtain ⟨x, hx⟩ := List.exists_mem_of_ne_nil _ hne
  obtain ⟨p, hp, rfl | rfl | h⟩ := h
  · exact ⟨p, hp, fun k hk => by cases hk; exact le_refl _, fun k hk =>
      le_of_lt (lt_trans ((hi' x hx).1 p rfl) ((hi' x hx).2 k hk))⟩
  · exact ⟨p, hp, fun k hk => le_of_lt (lt_trans ((hi' x hx).1 k hk) ((hi' x hx).2 p rfl)),
      fun k hk => by cases hk; exact le_refl _⟩
  · exact ⟨p, hp, h⟩

theorem cov_lazy {z : Key → Nat} : ∀ {t : Tree C} {L : Nat} {lo hi : Option Key} {es : List (Ent C)},
    WF z L t → LazyEs E.H t es →
    (∀ y ∈ tops lo hi t, Touch D y.1 y.2.2 → ∀ n : Node C, n.entries = none → n.pointer = cidOf E.H y.2.1 →
      n.outdated = false → CovN E rd' D y.1 y.2.2 n) →
    Cov E rd' D lo hi es ∧ NoAdj es ∧ firstKeyE hi es = firstKey hi t ∧ (startsT es ↔ startsSub t)
  | .nil, _, _, _, _, _, h, _ => by
    simp only [LazyEs] at h
    subst h
    exact ⟨Cov_nil, trivial, rfl, Iff.rfl⟩
  | .leaf k v r, L, lo, hi, es, hw, h, hc => by
    obtain ⟨es', rfl, h'⟩ := h
    obtain ⟨h1, h2, _⟩ := cov_lazy (lo := some k) (hi := hi) hw.2 h' hc
    exact ⟨Cov_leaf.2 h1, NoAdj_leaf.2 h2, rfl, Iff.rfl⟩
  | .sub c r, L, lo, hi, es, hw, h, hc => by
    obtain ⟨M, rfl, _, _, h3, h4⟩ := WF_sub.1 hw
    obtain ⟨n, es', rfl, ⟨a1, a2, a3⟩, h'⟩ := h
    obtain ⟨h1, h2, h5, h6⟩ := cov_lazy (lo := lo) (hi := hi) h4 h' (fun y hy => hc y (List.mem_cons_of_mem _ hy))
    refine ⟨Cov_tree.2 ⟨⟨⟨fun _ => a3, fun es he => by rw [a1] at he; cases he⟩, fun ht => ?_⟩, h1⟩,
      NoAdj_tree.2 ⟨fun hs => h3 (h6.1 hs), h2⟩, h5, ⟨fun _ => trivial, fun _ => trivial⟩⟩
    rw [h5] at ht ⊢
    exact hc (lo, c, firstKey hi r) (by simp [tops]) ht n a1 a2 a3

theorem covN_lazy : ∀ {L : Nat} {s : Tree C} {lo hi : Option Key} {n : Node C},
    WF E.zeros L s → Sorted s → Inner lo hi s → rd' (cidOf E.H s) = some (nodeOf E.H s) →
    (∀ x ∈ spans lo hi s, ∀ p, D p → Within p x.1 x.2.2 → rd' (cidOf E.H x.2.1) = some (nodeOf E.H x.2.1)) →
    n.entries = none → n.pointer = cidOf E.H s → n.outdated = false → CovN E rd' D lo hi n := by
  intro L
  induction L with
  | zero =>
    intro s lo hi n hw hs hi' hk hsp h1 h2 h3
    have he : ∃ layer, getEntries E rd' n = .ok (deserializeNodeData (nodeOf E.H s) layer) := by
      unfold getEntries
      rw [h1, h2, hk]
      exact ⟨_, rfl⟩
    obtain ⟨layer, he⟩ := he
    obtain ⟨c1, c2, _⟩ := cov_lazy (E := E) (rd' := rd') (D := D) (lo := lo) (hi := hi) hw
      (lazy_deserialize E.H (layer := layer) (last := []) hw) (fun y hy => by
        obtain ⟨M, hM, _⟩ := WF_subs hw (tops_subs hy)
        omega)
    exact CovN.iff.2 ⟨_, he, ⟨fun _ => h3, fun es he => by rw [h1] at he; cases he⟩, c2, c1⟩
  | succ L ih =>
    intro s lo hi n hw hs hi' hk hsp h1 h2 h3
    have he : ∃ layer, getEntries E rd' n = .ok (deserializeNodeData (nodeOf E.H s) layer) := by
      unfold getEntries
      rw [h1, h2, hk]
      exact ⟨_, rfl⟩
    obtain ⟨layer, he⟩ := he
    obtain ⟨c1, c2, _⟩ := cov_lazy (E := E) (rd' := rd') (D := D) (lo := lo) (hi := hi) hw
      (lazy_deserialize E.H (layer := layer) (last := []) hw) (fun y hy ht m m1 m2 m3 => by
        obtain ⟨M, hM, hwc, hne⟩ := WF_subs hw (tops_subs hy)
        obtain rfl : L = M := by omega
        obtain ⟨hyi, hys⟩ := tops_inner hi' hs hy
        obtain ⟨p, hp, hwp⟩ := Touch_within hyi (WF_leaves_ne hwc hne) ht
        refine ih hwc hys hyi (hsp y (spans_iff.2 ⟨y, hy, .inl rfl⟩) p hp hwp) (fun x hx => ?_) m1 m2 m3
        exact hsp x (spans_iff.2 ⟨y, hy, .inr hx⟩))
    exact CovN.iff.2 ⟨_, he, ⟨fun _ => h3, fun es he => by rw [h1] at he; cases he⟩, c2, c1⟩

/-! ### Nodes beside a key -/

theorem WF_kids {z : Key → Nat} : ∀ {t s : Tree C} {L : Nat}, WF z L t → s ∈ kids t → ∃ M, WF z M s ∧ s ≠ nil
  | .nil, _, _, _, h => by simp [kids] at h
  | .leaf k v r, s, L, hw, h => WF_kids (t := r) hw.2 h
  | .sub c r, s, L, hw, h => by
    obtain ⟨M, rfl, h1, h2, _, h4⟩ := WF_sub.1 hw
    simp only [kids, List.mem_append, List.mem_cons] at h
    rcases h with (rfl | h) | h
    · exact ⟨M, h2, h1⟩
    · exact WF_kids h2 h
    · exact WF_kids h4 h

theorem spans_leaves : ∀ {t : Tree C} {lo hi : Option Key} {s : Tree C}, s ∈ kids t → ∃ a b xs ys,
    (a, s, b) ∈ spans lo hi t ∧ leaves t = xs ++ leaves s ++ ys ∧
    (a = lo ∨ ∃ x ∈ xs, a = some x.1) ∧ (b = hi ∨ ∃ y ∈ ys, b = some y.1)
  | .nil, _, _, _, h => by simp [kids] at h
  | .leaf k v r, lo, hi, s, h => by
    obtain ⟨a, b, xs, ys, h1, h2, h3, h4⟩ := spans_leaves (t := r) (lo := some k) (hi := hi) h
    refine ⟨a, b, (k, v) :: xs, ys, h1, by simp [leaves, h2], .inr ?_, h4⟩
    rcases h3 with rfl | ⟨x, hx, rfl⟩
    · exact ⟨(k, v), by simp, rfl⟩
    · exact ⟨x, by simp [hx], rfl⟩
  | .sub c r, lo, hi, s, h => by
    simp only [kids, List.mem_append, List.mem_cons] at h
    have hf : firstKey hi r = hi ∨ ∃ y ∈ leaves r, firstKey hi r = some y.1 := firstKey_cases hi r
    rcases h with (rfl | h) | h
    · exact ⟨lo, firstKey hi r, [], leaves r, by simp [spans], by simp [leaves], .inl rfl, hf⟩
    · obtain ⟨a, b, xs, ys, h1, h2, h3, h4⟩ := spans_leaves (t := c) (lo := lo) (hi := firstKey hi r) h
      refine ⟨a, b, xs, ys ++ leaves r, by simp [spans, h1], by simp [leaves, h2], h3, ?_⟩
      rcases h4 with rfl | ⟨y, hy, rfl⟩
      · rcases hf with h | ⟨y, hy, h⟩
        · exact .inl h
        · exact .inr ⟨y, by simp [hy], h⟩
      · exact .inr ⟨y, by simp [hy], rfl⟩
    · obtain ⟨a, b, xs, ys, h1, h2, h3, h4⟩ := spans_leaves (t := r) (lo := lo) (hi := hi) h
      refine ⟨a, b, leaves c ++ xs, ys, by simp [spans, h1], by simp [leaves, h2], ?_, h4⟩
      rcases h3 with rfl | ⟨x, hx, rfl⟩
      · exact .inl rfl
      · exact .inr ⟨x, by simp [hx], rfl⟩

/-- In a sorted list a part that isn't empty occurs once. -/
theorem sorted_part {l xs s ys xs' ys' : List (Key × C)} (hs : l.Pairwise (fun a b => a.1 < b.1)) (hne : s ≠ [])
    (h : l = xs ++ s ++ ys) (h' : l = xs' ++ s ++ ys') : xs = xs' ∧ ys = ys' := by
  obtain ⟨x, s', rfl⟩ := List.exists_cons_of_ne_nil hne
  have key : xs = xs' := by
    subst h
    clear hne
    induction xs generalizing xs' with
    | nil =>
      cases xs' with
      | nil => rfl
      | cons y xs' =>
        exfalso
        simp only [List.nil_append, List.cons_append, List.cons.injEq] at h'
        obtain ⟨rfl, h'⟩ := h'
        simp only [List.nil_append, List.cons_append, List.pairwise_cons] at hs
        have := hs.1 x (by rw [h']; simp)
        exact lt_irrefl _ this
    | cons z xs ih =>
      cases xs' with
      | nil =>
        exfalso
        simp only [List.nil_append, List.cons_append, List.cons.injEq] at h'
        obtain ⟨rfl, h'⟩ := h'
        simp only [List.cons_append, List.pairwise_cons] at hs
        have := hs.1 z (by simp)
        exact lt_irrefl _ this
      | cons y xs' =>
        simp only [List.cons_append, List.cons.injEq] at h'
        obtain ⟨rfl, h'⟩ := h'
        simp only [List.cons_append, List.pairwise_cons] at hs
        rw [ih hs.2 h']
  subst key
  rw [h] at h'
  exact ⟨rfl, by simpa using h'⟩

theorem Beside.span {t s : Tree C} {p : Key} {z : Key → Nat} {L : Nat} (hw : WF z L t) (hs : Sorted t)
    (h : Beside t p s) : s = t ∨ ∃ a b, (a, s, b) ∈ spans none none t ∧ Within p a b := by
  obtain ⟨hn, xs, ys, h1, h2, h3⟩ := h
  simp only [nodes, List.mem_cons] at hn
  rcases hn with rfl | hn
  · exact .inl rfl
  · obtain ⟨a, b, xs', ys', g1, g2, g3, g4⟩ := spans_leaves (lo := none) (hi := none) hn
    have hne : leaves s ≠ [] := by
      obtain ⟨M, hws, hsn⟩ := WF_kids hw hn
      exact WF_leaves_ne hws hsn
    obtain ⟨rfl, rfl⟩ := sorted_part hs hne h1 g2
    refine .inr ⟨a, b, g1, fun k hk => ?_, fun k hk => ?_⟩
    · rcases g3 with rfl | ⟨x, hx, rfl⟩
      · cases hk
      · cases hk; exact h2 x hx
    · rcases g4 with rfl | ⟨x, hx, rfl⟩
      · cases hk
      · cases hk; exact h3 x hx

end

end Arroba
