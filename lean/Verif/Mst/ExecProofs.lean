import Verif.Mst.Exec
import Verif.Mst.Refresh

/-! Helper lemmas: every execution keeps the root object in correspondence with a map. -/

namespace Arroba

variable {C : Type}

open Arroba.Tree

/-! ### Dicts -/

section dict
variable {α β : Type} [DecidableEq α]

theorem mem_dictSet {d : List (α × β)} {k : α} {v : β} {x : α × β} (h : x ∈ dictSet d k v) :
    x = (k, v) ∨ x ∈ d := by
  induction d with
  | nil => simpa [dictSet] using h
  | cons y ys ih =>
    obtain ⟨k', v'⟩ := y
    simp only [dictSet] at h
    split at h
    · simp only [List.mem_cons] at h ⊢; tauto
    · simp only [List.mem_cons] at h ⊢
      rcases h with h | h
      · exact .inr (.inl h)
      · rcases ih h with h | h <;> tauto

theorem keys_dictSet {d : List (α × β)} {k : α} {v : β} {k' : α} :
    k' ∈ (dictSet d k v).map (·.1) ↔ k' = k ∨ k' ∈ d.map (·.1) := by
  induction d with
  | nil => simp [dictSet]
  | cons y ys ih =>
    obtain ⟨k₀, v₀⟩ := y
    simp only [dictSet]
    split
    · rename_i h; subst h; simp
    · simp only [List.map_cons, List.mem_cons, ih]; tauto

theorem mem_dictUpdate {d d' : List (α × β)} {x : α × β} (h : x ∈ dictUpdate d d') :
    x ∈ d ∨ x ∈ d' := by
  unfold dictUpdate at h
  induction d' generalizing d with
  | nil => exact .inl h
  | cons y ys ih =>
    rcases ih h with h | h
    · rcases mem_dictSet h with h | h
      · right; simp [h]
      · exact .inl h
    · right; simp [h]

theorem keys_dictUpdate {d d' : List (α × β)} {k : α} :
    k ∈ (dictUpdate d d').map (·.1) ↔ k ∈ d.map (·.1) ∨ k ∈ d'.map (·.1) := by
  unfold dictUpdate
  induction d' generalizing d with
  | nil => simp
  | cons y ys ih =>
    rw [List.foldl_cons, ih, keys_dictSet]
    simp only [List.map_cons, List.mem_cons]; tauto

theorem dictGet_mem {d : List (α × β)} {k : α} {v : β} (h : dictGet d k = some v) : (k, v) ∈ d := by
  induction d with
  | nil => simp [dictGet] at h
  | cons y ys ih =>
    obtain ⟨k', v'⟩ := y
    simp only [dictGet] at h
    split at h
    · rename_i hk; subst hk; simp at h; simp [h]
    · simp [ih h]

theorem dictGet_isSome {d : List (α × β)} {k : α} :
    (dictGet d k).isSome ↔ k ∈ d.map (·.1) := by
  rw [← Option.ne_none_iff_isSome, ne_eq, dictGet_eq_none]
  simp

end dict

theorem Inserted.dictGet {k : Key} {v : C} {l l' : List (Key × C)} (h : Inserted k v l l') :
    dictGet l' = Function.update (dictGet l) k (some v) := by
  obtain ⟨as, bs, rfl, rfl, h1, h2⟩ := h
  funext x
  simp only [Function.update_apply]
  rw [dictGet_append, dictGet_append]
  by_cases hx : x = k
  · subst hx
    have : Arroba.dictGet as x = none := dictGet_eq_none.2 fun y hy => ne_of_lt (h1 y hy)
    simp [this, Arroba.dictGet]
  · simp [hx, Arroba.dictGet, Ne.symm hx]

theorem Inserted.dictGet_none {k : Key} {v : C} {l l' : List (Key × C)} (h : Inserted k v l l') :
    Arroba.dictGet l k = none := by
  obtain ⟨as, bs, rfl, rfl, h1, h2⟩ := h
  refine dictGet_eq_none.2 fun y hy => ?_
  rcases List.mem_append.1 hy with hy | hy
  · exact ne_of_lt (h1 y hy)
  · exact ne_of_gt (h2 y hy)

theorem Replaced.dictGet {k : Key} {v : C} {l l' : List (Key × C)} (h : Replaced k v l l')
    (hs : l.Pairwise (fun a b => a.1 < b.1)) :
    Arroba.dictGet l k ≠ none ∧ dictGet l' = Function.update (dictGet l) k (some v) := by
  obtain ⟨as, v₀, bs, rfl, rfl⟩ := h
  have h1 : ∀ x ∈ as, x.1 < k := fun x hx => (List.pairwise_append.1 hs).2.2 x hx (k, v₀) (by simp)
  have hn : Arroba.dictGet as k = none := dictGet_eq_none.2 fun y hy => ne_of_lt (h1 y hy)
  refine ⟨by rw [dictGet_append]; simp [hn, Arroba.dictGet], ?_⟩
  funext x
  simp only [Function.update_apply]
  rw [dictGet_append, dictGet_append]
  by_cases hx : x = k
  · subst hx; simp [hn, Arroba.dictGet]
  · simp [hx, Arroba.dictGet, Ne.symm hx]

section
variable {E : Env C} {rd : C → Option (NodeData C)}

/-! ### The store -/

theorem Stored.mono {rd' : C → Option (NodeData C)} {t : Tree C}
    (h : ∀ c d, rd c = some d → rd' c = some d) (hs : Stored E rd t) : Stored E rd' t :=
  fun s hs' => h _ _ (hs s hs')

theorem Hdr.mono {rd' : C → Option (NodeData C)} {t : Tree C} {L : Nat} {n : Node C}
    (h : ∀ c d, rd c = some d → rd' c = some d) (hh : Hdr E rd L t n) : Hdr E rd' L t n :=
  ⟨fun he => ⟨(hh.1 he).1, (hh.1 he).2.mono h⟩, hh.2.1, hh.2.2⟩

theorem ReprEs.mono {rd' : C → Option (NodeData C)}
    (h : ∀ c d, rd c = some d → rd' c = some d) : ∀ {t : Tree C} {L : Nat} {es : List (Ent C)},
    ReprEs E rd L t es → ReprEs E rd' L t es
  | nil, _, _, hh => hh
  | leaf _ _ _, _, _, ⟨es', h1, h2⟩ => ⟨es', h1, h2.mono h⟩
  | sub _ _, _, _, ⟨n, es', h1, ⟨h2, h3⟩, h4⟩ =>
    ⟨n, es', h1, ⟨h2.mono h, fun es₂ he => (h3 es₂ he).mono h⟩, h4.mono h⟩

theorem ReprN.mono {rd' : C → Option (NodeData C)} {t : Tree C} {L : Nat} {n : Node C}
    (h : ∀ c d, rd c = some d → rd' c = some d) (hh : ReprN E rd L t n) : ReprN E rd' L t n :=
  ⟨hh.1.mono h, fun es he => (hh.2 es he).mono h⟩

/-- The direct children of a node. -/
def Tree.subs : Tree C → List (Tree C)
  | nil => []
  | leaf _ _ r => subs r
  | sub c r => c :: subs r

theorem Tree.subs_kids {t c : Tree C} (h : c ∈ subs t) : c ∈ kids t := by
  induction t with
  | nil => simp [subs] at h
  | leaf k v r ih => exact ih h
  | sub d r _ ih =>
    simp only [subs, List.mem_cons] at h
    rcases h with rfl | h
    · simp [kids]
    · simp [kids, ih h]

theorem ser_ts {t : Tree C} : ∀ {last : Key} {c : C},
    c ∈ ((ser E.H t).2 last).filterMap (·.t) ∨ (ser E.H t).1 = some c →
    ∃ s ∈ subs t, c = cidOf E.H s := by
  induction t with
  | nil => intro last c h; simp [ser] at h
  | leaf k v r ih =>
    intro last c h
    simp only [ser, List.filterMap_cons] at h
    rcases h with h | h
    · cases hr : (ser E.H r).1 with
      | none => rw [hr] at h; exact ih (.inl h)
      | some x =>
        rw [hr] at h
        simp only [List.mem_cons] at h
        rcases h with rfl | h
        · exact ih (last := last) (.inr hr)
        · exact ih (.inl h)
    · simp at h
  | sub d r _ ih =>
    intro last c h
    simp only [ser] at h
    rcases h with h | h
    · obtain ⟨s, hs, rfl⟩ := ih (.inl h)
      exact ⟨s, by simp [subs, hs], rfl⟩
    · simp only [Option.some.injEq] at h
      exact ⟨d, by simp [subs], h.symm⟩

theorem children_subs {t : Tree C} {c : C} (h : c ∈ (nodeOf E.H t).children) :
    ∃ s ∈ subs t, c = cidOf E.H s := by
  simp only [NodeData.children, nodeOf, List.mem_append, Option.mem_toList] at h
  exact ser_ts (last := []) h.symm

theorem subs_children' {t : Tree C} : ∀ {L : Nat} {last : Key}, WF E.zeros L t →
    ∀ s ∈ subs t, cidOf E.H s ∈ ((ser E.H t).2 last).filterMap (·.t) ∨
      (ser E.H t).1 = some (cidOf E.H s) := by
  induction t with
  | nil => intro L last _ s hs; simp [subs] at hs
  | leaf k v r ih =>
    intro L last hw s hs
    left
    simp only [ser, List.filterMap_cons]
    rcases ih hw.2 s hs (last := k) with h | h
    · cases (ser E.H r).1 <;> simp_all
    · simp [h]
  | sub d r _ ih =>
    intro L last hw s hs
    obtain ⟨M, rfl, _, hwd, hns, hwr⟩ := WF_sub.1 hw
    simp only [subs, List.mem_cons] at hs
    rcases hs with rfl | hs
    · right; rfl
    · rcases ih hwr s hs (last := last) with h | h
      · exact .inl h
      · cases r with
        | sub _ _ => exact absurd trivial hns
        | _ => simp [ser] at h

theorem subs_children {t : Tree C} {L : Nat} (hw : WF E.zeros L t) {s : Tree C} (hs : s ∈ subs t) :
    cidOf E.H s ∈ (nodeOf E.H t).children := by
  simp only [NodeData.children, nodeOf, List.mem_append, Option.mem_toList]
  exact (subs_children' (last := []) hw s hs).symm

theorem StoreOK.stored (hinj : Function.Injective E.H) (hst : StoreOK E rd) {t : Tree C} {L : Nat}
    (hw : WF E.zeros L t) (h : (rd (cidOf E.H t)).isSome) : Stored E rd t := by
  have read : ∀ s : Tree C, (rd (cidOf E.H s)).isSome → rd (cidOf E.H s) = some (nodeOf E.H s) := by
    intro s hs
    obtain ⟨d, hd⟩ := Option.isSome_iff_exists.1 hs
    rw [hd, hinj (hst.addr _ _ hd)]
  have key : ∀ (t : Tree C) (L : Nat), WF E.zeros L t → (∀ s ∈ subs t, (rd (cidOf E.H s)).isSome) →
      ∀ s ∈ kids t, rd (cidOf E.H s) = some (nodeOf E.H s) := by
    intro t
    induction t with
    | nil => intro L _ _ s hs; simp [kids] at hs
    | leaf k v r ih => intro L hw hh s hs; exact ih L hw.2 hh s hs
    | sub c r ihc ihr =>
      intro L hw hh s hs
      obtain ⟨M, rfl, _, hwc, _, hwr⟩ := WF_sub.1 hw
      simp only [kids, List.mem_append, List.mem_cons] at hs
      have hc := hh c (by simp [subs])
      rcases hs with (rfl | hs) | hs
      · exact read _ hc
      · refine ihc M hwc ?_ s hs
        intro s' hs'
        exact hst.closed _ _ (read c hc) _ (subs_children hwc hs')
      · exact ihr _ hwr (fun s' hs' => hh s' (by simp [subs, hs'])) s hs
  intro s hs
  simp only [nodes, List.mem_cons] at hs
  rcases hs with rfl | hs
  · exact read _ h
  · refine key t L hw ?_ s hs
    intro s' hs'
    exact hst.closed _ _ (read t h) _ (subs_children hw hs')

theorem kids_trans {t s u : Tree C} (hs : s ∈ kids t) (hu : u ∈ kids s) : u ∈ kids t := by
  induction t with
  | nil => simp [kids] at hs
  | leaf k v r ih => exact ih hs
  | sub c r ihc ihr =>
    simp only [kids, List.mem_append, List.mem_cons] at hs ⊢
    rcases hs with (rfl | hs) | hs
    · exact .inl (.inr hu)
    · exact .inl (.inr (ihc hs))
    · exact .inr (ihr hs)

theorem nodes_trans {t s u : Tree C} (hs : s ∈ nodes t) (hu : u ∈ nodes s) : u ∈ nodes t := by
  simp only [nodes, List.mem_cons] at *
  rcases hs with rfl | hs
  · exact hu
  · rcases hu with rfl | hu
    · exact .inr hs
    · exact .inr (kids_trans hs hu)

/-! ### Unstored blocks -/

section unstored
variable [DecidableEq C]

/-- What `get_unstored_blocks` returns for a tree. -/
def UnstoredOf (E : Env C) (rd : C → Option (NodeData C)) (ts : List (Tree C))
    (bl : List (C × NodeData C)) : Prop :=
  (∀ c d, (c, d) ∈ bl → ∃ s ∈ ts, c = cidOf E.H s ∧ d = nodeOf E.H s ∧ rd c = none) ∧
  (∀ s ∈ ts, cidOf E.H s ∈ bl.map (·.1) ∨
    ∃ s' ∈ ts, (rd (cidOf E.H s')).isSome ∧ s ∈ nodes s')

theorem UnstoredOf.append {ts ts' : List (Tree C)} {bl bl' : List (C × NodeData C)}
    (h : UnstoredOf E rd ts bl) (h' : UnstoredOf E rd ts' bl') :
    UnstoredOf E rd (ts ++ ts') (dictUpdate bl bl') := by
  constructor
  · intro c d hm
    rcases mem_dictUpdate hm with hm | hm
    · obtain ⟨s, hs, h⟩ := h.1 c d hm; exact ⟨s, by simp [hs], h⟩
    · obtain ⟨s, hs, h⟩ := h'.1 c d hm; exact ⟨s, by simp [hs], h⟩
  · intro s hs
    rw [keys_dictUpdate]
    rcases List.mem_append.1 hs with hs | hs
    · rcases h.2 s hs with h | ⟨s', hs', h⟩
      · exact .inl (.inl h)
      · exact .inr ⟨s', by simp [hs'], h⟩
    · rcases h'.2 s hs with h | ⟨s', hs', h⟩
      · exact .inl (.inr h)
      · exact .inr ⟨s', by simp [hs'], h⟩

theorem unstoredKids_spec {rec : Node C → Except Err (C × List (C × NodeData C))} {L : Nat}
    (hrec : ∀ M, L = M + 1 → ∀ c m, ReprN E rd M c m → WF E.zeros M c → ValidKeys c →
      ∃ bl, rec m = .ok (cidOf E.H c, bl) ∧ UnstoredOf E rd (nodes c) bl) :
    ∀ {t : Tree C} {es : List (Ent C)} {ts : List (Tree C)} {acc : List (C × NodeData C)},
    ReprEs E rd L t es → WF E.zeros L t → ValidKeys t → UnstoredOf E rd ts acc →
    ∃ bl, unstoredKids rec es acc = .ok bl ∧ UnstoredOf E rd (ts ++ kids t) bl := by
  intro t
  induction t with
  | nil =>
    intro es ts acc h _ _ hacc
    obtain rfl := ReprEs_nil.1 h
    exact ⟨acc, rfl, by simpa [kids] using hacc⟩
  | leaf k v r ih =>
    intro es ts acc h hw hv hacc
    obtain ⟨es', rfl, h'⟩ := ReprEs_leaf.1 h
    have := ih h' hw.2 (fun kv hkv => hv kv (by simp [leaves, hkv])) hacc
    simpa [unstoredKids, kids] using this
  | sub c r _ ih =>
    intro es ts acc h hw hv hacc
    obtain ⟨M, rfl, _, hwc, _, hwr⟩ := WF_sub.1 hw
    obtain ⟨m, es', rfl, hm, h'⟩ := ReprEs_sub.1 h
    obtain ⟨bl, h1, h2⟩ := hrec M rfl c m hm hwc (fun kv hkv => hv kv (by simp [leaves, hkv]))
    obtain ⟨bl', h3, h4⟩ := ih h' hwr (fun kv hkv => hv kv (by simp [leaves, hkv]))
      (hacc.append h2)
    refine ⟨bl', by simp [unstoredKids, h1, h3], ?_⟩
    simpa [kids, nodes] using h4

theorem getUnstoredBlocks_spec : ∀ {f : Nat} {t : Tree C} {L : Nat} {n : Node C},
    ReprN E rd L t n → WF E.zeros L t → ValidKeys t → L + 1 ≤ f →
    ∃ bl, getUnstoredBlocks E rd f n = .ok (cidOf E.H t, bl) ∧ UnstoredOf E rd (nodes t) bl
  | 0, _, _, _, _, _, _, hf => by omega
  | f + 1, t, L, n, hn, hwf, hv, hf => by
    unfold getUnstoredBlocks
    simp only [getPointer_spec hn hwf hv hf, ok_bind]
    by_cases hst : (rd (cidOf E.H t)).isSome
    · simp only [hst, if_true]
      refine ⟨[], rfl, by simp, fun s hs => .inr ⟨t, by simp [nodes], hst, hs⟩⟩
    · simp only [hst, Bool.false_eq_true, if_false]
      obtain ⟨es, he, hes⟩ := getEntries_spec hn hwf
      have hgp : ∀ M, L = M + 1 → ∀ c m, ReprN E rd M c m → WF E.zeros M c → ValidKeys c →
          getPointer E rd f m = .ok (cidOf E.H c) :=
        fun M hM c m hm hw hv => getPointer_spec hm hw hv (by omega)
      simp only [he, ok_bind, serializeNodeData_spec hgp hes hwf hv]
      have hacc : UnstoredOf E rd [t] [(E.H (nodeOf E.H t), nodeOf E.H t)] := by
        constructor
        · intro c d h
          simp only [List.mem_singleton, Prod.mk.injEq] at h
          obtain ⟨rfl, rfl⟩ := h
          exact ⟨t, by simp, rfl, rfl, by simpa [cidOf] using hst⟩
        · intro s hs
          simp only [List.mem_singleton] at hs
          subst hs
          left; simp [cidOf]
      obtain ⟨bl, h1, h2⟩ := unstoredKids_spec (rec := getUnstoredBlocks E rd f) (L := L)
        (fun M hM c m hm hw hv => getUnstoredBlocks_spec hm hw hv (by omega)) hes hwf hv hacc
      exact ⟨bl, by simp [h1], by simpa [nodes] using h2⟩

theorem writeBlocks_stored (hinj : Function.Injective E.H) (hst : StoreOK E rd) {t : Tree C}
    {bl : List (C × NodeData C)}
    (hw : ∀ s ∈ nodes t, ∃ L, WF E.zeros L s) (h : UnstoredOf E rd (nodes t) bl) :
    Stored E (writeBlocks rd bl) t ∧ StoreOK E (writeBlocks rd bl) ∧
      ∀ c d, rd c = some d → writeBlocks rd bl c = some d := by
  have hmono : ∀ c d, rd c = some d → writeBlocks rd bl c = some d := by
    intro c d hcd
    unfold writeBlocks
    cases hb : dictGet bl c with
    | none => exact hcd
    | some d' =>
      obtain ⟨s, hs, _, _, hn⟩ := h.1 c d' (dictGet_mem hb)
      rw [hn] at hcd; cases hcd
  have hstored : Stored E (writeBlocks rd bl) t := by
    intro s hs
    rcases h.2 s hs with h1 | ⟨s', hs', h2, h3⟩
    · obtain ⟨d, hd⟩ := Option.isSome_iff_exists.1 (dictGet_isSome.2 h1)
      obtain ⟨s', hs', h4, h5, _⟩ := h.1 _ d (dictGet_mem hd)
      unfold writeBlocks
      rw [hd, h5, hinj h4]
    · obtain ⟨L, hL⟩ := hw s' hs'
      exact hmono _ _ (hst.stored hinj hL h2 s h3)
  refine ⟨hstored, ⟨?_, ?_⟩, hmono⟩
  · intro c d hcd
    unfold writeBlocks at hcd
    cases hb : dictGet bl c with
    | none => rw [hb] at hcd; exact hst.addr _ _ hcd
    | some d' =>
      rw [hb] at hcd
      obtain ⟨s, hs, h4, h5, _⟩ := h.1 c d' (dictGet_mem hb)
      simp only [Option.some.injEq] at hcd
      rw [← hcd, h5, h4]; rfl
  · intro c d hcd c' hc'
    unfold writeBlocks at hcd
    cases hb : dictGet bl c with
    | none =>
      rw [hb] at hcd
      obtain ⟨d', hd'⟩ := Option.isSome_iff_exists.1 (hst.closed _ _ hcd c' hc')
      rw [hmono _ _ hd']; rfl
    | some d' =>
      rw [hb] at hcd
      obtain ⟨s, hs, h4, h5, _⟩ := h.1 c d' (dictGet_mem hb)
      simp only [Option.some.injEq] at hcd
      subst hcd
      rw [h5] at hc'
      obtain ⟨u, hu, rfl⟩ := children_subs hc'
      rw [hstored u (nodes_trans hs (by simp [nodes, subs_kids hu]))]; rfl

omit [DecidableEq C] in
theorem WF_nodes {z : Key → Nat} : ∀ {t : Tree C} {L : Nat}, WF z L t →
    ∀ s ∈ nodes t, ∃ M, WF z M s := by
  intro t L hw s hs
  simp only [nodes, List.mem_cons] at hs
  rcases hs with rfl | hs
  · exact ⟨L, hw⟩
  · induction t generalizing L with
    | nil => simp [kids] at hs
    | leaf k v r ih => exact ih hw.2 hs
    | sub c r ihc ihr =>
      obtain ⟨M, rfl, _, hwc, _, hwr⟩ := WF_sub.1 hw
      simp only [kids, List.mem_append, List.mem_cons] at hs
      rcases hs with (rfl | hs) | hs
      · exact ⟨M, hwc⟩
      · exact ihc hwc hs
      · exact ihr hwr hs

end unstored

/-! ### Cache writes -/

theorem ReprEs_split : ∀ {t : Tree C} {L : Nat} {l r : List (Ent C)}, ReprEs E rd L t (l ++ r) →
    ∃ A B, t = app A B ∧ ReprEs E rd L A l ∧ ReprEs E rd L B r
  | t, L, [], r, h => ⟨nil, t, rfl, rfl, h⟩
  | nil, L, x :: l, r, h => by cases ReprEs_nil.1 h
  | leaf k v t, L, x :: l, r, h => by
    obtain ⟨es', he, h'⟩ := ReprEs_leaf.1 h
    simp only [List.cons_append, List.cons.injEq] at he
    obtain ⟨rfl, rfl⟩ := he
    obtain ⟨A, B, rfl, h1, h2⟩ := ReprEs_split h'
    exact ⟨leaf k v A, B, rfl, ⟨l, rfl, h1⟩, h2⟩
  | sub c t, L, x :: l, r, h => by
    obtain ⟨n, es', he, hn, h'⟩ := h
    simp only [List.cons_append, List.cons.injEq] at he
    obtain ⟨rfl, rfl⟩ := he
    obtain ⟨A, B, rfl, h1, h2⟩ := ReprEs_split h'
    exact ⟨sub c A, B, rfl, ⟨n, l, rfl, hn, h1⟩, h2⟩

theorem Cached.repr {fuel : Nat} {n n' : Node C} (h : Cached E rd fuel n n') :
    ∀ {t : Tree C} {L : Nat}, ReprN E rd L t n → WF E.zeros L t → ValidKeys t → LayerOK L t n →
      L + 1 ≤ fuel → ReprN E rd L t n' ∧ LayerOK L t n' := by
  induction h with
  | @entries n es h =>
    intro t L hn hw hv hl hf
    obtain ⟨es', he, hes⟩ := getEntries_spec hn hw
    rw [h] at he; cases he
    refine ⟨⟨⟨by simp [Node.entries], hn.1.2.1, hn.1.2.2⟩, ?_⟩, hl⟩
    intro es' h'; simp [Node.entries] at h'; exact h' ▸ hes
  | @layer n l h =>
    intro t L hn hw hv hl hf
    have : l = (L : Int) := by
      by_cases ht : t = nil
      · subst ht
        rw [getLayer_nil hn (by omega)] at h
        have := hl rfl
        simp only [Except.ok.injEq] at h
        omega
      · rw [getLayer_spec hn hw ht hf] at h
        simpa using h.symm
    subst this
    exact ⟨ReprN_setLayer hn, fun _ => by simp [Node.setLayer, Node.layer]⟩
  | @attemptLayer n l h =>
    intro t L hn hw hv hl hf
    have : l = (L : Int) := by
      by_cases ht : t = nil
      · subst ht
        have h' : getLayer E rd fuel n = .ok l := by simp [getLayer, h]
        rw [getLayer_nil hn (by omega)] at h'
        have := hl rfl
        simp only [Except.ok.injEq] at h'
        omega
      · rw [attemptGetLayer_spec hn hw ht hf] at h
        simpa using h.symm
    subst this
    exact ⟨ReprN_setLayer hn, fun _ => by simp [Node.setLayer, Node.layer]⟩
  | @pointer n n' h =>
    intro t L hn hw hv hl hf
    obtain ⟨n'', h1, h2, _, h4⟩ := refresh_spec hn hw hv hf
    rw [h] at h1
    cases h1
    exact ⟨h2, fun ht => by rw [h4]; exact hl ht⟩
  | @child l r m m' p y o h ih =>
    intro t L hn hw hv hl hf
    have hes := hn.2 _ rfl
    obtain ⟨A, B, rfl, h1, h2⟩ := ReprEs_split hes
    cases B with
    | nil => cases ReprEs_nil.1 h2
    | leaf k v B' => obtain ⟨_, h3, _⟩ := ReprEs_leaf.1 h2; cases h3
    | sub c B' =>
      obtain ⟨M, rfl, hc, hwc, hns, hwr⟩ := WF_sub.1 (WF_app.1 hw).2.1
      obtain ⟨m₀, es', h3, hm, h4⟩ := ReprEs_sub.1 h2
      simp only [List.cons.injEq, Ent.tree.injEq] at h3
      obtain ⟨rfl, rfl⟩ := h3
      have hvc : ValidKeys c := fun kv hkv => hv kv (by simp [leaves, hkv])
      obtain ⟨hm', _⟩ := ih hm hwc hvc (fun h => absurd h hc) (by omega)
      refine ⟨⟨⟨by simp [Node.entries], hn.1.2.1, hn.1.2.2⟩, ?_⟩, hl⟩
      intro es'' h'
      simp only [Node.entries, Option.some.injEq] at h'
      subst h'
      exact ReprEs_app.2 ⟨l, _, rfl, h1, ReprEs_sub.2 ⟨m', r, rfl, hm', h4⟩⟩

/-! ### The invariant -/

theorem Trimmed_single {z : Key → Nat} {t : Tree C} {L : Nat} {k : Key} {v : C} (ht : Trimmed t)
    (hw : WF z L t) (h : leaves t = [(k, v)]) : z k = L := by
  cases t with
  | nil => simp [leaves] at h
  | leaf k' v' r =>
    simp only [leaves, List.cons.injEq, Prod.mk.injEq] at h
    rw [← h.1.1]; exact hw.1
  | sub c r =>
    obtain ⟨M, rfl, hc, hwc, hns, hwr⟩ := WF_sub.1 hw
    have h1 := WF_leaves_ne hwc hc
    cases r with
    | nil => simp [Trimmed] at ht
    | sub d r' => exact absurd trivial hns
    | leaf k' v' r' =>
      have := congrArg List.length h
      have h2 := List.length_pos_iff.2 h1
      simp [leaves] at this
      omega

/-- `n` stands for the map `m` (tree `t` on layer `L`). -/
structure Inv (E : Env C) (rd : C → Option (NodeData C)) (Z L : Nat) (t : Tree C) (n : Node C)
    (m : Key → Option C) : Prop where
  repr : ReprN E rd L t n
  wf : WF E.zeros L t
  sorted : Sorted t
  valid : ValidKeys t
  layer : LayerOK L t n
  bound : L ≤ Z
  map : dictGet (leaves t) = m

theorem Inv.step {Z : Nat} (hZ : ∀ k, E.zeros k ≤ Z) {fuel : Nat} (hf : Z + 2 ≤ fuel) {L : Nat}
    {t : Tree C} {n : Node C} {m : Key → Option C} (h : Inv E rd Z L t n m) (op : Op C) :
    match (specStep m op).2 with
    | some e => applyOp E rd fuel n op = .error e ∧ (specStep m op).1 = m
    | none => ∃ n' t' L', applyOp E rd fuel n op = .ok n' ∧
        Inv E rd Z L' t' n' (specStep m op).1 ∧
        (Trimmed t → (t = nil → L = 0) →
          Trimmed t' ∧ (t' = nil → ∃ k v, op = .delete k ∧
            leaves t = [(k, v)] ∧ (L' = 0 ∨ E.zeros k = L'))) := by
  have hb := h.bound
  cases op with
  | add k v =>
    simp only [specStep, applyOp]
    by_cases hk : validKey k = false
    · simp only [hk, if_true]
      obtain ⟨f, rfl⟩ : ∃ f, fuel = f + 1 := ⟨fuel - 1, by omega⟩
      simp [add, ensureValidKey, hk]
    · simp only [hk, Bool.false_eq_true, if_false]
      have hk' : validKey k = true := by simpa using hk
      have hzk := hZ k
      rcases add_spec (value := v) hk' (f := fuel) (kn := none) (.inl rfl) h.repr h.wf h.sorted
        h.valid h.layer (by omega) (by omega) with ⟨h1, h2⟩ | ⟨h0, n', t', h1, h2, h3, h4, h5, h6⟩
      · rw [h.map] at h1
        simp [h1, h2]
      · rw [h.map] at h0
        simp only [h0, ne_eq, not_true_eq_false, if_false]
        refine ⟨n', t', _, h1, ⟨h2, h3, h4.sorted h.sorted, ?_, fun h => absurd h h5, by omega,
          ?_⟩, ?_⟩
        · intro kv hkv
          rcases h4.mem.1 hkv with rfl | hkv
          · exact hk'
          · exact h.valid kv hkv
        · rw [h4.dictGet, h.map]; simp
        · intro ht hn0
          refine ⟨h6 ht ?_, fun h => absurd h h5⟩
          by_cases htn : t = nil
          · right; have := hn0 htn; omega
          · exact .inl htn
  | update k v =>
    simp only [specStep, applyOp]
    by_cases hk : validKey k = false
    · simp only [hk, if_true]
      obtain ⟨f, rfl⟩ : ∃ f, fuel = f + 1 := ⟨fuel - 1, by omega⟩
      simp [update, ensureValidKey, hk]
    · simp only [hk, Bool.false_eq_true, if_false]
      have hk' : validKey k = true := by simpa using hk
      rcases update_spec (value := v) hk' (f := fuel) h.repr h.wf h.sorted (by omega) with
        ⟨h1, h2⟩ | ⟨n', t', h1, h2, h3, h4, h5, h6⟩
      · rw [h.map] at h1
        simp [h1, h2]
      · obtain ⟨g1, g2⟩ := h4.dictGet h.sorted
        rw [h.map] at g1
        simp only [g1, if_false]
        refine ⟨n', t', L, h1, ⟨h2, h3, ?_, ?_, fun h => absurd h h5, hb, ?_⟩, ?_⟩
        · have := h4.keys
          have hs := h.sorted
          unfold Sorted at hs ⊢
          rw [← List.pairwise_map (f := fun x : Key × C => x.1) (R := fun a b => a < b)] at hs ⊢
          rw [this]; exact hs
        · intro kv hkv
          have : kv.1 ∈ (leaves t').map (·.1) := List.mem_map_of_mem hkv
          rw [h4.keys] at this
          obtain ⟨x, hx, hxe⟩ := List.mem_map.1 this
          rw [← hxe]; exact h.valid x hx
        · rw [g2, h.map]; simp
        · intro ht _; exact ⟨h6 ht, fun h => absurd h h5⟩
  | delete k =>
    simp only [specStep, applyOp]
    rcases delete_spec (key := k) (f := fuel) h.repr h.wf h.sorted (by omega) with
      ⟨h1, h2⟩ | ⟨n', t', L', v, h1, h2, h3, h4, h5, h6, h7⟩
    · rw [h.map] at h1
      simp [h1, h2]
    · have g := h4.dictGet
      have hmk : m k = some v := by rw [← h.map, g]; simp
      simp only [hmk, reduceCtorEq, if_false]
      obtain ⟨L'', hL'', hr, hw, hl⟩ : ∃ L'', (L'' ≤ Z ∧ (t' = nil → L'' = 0 ∨ L'' = L)) ∧
          ReprN E rd L'' t' n' ∧ WF E.zeros L'' t' ∧ LayerOK L'' t' n' := by
        by_cases ht : t' = nil
        · subst ht
          obtain ⟨rfl, h8⟩ := h7 rfl
          cases hl : n'.layer with
          | some l =>
            exact ⟨L', ⟨by omega, fun _ => .inr rfl⟩, h2, h3, fun _ => by
              simp [hl, h2.1.2.2 l hl]⟩
          | none =>
            refine ⟨0, ⟨by omega, fun _ => .inl rfl⟩, ⟨⟨h2.1.1, h2.1.2.1, by simp [hl]⟩, ?_⟩,
              by simp [WF], fun _ => by simp [hl]⟩
            intro es he
            exact h2.2 es he
        · exact ⟨L', ⟨by omega, fun h => absurd h ht⟩, h2, h3, fun h => absurd h ht⟩
      refine ⟨n', t', L'', h1, ⟨hr, hw, h4.sorted' h.sorted, ?_, hl, hL''.1, ?_⟩, ?_⟩
      · intro kv hkv; exact h.valid kv (h4.mem.2 (.inr hkv))
      · rw [← h.map, g, Function.update_idem]
        funext x
        by_cases hx : x = k
        · subst hx; simp [h4.dictGet_none]
        · simp [hx]
      · intro ht _
        refine ⟨h6, ?_⟩
        rintro rfl
        obtain ⟨as, bs, h9, h10, _⟩ := h4
        simp only [leaves] at h9
        obtain ⟨rfl, rfl⟩ : as = [] ∧ bs = [] := by simpa using h9.symm
        refine ⟨k, v, rfl, by simpa using h10, ?_⟩
        rcases hL''.2 rfl with hh | hh
        · exact .inl hh
        · exact .inr (by rw [hh, Trimmed_single ht h.wf (by simpa using h10)])

theorem specRun_snoc (ops : List (Op C)) (op : Op C) :
    specRun (ops ++ [op]) =
      ((specStep (specRun ops).1 op).1, (specRun ops).2 ++ [(specStep (specRun ops).1 op).2]) := by
  simp [specRun, List.foldl_append]

/-- Histories in which no deletion of a key above layer 0 leaves the tree empty. -/
def NoEmptying (E : Env C) (ops : List (Op C)) : Prop :=
  ∀ p k s, ops = p ++ .delete k :: s → (specRun p).1 k ≠ none →
    (∀ k', k' ≠ k → (specRun p).1 k' = none) → E.zeros k = 0

theorem NoEmptying.prefix {ops : List (Op C)} {op : Op C} (h : NoEmptying E (ops ++ [op])) :
    NoEmptying E ops := by
  intro p k s hp
  exact h p k (s ++ [op]) (by simp [hp])

theorem Run.inv [DecidableEq C] (hinj : Function.Injective E.H) {Z : Nat}
    (hZ : ∀ k, E.zeros k ≤ Z) {fuel : Nat} (hf : Z + 2 ≤ fuel) {n : Node C} {ops : List (Op C)}
    {outs : List (Option Err)} (h : Run E fuel rd n ops outs) :
    StoreOK E rd ∧ outs = (specRun ops).2 ∧
      ∃ L t, Inv E rd Z L t n (specRun ops).1 ∧
        (NoEmptying E ops → Trimmed t ∧ (t = nil → L = 0)) := by
  induction h with
  | @create rd n hs h =>
    refine ⟨hs, rfl, 0, nil, ?_⟩
    rw [create_spec (t := nil) (L := 0) rfl (by simp [WF]) (by simp [ValidKeys, leaves])
      (by omega)] at h
    cases h
    refine ⟨⟨⟨⟨by simp [Node.entries], fun _ => rfl, by simp [Node.layer]⟩, ?_⟩, by simp [WF],
      by simp [Sorted, leaves], by simp [ValidKeys, leaves], fun _ => rfl, by omega, rfl⟩,
      fun _ => ⟨trivial, fun _ => rfl⟩⟩
    intro es he; simp [Node.entries] at he; exact he
  | @ok rd n n' ops outs op h h' ih =>
    obtain ⟨hs, ho, L, t, hi, hc⟩ := ih
    have := hi.step hZ hf op
    rw [specRun_snoc]
    cases he : (specStep (specRun ops).1 op).2 with
    | some e => rw [he] at this; rw [this.1] at h'; cases h'
    | none =>
      rw [he] at this
      obtain ⟨n'', t', L', h1, h2, h3⟩ := this
      rw [h'] at h1; cases h1
      refine ⟨hs, by simp [ho, ← he], L', t', h2, ?_⟩
      intro hne
      obtain ⟨g1, g2⟩ := hc hne.prefix
      obtain ⟨g3, g4⟩ := h3 g1 g2
      refine ⟨g3, fun ht' => ?_⟩
      obtain ⟨k, v, rfl, hl, h0 | hz⟩ := g4 ht'
      · exact h0
      · rw [← hz]
        refine hne ops k [] rfl ?_ ?_
        · rw [← hi.map, hl]; simp [dictGet]
        · intro k' hk'
          rw [← hi.map, hl]; simp [dictGet, Ne.symm hk']
  | @fail rd n ops outs op e h h' ih =>
    obtain ⟨hs, ho, L, t, hi, hc⟩ := ih
    have := hi.step hZ hf op
    rw [specRun_snoc]
    cases he : (specStep (specRun ops).1 op).2 with
    | some e' =>
      rw [he] at this
      obtain ⟨h1, h2⟩ := this
      rw [h'] at h1; cases h1
      refine ⟨hs, by simp [ho], L, t, by simpa [h2] using hi, fun hne => hc hne.prefix⟩
    | none =>
      rw [he] at this
      obtain ⟨n'', t', L', h1, _⟩ := this
      rw [h'] at h1; cases h1
  | @cache rd n n' ops outs h h' ih =>
    obtain ⟨hs, ho, L, t, hi, hc⟩ := ih
    have hb := hi.bound
    obtain ⟨h1, h2⟩ := h'.repr hi.repr hi.wf hi.valid hi.layer (by omega)
    exact ⟨hs, ho, L, t, ⟨h1, hi.wf, hi.sorted, hi.valid, h2, hi.bound, hi.map⟩, hc⟩
  | @store rd rd' n ops outs h hs h' ih =>
    obtain ⟨_, ho, L, t, hi, hc⟩ := ih
    exact ⟨hs, ho, L, t, ⟨hi.repr.mono h', hi.wf, hi.sorted, hi.valid, hi.layer, hi.bound,
      hi.map⟩, hc⟩
  | @persist rd n c bl ops outs h h' ih =>
    obtain ⟨hs, ho, L, t, hi, hc⟩ := ih
    have hb := hi.bound
    obtain ⟨bl', h1, h2⟩ := getUnstoredBlocks_spec hi.repr hi.wf hi.valid (f := fuel) (by omega)
    rw [h'] at h1; cases h1
    obtain ⟨_, h3, h4⟩ := writeBlocks_stored hinj hs (WF_nodes hi.wf) h2
    exact ⟨h3, ho, L, t, ⟨hi.repr.mono h4, hi.wf, hi.sorted, hi.valid, hi.layer, hi.bound,
      hi.map⟩, hc⟩
  | @reload rd n c ops outs h hp hsome ih =>
    obtain ⟨hs, ho, L, t, hi, hc⟩ := ih
    have hb := hi.bound
    rw [getPointer_spec hi.repr hi.wf hi.valid (by omega)] at hp
    cases hp
    have hstd := hs.stored hinj hi.wf hsome
    have hr : ∀ L, ReprN E rd L t (load (cidOf E.H t)) := fun L =>
      ⟨⟨fun _ => ⟨rfl, hstd⟩, fun _ => rfl, by simp [load, Node.layer]⟩,
        by simp [load, Node.entries]⟩
    by_cases ht : t = nil
    · subst ht
      exact ⟨hs, ho, 0, nil, ⟨hr 0, by simp [WF], hi.sorted, hi.valid, fun _ => rfl, by omega,
        hi.map⟩, fun _ => ⟨trivial, fun _ => rfl⟩⟩
    · exact ⟨hs, ho, L, t, ⟨hr L, hi.wf, hi.sorted, hi.valid, fun h => absurd h ht, hb, hi.map⟩,
        fun hne => ⟨(hc hne).1, fun h => absurd h ht⟩⟩

end

end Arroba
