import Verif.Mst.CoverProofs3
import Verif.Mst.DiffProofs2

/-! # Lemmas about `add_covering_proofs`: it only adds blocks as they are in storage, and only nodes of the tree -/

namespace Arroba

variable {C V : Type} [DecidableEq C] {read : C → Option V} {dec : V → Option (NodeData C)} {P Q : C → Prop}

/-- Every block in `B` is as in storage, and its CID is in `P`; and none is in it twice. -/
def FromStore (read : C → Option V) (P : C → Prop) (B : Blocks C V) : Prop :=
  (B.map (·.1)).Nodup ∧ ∀ c v, (c, v) ∈ B → v = read c ∧ P c

/-- `P` is closed under links to children. -/
def Closed (read : C → Option V) (dec : V → Option (NodeData C)) (P : C → Prop) : Prop :=
  ∀ c, P c → ∀ d, (read c).bind dec = some d → ∀ x ∈ d.children, P x

theorem dictUpdate_nodup {α β : Type} [DecidableEq α] : ∀ (d' : List (α × β)) {d : List (α × β)},
    (d.map (·.1)).Nodup → ((dictUpdate d d').map (·.1)).Nodup
  | [], _, h => h
  | (k, v) :: xs, d, h => by
    unfold dictUpdate
    exact dictUpdate_nodup xs (dictSet_nodup h)

theorem coverLoad_from {B : Blocks C V} (h : FromStore read P B) {cids : List (Option C)}
    (hc : ∀ c, some c ∈ cids → P c) : FromStore read P (coverLoad read B cids) := by
  refine ⟨dictUpdate_nodup _ h.1, fun c v hv => ?_⟩
  rcases mem_dictUpdate hv with hv | hv
  · exact h.2 c v hv
  · obtain ⟨x, hx, he⟩ := List.mem_map.1 hv
    obtain ⟨rfl, rfl⟩ := Prod.mk.inj he
    exact ⟨rfl, hc x (by simpa using (List.mem_filter.1 hx).1)⟩

theorem coverGet_from {B : Blocks C V} (h : FromStore read P B) {x : Option C} {b : V}
    (hb : coverGet B x = some b) : ∃ c, x = some c ∧ read c = some b ∧ P c := by
  cases x with
  | none => cases hb
  | some c =>
    unfold coverGet at hb
    dsimp only at hb
    cases hg : dictGet B c with
    | none => rw [hg] at hb; cases hb
    | some v =>
      rw [hg] at hb
      obtain ⟨h1, h2⟩ := h.2 c v (dictGet_mem hg)
      cases hb
      exact ⟨c, rfl, h1.symm, h2⟩

/-- The child CIDs that the scan returns are among the given ones and the children of the entries. -/
theorem coverScan_mem (path : Key) {S : C → Prop} : ∀ {es : List (EntryData C)} {last : Key} {cur left right : Option C},
    (∀ e ∈ es, ∀ x, e.t = some x → S x) → (∀ x, cur = some x → S x) → (∀ x, left = some x → S x) →
    (∀ x, right = some x → S x) →
    ∀ x, (some x = (coverScan path last cur left right es).1 ∨ some x = (coverScan path last cur left right es).2.1 ∨
      some x = (coverScan path last cur left right es).2.2) → S x
  | [], last, cur, left, right, _, h1, h2, h3 => by
    intro x hx
    simp only [coverScan] at hx
    rcases hx with h | h | h
    exacts [h1 x h.symm, h2 x h.symm, h3 x h.symm]
  | e :: es, last, cur, left, right, h0, h1, h2, h3 => by
    intro x hx
    have h0' : ∀ e ∈ es, ∀ x, e.t = some x → S x := fun e' he => h0 e' (.tail _ he)
    unfold coverScan at hx
    dsimp only at hx
    cases ht : e.t with
    | none =>
      rw [ht] at hx
      exact coverScan_mem path h0' h1 h2 (by simp) x hx
    | some t =>
      rw [ht] at hx
      have hS : S t := h0 e (.head _) t ht
      dsimp only at hx
      have hs : ∀ y, some t = some y → S y := fun y hy => by cases hy; exact hS
      split at hx
      · rcases hx with h | h | h
        · cases h
        · exact h2 x h.symm
        · exact hs x h.symm
      · split at hx
        · rcases hx with h | h | h
          · exact h1 x h.symm
          · exact h2 x h.symm
          · exact hs x h.symm
        · exact coverScan_mem path h0' hs hs hs x hx

theorem entry_child {d : NodeData C} {e : EntryData C} (he : e ∈ d.e) {x : C} (hx : e.t = some x) : x ∈ d.children := by
  simp only [NodeData.children, List.mem_append, Option.mem_toList, List.mem_filterMap]
  exact .inr ⟨e, he, hx⟩

theorem left_child {d : NodeData C} {x : C} (hx : d.l = some x) : x ∈ d.children := by
  simp [NodeData.children, hx]

theorem coverDown_from (hP : Closed read dec P) (hQ : ∀ c, P c → Q c) (path : Key) : ∀ {f : Nat} {B B' : Blocks C V} {b : Option V}
    {lb rb : Option V}, FromStore read Q B → (∀ v, b = some v → ∃ c, read c = some v ∧ P c) →
    coverDown read dec path f B b = .ok (B', lb, rb) →
    FromStore read Q B' ∧ (∀ v, lb = some v → ∃ c, read c = some v ∧ P c) ∧ (∀ v, rb = some v → ∃ c, read c = some v ∧ P c)
  | 0, _, _, _, _, _, _, _, h => by simp [coverDown] at h
  | f + 1, B, B', b, lb, rb, hB, hb, h => by
    unfold coverDown at h
    cases b with
    | none => simp [coverData, bind, Except.bind] at h
    | some v =>
    obtain ⟨c, hc1, hc2⟩ := hb v rfl
    cases hd : dec v with
    | none => simp [coverData, hd, bind, Except.bind] at h
    | some d =>
    have hkid : ∀ x ∈ d.children, P x := hP c hc2 d (by rw [hc1]; exact hd)
    simp only [coverData, Option.bind_some, hd, ok_bind] at h
    have hscan := coverScan_mem path (S := P) (es := d.e) (last := []) (cur := d.l) (left := d.l) (right := d.l)
      (fun e he x hx => hkid x (entry_child he hx)) (fun x hx => hkid x (left_child hx))
      (fun x hx => hkid x (left_child hx)) (fun x hx => hkid x (left_child hx))
    revert h hscan
    generalize coverScan path [] d.l d.l d.l d.e = r
    obtain ⟨cur, left, right⟩ := r
    intro h hscan
    dsimp only at h hscan
    have hB1 : FromStore read Q (coverLoad read B [left, right, cur]) := coverLoad_from hB (fun x hx => by
      simp only [List.mem_cons, List.not_mem_nil, or_false] at hx
      rcases hx with hx | hx | hx
      exacts [hQ x (hscan x (.inr (.inl hx))), hQ x (hscan x (.inr (.inr hx))), hQ x (hscan x (.inl hx))])
    cases cur with
    | none =>
      dsimp only at h
      cases h
      refine ⟨hB1, fun v hv => ?_, fun v hv => ?_⟩
      · obtain ⟨c, rfl, h1, _⟩ := coverGet_from hB1 hv
        exact ⟨c, h1, hscan c (.inr (.inl rfl))⟩
      · obtain ⟨c, rfl, h1, _⟩ := coverGet_from hB1 hv
        exact ⟨c, h1, hscan c (.inr (.inr rfl))⟩
    | some x =>
      dsimp only at h
      exact coverDown_from hP hQ path hB1 (fun v hv => by
        obtain ⟨c, hc, h1, _⟩ := coverGet_from hB1 hv
        exact ⟨c, h1, hscan c (.inl hc.symm)⟩) h

theorem coverSpine_from (hP : Closed read dec P) (hQ : ∀ c, P c → Q c) {next : NodeData C → Option C}
    (hnext : ∀ d x, next d = some x → x ∈ d.children) : ∀ {f : Nat} {B B' : Blocks C V} {b : Option V},
    FromStore read Q B → (∀ v, b = some v → ∃ c, read c = some v ∧ P c) → coverSpine read dec next f B b = .ok B' →
    FromStore read Q B'
  | 0, _, _, _, _, _, h => by simp [coverSpine] at h
  | f + 1, B, B', b, hB, hb, h => by
    unfold coverSpine at h
    cases b with
    | none => simp [coverData, bind, Except.bind] at h
    | some v =>
    obtain ⟨c, hc1, hc2⟩ := hb v rfl
    cases hd : dec v with
    | none => simp [coverData, hd, bind, Except.bind] at h
    | some d =>
    have hkid : ∀ x ∈ d.children, P x := hP c hc2 d (by rw [hc1]; exact hd)
    simp only [coverData, Option.bind_some, hd, ok_bind] at h
    cases hn : next d with
    | none => rw [hn] at h; cases h; exact hB
    | some x =>
      rw [hn] at h
      dsimp only at h
      have hB1 : FromStore read Q (coverLoad read B [some x]) := coverLoad_from hB (fun y hy => by
        simp only [List.mem_cons, List.not_mem_nil, or_false, Option.some.injEq] at hy
        subst hy
        exact hQ _ (hkid _ (hnext d _ hn)))
      exact coverSpine_from hP hQ hnext hB1 (fun v hv => by
        obtain ⟨c, hc, h1, _⟩ := coverGet_from hB1 hv
        cases hc
        exact ⟨x, h1, hkid _ (hnext d _ hn)⟩) h

theorem coverSide_from (hP : Closed read dec P) (hQ : ∀ c, P c → Q c) {next : NodeData C → Option C}
    (hnext : ∀ d x, next d = some x → x ∈ d.children) {f : Nat} {B B' : Blocks C V} {b : Option V}
    (hB : FromStore read Q B) (hb : ∀ v, b = some v → ∃ c, read c = some v ∧ P c)
    (h : coverSide read dec next f B b = .ok B') : FromStore read Q B' := by
  cases b with
  | none => simp only [coverSide] at h; cases h; exact hB
  | some v => exact coverSpine_from hP hQ hnext hB hb h

theorem lastChild_mem (d : NodeData C) (x : C) (h : lastChild d = some x) : x ∈ d.children := by
  unfold lastChild at h
  cases he : d.e.getLast? with
  | none => rw [he] at h; exact left_child h
  | some e => rw [he] at h; exact entry_child (List.mem_of_getLast? he) h

theorem coverOne_from (hP : Closed read dec P) (hQ : ∀ c, P c → Q c) {f : Nat} {root : C} (hr : P root) {B B' : Blocks C V} {path : Key}
    (hB : FromStore read Q B) (h : coverOne read dec f root B path = .ok B') : FromStore read Q B' := by
  unfold coverOne at h
  have hB1 : FromStore read Q (coverLoad read B [some root]) := coverLoad_from hB (fun y hy => by
    simp only [List.mem_cons, List.not_mem_nil, or_false, Option.some.injEq] at hy
    subst hy
    exact hQ _ hr)
  dsimp only at h
  cases hd : coverDown read dec path f (coverLoad read B [some root]) (coverGet (coverLoad read B [some root]) (some root)) with
  | error e => rw [hd] at h; cases h
  | ok r =>
    obtain ⟨B2, lb, rb⟩ := r
    rw [hd, ok_bind] at h
    dsimp only at h
    obtain ⟨h1, h2, h3⟩ := coverDown_from hP hQ path hB1 (fun v hv => by
      obtain ⟨c, hc, h1, _⟩ := coverGet_from hB1 hv
      cases hc
      exact ⟨root, h1, hr⟩) hd
    cases hs : coverSide read dec lastChild f B2 lb with
    | error e => rw [hs] at h; cases h
    | ok B3 =>
      rw [hs, ok_bind] at h
      have h4 := coverSide_from hP hQ lastChild_mem h1 h2 hs
      exact coverSide_from hP hQ (fun d x => left_child) h4 h3 h

/-- `P` has the root and is closed under children. If the blocks given are as in storage and their CIDs in `Q ⊇ P`, the
same is true of the blocks returned. -/
theorem addCoveringProofs_from (hP : Closed read dec P) (hQ : ∀ c, P c → Q c) {f : Nat} {root : C} (hr : P root) :
    ∀ {paths : List Key} {B B' : Blocks C V}, FromStore read Q B →
      addCoveringProofs read dec f root paths B = .ok B' → FromStore read Q B'
  | [], B, B', hB, h => by simp only [addCoveringProofs] at h; cases h; exact hB
  | p :: ps, B, B', hB, h => by
    unfold addCoveringProofs at h
    cases h1 : coverOne read dec f root B p with
    | error e => rw [h1] at h; cases h
    | ok B1 =>
      rw [h1, ok_bind] at h
      exact addCoveringProofs_from hP hQ hr (coverOne_from hP hQ hr hB h1) h

end Arroba
