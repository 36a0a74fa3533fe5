import Verif.Example

/-! # C07: node serialisation round-trips -/

namespace Arroba

variable {C : Type}

/-- What a node entry says: a record, or a pointer to a child. -/
inductive View (C : Type) where
  | record (k : Key) (v : C)
  | child (c : C)
  deriving DecidableEq

/-- What a list of in-memory entries says, `gp` giving the CIDs of children. -/
def viewOf (gp : Node C → Except Err C) : List (Ent C) → Except Err (List (View C))
  | [] => .ok []
  | .leaf k v :: es => do
    let r ← viewOf gp es
    .ok (.record k v :: r)
  | .tree n :: es => do
    let c ← gp n
    let r ← viewOf gp es
    .ok (.child c :: r)

/-- A freshly deserialised child is not loaded and its pointer is up to date. -/
def freshView : Ent C → View C
  | .leaf k v => .record k v
  | .tree n => .child n.pointer

theorem serializeEntries_view {gp : Node C → Except Err C} (lay : Option Int) :
    ∀ (es : List (Ent C)) (last : Key) (ds : List (EntryData C)),
    serializeEntries gp last es = .ok ds →
    ∃ vs, viewOf gp es = .ok vs ∧ (deserializeEntries lay last ds).map freshView = vs
  | [], last, ds, h => by
    simp only [serializeEntries, Except.ok.injEq] at h
    subst h
    exact ⟨[], rfl, rfl⟩
  | .tree _ :: _, last, ds, h => by simp [serializeEntries] at h
  | .leaf k v :: .tree n :: rest, last, ds, h => by
    simp only [serializeEntries] at h
    cases h1 : gp n with
    | error e => rw [h1] at h; cases h
    | ok t =>
      rw [h1, ok_bind] at h
      cases h2 : ensureValidKey k with
      | error e => rw [h2] at h; cases h
      | ok u =>
        rw [h2, ok_bind] at h
        cases h3 : serializeEntries gp k rest with
        | error e => rw [h3] at h; cases h
        | ok es =>
          rw [h3, ok_bind] at h
          simp only [Except.ok.injEq] at h
          subst h
          obtain ⟨vs, h4, h5⟩ := serializeEntries_view lay rest k es h3
          refine ⟨.record k v :: .child t :: vs, by simp [viewOf, h1, h4], ?_⟩
          simp [deserializeEntries, commonPrefixLen_recover, freshView, Node.pointer, h5]
  | .leaf k v :: [], last, ds, h => by
    simp only [serializeEntries] at h
    cases h2 : ensureValidKey k with
    | error e => rw [h2] at h; cases h
    | ok u =>
      rw [h2, ok_bind, ok_bind] at h
      simp only [Except.ok.injEq] at h
      subst h
      exact ⟨[.record k v], by simp [viewOf],
        by simp [deserializeEntries, commonPrefixLen_recover, freshView]⟩
  | .leaf k v :: .leaf k' v' :: rest, last, ds, h => by
    rw [serializeEntries] at h
    · cases h2 : ensureValidKey k with
      | error e => rw [h2] at h; cases h
      | ok u =>
        rw [h2, ok_bind] at h
        cases h3 : serializeEntries gp k (.leaf k' v' :: rest) with
        | error e => rw [h3] at h; cases h
        | ok es =>
          rw [h3, ok_bind] at h
          simp only [Except.ok.injEq] at h
          subst h
          obtain ⟨vs, h4, h5⟩ := serializeEntries_view lay (.leaf k' v' :: rest) k es h3
          refine ⟨.record k v :: vs, by simp only [viewOf] at h4 ⊢; simp [h4], ?_⟩
          simp [deserializeEntries, commonPrefixLen_recover, freshView, h5]
    · intro n rest h; cases h

/-- **C07 (round trip).** Whenever serialisation of a list of entries succeeds, deserialising the
result gives entries that say the same: the same records with their full keys and the same
child pointers, in the same order; the children are fresh, unloaded nodes. -/
theorem C07_round_trip {gp : Node C → Except Err C} {es : List (Ent C)} {d : NodeData C}
    (lay : Option Int) (h : serializeNodeData gp es = .ok d) :
    ∃ vs, viewOf gp es = .ok vs ∧ (deserializeNodeData d lay).map freshView = vs ∧
      ∀ m, .tree m ∈ deserializeNodeData d lay → m.entries = none ∧ m.outdated = false := by
  have fresh : ∀ (ds : List (EntryData C)) (last : Key) (m : Node C),
      Ent.tree m ∈ deserializeEntries lay last ds → m.entries = none ∧ m.outdated = false := by
    intro ds
    induction ds with
    | nil => intro last m h; simp [deserializeEntries] at h
    | cons x xs ih =>
      intro last m h
      simp only [deserializeEntries, List.mem_cons, reduceCtorEq, List.mem_append, false_or] at h
      rcases h with h | h
      · cases ht : x.t with
        | none => simp [ht] at h
        | some c =>
          simp only [ht, List.mem_singleton, Ent.tree.injEq] at h
          subst h; exact ⟨rfl, rfl⟩
      · exact ih _ m h
  have case2 : (∀ (e : List (EntryData C)), serializeEntries gp [] es = .ok e → d = ⟨none, e⟩ →
      ∃ vs, viewOf gp es = .ok vs ∧ (deserializeNodeData d lay).map freshView = vs ∧
      ∀ m, .tree m ∈ deserializeNodeData d lay → m.entries = none ∧ m.outdated = false) := by
    rintro e he rfl
    obtain ⟨vs, h1, h2⟩ := serializeEntries_view lay es [] e he
    refine ⟨vs, h1, by simpa [deserializeNodeData] using h2, ?_⟩
    intro m hm
    simp only [deserializeNodeData, List.nil_append] at hm
    exact fresh _ _ _ hm
  cases es with
  | nil =>
    simp only [serializeNodeData] at h
    cases he : serializeEntries gp [] ([] : List (Ent C)) with
    | error e => rw [he] at h; cases h
    | ok e => rw [he, ok_bind] at h; exact case2 e he (by simpa using h.symm)
  | cons x rest =>
    cases x with
    | leaf k v =>
      simp only [serializeNodeData] at h
      cases he : serializeEntries gp [] (.leaf k v :: rest) with
      | error e => rw [he] at h; cases h
      | ok e => rw [he, ok_bind] at h; exact case2 e he (by simpa using h.symm)
    | tree n =>
      simp only [serializeNodeData] at h
      cases hg : gp n with
      | error e => rw [hg] at h; cases h
      | ok c =>
        rw [hg, ok_bind] at h
        cases he : serializeEntries gp [] rest with
        | error e => rw [he] at h; cases h
        | ok e =>
          rw [he, ok_bind] at h
          simp only [Except.ok.injEq] at h
          subst h
          obtain ⟨vs, h1, h2⟩ := serializeEntries_view lay rest [] e he
          refine ⟨.child c :: vs, by simp [viewOf, hg, h1],
            by simp [deserializeNodeData, freshView, Node.pointer, h2], ?_⟩
          intro m hm
          simp only [deserializeNodeData, List.singleton_append, List.mem_cons, Ent.tree.injEq] at hm
          rcases hm with rfl | hm
          · exact ⟨rfl, rfl⟩
          · exact fresh _ _ _ hm

/-- **C07 (injective).** Entry lists that say different things serialise differently. -/
theorem C07_injective {gp gp' : Node C → Except Err C} {es es' : List (Ent C)} {d : NodeData C}
    (h : serializeNodeData gp es = .ok d) (h' : serializeNodeData gp' es' = .ok d) :
    viewOf gp es = viewOf gp' es' := by
  obtain ⟨vs, h1, h2, _⟩ := C07_round_trip none h
  obtain ⟨vs', h3, h4, _⟩ := C07_round_trip none h'
  rw [h1, h3, ← h2, ← h4]

theorem serializeEntries_adjacent {gp : Node C → Except Err C} {a b : Node C} {r : List (Ent C)} :
    ∀ (l : List (Ent C)) (last : Key) (ds : List (EntryData C)),
    serializeEntries gp last (l ++ .tree a :: .tree b :: r) ≠ .ok ds
  | [], last, ds => by simp [serializeEntries]
  | .tree _ :: _, last, ds => by simp [serializeEntries]
  | [.leaf k v], last, ds => by
    simp only [List.singleton_append, serializeEntries]
    cases gp a with
    | error e => simp
    | ok c => cases ensureValidKey k <;> simp
  | .leaf k v :: .tree n :: l, last, ds => by
    simp only [List.cons_append, serializeEntries]
    cases gp n with
    | error e => simp
    | ok c =>
      cases ensureValidKey k with
      | error e => simp
      | ok u =>
        cases h : serializeEntries gp k (l ++ .tree a :: .tree b :: r) with
        | error e => simp
        | ok es => exact absurd h (serializeEntries_adjacent l k es)
  | .leaf k v :: .leaf k' v' :: l, last, ds => by
    rw [List.cons_append, serializeEntries]
    · cases ensureValidKey k with
      | error e => simp
      | ok u =>
        cases h : serializeEntries gp k ((.leaf k' v' :: l) ++ .tree a :: .tree b :: r) with
        | error e => simp
        | ok es => exact absurd h (serializeEntries_adjacent (.leaf k' v' :: l) k es)
    · intro n rest h; simp at h

/-- **C07 (adjacent subtrees).** A node with two neighbouring subtrees is never serialised. -/
theorem C07_adjacent_refused {gp : Node C → Except Err C} {l r : List (Ent C)} {a b : Node C}
    {d : NodeData C} : serializeNodeData gp (l ++ .tree a :: .tree b :: r) ≠ .ok d := by
  cases l with
  | nil =>
    simp only [List.nil_append, serializeNodeData, serializeEntries]
    cases gp a <;> simp
  | cons x l =>
    cases x with
    | leaf k v =>
      simp only [List.cons_append, serializeNodeData]
      cases h : serializeEntries gp [] (.leaf k v :: (l ++ .tree a :: .tree b :: r)) with
      | error e => simp
      | ok es => exact absurd h (serializeEntries_adjacent (.leaf k v :: l) [] es)
    | tree n =>
      simp only [List.cons_append, serializeNodeData]
      cases gp n with
      | error e => simp
      | ok c =>
        cases h : serializeEntries gp [] (l ++ .tree a :: .tree b :: r) with
        | error e => simp
        | ok es => exact absurd h (serializeEntries_adjacent l [] es)

/-- **C07 (totality).** The node of every well-formed tree with valid keys does serialise, to the
wire format of the specification. -/
theorem C07_total {E : Env C} {rd : C → Option (NodeData C)} {fuel L : Nat} {t : Tree C}
    {es : List (Ent C)} (h : ReprEs E rd L t es) (hw : Tree.WF E.zeros L t)
    (hv : Tree.ValidKeys t) (hf : L ≤ fuel) :
    serializeNodeData (getPointer E rd fuel) es = .ok (Tree.nodeOf E.H t) := by
  refine serializeNodeData_spec (L := L) ?_ h hw hv
  intro M hM c m hm hwc hvc
  exact getPointer_spec hm hwc hvc (by omega)

/-- Non-vacuity: a node with prefix-compressed keys and children on both sides. -/
example : serializeNodeData (fun n => .ok n.pointer)
    [.tree (load (TC.val 7)), .leaf (key "app.bsky.feed.post/3jq") (.val 1),
     .leaf (key "app.bsky.feed.post/3jz") (.val 2), .tree (load (TC.val 8))] =
    .ok ⟨some (.val 7), [⟨0, key "app.bsky.feed.post/3jq", .val 1, none⟩,
      ⟨21, key "z", .val 2, some (.val 8)⟩]⟩ := by
  decide +kernel

end Arroba
