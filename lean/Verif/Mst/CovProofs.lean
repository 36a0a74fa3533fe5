import Verif.Mst.Ops
import Verif.Mst.MonoProofs
import Verif.Mst.CoverProofs2

/-! # Lemmas: running an operation with only some of the tree's blocks

`CovN lo hi n`: with the blocks `rd'`, every node below `n` that may be needed for the keys `D` can be read. If so, an
operation on one of these keys that succeeds with all blocks (`rd`) gives the same with `rd'`. -/

namespace Arroba

variable {C : Type}

/-! ### Entry lists -/

/-- The key of the last leaf, or else `lo`. -/
def lastKeyE (lo : Option Key) : List (Ent C) → Option Key
  | [] => lo
  | .leaf k _ :: es => lastKeyE (some k) es
  | .tree _ :: es => lastKeyE lo es

/-- The key of the first leaf, or else `hi`. -/
def firstKeyE (hi : Option Key) : List (Ent C) → Option Key
  | [] => hi
  | .leaf k _ :: _ => some k
  | .tree _ :: es => firstKeyE hi es

theorem lastKeyE_append {lo : Option Key} {a b : List (Ent C)} :
    lastKeyE lo (a ++ b) = lastKeyE (lastKeyE lo a) b := by
  induction a generalizing lo with
  | nil => rfl
  | cons x a ih => cases x <;> exact ih

theorem firstKeyE_append {hi : Option Key} {a b : List (Ent C)} :
    firstKeyE hi (a ++ b) = firstKeyE (firstKeyE hi b) a := by
  induction a with
  | nil => rfl
  | cons x a ih => cases x with
    | leaf k v => rfl
    | tree m => exact ih

/-- No two children are next to each other. -/
def NoAdj : List (Ent C) → Prop
  | .tree _ :: .tree _ :: _ => False
  | [] => True
  | _ :: es => NoAdj es

/-- The list starts with a child. -/
def startsT : List (Ent C) → Prop
  | .tree _ :: _ => True
  | _ => False

/-- The list ends with a child. -/
def endsT : List (Ent C) → Prop
  | [] => False
  | [.tree _] => True
  | _ :: es => endsT es

theorem NoAdj_leaf {k : Key} {v : C} {es : List (Ent C)} : NoAdj (.leaf k v :: es) ↔ NoAdj es := by
  cases es <;> rfl

theorem NoAdj_tree {m : Node C} {es : List (Ent C)} : NoAdj (.tree m :: es) ↔ ¬ startsT es ∧ NoAdj es := by
  cases es with
  | nil => simp [NoAdj, startsT]
  | cons x es => cases x <;> simp [NoAdj, startsT]

theorem endsT_leaf {k : Key} {v : C} {es : List (Ent C)} : endsT (.leaf k v :: es) ↔ endsT es := by
  cases es <;> simp [endsT]

theorem endsT_tree {m : Node C} {es : List (Ent C)} : endsT (.tree m :: es) ↔ es = [] ∨ endsT es := by
  cases es <;> simp [endsT]

theorem startsT_append {a b : List (Ent C)} : startsT (a ++ b) ↔ startsT a ∨ (a = [] ∧ startsT b) := by
  cases a with
  | nil => simp [startsT]
  | cons x a => cases x <;> simp [startsT]

theorem NoAdj_append {a b : List (Ent C)} :
    NoAdj (a ++ b) ↔ NoAdj a ∧ NoAdj b ∧ ¬ (endsT a ∧ startsT b) := by
  induction a with
  | nil => simp [NoAdj, endsT]
  | cons x a ih =>
    cases x with
    | leaf k v => simp only [List.cons_append, NoAdj_leaf, endsT_leaf, ih]
    | tree m =>
      simp only [List.cons_append, NoAdj_tree, endsT_tree, ih, startsT_append]
      constructor
      · rintro ⟨h1, h2, h3, h4⟩
        refine ⟨⟨fun h => h1 (.inl h), h2⟩, h3, ?_⟩
        rintro ⟨rfl | h, h'⟩
        · exact h1 (.inr ⟨rfl, h'⟩)
        · exact h4 ⟨h, h'⟩
      · rintro ⟨⟨h1, h2⟩, h3, h4⟩
        refine ⟨?_, h2, h3, fun h => h4 ⟨.inr h.1, h.2⟩⟩
        rintro (h | ⟨rfl, h⟩)
        · exact h1 h
        · exact h4 ⟨.inl rfl, h⟩

theorem endsT_append {a b : List (Ent C)} : endsT (a ++ b) ↔ endsT b ∨ (b = [] ∧ endsT a) := by
  induction a with
  | nil => cases b <;> simp [endsT]
  | cons x a ih =>
    cases x with
    | leaf k v => simp only [List.cons_append, endsT_leaf, ih]
    | tree m =>
      simp only [List.cons_append, endsT_tree, ih, List.append_eq_nil_iff]
      constructor
      · rintro (⟨rfl, rfl⟩ | h | ⟨rfl, h⟩)
        · exact .inr ⟨rfl, .inl rfl⟩
        · exact .inl h
        · exact .inr ⟨rfl, .inr h⟩
      · rintro (h | ⟨rfl, rfl | h⟩)
        · exact .inr (.inl h)
        · exact .inl ⟨rfl, rfl⟩
        · exact .inr (.inr ⟨rfl, h⟩)

theorem endsT_asTree {es : List (Ent C)} (h : asTree es.getLast? = none) : ¬ endsT es := by
  induction es with
  | nil => simp [endsT]
  | cons x es ih =>
    cases es with
    | nil => cases x <;> simp_all [asTree, endsT]
    | cons y es =>
      rw [List.getLast?_cons_cons] at h
      have := ih h
      cases x with
      | leaf k v => rwa [endsT_leaf]
      | tree m => rw [endsT_tree]; simpa using this

theorem startsT_asTree {es : List (Ent C)} (h : asTree es.head? = none) : ¬ startsT es := by
  cases es with
  | nil => simp [startsT]
  | cons x es => cases x <;> simp_all [asTree, startsT]

/-- A node whose pointer is out of date has its entries in memory, and so on below. -/
inductive FreshN : Node C → Prop
  | mk {n : Node C} (h : n.entries = none → n.outdated = false)
      (h' : ∀ es, n.entries = some es → ∀ m, .tree m ∈ es → FreshN m) : FreshN n

/-- One of the keys is between `lo` and `hi`, or one of them. -/
def Touch (D : Key → Prop) (lo hi : Option Key) : Prop :=
  ∃ p, D p ∧ (lo = some p ∨ hi = some p ∨ Within p lo hi)

section
variable (E : Env C) (rd' : C → Option (NodeData C)) (D : Key → Prop)

/-- The blocks cover the keys `D` below `n`, which lies between the records `lo` and `hi`. -/
inductive CovN : Option Key → Option Key → Node C → Prop
  | mk {lo hi : Option Key} {n : Node C} {es : List (Ent C)} (he : getEntries E rd' n = .ok es) (hf : FreshN n)
      (hn : NoAdj es)
      (h : ∀ l m r, es = l ++ .tree m :: r → Touch D (lastKeyE lo l) (firstKeyE hi r) →
        CovN (lastKeyE lo l) (firstKeyE hi r) m) : CovN lo hi n

/-- The same for entries. -/
def Cov (lo hi : Option Key) (es : List (Ent C)) : Prop :=
  ∀ l m r, es = l ++ .tree m :: r →
    FreshN m ∧ (Touch D (lastKeyE lo l) (firstKeyE hi r) → CovN E rd' D (lastKeyE lo l) (firstKeyE hi r) m)

end

section
variable {E : Env C} {rd rd' : C → Option (NodeData C)} {D : Key → Prop} {lo hi : Option Key}

theorem deserialize_fresh {d : NodeData C} {layer : Option Int} {m : Node C}
    (h : .tree m ∈ deserializeNodeData d layer) : FreshN m := by
  have key : ∀ (es : List (EntryData C)) (last : Key), .tree m ∈ deserializeEntries layer last es → FreshN m := by
    intro es
    induction es with
    | nil => intro last h; simp [deserializeEntries] at h
    | cons e es ih =>
      intro last h
      simp only [deserializeEntries, List.mem_cons, List.mem_append, reduceCtorEq, false_or] at h
      rcases h with h | h
      · cases he : e.t with
        | none => simp [he] at h
        | some c =>
          simp only [he, List.mem_singleton, Ent.tree.injEq] at h
          subst h
          exact ⟨fun _ => rfl, fun es h => by simp [Node.entries] at h⟩
      · exact ih _ h
  simp only [deserializeNodeData, List.mem_append] at h
  rcases h with h | h
  · cases hl : d.l with
    | none => simp [hl] at h
    | some c =>
      simp only [hl, List.mem_singleton, Ent.tree.injEq] at h
      subst h
      exact ⟨fun _ => rfl, fun es h => by simp [Node.entries] at h⟩
  · exact key _ _ h

theorem FreshN.entries {n : Node C} {es : List (Ent C)} (h : FreshN n) (he : getEntries E rd n = .ok es) {m : Node C}
    (hm : .tree m ∈ es) : FreshN m := by
  obtain ⟨h1, h2⟩ := h
  unfold getEntries at he
  cases hn : n.entries with
  | some es' =>
    rw [hn] at he
    cases he
    exact h2 es hn m hm
  | none =>
    rw [hn] at he
    dsimp only at he
    split at he
    · cases he
    · cases he
      exact deserialize_fresh hm

theorem FreshN.newTree {n : Node C} {es : List (Ent C)} (h : ∀ m, .tree m ∈ es → FreshN m) : FreshN (newTree n es) :=
  ⟨fun h => by simp [Arroba.newTree, Node.entries] at h, fun es' he m hm => by
    simp only [Arroba.newTree, Node.entries, Option.some.injEq] at he
    exact h m (he ▸ hm)⟩

theorem FreshN.setLayer {n : Node C} {l : Int} (h : FreshN n) : FreshN (n.setLayer l) := by
  cases n
  obtain ⟨h1, h2⟩ := h
  exact ⟨h1, h2⟩

theorem CovN.fresh {n : Node C} (h : CovN E rd' D lo hi n) : FreshN n := by
  cases h; assumption

theorem CovN.iff {n : Node C} : CovN E rd' D lo hi n ↔
    ∃ es, getEntries E rd' n = .ok es ∧ FreshN n ∧ NoAdj es ∧ Cov E rd' D lo hi es := by
  constructor
  · rintro ⟨he, hf, hn, h⟩
    exact ⟨_, he, hf, hn, fun l m r hes => ⟨hf.entries he (by simp [hes]), h l m r hes⟩⟩
  · rintro ⟨es, he, hf, hn, h⟩
    exact ⟨he, hf, hn, fun l m r hes => (h l m r hes).2⟩

theorem Cov.fresh {es : List (Ent C)} (h : Cov E rd' D lo hi es) {m : Node C} (hm : .tree m ∈ es) : FreshN m := by
  obtain ⟨l, r, rfl⟩ := List.append_of_mem hm
  exact (h l m r rfl).1

theorem CovN.newTree {n : Node C} {es : List (Ent C)} (hn : NoAdj es) (h : Cov E rd' D lo hi es) :
    CovN E rd' D lo hi (newTree n es) :=
  CovN.iff.2 ⟨es, getEntries_newTree _ _, .newTree fun _ hm => h.fresh hm, hn, h⟩

theorem CovN.setLayer {n : Node C} {l : Int} (h : CovN E rd' D lo hi n) : CovN E rd' D lo hi (n.setLayer l) := by
  obtain ⟨es, h1, h2, h3, h4⟩ := CovN.iff.1 h
  exact CovN.iff.2 ⟨es, by rw [getEntries_setLayer]; exact h1, h2.setLayer, h3, h4⟩

theorem Cov_nil : Cov E rd' D lo hi [] := fun l m r h => by simp at h

theorem Cov_leaf {k : Key} {v : C} {es : List (Ent C)} :
    Cov E rd' D lo hi (.leaf k v :: es) ↔ Cov E rd' D (some k) hi es := by
  constructor
  · intro h l m r he
    exact h (.leaf k v :: l) m r (by simp [he])
  · intro h l m r he
    cases l with
    | nil => simp at he
    | cons x l =>
      simp only [List.cons_append, List.cons.injEq] at he
      obtain ⟨rfl, he⟩ := he
      exact h l m r he

theorem Cov_tree {m : Node C} {es : List (Ent C)} : Cov E rd' D lo hi (.tree m :: es) ↔
    (FreshN m ∧ (Touch D lo (firstKeyE hi es) → CovN E rd' D lo (firstKeyE hi es) m)) ∧ Cov E rd' D lo hi es := by
  constructor
  · intro h
    refine ⟨h [] m es rfl, fun l m' r he => ?_⟩
    exact h (.tree m :: l) m' r (by simp [he])
  · rintro ⟨h, h'⟩ l m' r he
    cases l with
    | nil =>
      simp only [List.nil_append, List.cons.injEq, Ent.tree.injEq] at he
      obtain ⟨rfl, rfl⟩ := he
      exact h
    | cons x l =>
      simp only [List.cons_append, List.cons.injEq] at he
      obtain ⟨rfl, he⟩ := he
      exact h' l m' r he

theorem Cov_append {a b : List (Ent C)} : Cov E rd' D lo hi (a ++ b) ↔
    Cov E rd' D lo (firstKeyE hi b) a ∧ Cov E rd' D (lastKeyE lo a) hi b := by
  induction a generalizing lo with
  | nil => simp [Cov_nil, lastKeyE]
  | cons x a ih =>
    cases x with
    | leaf k v => simp only [List.cons_append, Cov_leaf, ih, lastKeyE]
    | tree m => simp only [List.cons_append, Cov_tree, ih, lastKeyE, firstKeyE_append, and_assoc]

/-- The bound after the entries doesn't matter if a leaf is last. -/
theorem Cov.any_hi {hi' : Option Key} {a : List (Ent C)} (h : Cov E rd' D lo hi a) (he : ¬ endsT a) :
    Cov E rd' D lo hi' a := by
  induction a generalizing lo with
  | nil => exact Cov_nil
  | cons x a ih =>
    cases x with
    | leaf k v => rw [Cov_leaf] at h ⊢; exact ih h (by rwa [endsT_leaf] at he)
    | tree m =>
      rw [endsT_tree] at he
      rw [Cov_tree] at h ⊢
      have : ∀ a : List (Ent C), a ≠ [] → ¬ endsT a → firstKeyE hi a = firstKeyE hi' a := by
        intro a
        induction a with
        | nil => simp
        | cons x a ih =>
          intro _ h
          cases x with
          | leaf k v => rfl
          | tree m =>
            rw [endsT_tree] at h
            exact ih (fun h' => h (.inl h')) (fun h' => h (.inr h'))
      rw [← this a (fun h' => he (.inl h')) (fun h' => he (.inr h'))]
      exact ⟨h.1, ih h.2 (fun h' => he (.inr h'))⟩

/-- The bound before the entries doesn't matter if a leaf is first. -/
theorem Cov.any_lo {lo' : Option Key} {a : List (Ent C)} (h : Cov E rd' D lo hi a) (he : ¬ startsT a) :
    Cov E rd' D lo' hi a := by
  cases a with
  | nil => exact Cov_nil
  | cons x a =>
    cases x with
    | leaf k v => rw [Cov_leaf] at h ⊢; exact h
    | tree m => exact absurd trivial he

/-! ### Widening at a covered key -/

theorem lastKeyE_eq (l : List (Ent C)) : (∀ lo : Option Key, lastKeyE lo l = lo) ∨
    ∃ k, ∀ lo : Option Key, lastKeyE lo l = some k := by
  induction l with
  | nil => exact .inl fun _ => rfl
  | cons x l ih =>
    cases x with
    | leaf k v =>
      rcases ih with h | ⟨k', h⟩
      · exact .inr ⟨k, fun lo => h _⟩
      · exact .inr ⟨k', fun lo => h _⟩
    | tree m => exact ih

theorem firstKeyE_eq (l : List (Ent C)) : (∀ lo : Option Key, firstKeyE lo l = lo) ∨
    ∃ k, ∀ lo : Option Key, firstKeyE lo l = some k := by
  induction l with
  | nil => exact .inl fun _ => rfl
  | cons x l ih =>
    cases x with
    | leaf k v => exact .inr ⟨k, fun lo => rfl⟩
    | tree m => exact ih

theorem CovN.widen_hi {n : Node C} {hi₀ : Option Key} (h : CovN E rd' D lo hi₀ n) :
    ∀ {p : Key} {hi : Option Key}, D p → hi₀ = some p → CovN E rd' D lo hi n := by
  induction h with
  | @mk lo hi₀ n es he hf hn h ih =>
    intro p hi hp hi₀e
    refine ⟨he, hf, hn, fun l m r hes ht => ?_⟩
    rcases firstKeyE_eq r with hr | ⟨k, hr⟩
    · have := ih l m r hes (by rw [hr, hi₀e]; exact ⟨p, hp, .inr (.inl rfl)⟩) hp (by rw [hr, hi₀e]) (hi := hi)
      rw [hr]; exact this
    · have := h l m r hes (by rw [hr]; rw [hr] at ht; exact ht)
      rw [hr] at this ⊢
      exact this

theorem CovN.widen_lo {n : Node C} {lo₀ : Option Key} (h : CovN E rd' D lo₀ hi n) :
    ∀ {p : Key} {lo : Option Key}, D p → lo₀ = some p → CovN E rd' D lo hi n := by
  induction h with
  | @mk lo₀ hi n es he hf hn h ih =>
    intro p lo hp lo₀e
    refine ⟨he, hf, hn, fun l m r hes ht => ?_⟩
    rcases lastKeyE_eq l with hr | ⟨k, hr⟩
    · have := ih l m r hes (by rw [hr, lo₀e]; exact ⟨p, hp, .inl rfl⟩) hp (by rw [hr, lo₀e]) (lo := lo)
      rw [hr]; exact this
    · have := h l m r hes (by rw [hr]; rw [hr] at ht; exact ht)
      rw [hr] at this ⊢
      exact this

theorem Cov.widen_hi {es : List (Ent C)} {p : Key} (h : Cov E rd' D lo (some p) es) (hp : D p) :
    Cov E rd' D lo hi es := by
  intro l m r hes
  refine ⟨(h l m r hes).1, fun ht => ?_⟩
  rcases firstKeyE_eq r with hr | ⟨k, hr⟩
  · have := (h l m r hes).2 (by rw [hr]; exact ⟨p, hp, .inr (.inl rfl)⟩)
    rw [hr] at this ⊢
    exact this.widen_hi hp rfl
  · have := (h l m r hes).2 (by rw [hr]; rw [hr] at ht; exact ht)
    rw [hr] at this ⊢
    exact this

theorem Cov.widen_lo {es : List (Ent C)} {p : Key} (h : Cov E rd' D (some p) hi es) (hp : D p) :
    Cov E rd' D lo hi es := by
  intro l m r hes
  refine ⟨(h l m r hes).1, fun ht => ?_⟩
  rcases lastKeyE_eq l with hr | ⟨k, hr⟩
  · have := (h l m r hes).2 (by rw [hr]; exact ⟨p, hp, .inl rfl⟩)
    rw [hr] at this ⊢
    exact this.widen_lo hp rfl
  · have := (h l m r hes).2 (by rw [hr]; rw [hr] at ht; exact ht)
    rw [hr] at this ⊢
    exact this

/-! ### Layers and pointers -/

theorem CovN.same {n : Node C} {es es' : List (Ent C)} (hrd : RdLe rd' rd) (h : getEntries E rd n = .ok es)
    (h' : getEntries E rd' n = .ok es') : es' = es := by
  have := getEntries_mono (E := E) hrd n es' h'
  rw [h] at this
  cases this
  rfl

theorem noLeaf_single {es : List (Ent C)} (hn : NoAdj es) (h : layerForEntries E es = none) :
    es = [] ∨ ∃ m, es = [.tree m] := by
  cases es with
  | nil => exact .inl rfl
  | cons x es =>
    cases x with
    | leaf k v => simp [layerForEntries] at h
    | tree m =>
      cases es with
      | nil => exact .inr ⟨m, rfl⟩
      | cons y es =>
        cases y with
        | leaf k v => simp [layerForEntries] at h
        | tree m' => simp [NoAdj] at hn

theorem attemptGetLayer_cov (hrd : RdLe rd' rd) : ∀ {f : Nat} {n : Node C} {r : Option Int} {lo hi : Option Key},
    CovN E rd' D lo hi n → Touch D lo hi → attemptGetLayer E rd f n = .ok r → attemptGetLayer E rd' f n = .ok r
  | 0, _, _, _, _, _, _, h => by simp [attemptGetLayer] at h
  | f + 1, n, r, lo, hi, hc, ht, h => by
    obtain ⟨es, h1, h2, h3, h4⟩ := CovN.iff.1 hc
    have h1' := getEntries_mono (E := E) hrd n es h1
    unfold attemptGetLayer at h ⊢
    cases hl : n.layer with
    | some l => rw [hl] at h; exact h
    | none =>
      rw [hl] at h
      simp only [h1', h1, ok_bind] at h ⊢
      cases hle : layerForEntries E es with
      | some l => rw [hle] at h; exact h
      | none =>
        rw [hle] at h
        dsimp only at h ⊢
        rcases noLeaf_single h3 hle with rfl | ⟨m, rfl⟩
        · exact h
        · have hm := (h4 [] m [] rfl).2 ht
          simp only [childLayer] at h ⊢
          cases ha : attemptGetLayer E rd f m with
          | error e => rw [ha] at h; cases h
          | ok o =>
            rw [ha] at h
            rw [attemptGetLayer_cov hrd hm ht ha]
            exact h

theorem getLayer_cov (hrd : RdLe rd' rd) {f : Nat} {n : Node C} {r : Int} (hc : CovN E rd' D lo hi n)
    (ht : Touch D lo hi) (h : getLayer E rd f n = .ok r) : getLayer E rd' f n = .ok r := by
  unfold getLayer at h ⊢
  cases ha : attemptGetLayer E rd f n with
  | error e => rw [ha] at h; cases h
  | ok o => rw [ha] at h; rw [attemptGetLayer_cov hrd hc ht ha]; exact h

theorem serializeEntries_congr {g g' : Node C → Except Err C} : ∀ {es : List (Ent C)} {last : Key},
    (∀ m, .tree m ∈ es → g m = g' m) → serializeEntries g last es = serializeEntries g' last es
  | [], _, _ => rfl
  | .tree _ :: _, _, _ => rfl
  | .leaf k v :: .tree n :: es, last, h => by
    unfold serializeEntries
    rw [h n (by simp), serializeEntries_congr (es := es) (fun m hm => h m (by simp [hm]))]
  | [.leaf k v], last, h => rfl
  | .leaf k v :: .leaf k' v' :: es, last, h => by
    unfold serializeEntries
    rw [serializeEntries_congr (es := .leaf k' v' :: es) (fun m hm => h m (by simp at hm; simp [hm]))]

theorem serializeNodeData_congr {g g' : Node C → Except Err C} {es : List (Ent C)}
    (h : ∀ m, .tree m ∈ es → g m = g' m) : serializeNodeData g es = serializeNodeData g' es := by
  cases es with
  | nil => rfl
  | cons x es =>
    cases x with
    | leaf k v =>
      unfold serializeNodeData
      dsimp only
      rw [serializeEntries_congr h]
    | tree m =>
      unfold serializeNodeData
      dsimp only
      rw [h m (by simp), serializeEntries_congr (es := es) (fun m hm => h m (by simp [hm]))]

theorem forcePointers_congr {g g' : Node C → Except Err C} : ∀ {es : List (Ent C)},
    (∀ m, .tree m ∈ es → g m = g' m) → forcePointers g es = forcePointers g' es
  | [], _ => rfl
  | .leaf _ _ :: es, h => forcePointers_congr (es := es) fun m hm => h m (by simp [hm])
  | .tree m :: es, h => by
    unfold forcePointers
    rw [h m (by simp), forcePointers_congr (es := es) fun m hm => h m (by simp [hm])]

/-- Pointers are computed from memory only. -/
theorem getPointer_fresh (rd rd' : C → Option (NodeData C)) : ∀ {f : Nat} {n : Node C}, FreshN n →
    getPointer E rd f n = getPointer E rd' f n
  | 0, _, _ => rfl
  | f + 1, n, h => by
    obtain ⟨h1, h2⟩ := h
    unfold getPointer
    by_cases ho : n.outdated
    · cases hn : n.entries with
      | none => rw [h1 hn] at ho; cases ho
      | some es =>
        have e1 : ∀ r, getEntries E r n = .ok es := fun r => by unfold getEntries; rw [hn]
        have hk : ∀ m, .tree m ∈ es → getPointer E rd f m = getPointer E rd' f m :=
          fun m hm => getPointer_fresh rd rd' (h2 es hn m hm)
        simp only [e1, ok_bind]
        rw [forcePointers_congr hk, serializeNodeData_congr hk]
    · simp [ho]

theorem create_fresh (rd rd' : C → Option (NodeData C)) {f : Nat} {es : List (Ent C)} {l : Option Int}
    (h : ∀ m, .tree m ∈ es → FreshN m) : create E rd f es l = create E rd' f es l := by
  unfold create cidForEntries
  rw [serializeNodeData_congr fun m hm => getPointer_fresh rd rd' (h m hm)]

end

end Arroba
