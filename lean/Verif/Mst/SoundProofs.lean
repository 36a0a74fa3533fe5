import Verif.Mst.Exec
import Verif.Mst.LazyLacks
import Verif.Mst.Invert

/-! Helper lemmas: with fewer blocks every operation gives the same, or fails because a block is missing. -/

namespace Arroba

variable {C : Type} {E : Env C} {rd rd' : C → Option (NodeData C)}

/-- The first is what Python raises for a block that isn't there, or the same as the second. -/
def Lacks {α : Type} (x y : Except Err α) : Prop := x = .error .attribute ∨ x = y

theorem Lacks.refl {α : Type} (x : Except Err α) : Lacks x x := .inr rfl

theorem Lacks.bind {α β : Type} {x y : Except Err α} {f g : α → Except Err β} (h : Lacks x y)
    (hf : ∀ a, Lacks (f a) (g a)) : Lacks (x >>= f) (y >>= g) := by
  rcases h with rfl | rfl
  · exact .inl rfl
  · cases x with
    | error e => exact .inr rfl
    | ok a => exact hf a

theorem Lacks.ite {α : Type} {p : Prop} [Decidable p] {x y x' y' : Except Err α} (h : Lacks x y) (h' : Lacks x' y') :
    Lacks (if p then x else x') (if p then y else y') := by
  split
  · exact h
  · exact h'

section
variable (h : ∀ c d, rd c = some d → rd' c = some d)
include h

theorem getEntries_lacks (n : Node C) : Lacks (getEntries E rd n) (getEntries E rd' n) := by
  unfold getEntries
  cases n.entries with
  | some es => exact .refl _
  | none =>
    dsimp only
    cases hr : rd n.pointer with
    | none => exact .inl rfl
    | some d => rw [h _ _ hr]; exact .refl _

theorem findGe_lacks (n : Node C) (k : Key) :
    Lacks (findGtOrEqualLeafIndex E rd n k) (findGtOrEqualLeafIndex E rd' n k) :=
  (getEntries_lacks h n).bind fun _ => .refl _

theorem atIndex_lacks (n : Node C) (i : Int) : Lacks (atIndex E rd n i) (atIndex E rd' n i) :=
  (getEntries_lacks h n).bind fun _ => .refl _

theorem slice_lacks (n : Node C) (i : Int) (j : Option Int) : Lacks (slice E rd n i j) (slice E rd' n i j) :=
  (getEntries_lacks h n).bind fun _ => .refl _

theorem get_lacks : ∀ (f : Nat) (n : Node C) (k : Key), Lacks (get E rd f n k) (get E rd' f n k)
  | 0, _, _ => .refl _
  | f + 1, n, k => by
    unfold get
    refine (findGe_lacks h n k).bind fun i => (atIndex_lacks h n i).bind fun e => ?_
    cases leafHit k e with
    | some v => exact .refl _
    | none =>
      refine (atIndex_lacks h n _).bind fun p => ?_
      cases asTree p with
      | none => exact .refl _
      | some m => exact get_lacks f m k

theorem list_lacks (f : Nat) (n : Node C) (a b : Option Key) : Lacks (list E rd f n a b) (list E rd' f n a b) :=
  (listLazy_lacks h f n a b).imp_right fun e => by simp only [list, e]

theorem listWithPrefix_lacks (f : Nat) (n : Node C) (pre : Key) :
    Lacks (listWithPrefix E rd f n pre) (listWithPrefix E rd' f n pre) :=
  (listWithPrefixLazy_lacks h f n pre).imp_right fun e => by simp only [listWithPrefix, e]

omit h in
theorem forcePointers_lacks {r r' : Node C → Except Err C} (h : ∀ n, Lacks (r n) (r' n)) :
    ∀ es : List (Ent C), Lacks (forcePointers r es) (forcePointers r' es)
  | [] => .refl _
  | .leaf _ _ :: es => forcePointers_lacks h es
  | .tree n :: es => by
    unfold forcePointers
    exact .ite ((h n).bind fun _ => forcePointers_lacks h es) (forcePointers_lacks h es)

omit h in
theorem serializeEntries_lacks {r r' : Node C → Except Err C} (h : ∀ n, Lacks (r n) (r' n)) (es : List (Ent C)) :
    ∀ k : Key, Lacks (serializeEntries r k es) (serializeEntries r' k es) := by
  intro k
  fun_induction serializeEntries r k es with
  | case1 => exact .refl _
  | case2 => exact .refl _
  | case3 last k v n rest ih =>
    rw [serializeEntries.eq_3]
    exact (h n).bind fun _ => (Lacks.refl _).bind fun _ => ih.bind fun _ => .refl _
  | case4 last k v rest hno ih =>
    rw [serializeEntries.eq_4 _ _ _ _ _ hno]
    exact (Lacks.refl _).bind fun _ => ih.bind fun _ => .refl _

omit h in
theorem serializeNodeData_lacks {r r' : Node C → Except Err C} (h : ∀ n, Lacks (r n) (r' n)) (es : List (Ent C)) :
    Lacks (serializeNodeData r es) (serializeNodeData r' es) := by
  unfold serializeNodeData
  split
  · exact (h _).bind fun _ => (serializeEntries_lacks h _ _).bind fun _ => .refl _
  · exact (serializeEntries_lacks h _ _).bind fun _ => .refl _

theorem getPointer_lacks : ∀ (f : Nat) (n : Node C), Lacks (getPointer E rd f n) (getPointer E rd' f n)
  | 0, _ => .refl _
  | f + 1, n => by
    unfold getPointer
    refine .ite ?_ (.refl _)
    exact (getEntries_lacks h n).bind fun es => (forcePointers_lacks (getPointer_lacks f) es).bind fun _ =>
      (serializeNodeData_lacks (getPointer_lacks f) es).bind fun _ => .refl _

omit h in
theorem childLayer_lacks {r r' : Node C → Except Err (Option Int)} (h : ∀ n, Lacks (r n) (r' n)) :
    ∀ es : List (Ent C), Lacks (childLayer r es) (childLayer r' es)
  | [] => .refl _
  | .leaf _ _ :: es => childLayer_lacks h es
  | .tree n :: es => by
    unfold childLayer
    refine (h n).bind fun l => ?_
    cases l with
    | some l => exact .refl _
    | none => exact childLayer_lacks h es

theorem attemptGetLayer_lacks : ∀ (f : Nat) (n : Node C),
    Lacks (attemptGetLayer E rd f n) (attemptGetLayer E rd' f n)
  | 0, _ => .refl _
  | f + 1, n => by
    unfold attemptGetLayer
    cases n.layer with
    | some l => exact .refl _
    | none =>
      refine (getEntries_lacks h n).bind fun es => ?_
      cases layerForEntries E es with
      | some l => exact .refl _
      | none => exact childLayer_lacks (attemptGetLayer_lacks f) es

theorem getLayer_lacks (f : Nat) (n : Node C) : Lacks (getLayer E rd f n) (getLayer E rd' f n) :=
  (attemptGetLayer_lacks h f n).bind fun _ => .refl _

theorem create_lacks (f : Nat) (es : List (Ent C)) (l : Option Int) :
    Lacks (create E rd f es l) (create E rd' f es l) :=
  ((serializeNodeData_lacks (getPointer_lacks h f) es).bind fun _ => .refl _).bind fun _ => .refl _

theorem updateEntry_lacks (n : Node C) (i : Int) (e : Ent C) :
    Lacks (updateEntry E rd n i e) (updateEntry E rd' n i e) :=
  (slice_lacks h n _ _).bind fun _ => (slice_lacks h n _ _).bind fun _ => .refl _

theorem removeEntry_lacks (n : Node C) (i : Int) : Lacks (removeEntry E rd n i) (removeEntry E rd' n i) :=
  (slice_lacks h n _ _).bind fun _ => (slice_lacks h n _ _).bind fun _ => .refl _

theorem spliceIn_lacks (n : Node C) (e : Ent C) (i : Int) : Lacks (spliceIn E rd n e i) (spliceIn E rd' n e i) :=
  (slice_lacks h n _ _).bind fun _ => (slice_lacks h n _ _).bind fun _ => .refl _

theorem replaceWithSplit_lacks (n : Node C) (i : Int) (a : Option (Node C)) (e : Ent C) (b : Option (Node C)) :
    Lacks (replaceWithSplit E rd n i a e b) (replaceWithSplit E rd' n i a e b) :=
  (slice_lacks h n _ _).bind fun _ => (slice_lacks h n _ _).bind fun _ => .refl _

theorem trimTop_lacks : ∀ (f : Nat) (n : Node C), Lacks (trimTop E rd f n) (trimTop E rd' f n)
  | 0, _ => .refl _
  | f + 1, n => by
    unfold trimTop
    refine (getEntries_lacks h n).bind fun es => ?_
    split
    · exact trimTop_lacks f _
    · exact .refl _

theorem nonEmpty_lacks (n : Node C) : Lacks (nonEmpty E rd n) (nonEmpty E rd' n) :=
  (getEntries_lacks h n).bind fun _ => .refl _

theorem appendOpt_lacks (n : Node C) (o : Option (Node C)) : Lacks (appendOpt E rd n o) (appendOpt E rd' n o) := by
  cases o with
  | none => exact .refl _
  | some s => exact (getEntries_lacks h n).bind fun _ => .refl _

theorem prependOpt_lacks (n : Node C) (o : Option (Node C)) : Lacks (prependOpt E rd n o) (prependOpt E rd' n o) := by
  cases o with
  | none => exact .refl _
  | some s => exact (getEntries_lacks h n).bind fun _ => .refl _

theorem splitAround_lacks : ∀ (f : Nat) (n : Node C) (k : Key),
    Lacks (splitAround E rd f n k) (splitAround E rd' f n k)
  | 0, _, _ => .refl _
  | f + 1, n, k => by
    unfold splitAround
    refine (findGe_lacks h n k).bind fun i => (slice_lacks h n _ _).bind fun a => (slice_lacks h n _ _).bind fun b => ?_
    dsimp only
    cases asTree a.getLast? with
    | none => exact (nonEmpty_lacks h _).bind fun _ => (nonEmpty_lacks h _).bind fun _ => .refl _
    | some m =>
      exact (removeEntry_lacks h _ _).bind fun _ => (splitAround_lacks f m k).bind fun _ =>
        (appendOpt_lacks h _ _).bind fun _ => (prependOpt_lacks h _ _).bind fun _ =>
        (nonEmpty_lacks h _).bind fun _ => (nonEmpty_lacks h _).bind fun _ => .refl _

theorem appendMerge_lacks : ∀ (f : Nat) (n m : Node C),
    Lacks (appendMerge E rd f n m) (appendMerge E rd' f n m)
  | 0, _, _ => .refl _
  | f + 1, n, m => by
    unfold appendMerge
    refine (getLayer_lacks h f n).bind fun l1 => (getLayer_lacks h f m).bind fun l2 => .ite (.refl _) ?_
    refine (getEntries_lacks h _).bind fun es => (getEntries_lacks h m).bind fun ms => .ite (.refl _) ?_
    split
    · exact (appendMerge_lacks f _ _).bind fun _ => .refl _
    · exact .refl _

theorem createChild_lacks (f : Nat) (n : Node C) : Lacks (createChild E rd f n) (createChild E rd' f n) :=
  (getLayer_lacks h f n).bind fun _ => create_lacks h f _ _

theorem createParent_lacks (f : Nat) (n : Node C) : Lacks (createParent E rd f n) (createParent E rd' f n) :=
  (getLayer_lacks h f n).bind fun _ => (create_lacks h f _ _).bind fun _ => .refl _

theorem addParents_lacks (f : Nat) : ∀ (k : Nat) (o : Option (Node C)),
    Lacks (addParents E rd f k o) (addParents E rd' f k o)
  | 0, none => .refl _
  | _ + 1, none => .refl _
  | 0, some _ => .refl _
  | k + 1, some n => by
    unfold addParents
    exact (createParent_lacks h f n).bind fun p => addParents_lacks f k (some p)

theorem add_lacks : ∀ (f : Nat) (n : Node C) (k : Key) (v : C) (z : Option Nat),
    Lacks (add E rd f n k v z) (add E rd' f n k v z)
  | 0, _, _, _, _ => .refl _
  | f + 1, n, k, v, z => by
    unfold add
    refine (Lacks.refl _).bind fun _ => ?_
    dsimp only
    refine (getLayer_lacks h f n).bind fun l => .ite ?_ (.ite ?_ ?_)
    · refine (findGe_lacks h _ k).bind fun i => (atIndex_lacks h _ i).bind fun e => ?_
      cases leafHit k e with
      | some v => exact .refl _
      | none =>
        refine (atIndex_lacks h _ _).bind fun p => ?_
        cases asTree p with
        | none => exact spliceIn_lacks h _ _ _
        | some m => exact (splitAround_lacks h f m k).bind fun _ => replaceWithSplit_lacks h _ _ _ _ _
    · refine (findGe_lacks h _ k).bind fun i => (atIndex_lacks h _ _).bind fun p => ?_
      cases asTree p with
      | none =>
        exact (createChild_lacks h f _).bind fun s => (add_lacks f s k v _).bind fun _ => spliceIn_lacks h _ _ _
      | some m => exact (add_lacks f m k v _).bind fun _ => updateEntry_lacks h _ _ _
    · exact (splitAround_lacks h f _ k).bind fun _ => (addParents_lacks h f _ _).bind fun _ =>
        (addParents_lacks h f _ _).bind fun _ => (create_lacks h f _ _).bind fun _ => .refl _

theorem update_lacks : ∀ (f : Nat) (n : Node C) (k : Key) (v : C),
    Lacks (update E rd f n k v) (update E rd' f n k v)
  | 0, _, _, _ => .refl _
  | f + 1, n, k, v => by
    unfold update
    refine (Lacks.refl _).bind fun _ => (findGe_lacks h _ k).bind fun i => (atIndex_lacks h _ i).bind fun e => ?_
    cases leafHit k e with
    | some v => exact updateEntry_lacks h _ _ _
    | none =>
      refine (atIndex_lacks h _ _).bind fun p => ?_
      cases asTree p with
      | none => exact .refl _
      | some m => exact (update_lacks f m k v).bind fun _ => updateEntry_lacks h _ _ _

theorem deleteRecurse_lacks : ∀ (f : Nat) (n : Node C) (k : Key),
    Lacks (deleteRecurse E rd f n k) (deleteRecurse E rd' f n k)
  | 0, _, _ => .refl _
  | f + 1, n, k => by
    unfold deleteRecurse
    refine (findGe_lacks h _ k).bind fun i => (atIndex_lacks h _ i).bind fun e => ?_
    cases leafHit k e with
    | some v =>
      refine (atIndex_lacks h _ _).bind fun p => (atIndex_lacks h _ _).bind fun q => ?_
      cases asTree p with
      | none => exact removeEntry_lacks h _ _
      | some p =>
        cases asTree q with
        | none => exact removeEntry_lacks h _ _
        | some q =>
          exact (appendMerge_lacks h f p q).bind fun _ => (slice_lacks h _ _ _).bind fun _ =>
            (slice_lacks h _ _ _).bind fun _ => .refl _
    | none =>
      refine (atIndex_lacks h _ _).bind fun p => ?_
      cases asTree p with
      | none => exact .refl _
      | some m =>
        exact (deleteRecurse_lacks f m k).bind fun s => (getEntries_lacks h s).bind fun es =>
          .ite (removeEntry_lacks h _ _) (updateEntry_lacks h _ _ _)

theorem applyOp_lacks (f : Nat) (n : Node C) (op : Op C) : Lacks (applyOp E rd f n op) (applyOp E rd' f n op) := by
  cases op with
  | add k v => exact add_lacks h f n k v none
  | update k v => exact update_lacks h f n k v
  | delete k => exact (deleteRecurse_lacks h f n k).bind fun _ => trimTop_lacks h f _

omit h in
theorem refreshKids_lacks {r r' : Node C → Except Err (Node C)} (h : ∀ n, Lacks (r n) (r' n)) :
    ∀ es : List (Ent C), Lacks (refreshKids r es) (refreshKids r' es)
  | [] => .refl _
  | .leaf _ _ :: es => (refreshKids_lacks h es).bind fun _ => .refl _
  | .tree n :: es => by
    unfold refreshKids refreshOne
    exact (Lacks.ite (h n) (.refl _)).bind fun _ => (refreshKids_lacks h es).bind fun _ => .refl _

theorem refresh_lacks : ∀ (f : Nat) (n : Node C), Lacks (refresh E rd f n) (refresh E rd' f n)
  | 0, _ => .refl _
  | f + 1, n => by
    unfold refresh
    refine .ite ?_ (.refl _)
    exact (getEntries_lacks h n).bind fun es => (refreshKids_lacks (refresh_lacks f) es).bind fun es' =>
      (serializeNodeData_lacks (getPointer_lacks h f) es').bind fun _ => .refl _

omit h in
theorem Lacks.ok {α : Type} {x y : Except Err α} (h : Lacks x y) {a : α} (hx : x = .ok a) : y = .ok a := by
  rcases h with h | h
  · rw [h] at hx; cases hx
  · rw [← h]; exact hx

omit h in
theorem Lacks.error {α : Type} {x y : Except Err α} (h : Lacks x y) {e : Err} (hx : x = .error e) (he : e ≠ .attribute) :
    y = .error e := by
  rcases h with h | h
  · rw [h] at hx; cases hx; exact absurd rfl he
  · rw [← h]; exact hx

theorem Cached.lacks {f : Nat} {n n' : Node C} (hc : Cached E rd f n n') : Cached E rd' f n n' := by
  induction hc with
  | entries hn => exact .entries ((getEntries_lacks h _).ok hn)
  | layer hn => exact .layer ((getLayer_lacks h _ _).ok hn)
  | attemptLayer hn => exact .attemptLayer ((attemptGetLayer_lacks h _ _).ok hn)
  | pointer hn => exact .pointer ((refresh_lacks h _ _).ok hn)
  | child _ ih => exact .child ih

end

end Arroba
