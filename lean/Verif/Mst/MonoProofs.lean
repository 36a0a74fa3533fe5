import Verif.Mst.LazyLacks

/-! Helper lemmas: reading a tree that can be read gives the same once more blocks are stored. -/

namespace Arroba

variable {C : Type} {E : Env C} {rd rd' : C → Option (NodeData C)}

/-- If the first succeeds, so does the second, with the same result. -/
def OkLe {α : Type} (x y : Except Err α) : Prop := ∀ a, x = .ok a → y = .ok a

theorem OkLe.refl {α : Type} (x : Except Err α) : OkLe x x := fun _ h => h

theorem OkLe.bind {α β : Type} {x y : Except Err α} {f g : α → Except Err β} (h : OkLe x y)
    (hf : ∀ a, OkLe (f a) (g a)) : OkLe (x >>= f) (y >>= g) := by
  intro b hb
  cases x with
  | error e => cases hb
  | ok a => rw [h a rfl]; exact hf a b hb

/-- Everything stored in `rd` is stored in `rd'`. -/
def RdLe (rd rd' : C → Option (NodeData C)) : Prop := ∀ c d, rd c = some d → rd' c = some d

theorem getEntries_mono (h : RdLe rd rd') (n : Node C) : OkLe (getEntries E rd n) (getEntries E rd' n) := by
  intro es hes
  unfold getEntries at hes ⊢
  cases hn : n.entries with
  | some es' => rw [hn] at hes; exact hes
  | none =>
    rw [hn] at hes
    dsimp only at hes ⊢
    cases hr : rd n.pointer with
    | none => rw [hr] at hes; cases hes
    | some d => rw [hr] at hes; rw [h _ _ hr]; exact hes

theorem findGe_mono (h : RdLe rd rd') (n : Node C) (k : Key) :
    OkLe (findGtOrEqualLeafIndex E rd n k) (findGtOrEqualLeafIndex E rd' n k) :=
  (getEntries_mono h n).bind fun _ => .refl _

theorem atIndex_mono (h : RdLe rd rd') (n : Node C) (i : Int) :
    OkLe (atIndex E rd n i) (atIndex E rd' n i) :=
  (getEntries_mono h n).bind fun _ => .refl _

theorem get_mono (h : RdLe rd rd') : ∀ (f : Nat) (n : Node C) (k : Key),
    OkLe (get E rd f n k) (get E rd' f n k)
  | 0, _, _ => .refl _
  | f + 1, n, k => by
    unfold get
    refine (findGe_mono h n k).bind fun i => (atIndex_mono h n i).bind fun e => ?_
    cases leafHit k e with
    | some v => exact .refl _
    | none =>
      refine (atIndex_mono h n _).bind fun p => ?_
      cases asTree p with
      | none => exact .refl _
      | some m => exact get_mono h f m k

theorem list_mono (h : RdLe rd rd') (f : Nat) (n : Node C) (a b : Option Key) :
    OkLe (list E rd f n a b) (list E rd' f n a b) := by
  intro l hl
  rcases listLazy_lacks (E := E) h f n a b with e | e
  · unfold list at hl
    rw [e] at hl
    cases hl
  · unfold list at hl ⊢
    rw [e, hl]

end Arroba
