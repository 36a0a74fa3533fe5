import Verif.Example
import Mathlib.Data.List.Induction

/-! # C01: the MST behaves as a map -/

namespace Arroba

variable {C : Type}

/-- The successful calls of a history. -/
def succeeded : List (Op C) → List (Option Err) → List (Op C)
  | op :: ops, none :: outs => op :: succeeded ops outs
  | _ :: ops, some _ :: outs => succeeded ops outs
  | _, _ => []

/-- "The value most recently added or updated at `k` and not since deleted". -/
def lastWrite (k : Key) : List (Op C) → Option C
  | [] => none
  | ops => ops.foldl (fun cur op => match op with
      | .add k' v => if k' = k then some v else cur
      | .update k' v => if k' = k then some v else cur
      | .delete k' => if k' = k then none else cur) none

theorem lastWrite_snoc (k : Key) (ops : List (Op C)) (op : Op C) :
    lastWrite k (ops ++ [op]) = (match op with
      | .add k' v => if k' = k then some v else lastWrite k ops
      | .update k' v => if k' = k then some v else lastWrite k ops
      | .delete k' => if k' = k then none else lastWrite k ops) := by
  cases ops with
  | nil => cases op <;> simp [lastWrite]
  | cons x xs => cases op <;> simp [lastWrite, List.foldl_append]

theorem succeeded_snoc : ∀ {ops : List (Op C)} {outs : List (Option Err)} {op : Op C}
    {o : Option Err}, ops.length = outs.length →
    succeeded (ops ++ [op]) (outs ++ [o]) =
      succeeded ops outs ++ (match o with | none => [op] | some _ => [])
  | [], [], op, o, _ => by cases o <;> simp [succeeded]
  | x :: xs, y :: ys, op, o, h => by
    have ih := succeeded_snoc (op := op) (o := o) (ops := xs) (outs := ys) (by simpa using h)
    cases y <;> simp [succeeded, ih]

theorem specRun_length (ops : List (Op C)) : (specRun ops).2.length = ops.length := by
  induction ops using List.reverseRecOn with
  | nil => rfl
  | append_singleton ops op ih => simp [specRun_snoc, ih]

theorem specRun_lastWrite (ops : List (Op C)) (k : Key) :
    (specRun ops).1 k = lastWrite k (succeeded ops (specRun ops).2) := by
  induction ops using List.reverseRecOn with
  | nil => rfl
  | append_singleton ops op ih =>
    rw [specRun_snoc, succeeded_snoc (specRun_length ops).symm]
    cases op with
    | add k' v =>
      simp only [specStep]
      split
      · simpa using ih
      · split
        · simpa using ih
        · simp only [lastWrite_snoc, Function.update_apply, eq_comm (a := k'), ih]
    | update k' v =>
      simp only [specStep]
      split
      · simpa using ih
      · split
        · simpa using ih
        · simp only [lastWrite_snoc, Function.update_apply, eq_comm (a := k'), ih]
    | delete k' =>
      simp only [specStep]
      split
      · simpa using ih
      · simp only [lastWrite_snoc, Function.update_apply, eq_comm (a := k'), ih]

/-- **C01.** After any history of `add` / `update` / `delete` calls on a tree that started
empty, interleaved with arbitrary cache writes, persisting, reloading and unrelated block
writes, `get(k)` never raises and returns the value most recently written at `k` by a
successful call and not since deleted, and `None` otherwise.

`hZ` bounds the layers (128 for SHA-256), `hf` says the recursion limit exceeds that bound,
`hinj` idealises the hash of MST node blocks as collision free. -/
theorem C01_get_last_write [DecidableEq C] {E : Env C} {rd : C → Option (NodeData C)}
    (hinj : Function.Injective E.H) {Z : Nat} (hZ : ∀ k, E.zeros k ≤ Z) {fuel : Nat}
    (hf : Z + 2 ≤ fuel) {n : Node C} {ops : List (Op C)} {outs : List (Option Err)}
    (h : Run E fuel rd n ops outs) (k : Key) :
    get E rd fuel n k = .ok (lastWrite k (succeeded ops outs)) := by
  obtain ⟨_, rfl, L, t, hi, _⟩ := h.inv hinj hZ hf
  have := hi.bound
  rw [get_spec hi.repr hi.wf hi.sorted (by omega), ← specRun_lastWrite, ← hi.map]

/-- Every history has an execution, so `C01_get_last_write` is about all of them. -/
theorem C01_every_history_runs [DecidableEq C] {E : Env C} {rd : C → Option (NodeData C)}
    (hs : StoreOK E rd) (fuel : Nat) (ops : List (Op C)) :
    ∃ n outs, Run E fuel rd n ops outs := Run.total hs fuel ops

/-- Non-vacuity: a history over four layers with failing calls. -/
example : ∃ n, Run exE 130 noBlocks n exOps exOuts ∧
    get exE noBlocks 130 n (key "a/b") = .ok (some (.val 4)) ∧
    get exE noBlocks 130 n (key "b/l") = .ok none :=
  ⟨exAfter exOps, exRun, by decide +kernel, by decide +kernel⟩

end Arroba
