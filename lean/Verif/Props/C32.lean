import Verif.Props.C31

/-! # C32: tombstoning is final -/

namespace Arroba.Store

variable {C R : Type} [DecidableEq C] {L : Lib C R} {Z : Nat} {be : Backend} {al : Allow}
  {w : World C R}

/-- The repo of `exDid`, tombstoned. -/
def exTomb (be : Backend) : ExWorld := (tombstoneRepo exL be (exW1 be) 0 200).1

/-- **C32 is false of the code.** `activate_repo` says that it does nothing if the repo is
tombstoned. It activates the repo: the stored status is active, an `#account` event is added to the
log, and commits succeed. -/
theorem C32_false (be : Backend) : Reach exL be .orderly (exTomb be) ∧
    statusOf be (exTomb be) exDid = some .tombstoned ∧
    statusOf be (activateRepo exL be (exTomb be) 0 300).1 exDid = none ∧
    (activateRepo exL be (exTomb be) 0 300).1.blocks.length = (exTomb be).blocks.length + 1 ∧
    succeeds (commit exL be (activateRepo exL be (exTomb be) 0 300).1 0 exWrites2 none lucky false) =
      true := by
  refine ⟨.step (exW1_reach be) (.tombstone 0 200), ?_, ?_, ?_, ?_⟩ <;> cases be <;> decide +kernel

/-- What overwrites the status of a tombstoned repo: `activate_repo` and `deactivate_repo` with an
object of the repo, also if they stop before their event, and `Repo.create` for its DID. -/
def Overwrites (L : Lib C R) (be : Backend) (d : Did) (w w' : World C R) : Prop :=
  (∃ (i : Ref) (o : RepoObj C R) (time : Nat), w.heap[i]? = some o ∧ o.did = some d ∧
    (w' = (activateRepo L be w i time).1 ∨ w' = (deactivateRepo L be w i time).1 ∨
      ∃ s, s ≠ some .tombstoned ∧ w' = (setRepoStatus be w i s).1)) ∨
  ∃ handle key callback time xs cbFails,
    w' = (repoCreate L be w d handle key callback time xs cbFails).1

/-- Histories without those. -/
inductive Buried (L : Lib C R) (be : Backend) (al : Allow) (d : Did) (w : World C R) :
    World C R → Prop
  | refl : Buried L be al d w w
  | step {w' w'' : World C R} (h : Buried L be al d w w') (h' : Step L be al w' w'')
      (hn : ¬ Overwrites L be d w' w'') : Buried L be al d w w''

theorem Buried.reach {d : Did} {w' : World C R}
    (h : Buried L be al d w w') (hr : Reach L be al w) : Reach L be al w' := by
  induction h with
  | refl => exact hr
  | step _ h' _ ih => exact .step ih h'

/-- **C32, the part that holds.** A tombstoned repo stays tombstoned whatever is done with other
repos, and whatever commits, events and loads are attempted for it, in every history of both
backends; and every object loaded for it is tombstoned. Missing: that `activate_repo` (and
`deactivate_repo`, and `Repo.create`) leave it alone, see `C32_false`. -/
theorem C32_partial (hL : L.OK Z) (hr : Reach L be al w) {d : Did} (hd : isDid d)
    (hs : statusOf be w d = some .tombstoned) {w' : World C R} (h : Buried L be al d w w') :
    statusOf be w' d = some .tombstoned ∧
    ∀ w1 r, loadRepo be w' d = (w1, .ok (some r)) → w1.status r = some .tombstoned := by
  have hs' : statusOf be w' d = some .tombstoned := by
    induction h with
    | refl => exact hs
    | step h h' hn ih =>
      rcases Step.statusOf hL (Reach.plain hL (h.reach hr)).1 h' d with
        g | ⟨i, o, time, g1, g2, g⟩ | g | ⟨_, _, _, _, _, g, _⟩
      · rw [g]; exact ih
      · rcases g with ⟨g, _⟩ | ⟨g, _⟩ | ⟨_, g⟩ | ⟨_, s, g, g'⟩
        · exact absurd (.inl ⟨i, o, time, g1, g2, .inl g⟩) hn
        · exact absurd (.inl ⟨i, o, time, g1, g2, .inr (.inl g)⟩) hn
        · exact g
        · by_contra hne
          exact hn (.inl ⟨i, o, time, g1, g2, .inr (.inr ⟨s, by rw [← g']; exact hne, g⟩)⟩)
      · exact absurd (.inr g) hn
      · rw [ih] at g; cases g
  refine ⟨hs', fun w1 r h1 => ?_⟩
  rw [C31_loadedStatus hL (h.reach hr) hd h1]
  exact hs'

example (be : Backend) : statusOf be (exTomb be) exDid = some .tombstoned := by
  cases be <;> decide +kernel

end Arroba.Store
