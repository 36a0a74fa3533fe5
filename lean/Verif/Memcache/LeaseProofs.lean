import Verif.Memcache.Lease
import Mathlib.Tactic.Linarith

/-!
# Invariants of `Lease`
-/

namespace Arroba.Lease

/-- What the server knows of a lease that has been added and not yet been released. -/
def Loc.mine : Loc → Option (Int × Option Int)
  | .added since ends => some (since, ends)
  | .held since ends _ => some (since, ends)
  | .deleting since ends _ => some (since, ends)
  | _ => none

/-- The lease's entry has been added at `since`, and is still there unless it has ended. -/
structure Owned (conf : Nat → Conf) (s : State) (i : Nat) (since : Int) (ends : Option Int) : Prop where
  past : since ≤ s.now
  fromAdd : ∃ early : Nat, early < 1000000 ∧ ends = endOf since (conf i).expire early
  there : (Entry.mk i since ends).live s.now → s.entry = some ⟨i, since, ends⟩

/-- Every lease that has been added and not yet released owns its entry. -/
structure Inv (conf : Nat → Conf) (s : State) : Prop where
  owned : ∀ i p, (s.loc i).mine = some p → Owned conf s i p.1 p.2

variable {conf : Nat → Conf} {s s' : State}

theorem loc_goto (s : State) (i j : Nat) (l : Loc) :
    (s.goto i l).loc j = if j = i then l else s.loc j := by
  by_cases h : j = i
  · subst h; simp [State.goto]
  · simp [State.goto, h]

theorem Entry.live.mono {e : Entry} {a b : Int} (h : e.live b) (hab : a ≤ b) : e.live a :=
  fun t ht => lt_of_le_of_lt hab (h t ht)

/-- Moving a lease to a place where it owns nothing, or no more than before. -/
theorem Inv.goto (h : Inv conf s) (i : Nat) (l : Loc)
    (hl : ∀ p, l.mine = some p → (s.loc i).mine = some p) : Inv conf (s.goto i l) := by
  refine ⟨fun j p hp => ?_⟩
  rw [loc_goto] at hp
  split at hp
  · rename_i hj
    subst hj
    exact ⟨(h.owned _ p (hl p hp)).past, (h.owned _ p (hl p hp)).fromAdd, (h.owned _ p (hl p hp)).there⟩
  · exact ⟨(h.owned j p hp).past, (h.owned j p hp).fromAdd, (h.owned j p hp).there⟩

/-- The step doesn't remove the entry of someone else. -/
def Clean (s : State) (a : Act) : Prop :=
  a ≠ .evict ∧ ∀ i, a = .delete i → ∀ e ∈ s.entry, e.owner = i

theorem Inv.act (h : Inv conf s) {a : Act} (hc : Clean s a) (ha : act conf s a = some s') :
    Inv conf s' := by
  cases a with
  | tick d =>
    simp only [Lease.act, Option.some.injEq] at ha
    subst ha
    refine ⟨fun i p hp => ?_⟩
    obtain ⟨h1, h2, h3⟩ := h.owned i p hp
    refine ⟨?_, h2, fun hl => h3 (hl.mono ?_)⟩
    · show p.1 ≤ s.now + d; omega
    · show s.now ≤ s.now + d; omega
  | adjust i d =>
    simp only [Lease.act, Option.some.injEq] at ha
    subst ha
    exact ⟨fun j p hp => ⟨(h.owned j p hp).past, (h.owned j p hp).fromAdd, (h.owned j p hp).there⟩⟩
  | evict => exact absurd rfl hc.1
  | acquire i =>
    simp only [Lease.act] at ha
    split at ha
    · cases ha; exact h.goto i _ (by simp [Loc.mine])
    · cases ha
  | add i early =>
    simp only [Lease.act] at ha
    split at ha
    · rename_i n hn
      split at ha
      · rename_i he
        split at ha
        · split at ha
          · cases ha; exact h.goto i _ (by simp [Loc.mine])
          · cases ha; exact h.goto i _ (by simp [Loc.mine])
        · rename_i ht
          cases ha
          refine ⟨fun j p hp => ?_⟩
          rw [loc_goto] at hp
          split at hp
          · rename_i hj
            subst hj
            simp only [Loc.mine, Option.some.injEq] at hp
            subst hp
            exact ⟨Int.le_refl _, ⟨early, he, rfl⟩, fun _ => rfl⟩
          · obtain ⟨h1, h2, h3⟩ := h.owned j p hp
            exact ⟨h1, h2, fun hl => absurd ⟨_, h3 hl, hl⟩ ht⟩
      · cases ha
    · cases ha
  | reply i =>
    simp only [Lease.act] at ha
    split at ha
    · rename_i hi
      cases ha; exact h.goto i _ (by rw [hi]; simp [Loc.mine])
    · cases ha
  | wake i =>
    simp only [Lease.act] at ha
    split at ha
    · split at ha
      · cases ha; exact h.goto i _ (by simp [Loc.mine])
      · cases ha
    · cases ha
  | release i =>
    simp only [Lease.act] at ha
    split at ha
    · rename_i hi
      split at ha
      · cases ha; exact h.goto i _ (by rw [hi]; simp [Loc.mine])
      · cases ha; exact h.goto i _ (by simp [Loc.mine])
    · cases ha
  | delete i =>
    simp only [Lease.act] at ha
    split at ha
    · cases ha
      refine ⟨fun j p hp => ?_⟩
      rw [loc_goto] at hp
      split at hp
      · simp [Loc.mine] at hp
      · rename_i hj
        obtain ⟨h1, h2, h3⟩ := h.owned j p hp
        exact ⟨h1, h2, fun hl => absurd (hc.2 i rfl _ (h3 hl)) hj⟩
    · cases ha
  | fail i =>
    simp only [Lease.act, Option.some.injEq] at ha
    subst ha
    exact h.goto i _ (by simp [Loc.mine])

theorem Inv.fresh (h : s.fresh) : Inv conf s :=
  ⟨fun i p hp => by rw [h.2 i] at hp; simp [Loc.mine] at hp⟩

/-- Two leases whose entries haven't ended are the same. -/
theorem Inv.unique (h : Inv conf s) {i j : Nat} {p q : Int × Option Int}
    (hi : (s.loc i).mine = some p) (hj : (s.loc j).mine = some q)
    (li : (Entry.mk i p.1 p.2).live s.now) (lj : (Entry.mk j q.1 q.2).live s.now) : i = j := by
  have a := (h.owned i p hi).there li
  have b := (h.owned j q hj).there lj
  rw [a] at b
  exact congrArg Entry.owner (Option.some.inj b)

end Arroba.Lease
