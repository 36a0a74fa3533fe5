import Verif.Firehose.CoreProofs

/-!
# Subscribers

What every subscriber has yielded so far, wherever it is.
-/

namespace Arroba.Fire

/-- The part of the state that belongs to one subscriber. -/
structure View where
  loc : SubLoc
  out : List Ev
  queue : List Ev
  cursor : Option Nat
  since : Nat × Nat
  seen : List Ev
  front : Nat
  unevicted : Bool
  unmerged : Bool
  joined : Nat
  replayed : List Ev

def State.view (s : State) (i : Nat) : View :=
  ⟨s.loc i, s.out i, s.queue i, s.cursor i, s.since i, s.seen i, s.front i, s.unevicted i,
    s.unmerged i, s.joined i, s.replayed i⟩

/-- Nothing was merged into the window while the subscriber read from storage, or it never did. -/
def View.ordered (v : View) : Prop :=
  v.unmerged = true ∨ v.cursor = none ∨ ∃ c, v.cursor = some c ∧ v.front ≤ c

/-- The part of the state that subscribers depend on. -/
structure Env where
  stored : List Ev
  rollback : List Ev
  hist : List Ev
  evictions : Nat
  merges : Nat

def State.env (s : State) : Env := ⟨s.stored, s.rollback, s.hist, s.evictions, s.merges⟩

/-- While a subscriber reads from storage: `lim` is how far it has come. -/
structure Pre (g : Env) (v : View) (c : Nat) (snap : List Ev) (lim : Nat) : Prop where
  cursor : v.cursor = some c
  empty : v.queue = []
  sorted : Sorted v.out
  below : ∀ x ∈ v.out, x.seq < lim
  ge : ∀ x ∈ v.out, c ≤ x.seq
  cle : c ≤ lim
  bnd : ∀ x ∈ v.out, ∃ h ∈ g.hist, x.seq ≤ h.seq
  stored : ∀ x ∈ v.out, x ∈ g.stored
  complete : ∀ m ∈ snap, c ≤ m.seq → m.seq < lim → m ∈ v.out
  seen : snap = v.seen
  seenStored : ∀ x ∈ v.seen, x ∈ g.stored
  sinceE : v.since.1 ≤ g.evictions
  sinceM : v.since.2 ≤ g.merges
  evict : v.since.1 = g.evictions → ∀ h ∈ g.hist, c ≤ h.seq → h ∈ g.rollback ∨ h ∈ snap
  merge : v.since.2 = g.merges →
    (∀ x ∈ v.out, ∀ r ∈ g.rollback, x.seq < r.seq) ∧ ∀ r ∈ g.rollback, v.front ≤ r.seq
  unmerged : v.unmerged = true
  window : g.rollback ≠ []
  behind : c < v.front

/-- About to copy the window. -/
structure Copy (g : Env) (v : View) (c : Nat) : Prop where
  cursor : v.cursor = some c
  empty : v.queue = []
  sorted : Sorted v.out
  ge : ∀ x ∈ v.out, c ≤ x.seq
  bnd : ∀ x ∈ v.out, ∃ h ∈ g.hist, x.seq ≤ h.seq
  sinceE : v.since.1 ≤ g.evictions
  sinceM : v.since.2 ≤ g.merges
  evict : v.since.1 = g.evictions → ∀ h ∈ g.hist, c ≤ h.seq → h ∈ g.rollback ∨ h ∈ v.out
  merge : v.since.2 = g.merges → (∀ x ∈ v.out, ∀ r ∈ g.rollback, x.seq < r.seq) ∧
    ∀ m ∈ v.seen, c ≤ m.seq → m.seq < v.front → m ∈ v.out
  unmerged : v.unmerged = true
  inside : v.front ≤ c → v.out = []

/-- Replaying the window; then `last` is the last event of the copy. -/
structure Hand (g : Env) (v : View) (c last : Nat) (todo : List Ev) : Prop where
  cursor : v.cursor = some c
  empty : v.queue = []
  ge : ∀ x ∈ v.out, c ≤ x.seq
  tsorted : Sorted todo
  le : ∀ x ∈ v.out ++ todo, x.seq ≤ last
  isLast : ∃ h ∈ g.hist, h.seq = last
  evict : v.unevicted = true → ∀ h ∈ g.hist, c ≤ h.seq → h.seq ≤ last → h ∈ v.out ++ todo
  sorted : v.ordered → Sorted (v.out ++ todo)
  old : v.unmerged = true → ∀ m ∈ v.seen, c ≤ m.seq → m.seq < v.front → m ∈ v.out

/-- What it had when it went live. -/
structure Joined (g : Env) (v : View) : Prop where
  joined : v.joined ≤ g.hist.length
  sorted : v.ordered → Sorted v.replayed
  bnd : ∀ x ∈ v.replayed, ∃ h ∈ g.hist.take v.joined, x.seq ≤ h.seq
  none : v.cursor = none → v.replayed = []
  evict : ∀ c, v.cursor = some c → v.unevicted = true →
    ∀ h ∈ g.hist.take v.joined, c ≤ h.seq → h ∈ v.replayed
  old : ∀ c, v.cursor = some c → v.unmerged = true →
    ∀ m ∈ v.seen, c ≤ m.seq → m.seq < v.front → m ∈ v.replayed

def Sub (g : Env) (v : View) : Prop :=
  match v.loc with
  | .idle => v.out = [] ∧ v.queue = [] ∧ v.unmerged = true
  | .ready c => v.out = [] ∧ v.queue = [] ∧ v.cursor = c ∧ v.unmerged = true
  | .pre c sc last pre => Pre g v c sc.snap sc.pos ∧ v.out = pre ∧
      ∀ l, last = some l → l < sc.pos
  | .check c sc pre e => Pre g v c sc.snap e.seq ∧ v.out = pre ∧ e ∈ g.stored ∧
      sc.pos = e.seq + 1
  | .copy c => Copy g v c
  | .hand c last todo => Hand g v c last todo
  | .join => v.out = [] ∧ v.queue = [] ∧ v.cursor = none
  | .live => Joined g v
  | .dead => v.ordered → Sorted v.out

/-! ### Changes of the environment -/

theorem Sub.store {g : Env} {v : View} (h : Sub g v) (e : Ev) :
    Sub { g with stored := e :: g.stored } v := by
  unfold Sub at h ⊢
  have key : ∀ {c snap lim}, Pre g v c snap lim → Pre { g with stored := e :: g.stored } v c snap lim :=
    fun h => ⟨h.cursor, h.empty, h.sorted, h.below, h.ge, h.cle, h.bnd,
      fun x hx => List.mem_cons_of_mem _ (h.stored x hx), h.complete, h.seen,
      fun x hx => List.mem_cons_of_mem _ (h.seenStored x hx), h.sinceE, h.sinceM, h.evict, h.merge,
      h.unmerged, h.window, h.behind⟩
  split at h
  · exact h
  · exact h
  · exact ⟨key h.1, h.2⟩
  · exact ⟨key h.1, h.2.1, List.mem_cons_of_mem _ h.2.2.1, h.2.2.2⟩
  · exact ⟨h.cursor, h.empty, h.sorted, h.ge, h.bnd, h.sinceE, h.sinceM, h.evict, h.merge, h.unmerged,
      h.inside⟩
  · exact ⟨h.cursor, h.empty, h.ge, h.tsorted, h.le, h.isLast, h.evict, h.sorted, h.old⟩
  · exact h
  · exact ⟨h.joined, h.sorted, h.bnd, h.none, h.evict, h.old⟩
  · exact h

theorem take_append_le {l : List Ev} {n : Nat} (h : n ≤ l.length) (e : Ev) :
    (l ++ [e]).take n = l.take n := List.take_append_of_le_length h

theorem Sub.append {w : Nat} {stored rollback merged hist : List Ev} {lastSeq : Nat} {sc : Scan}
    {e : Ev} {ev m : Nat} {v : View} (hc : Core w stored rollback merged hist lastSeq (.taken sc e))
    (h : Sub ⟨stored, rollback, hist, ev, m⟩ v) :
    Sub ⟨stored, push w rollback e, hist ++ [e], ev + (rollback.length + 1 - w), m⟩ v := by
  obtain ⟨-, -, hlt⟩ := hc.taken sc e rfl
  have hlt' : ∀ x ∈ hist, x.seq < e.seq := fun x hx => hlt x (List.mem_append_right _ hx)
  -- an element of the new window is an old one or the new event
  have hpm : ∀ r ∈ push w rollback e, r ∈ rollback ∨ r = e := by
    intro r hr
    have := (push_suffix w rollback e).mem hr
    simpa using this
  have hkeep : ev + (rollback.length + 1 - w) = ev → ∀ r, r ∈ rollback ∨ r = e → r ∈ push w rollback e := by
    intro he r hr
    rw [push_keep (by omega)]
    simpa using hr
  have hb : ∀ {l : List Ev}, (∀ x ∈ l, ∃ h ∈ hist, x.seq ≤ h.seq) →
      ∀ x ∈ l, ∃ h ∈ hist ++ [e], x.seq ≤ h.seq := by
    intro l hl x hx
    obtain ⟨y, hy, hxy⟩ := hl x hx
    exact ⟨y, List.mem_append_left _ hy, hxy⟩
  have hout : ∀ {l : List Ev}, (∀ x ∈ l, ∃ h ∈ hist, x.seq ≤ h.seq) → ∀ x ∈ l, x.seq < e.seq := by
    intro l hl x hx
    obtain ⟨y, hy, hxy⟩ := hl x hx
    have := hlt' y hy
    omega
  unfold Sub at h ⊢
  have key : ∀ {c snap lim}, Pre ⟨stored, rollback, hist, ev, m⟩ v c snap lim →
      Pre ⟨stored, push w rollback e, hist ++ [e], ev + (rollback.length + 1 - w), m⟩ v c snap lim := by
    intro c snap lim h
    refine ⟨h.cursor, h.empty, h.sorted, h.below, h.ge, h.cle, hb h.bnd, h.stored, h.complete,
      h.seen, h.seenStored, Nat.le_trans h.sinceE (Nat.le_add_right _ _), h.sinceM, ?_, ?_, h.unmerged,
      List.ne_nil_of_mem (mem_push hc.win rollback e), h.behind⟩
    · intro he x hx hcx
      have he : v.since.1 = ev + (rollback.length + 1 - w) := he
      have h1 := h.sinceE
      have h1 : v.since.1 ≤ ev := h1
      have hx : x ∈ hist ++ [e] := hx
      rcases List.mem_append.1 hx with hx | hx
      · rcases h.evict (show v.since.1 = ev by omega) x hx hcx with h2 | h2
        · exact .inl (hkeep (by omega) x (.inl h2))
        · exact .inr h2
      · exact .inl (hkeep (by omega) x (.inr (by simpa using hx)))
    · intro he
      obtain ⟨h1, h2⟩ := h.merge he
      refine ⟨fun x hx r hr => ?_, fun r hr => ?_⟩
      · rcases hpm r hr with h3 | rfl
        · exact h1 x hx r h3
        · exact hout h.bnd x hx
      · rcases hpm r hr with h3 | rfl
        · exact h2 r h3
        · obtain ⟨r0, hr0⟩ := List.exists_mem_of_ne_nil _ h.window
          have := h2 r0 hr0
          have := hlt r0 (hc.suffix.mem hr0)
          omega
  split at h
  · exact h
  · exact h
  · exact ⟨key h.1, h.2⟩
  · exact ⟨key h.1, h.2⟩
  · refine ⟨h.cursor, h.empty, h.sorted, h.ge, hb h.bnd, Nat.le_trans h.sinceE (Nat.le_add_right _ _),
      h.sinceM, ?_, ?_, h.unmerged, h.inside⟩
    · intro he x hx hcx
      have he : v.since.1 = ev + (rollback.length + 1 - w) := he
      have h1 := h.sinceE
      have h1 : v.since.1 ≤ ev := h1
      have hx : x ∈ hist ++ [e] := hx
      rcases List.mem_append.1 hx with hx | hx
      · rcases h.evict (show v.since.1 = ev by omega) x hx hcx with h2 | h2
        · exact .inl (hkeep (by omega) x (.inl h2))
        · exact .inr h2
      · exact .inl (hkeep (by omega) x (.inr (by simpa using hx)))
    · intro he
      obtain ⟨h1, h2⟩ := h.merge he
      refine ⟨fun x hx r hr => ?_, h2⟩
      rcases hpm r hr with h3 | rfl
      · exact h1 x hx r h3
      · exact hout h.bnd x hx
  · obtain ⟨y, hy, hyl⟩ := h.isLast
    refine ⟨h.cursor, h.empty, h.ge, h.tsorted, h.le, ⟨y, List.mem_append_left _ hy, hyl⟩, ?_, h.sorted, h.old⟩
    intro hu x hx hcx hxl
    have hx : x ∈ hist ++ [e] := hx
    rcases List.mem_append.1 hx with hx | hx
    · exact h.evict hu x hx hcx hxl
    · have hx : x = e := by simpa using hx
      have := hlt' y hy
      rw [hx] at hxl
      omega
  · exact h
  · have hj : v.joined ≤ hist.length := h.joined
    have ht := take_append_le hj e
    refine ⟨Nat.le_trans h.joined (by simp), h.sorted, ?_, h.none, ?_, h.old⟩
    · show ∀ x ∈ v.replayed, ∃ h ∈ (hist ++ [e]).take v.joined, x.seq ≤ h.seq
      rw [ht]; exact h.bnd
    · show ∀ c, v.cursor = some c → v.unevicted = true →
        ∀ h ∈ (hist ++ [e]).take v.joined, c ≤ h.seq → h ∈ v.replayed
      rw [ht]; exact h.evict
  · exact h

/-- Another subscriber merges events into the window. -/
theorem Sub.merge {g : Env} {v : View} (h : Sub g v) (pre : List Ev) :
    Sub { g with rollback := pre ++ g.rollback, merges := g.merges + 1 } v := by
  unfold Sub at h ⊢
  have key : ∀ {c snap lim}, Pre g v c snap lim →
      Pre { g with rollback := pre ++ g.rollback, merges := g.merges + 1 } v c snap lim :=
    fun h => ⟨h.cursor, h.empty, h.sorted, h.below, h.ge, h.cle, h.bnd, h.stored, h.complete, h.seen,
      h.seenStored, h.sinceE, Nat.le_succ_of_le h.sinceM,
      fun he x hx hc => (h.evict he x hx hc).imp (List.mem_append_right _) id,
      fun he => by have := h.sinceM; have he : v.since.2 = g.merges + 1 := he; omega, h.unmerged,
      fun hc => h.window (List.append_eq_nil_iff.1 hc).2, h.behind⟩
  split at h
  · exact h
  · exact h
  · exact ⟨key h.1, h.2⟩
  · exact ⟨key h.1, h.2⟩
  · exact ⟨h.cursor, h.empty, h.sorted, h.ge, h.bnd, h.sinceE, Nat.le_succ_of_le h.sinceM,
      fun he x hx hc => (h.evict he x hx hc).imp (List.mem_append_right _) id,
      fun he => by have := h.sinceM; have he : v.since.2 = g.merges + 1 := he; omega, h.unmerged,
      h.inside⟩
  · exact ⟨h.cursor, h.empty, h.ge, h.tsorted, h.le, h.isLast, h.evict, h.sorted, h.old⟩
  · exact h
  · exact ⟨h.joined, h.sorted, h.bnd, h.none, h.evict, h.old⟩
  · exact h

end Arroba.Fire
