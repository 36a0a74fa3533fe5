import Verif.Firehose.Model

/-!
# The rollback window

Invariants of the collector and the rollback window.
-/

namespace Arroba.Fire

abbrev Sorted (l : List Ev) : Prop := l.Pairwise (fun a b => a.seq < b.seq)

/-- The window is the end of everything that was ever merged, preloaded or emitted, and all of it
until it is full. -/
structure Core (w : Nat) (stored rollback merged hist : List Ev) (lastSeq : Nat) (col : ColLoc) :
    Prop where
  win : 0 < w
  distinct : stored.Pairwise (fun a b => a.seq ≠ b.seq)
  pos : ∀ e ∈ stored, e.seq ≠ 0
  sorted : Sorted (merged ++ hist)
  suffix : rollback <:+ merged ++ hist
  full : rollback.length < w → rollback = merged ++ hist
  some : hist ≠ [] → rollback ≠ []
  base : merged ≠ [] → hist ≠ []
  inStored : ∀ e ∈ merged ++ hist, e ∈ stored
  bound : ∀ e ∈ merged ++ hist, e.seq ≤ lastSeq
  got : ∀ sc e, col = .got sc e → e ∈ stored
  taken : ∀ sc e, col = .taken sc e → e.seq = lastSeq ∧ e ∈ stored ∧ ∀ h ∈ merged ++ hist, h.seq < e.seq
  handing : ∀ sc e k, col = .handing sc e k → ∃ l, hist = l ++ [e]

def State.Core (w : Nat) (s : State) : Prop :=
  Fire.Core w s.stored s.rollback s.merged s.hist s.lastSeq s.col

theorem eq_of_seq {stored : List Ev} (h : stored.Pairwise (fun a b => a.seq ≠ b.seq)) {a b : Ev}
    (ha : a ∈ stored) (hb : b ∈ stored) (he : a.seq = b.seq) : a = b := by
  induction h with
  | nil => cases ha
  | cons h1 _ ih =>
    rcases List.mem_cons.1 ha with ha' | ha' <;> rcases List.mem_cons.1 hb with hb' | hb'
    · rw [ha', hb']
    · rw [ha'] at he; exact absurd he (h1 _ hb')
    · rw [hb'] at he; exact absurd he.symm (h1 _ ha')
    · exact ih ha' hb'

theorem Sorted.of_suffix {a b : List Ev} (h : Sorted b) (hs : a <:+ b) : Sorted a :=
  h.sublist hs.sublist

/-- What is not in the window is before it. -/
theorem Core.before {w : Nat} {stored rollback merged hist : List Ev} {l : Nat} {col : ColLoc}
    (h : Core w stored rollback merged hist l col) {x : Ev} (hx : x ∈ merged ++ hist)
    (hn : x ∉ rollback) {r : Ev} (hr : r ∈ rollback) : x.seq < r.seq := by
  obtain ⟨p, hp⟩ := h.suffix
  have hs := h.sorted
  rw [← hp] at hx hs
  exact (List.pairwise_append.1 hs).2.2 x ((List.mem_append.1 hx).resolve_right hn) r hr

theorem start_le {s : State} {w : Nat} (h : s.Core w) {r : Ev} (hr : r ∈ s.rollback) :
    s.start ≤ r.seq := by
  have hs := h.sorted.of_suffix h.suffix
  unfold State.start
  split
  · omega
  · rename_i r0 rs he
    rw [he] at hr hs
    rcases List.mem_cons.1 hr with rfl | hr
    · exact Nat.le_refl _
    · exact Nat.le_of_lt ((List.pairwise_cons.1 hs).1 r hr)

theorem start_mem {s : State} (h : s.rollback ≠ []) : ∃ r ∈ s.rollback, r.seq = s.start := by
  unfold State.start
  split
  · contradiction
  · rename_i r0 rs he
    exact ⟨r0, by rw [he]; simp, rfl⟩

/-- Everything at or after the start of the window is in it. -/
theorem mem_of_start {s : State} {w : Nat} (h : s.Core w) (hne : s.rollback ≠ []) {x : Ev}
    (hx : x ∈ s.merged ++ s.hist) (hl : s.start ≤ x.seq) : x ∈ s.rollback := by
  by_contra hn
  obtain ⟨r, hr, he⟩ := start_mem hne
  have := h.before hx hn hr
  omega

theorem lastN_suffix (n : Nat) (l : List Ev) : lastN n l <:+ l := List.drop_suffix ..

theorem push_suffix (w : Nat) (l : List Ev) (e : Ev) : push w l e <:+ l ++ [e] := List.drop_suffix ..

theorem push_keep {w : Nat} {l : List Ev} (h : l.length + 1 ≤ w) (e : Ev) : push w l e = l ++ [e] := by
  unfold push
  rw [show l.length + 1 - w = 0 by omega]; rfl

theorem push_length {w : Nat} (l : List Ev) (e : Ev) :
    (push w l e).length = min (l.length + 1) w := by
  unfold push
  rw [List.length_drop, List.length_append]
  simp only [List.length_cons, List.length_nil]
  omega

theorem mem_push {w : Nat} (hw : 0 < w) (l : List Ev) (e : Ev) : e ∈ push w l e := by
  unfold push
  rw [List.drop_append_of_le_length (by omega)]
  simp

theorem Core.init {cfg : Cfg} {stored events : List Ev} (last : Nat) (now : Int)
    (h : Starts cfg stored events) : (State.init cfg.window stored events last now).Core cfg.window := by
  have hne : events ≠ [] → lastN cfg.window events ≠ [] := by
    intro he hc
    have : (lastN cfg.window events).length = 0 := by rw [hc]; rfl
    unfold lastN at this
    rw [List.length_drop] at this
    have := List.length_pos_iff.2 he
    have := h.window
    omega
  refine ⟨h.window, h.distinct, h.positive, h.sorted, lastN_suffix _ _, ?_, hne, by simp [State.init],
    by simpa [State.init] using h.sub, ?_, by simp [State.init], by simp [State.init],
    by simp [State.init]⟩
  · intro hl
    show lastN cfg.window events = events
    have hl : (lastN cfg.window events).length < cfg.window := hl
    unfold lastN at hl ⊢
    rw [List.length_drop] at hl
    rw [show events.length - cfg.window = 0 by omega]; rfl
  · intro e he
    have he : e ∈ events := by simpa [State.init] using he
    show e.seq ≤ (match (lastN cfg.window events).getLast? with
      | .some e => e.seq
      | none => last)
    obtain ⟨p, hp⟩ := lastN_suffix cfg.window events
    have h2 := hne (List.ne_nil_of_mem he)
    rw [List.getLast?_eq_some_getLast h2]
    dsimp only
    have hs := h.sorted
    rw [← hp] at he hs
    obtain ⟨q, hq⟩ : ∃ q, lastN cfg.window events = q ++ [(lastN cfg.window events).getLast h2] :=
      ⟨_, (List.dropLast_concat_getLast h2).symm⟩
    rcases List.mem_append.1 he with he | he
    · exact Nat.le_of_lt ((List.pairwise_append.1 hs).2.2 e he _ (List.getLast_mem h2))
    · have hs' := (List.pairwise_append.1 hs).2.1
      rw [hq] at hs' he
      rcases List.mem_append.1 he with he | he
      · exact Nat.le_of_lt ((List.pairwise_append.1 hs').2.2 e he _ (by simp))
      · exact Nat.le_of_eq (congrArg _ (List.mem_singleton.1 he))

variable {cfg : Cfg} {gc : Bool} {s s' : State}

/-- `col` moves to a place without an event. -/
theorem Core.col {w : Nat} {stored rollback merged hist : List Ev} {l : Nat} {col col' : ColLoc}
    (h : Core w stored rollback merged hist l col) (h1 : ∀ sc e, col' = .got sc e → e ∈ stored)
    (h2 : ∀ sc e, col' ≠ .taken sc e)
    (h3 : ∀ sc e k, col' = .handing sc e k → ∃ l, hist = l ++ [e]) :
    Core w stored rollback merged hist l col' :=
  ⟨h.win, h.distinct, h.pos, h.sorted, h.suffix, h.full, h.some, h.base, h.inStored, h.bound, h1,
    fun sc e he => absurd he (h2 sc e), h3⟩

theorem State.Core.handoff {w : Nat} (h : s.Core w) (i c : Nat) : (s.handoff i c).Core w := by
  unfold State.handoff
  split
  · exact h
  · exact h

theorem handoff_rollback (s : State) (i c : Nat) : (s.handoff i c).rollback = s.rollback := by
  unfold State.handoff; split <;> rfl

theorem handoff_merged (s : State) (i c : Nat) : (s.handoff i c).merged = s.merged := by
  unfold State.handoff; split <;> rfl

theorem handoff_hist (s : State) (i c : Nat) : (s.handoff i c).hist = s.hist := by
  unfold State.handoff; split <;> rfl

theorem mem_extra {w : Nat} {pre : List Ev} {x : Ev} (h : x ∈ s.extra w pre) :
    x ∈ pre ∧ x.seq < s.start ∧ s.rollback.length < w := by
  have := (lastN_suffix _ _).mem h
  split at this
  · have := List.mem_filter.1 this
    exact ⟨this.1, by simpa using this.2, by assumption⟩
  · cases this

theorem sorted_extra {w : Nat} {pre : List Ev} (h : Sorted pre) : Sorted (s.extra w pre) := by
  refine Sorted.of_suffix (b := if s.rollback.length < w then
    pre.filter (fun e => decide (e.seq < s.start)) else []) ?_ (lastN_suffix _ _)
  split
  · exact h.filter _
  · exact .nil

theorem extra_length {w : Nat} {pre : List Ev} :
    (s.extra w pre).length ≤ w - s.rollback.length := by
  unfold State.extra lastN
  rw [List.length_drop]
  omega

/-- Merging events before the window into a window with room for them. -/
theorem State.Core.merge {w : Nat} (h : s.Core w) {pre : List Ev} (h1 : Sorted pre)
    (h2 : ∀ x ∈ pre, x ∈ s.stored) (h3 : ∀ x ∈ pre, x.seq < s.start ∧ s.rollback.length < w) :
    (s.merge pre).Core w := by
  unfold State.merge
  split
  · exact h
  · rename_i hp
    obtain ⟨x, hx⟩ := List.exists_mem_of_ne_nil _ hp
    have hr := h.full (h3 x hx).2
    have hne : s.rollback ≠ [] := by
      intro hc
      have := (h3 x hx).1
      unfold State.start at this
      rw [hc] at this
      dsimp only at this; omega
    have hlt : ∀ x ∈ pre, ∀ r ∈ s.merged ++ s.hist, x.seq < r.seq := by
      intro x hx r hr'
      rw [← hr] at hr'
      have := (h3 x hx).1
      have := start_le h hr'
      omega
    have happ : (pre ++ s.merged) ++ s.hist = pre ++ (s.merged ++ s.hist) := List.append_assoc ..
    obtain ⟨r0, hr0, _⟩ := start_mem hne
    rw [hr] at hr0
    refine ⟨h.win, h.distinct, h.pos, ?_, ?_, ?_, ?_, ?_, ?_, ?_, h.got, ?_, h.handing⟩
    · show Sorted ((pre ++ s.merged) ++ s.hist)
      rw [happ]
      exact List.pairwise_append.2 ⟨h1, h.sorted, hlt⟩
    · show pre ++ s.rollback <:+ (pre ++ s.merged) ++ s.hist
      rw [happ, ← hr]
      exact List.suffix_refl _
    · intro _
      show pre ++ s.rollback = (pre ++ s.merged) ++ s.hist
      rw [happ, ← hr]
    · intro _
      show pre ++ s.rollback ≠ []
      simp [hp]
    · intro _ hc
      have hc : s.hist = [] := hc
      by_cases hm : s.merged = []
      · rw [hc, hm] at hr; exact hne hr
      · exact h.base hm hc
    · intro e he
      have he : e ∈ (pre ++ s.merged) ++ s.hist := he
      rw [happ] at he
      rcases List.mem_append.1 he with he | he
      · exact h2 e he
      · exact h.inStored e he
    · intro e he
      have he : e ∈ (pre ++ s.merged) ++ s.hist := he
      rw [happ] at he
      rcases List.mem_append.1 he with he | he
      · exact Nat.le_of_lt (Nat.lt_of_lt_of_le (hlt e he r0 hr0) (h.bound r0 hr0))
      · exact h.bound e he
    · intro sc e ht
      obtain ⟨g1, g2, g3⟩ := h.taken sc e ht
      refine ⟨g1, g2, fun x hx => ?_⟩
      have hx : x ∈ (pre ++ s.merged) ++ s.hist := hx
      rw [happ] at hx
      rcases List.mem_append.1 hx with hx | hx
      · exact Nat.lt_trans (hlt x hx r0 hr0) (g3 r0 hr0)
      · exact g3 x hx

/-- Appending the event the collector has taken. -/
theorem Core.append {w : Nat} {stored rollback merged hist : List Ev} {l : Nat} {sc : Scan} {e : Ev}
    (h : Core w stored rollback merged hist l (.taken sc e)) :
    Core w stored (push w rollback e) merged (hist ++ [e]) l (.handing sc e 0) := by
  obtain ⟨g1, g2, g3⟩ := h.taken sc e rfl
  have happ : merged ++ (hist ++ [e]) = (merged ++ hist) ++ [e] := (List.append_assoc ..).symm
  refine ⟨h.win, h.distinct, h.pos, ?_, ?_, ?_, ?_, by simp, ?_, ?_, by simp, by simp, ?_⟩
  · rw [happ]
    refine List.pairwise_append.2 ⟨h.sorted, by simp, fun a ha b hb => ?_⟩
    simp at hb; subst hb
    exact g3 a ha
  · rw [happ]
    refine (push_suffix _ _ _).trans ?_
    obtain ⟨p, hp⟩ := h.suffix
    exact ⟨p, by rw [← List.append_assoc, hp]⟩
  · intro hl
    rw [push_length] at hl
    have : rollback.length + 1 ≤ w := by omega
    rw [push_keep this, happ, h.full (by omega)]
  · intro _ hc
    have := mem_push h.win rollback e
    rw [hc] at this; cases this
  · intro x hx
    rw [happ] at hx
    rcases List.mem_append.1 hx with hx | hx
    · exact h.inStored x hx
    · simp at hx; subst hx; exact g2
  · intro x hx
    rw [happ] at hx
    rcases List.mem_append.1 hx with hx | hx
    · exact h.bound x hx
    · simp at hx; subst hx; omega
  · intro sc' e' k he
    cases he
    exact ⟨hist, rfl⟩

end Arroba.Fire
