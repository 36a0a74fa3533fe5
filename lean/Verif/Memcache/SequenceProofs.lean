import Verif.Memcache.Sequences

/-! Helper lemmas: the invariant of `MemcacheSequences`. -/

namespace Arroba.Mc

variable {batch buffer : Nat} {proc : Nat → Nat}

/-- What holds as long as the counter is only lost at harmless moments. -/
structure Inv (buffer : Nat) (proc : Nat → Nat) (s : State) : Prop where
  nodup : s.issued.Nodup
  top : ∀ n ∈ s.issued, match s.mc with
    | some m => n ≤ m
    | none => n < s.next
  pos : 1 ≤ s.next
  one : ∀ n ∈ s.issued, 1 ≤ n
  init : s.mc = none → ∀ t v, s.threads t = .initing v → ∀ n ∈ s.issued, n ≤ v
  inits : ∀ t v, s.threads t = .initing v → v < s.next
  maxs : ∀ p m, s.maxSeqs p = some m → m ≤ s.next
  held : ∀ t n, (s.threads t).num = some n → n ∈ s.issued ∧ n ∉ s.returned
  distinct : ∀ t t' n, (s.threads t).num = some n → (s.threads t').num = some n → t = t'
  secured : ∀ t n, s.threads t = .secured n → n + buffer ≤ s.next ∧
    ∃ m, s.maxSeqs (proc t) = some m ∧ n ≤ m
  ret : ∀ n ∈ s.returned, n ∈ s.issued ∧ n + buffer ≤ s.next
  retNodup : s.returned.Nodup
  /-- every number of the counter since it was initialized is accounted for -/
  epoch : ∀ m, s.mc = some m → s.base ≤ m ∧ s.base < s.next ∧
    ∀ n, s.base < n → n ≤ m → n ∈ s.returned ∨ ∃ t, (s.threads t).num = some n

theorem Inv.empty : Inv buffer proc State.init where
  nodup := by simp [State.init]
  top := by simp [State.init]
  pos := by simp [State.init, State.next]
  one := by simp [State.init]
  init := by simp [State.init]
  inits := by simp [State.init]
  maxs := by simp [State.init]
  held := by simp [State.init, Loc.num]
  distinct := by simp [State.init, Loc.num]
  secured := by simp [State.init]
  ret := by simp [State.init]
  retNodup := by simp [State.init]
  epoch := by simp [State.init]

theorem batched_le (hb : buffer < batch) (s : State) (n : Nat) :
    s.next ≤ s.batched batch buffer n ∧ n + buffer ≤ s.batched batch buffer n := by
  unfold State.batched
  split <;> omega

theorem goto_self (s : State) (t : Nat) (l : Loc) : (s.goto t l).threads t = l := by
  simp [State.goto]

theorem goto_ne (s : State) {t t' : Nat} (h : t' ≠ t) (l : Loc) :
    (s.goto t l).threads t' = s.threads t' := by
  simp [State.goto, Function.update_of_ne h]

/-- A thread moves on without taking or returning a number, and without touching anything shared. -/
theorem Inv.move {s : State} (h : Inv buffer proc s) {t : Nat} {l : Loc}
    (hn : l.num = (s.threads t).num)
    (hi : ∀ v, l ≠ .initing v)
    (hs : ∀ n, l = .secured n → s.threads t = .secured n) : Inv buffer proc (s.goto t l) := by
  have hnum : ∀ t', ((s.goto t l).threads t').num = (s.threads t').num := by
    intro t'
    by_cases ht : t' = t
    · subst ht; rw [goto_self, hn]
    · rw [goto_ne s ht]
  refine ⟨h.nodup, h.top, h.pos, h.one, ?_, ?_, h.maxs, ?_, ?_, ?_, h.ret, h.retNodup, ?_⟩
  · intro hm t' v ht
    by_cases he : t' = t
    · subst he; rw [goto_self] at ht; exact absurd ht (hi v)
    · rw [goto_ne s he] at ht; exact h.init hm t' v ht
  · intro t' v ht
    by_cases he : t' = t
    · subst he; rw [goto_self] at ht; exact absurd ht (hi v)
    · rw [goto_ne s he] at ht; exact h.inits t' v ht
  · intro t' n ht; rw [hnum] at ht; exact h.held t' n ht
  · intro t1 t2 n h1 h2; rw [hnum] at h1 h2; exact h.distinct t1 t2 n h1 h2
  · intro t' n ht
    by_cases he : t' = t
    · subst he; rw [goto_self] at ht; exact h.secured t' n (hs n ht)
    · rw [goto_ne s he] at ht; exact h.secured t' n ht
  · intro m hm
    obtain ⟨h1, h2, h3⟩ := h.epoch m hm
    refine ⟨h1, h2, fun n g1 g2 => ?_⟩
    rcases h3 n g1 g2 with g | ⟨t', g⟩
    · exact .inl g
    · exact .inr ⟨t', by rw [hnum]; exact g⟩

/-- `incr` of an existing counter. -/
theorem Inv.incr {s : State} (h : Inv buffer proc s) {t m : Nat} (hm : s.mc = some m)
    (hn : (s.threads t).num = none) :
    Inv buffer proc ({ s with mc := some (m + 1), issued := (m + 1) :: s.issued }.goto t
      (.got (m + 1))) := by
  have htop : ∀ n ∈ s.issued, n ≤ m := by
    intro n hn; have := h.top n hn; rw [hm] at this; exact this
  have hnew : m + 1 ∉ s.issued := fun hc => by have := htop _ hc; omega
  refine ⟨List.nodup_cons.2 ⟨hnew, h.nodup⟩, ?_, h.pos, ?_, ?_, ?_, h.maxs, ?_, ?_, ?_, ?_,
    h.retNodup, ?_⟩
  · intro n hn
    show n ≤ m + 1
    rcases List.mem_cons.1 hn with rfl | hn
    · exact le_refl _
    · have := htop n hn; omega
  · intro n hn
    rcases List.mem_cons.1 hn with rfl | hn
    · omega
    · exact h.one n hn
  · intro hc; cases hc
  · intro t' v ht
    by_cases he : t' = t
    · subst he; rw [goto_self] at ht; cases ht
    · rw [goto_ne _ he] at ht; exact h.inits t' v ht
  · intro t' n ht
    by_cases he : t' = t
    · subst he; rw [goto_self] at ht; cases ht
      exact ⟨List.mem_cons_self, fun hc => hnew (h.ret _ hc).1⟩
    · rw [goto_ne _ he] at ht
      obtain ⟨g1, g2⟩ := h.held t' n ht
      exact ⟨List.mem_cons_of_mem _ g1, g2⟩
  · intro t1 t2 n h1 h2
    by_cases e1 : t1 = t <;> by_cases e2 : t2 = t
    · rw [e1, e2]
    · rw [e1, goto_self] at h1; cases h1
      rw [goto_ne _ e2] at h2
      exact absurd (h.held t2 _ h2).1 hnew
    · rw [e2, goto_self] at h2; cases h2
      rw [goto_ne _ e1] at h1
      exact absurd (h.held t1 _ h1).1 hnew
    · rw [goto_ne _ e1] at h1; rw [goto_ne _ e2] at h2; exact h.distinct t1 t2 n h1 h2
  · intro t' n ht
    by_cases he : t' = t
    · subst he; rw [goto_self] at ht; cases ht
    · rw [goto_ne _ he] at ht; exact h.secured t' n ht
  · intro n hn
    exact ⟨List.mem_cons_of_mem _ (h.ret n hn).1, (h.ret n hn).2⟩
  · intro m' hm'
    cases hm'
    obtain ⟨h1, h2, h3⟩ := h.epoch m hm
    refine ⟨Nat.le_succ_of_le h1, h2, fun n g1 g2 => ?_⟩
    by_cases he : n = m + 1
    · subst he; exact .inr ⟨t, by rw [goto_self]; rfl⟩
    · rcases h3 n g1 (by omega) with g | ⟨t', g⟩
      · exact .inl g
      · refine .inr ⟨t', ?_⟩
        rw [goto_ne _ (fun e => ?_)]
        · exact g
        · subst e; rw [hn] at g; cases g

/-- The stored number grows, and a process learns a number between the old and the new one. -/
theorem Inv.store {s : State} (h : Inv buffer proc s) (hbuf : 1 < buffer) {p x y : Nat}
    (hx : s.next ≤ x) (hy : s.next - 1 ≤ y) (hy' : y ≤ x) :
    Inv buffer proc { s with stored := some x, maxSeqs := Function.update s.maxSeqs p (some y) } := by
  have hnext : State.next { s with stored := some x, maxSeqs := Function.update s.maxSeqs p (some y) } =
      x := rfl
  refine ⟨h.nodup, ?_, ?_, h.one, h.init, ?_, ?_, h.held, h.distinct, ?_, ?_, h.retNodup, ?_⟩
  · intro n hn
    have := h.top n hn
    cases hm : s.mc with
    | none => rw [hm] at this; show n < x; have : n < s.next := this; omega
    | some m => rw [hm] at this; exact this
  · rw [hnext]; have := h.pos; omega
  · intro t v ht; rw [hnext]; have := h.inits t v ht; omega
  · intro p' m hm
    rw [hnext]
    by_cases hp : p' = p
    · subst hp
      have : some y = some m := by
        rw [← hm]; exact (Function.update_self p' (some y) s.maxSeqs).symm
      cases this; exact hy'
    · have : s.maxSeqs p' = some m := by
        rw [← hm]; exact (Function.update_of_ne hp _ _).symm
      have := h.maxs p' m this; omega
  · intro t n ht
    obtain ⟨h1, m, h2, h3⟩ := h.secured t n ht
    refine ⟨by rw [hnext]; omega, ?_⟩
    by_cases hp : proc t = p
    · refine ⟨y, ?_, by omega⟩
      show Function.update s.maxSeqs p (some y) (proc t) = _
      rw [hp]; exact Function.update_self ..
    · refine ⟨m, ?_, h3⟩
      show Function.update s.maxSeqs p (some y) (proc t) = _
      rw [Function.update_of_ne hp]; exact h2
  · intro n hn
    have := h.ret n hn
    exact ⟨this.1, by rw [hnext]; omega⟩
  · intro m hm
    obtain ⟨h1, h2, h3⟩ := h.epoch m hm
    exact ⟨h1, by rw [hnext]; show s.base < x; omega, h3⟩

theorem Inv.run {s : State} (h : Inv buffer proc s) (hbuf : 1 < buffer) (hb : buffer < batch)
    (t : Nat) : Inv buffer proc (run batch buffer proc s t) := by
  unfold Mc.run
  dsimp only
  split
  · rename_i ht
    split
    · exact h.move (by rw [ht]; rfl) (by simp) (by simp)
    · rename_i m hm; exact h.incr hm (by rw [ht]; rfl)
  · rename_i ht
    have hs := h.store hbuf (p := proc t) (x := s.next) (y := s.next - 1) (le_refl _) (le_refl _)
      (Nat.sub_le _ _)
    have hpos := h.pos
    -- the thread has read `next - 1`
    refine ⟨hs.nodup, hs.top, hs.pos, hs.one, ?_, ?_, hs.maxs, ?_, ?_, ?_, hs.ret, hs.retNodup, ?_⟩
    · intro hm t' v ht'
      by_cases he : t' = t
      · subst he; rw [goto_self] at ht'; cases ht'
        intro n hn
        have := h.top n hn
        rw [show s.mc = none from hm] at this
        have : n < s.next := this
        omega
      · rw [goto_ne _ he] at ht'; exact h.init hm t' v ht'
    · intro t' v ht'
      by_cases he : t' = t
      · subst he; rw [goto_self] at ht'; cases ht'
        show s.next - 1 < s.next
        omega
      · rw [goto_ne _ he] at ht'; exact hs.inits t' v ht'
    · intro t' n ht'
      by_cases he : t' = t
      · subst he; rw [goto_self] at ht'; cases ht'
      · rw [goto_ne _ he] at ht'; exact h.held t' n ht'
    · intro t1 t2 n h1 h2
      by_cases e1 : t1 = t
      · subst e1; rw [goto_self] at h1; cases h1
      · by_cases e2 : t2 = t
        · subst e2; rw [goto_self] at h2; cases h2
        · rw [goto_ne _ e1] at h1; rw [goto_ne _ e2] at h2; exact h.distinct t1 t2 n h1 h2
    · intro t' n ht'
      by_cases he : t' = t
      · subst he; rw [goto_self] at ht'; cases ht'
      · rw [goto_ne _ he] at ht'; exact hs.secured t' n ht'
    · intro m hm
      obtain ⟨h1, h2, h3⟩ := hs.epoch m hm
      refine ⟨h1, h2, fun n g1 g2 => ?_⟩
      rcases h3 n g1 g2 with g | ⟨t', g⟩
      · exact .inl g
      · refine .inr ⟨t', ?_⟩
        rw [goto_ne _ (fun e => ?_)]
        · exact g
        · subst e
          have : (s.threads t').num = some n := g
          rw [ht] at this; cases this
  · rename_i v ht
    split
    · rename_i hm
      have h1 := h.move (t := t) (l := .added) (by rw [ht]; rfl) (by simp) (by simp)
      have hle : ∀ n ∈ s.issued, n ≤ v := h.init hm t v ht
      refine ⟨h1.nodup, hle, h1.pos, h1.one, fun hc => (by cases hc), h1.inits, h1.maxs, h1.held,
        h1.distinct, h1.secured, h1.ret, h1.retNodup, ?_⟩
      intro m hm'
      cases hm'
      exact ⟨le_refl _, h.inits t _ ht, fun n g1 g2 => by
        have : v < n := g1
        omega⟩
    · exact h.move (by rw [ht]; rfl) (by simp) (by simp)
  · rename_i ht
    split
    · exact h.move (by rw [ht]; rfl) (by simp) (by simp)
    · rename_i m hm; exact h.incr hm (by rw [ht]; rfl)
  · rename_i n ht
    -- securing the number
    have key : ∀ s' : State, Inv buffer proc s' → s'.threads t = .got n → n + buffer ≤ s'.next →
        (∃ m, s'.maxSeqs (proc t) = some m ∧ n ≤ m) → Inv buffer proc (s'.goto t (.secured n)) := by
      intro s' h' ht' hn hm
      have h1 := h'.move (t := t) (l := .dead n) (by rw [ht']; rfl) (by simp) (by simp)
      have hnum : ∀ t', ((s'.goto t (.secured n)).threads t').num =
          ((s'.goto t (.dead n)).threads t').num := by
        intro t'
        by_cases he : t' = t
        · subst he; rw [goto_self, goto_self]; rfl
        · rw [goto_ne _ he, goto_ne _ he]
      refine ⟨h1.nodup, h1.top, h1.pos, h1.one, ?_, ?_, h1.maxs, ?_, ?_, ?_, h1.ret, h1.retNodup, ?_⟩
      · intro hm t' v ht'
        by_cases he : t' = t
        · subst he; rw [goto_self] at ht'; cases ht'
        · rw [goto_ne _ he] at ht'; exact h'.init hm t' v ht'
      · intro t' v ht'
        by_cases he : t' = t
        · subst he; rw [goto_self] at ht'; cases ht'
        · rw [goto_ne _ he] at ht'; exact h'.inits t' v ht'
      · intro t' k hk; rw [hnum] at hk; exact h1.held t' k hk
      · intro t1 t2 k g1 g2; rw [hnum] at g1 g2; exact h1.distinct t1 t2 k g1 g2
      · intro t' k hk
        by_cases he : t' = t
        · subst he; rw [goto_self] at hk; cases hk; exact ⟨hn, hm⟩
        · rw [goto_ne _ he] at hk; exact h'.secured t' k hk
      · intro m hm'
        obtain ⟨a1, a2, a3⟩ := h1.epoch m hm'
        refine ⟨a1, a2, fun k g1 g2 => ?_⟩
        rcases a3 k g1 g2 with g | ⟨t', g⟩
        · exact .inl g
        · exact .inr ⟨t', by rw [hnum]; exact g⟩
    obtain ⟨b1, b2⟩ := batched_le hb s n
    split
    · refine key _ (h.store hbuf b1 (by omega) (le_refl _)) ht b2 ⟨_, Function.update_self .., by omega⟩
    · rename_i hl
      unfold State.low at hl
      cases hm : s.maxSeqs (proc t) with
      | none => rw [hm] at hl; simp only [Option.getD_none] at hl; omega
      | some m =>
        rw [hm] at hl
        simp only [Option.getD_some] at hl
        have := h.maxs _ _ hm
        exact key s h ht (by omega) ⟨m, hm, by omega⟩
  · rename_i n ht
    split
    · obtain ⟨g1, g2⟩ := h.held t n (by rw [ht]; rfl)
      have hnum : ∀ t' k, (({ s with returned := n :: s.returned } : State).goto t
          (.returned n)).threads t' = k → t' ≠ t → s.threads t' = k := by
        intro t' k hk he; rw [goto_ne _ he] at hk; exact hk
      refine ⟨h.nodup, h.top, h.pos, h.one, ?_, ?_, h.maxs, ?_, ?_, ?_, ?_, ?_, ?_⟩
      · intro hm t' v ht'
        by_cases he : t' = t
        · subst he; rw [goto_self] at ht'; cases ht'
        · exact h.init hm t' v (hnum _ _ ht' he)
      · intro t' v ht'
        by_cases he : t' = t
        · subst he; rw [goto_self] at ht'; cases ht'
        · exact h.inits t' v (hnum _ _ ht' he)
      · intro t' k hk
        by_cases he : t' = t
        · subst he; rw [goto_self] at hk; cases hk
        · rw [goto_ne _ he] at hk
          obtain ⟨a1, a2⟩ := h.held t' k hk
          refine ⟨a1, fun hc => ?_⟩
          rcases List.mem_cons.1 hc with rfl | hc
          · exact he (h.distinct t' t k hk (by rw [ht]; rfl))
          · exact a2 hc
      · intro t1 t2 k h1 h2
        by_cases e1 : t1 = t
        · subst e1; rw [goto_self] at h1; cases h1
        · by_cases e2 : t2 = t
          · subst e2; rw [goto_self] at h2; cases h2
          · rw [goto_ne _ e1] at h1; rw [goto_ne _ e2] at h2; exact h.distinct t1 t2 k h1 h2
      · intro t' k hk
        by_cases he : t' = t
        · subst he; rw [goto_self] at hk; cases hk
        · exact h.secured t' k (hnum _ _ hk he)
      · intro k hk
        rcases List.mem_cons.1 hk with rfl | hk
        · exact ⟨g1, (h.secured t _ ht).1⟩
        · exact h.ret k hk
      · exact List.nodup_cons.2 ⟨g2, h.retNodup⟩
      · intro m hm
        obtain ⟨a1, a2, a3⟩ := h.epoch m hm
        refine ⟨a1, a2, fun k b1 b2 => ?_⟩
        rcases a3 k b1 b2 with g | ⟨t', g⟩
        · exact .inl (List.mem_cons_of_mem _ g)
        · by_cases he : t' = t
          · subst he
            rw [ht] at g
            cases g
            exact .inl List.mem_cons_self
          · exact .inr ⟨t', by rw [goto_ne _ he]; exact g⟩
    · exact h.move (by rw [ht]; rfl) (by simp) (by simp)
  · exact h
  · exact h
  · exact h

/-- The counter is lost when all numbers it has answered are below the stored one, and no thread is
about to initialize it with an older value. -/
theorem Inv.wipe {s : State} (h : Inv buffer proc s) (h1 : ∀ m, s.mc = some m → m < s.next)
    (h2 : s.mc ≠ none → ∀ t v, s.threads t = .initing v → s.next ≤ v + 1) :
    Inv buffer proc { s with mc := none } := by
  cases hm : s.mc with
  | none =>
    have : ({ s with mc := none } : State) = s := by cases s; simp only at hm; subst hm; rfl
    rw [this]; exact h
  | some m =>
    have hlt := h1 m hm
    have htop : ∀ n ∈ s.issued, n ≤ m := by
      intro n hn; have := h.top n hn; rw [hm] at this; exact this
    refine ⟨h.nodup, ?_, h.pos, h.one, ?_, h.inits, h.maxs, h.held, h.distinct, h.secured, h.ret,
      h.retNodup, fun m hm => by cases hm⟩
    · intro n hn
      show n < s.next
      have := htop n hn; omega
    · intro _ t v ht n hn
      have := h2 (by rw [hm]; simp) t v ht
      have := htop n hn; omega

end Arroba.Mc
