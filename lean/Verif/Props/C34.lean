import Verif.Storage.Events
import Verif.Storage.Example

/-!
# C34: the Datastore block scan survives lost contexts

A concrete run with a lost context is in C30.lean.
-/

namespace Arroba.Store

variable {C R : Type} [DecidableEq C] {L : Lib C R} {repo : Option Did}

/-- What one (possibly interrupted) loop over query results does. -/
theorem consume_spec : ∀ (q : List (Block C R)) (s : Nat × List C),
    q.Pairwise (fun a b => a.seq ≤ b.seq) → (q.map (fun b => L.hash b.val)).Nodup →
    (∀ b ∈ q, s.1 ≤ b.seq) →
    (consume L s q).2 = q.filter (fun b => !(decide (b.seq = s.1) && decide (L.hash b.val ∈ s.2))) ∧
    s.1 ≤ (consume L s q).1.1 ∧
    (∀ b ∈ q, b.seq ≤ (consume L s q).1.1) ∧
    ((consume L s q).1.1 = s.1 ∨ ∃ b ∈ q, b.seq = (consume L s q).1.1) ∧
    (∀ c, c ∈ (consume L s q).1.2 ↔ ((consume L s q).1.1 = s.1 ∧ c ∈ s.2) ∨
      ∃ b ∈ q, b.seq = (consume L s q).1.1 ∧ L.hash b.val = c)
  | [], s, _, _, _ => by simp [consume]
  | b :: bs, s, hs, hn, hm => by
    rw [List.pairwise_cons] at hs
    rw [List.map_cons, List.nodup_cons] at hn
    have hb := hm b List.mem_cons_self
    have hni : ∀ x ∈ bs, L.hash x.val ≠ L.hash b.val := fun x hx h =>
      hn.1 (List.mem_map.2 ⟨x, hx, h⟩)
    unfold consume
    by_cases hc : b.seq ≠ s.1
    · rw [if_pos hc]
      dsimp only
      rw [if_neg (by simp)]
      obtain ⟨h1, h2, h3, h4, h5⟩ := consume_spec bs (b.seq, [] ++ [L.hash b.val]) hs.2 hn.2
        (fun x hx => hs.1 x hx)
      dsimp only at h1 h2 h3 h4 h5 ⊢
      have hgt : s.1 < b.seq := by omega
      refine ⟨?_, by omega, ?_, ?_, fun c => ?_⟩
      · rw [h1, List.filter_cons, if_pos (by simp [hc])]
        congr 1
        apply List.filter_congr
        intro x hx
        have := hs.1 x hx
        have e1 : decide (x.seq = s.1) = false := by simp; omega
        simp [e1, hni x hx]
      · intro x hx
        rcases List.mem_cons.1 hx with rfl | hx
        · exact h2
        · exact h3 x hx
      · right
        rcases h4 with h4 | ⟨x, hx, h4⟩
        · exact ⟨b, List.mem_cons_self, h4.symm⟩
        · exact ⟨x, List.mem_cons_of_mem _ hx, h4⟩
      · rw [h5 c]
        constructor
        · rintro (⟨g1, g2⟩ | ⟨x, hx, g1, g2⟩)
          · simp only [List.nil_append, List.mem_singleton] at g2
            exact .inr ⟨b, List.mem_cons_self, g1.symm, g2.symm⟩
          · exact .inr ⟨x, List.mem_cons_of_mem _ hx, g1, g2⟩
        · rintro (⟨g1, g2⟩ | ⟨x, hx, g1, g2⟩)
          · omega
          · rcases List.mem_cons.1 hx with rfl | hx
            · exact .inl ⟨g1.symm, by simp [g2]⟩
            · exact .inr ⟨x, hx, g1, g2⟩
    · rw [if_neg hc]
      simp only [ne_eq, not_not] at hc
      dsimp only
      by_cases hin : L.hash b.val ∈ s.2
      · rw [if_pos hin]
        obtain ⟨h1, h2, h3, h4, h5⟩ := consume_spec bs s hs.2 hn.2
          (fun x hx => hm x (List.mem_cons_of_mem _ hx))
        refine ⟨?_, h2, ?_, ?_, fun c => ?_⟩
        · rw [h1, List.filter_cons, if_neg (by simp [hc, hin])]
        · intro x hx
          rcases List.mem_cons.1 hx with rfl | hx
          · omega
          · exact h3 x hx
        · rcases h4 with h4 | ⟨x, hx, h4⟩
          · exact .inl h4
          · exact .inr ⟨x, List.mem_cons_of_mem _ hx, h4⟩
        · rw [h5 c]
          constructor
          · rintro (g | ⟨x, hx, g⟩)
            · exact .inl g
            · exact .inr ⟨x, List.mem_cons_of_mem _ hx, g⟩
          · rintro (g | ⟨x, hx, g1, g2⟩)
            · exact .inl g
            · rcases List.mem_cons.1 hx with rfl | hx
              · exact .inl ⟨by omega, g2 ▸ hin⟩
              · exact .inr ⟨x, hx, g1, g2⟩
      · rw [if_neg hin]
        obtain ⟨h1, h2, h3, h4, h5⟩ := consume_spec bs (s.1, s.2 ++ [L.hash b.val]) hs.2 hn.2
          (fun x hx => hm x (List.mem_cons_of_mem _ hx))
        dsimp only at h1 h2 h3 h4 h5 ⊢
        refine ⟨?_, h2, ?_, ?_, fun c => ?_⟩
        · rw [h1, List.filter_cons, if_pos (by simp [hin])]
          congr 1
          apply List.filter_congr
          intro x hx
          simp [hni x hx]
        · intro x hx
          rcases List.mem_cons.1 hx with rfl | hx
          · omega
          · exact h3 x hx
        · rcases h4 with h4 | ⟨x, hx, h4⟩
          · exact .inl h4
          · exact .inr ⟨x, List.mem_cons_of_mem _ hx, h4⟩
        · rw [h5 c]
          constructor
          · rintro (⟨g1, g2⟩ | ⟨x, hx, g⟩)
            · rcases List.mem_append.1 g2 with g2 | g2
              · exact .inl ⟨g1, g2⟩
              · exact .inr ⟨b, List.mem_cons_self, by omega, (List.mem_singleton.1 g2).symm⟩
            · exact .inr ⟨x, List.mem_cons_of_mem _ hx, g⟩
          · rintro (⟨g1, g2⟩ | ⟨x, hx, g1, g2⟩)
            · exact .inl ⟨g1, List.mem_append_left _ g2⟩
            · rcases List.mem_cons.1 hx with rfl | hx
              · exact .inl ⟨by omega, by simp [g2]⟩
              · exact .inr ⟨x, hx, g1, g2⟩

theorem Query.hashes {w : World C R} {n : Nat} {q : List (Block C R)} (h : Query L w n repo q) :
    (q.map (fun b => L.hash b.val)).Nodup := by
  refine List.Nodup.map_on ?_ h.nodup
  intro x hx y hy he
  have h1 := ((h.mem x).1 hx).1
  have h2 := ((h.mem y).1 hy).1
  rw [he] at h1
  rw [h1] at h2
  exact Option.some.inj h2

/-- What a run yields from the middle. -/
theorem dsScan_spec {w w' : World C R} {s : Nat × List C} {out : List (Block C R)}
    (h : DsScan L repo w s w' out) :
    out.Pairwise (fun a b => a.seq ≤ b.seq) ∧ out.Nodup ∧
    (∀ c b, w.read c = some b → w'.read c = some b) ∧
    (∀ b ∈ out, w'.read (L.hash b.val) = some b ∧ s.1 ≤ b.seq ∧ Concerns repo b ∧
      ¬ (b.seq = s.1 ∧ L.hash b.val ∈ s.2)) ∧
    ∀ b, w.read (L.hash b.val) = some b → s.1 ≤ b.seq → Concerns repo b →
      ¬ (b.seq = s.1 ∧ L.hash b.val ∈ s.2) → b ∈ out := by
  induction h with
  | @finish w s q h =>
    obtain ⟨h1, -⟩ := consume_spec (L := L) q s h.sorted h.hashes (fun b hb => ((h.mem b).1 hb).2.1)
    rw [h1]
    refine ⟨h.sorted.filter _, h.nodup.filter _, fun _ _ h => h, fun b hb => ?_, fun b g1 g2 g3 g4 => ?_⟩
    · obtain ⟨g1, g2⟩ := List.mem_filter.1 hb
      obtain ⟨g3, g4, g5⟩ := (h.mem b).1 g1
      refine ⟨g3, g4, g5, fun ⟨k1, k2⟩ => ?_⟩
      simp [k1, k2] at g2
    · refine List.mem_filter.2 ⟨(h.mem b).2 ⟨g1, g2, g3⟩, ?_⟩
      simp only [Bool.not_eq_true', Bool.and_eq_false_iff, decide_eq_false_iff_not]
      exact not_and_or.1 g4
  | @lost w s q w' w'' out k h hg h' ih =>
    have hsub : ∀ b ∈ q.take k, b ∈ q := fun b hb => List.mem_of_mem_take hb
    have hpw : (q.take k).Pairwise (fun a b => a.seq ≤ b.seq) :=
      h.sorted.sublist (List.take_sublist k q)
    have hhash : ((q.take k).map (fun b => L.hash b.val)).Nodup :=
      h.hashes.sublist ((List.take_sublist k q).map _)
    obtain ⟨c1, c2, c3, c4, c5⟩ := consume_spec (L := L) (q.take k) s hpw hhash
      (fun b hb => ((h.mem b).1 (hsub b hb)).2.1)
    obtain ⟨i1, i2, i3, i4, i5⟩ := ih
    set s1 := (consume L s (q.take k)).1 with hs1
    rw [c1]
    set o1 := (q.take k).filter (fun b => !(decide (b.seq = s.1) && decide (L.hash b.val ∈ s.2)))
      with ho1
    have ho : ∀ b ∈ o1, b ∈ q.take k ∧ ¬ (b.seq = s.1 ∧ L.hash b.val ∈ s.2) := by
      intro b hb
      obtain ⟨g1, g2⟩ := List.mem_filter.1 hb
      refine ⟨g1, fun ⟨k1, k2⟩ => ?_⟩
      simp [k1, k2] at g2
    refine ⟨?_, ?_, fun c b hb => i3 c b (hg c b hb), ?_, ?_⟩
    · refine List.pairwise_append.2 ⟨hpw.filter _, i1, fun a ha b hb => ?_⟩
      have := c3 a (ho a ha).1
      have := (i4 b hb).2.1
      omega
    · refine List.nodup_append.2 ⟨((h.nodup.sublist (List.take_sublist k q)).filter _), i2, ?_⟩
      rintro a ha b hb rfl
      obtain ⟨_, g2, _, g4⟩ := i4 a hb
      have := c3 a (ho a ha).1
      exact g4 ⟨by omega, (c5 _).2 (.inr ⟨a, (ho a ha).1, by omega, rfl⟩)⟩
    · intro b hb
      rcases List.mem_append.1 hb with hb | hb
      · obtain ⟨g1, g2⟩ := ho b hb
        obtain ⟨g3, g4, g5⟩ := (h.mem b).1 (hsub b g1)
        exact ⟨i3 _ _ (hg _ _ g3), g4, g5, g2⟩
      · obtain ⟨g1, g2, g3, g4⟩ := i4 b hb
        refine ⟨g1, by omega, g3, fun ⟨k1, k2⟩ => g4 ⟨by omega, (c5 _).2 (.inl ⟨by omega, k2⟩)⟩⟩
    · intro b g1 g2 g3 g4
      have hq : b ∈ q := (h.mem b).2 ⟨g1, g2, g3⟩
      by_cases hk : b ∈ q.take k
      · refine List.mem_append_left _ (List.mem_filter.2 ⟨hk, ?_⟩)
        simp only [Bool.not_eq_true', Bool.and_eq_false_iff, decide_eq_false_iff_not]
        exact not_and_or.1 g4
      · refine List.mem_append_right _ (i5 b (hg _ _ g1) ?_ g3 ?_)
        · rcases c4 with c4 | ⟨x, hx, c4⟩
          · omega
          · have hd : b ∈ q.drop k := by
              rw [← List.take_append_drop k q] at hq
              exact (List.mem_append.1 hq).resolve_left hk
            have hp := h.sorted
            rw [← List.take_append_drop k q] at hp
            have := (List.pairwise_append.1 hp).2.2 x hx b hd
            omega
        · rintro ⟨k1, k2⟩
          rcases (c5 _).1 k2 with ⟨j1, j2⟩ | ⟨x, hx, j1, j2⟩
          · exact g4 ⟨by omega, j2⟩
          · have hx' := ((h.mem x).1 (hsub x hx)).1
            rw [j2, g1] at hx'
            cases hx'
            exact hk hx

/-- **C34.** Whatever contexts are lost and whatever is stored meanwhile: the blocks are yielded in
ascending `seq` order, none twice, each as it is stored, and none that was there at the start is
left out. -/
theorem C34_scan {w w' : World C R} {start : Nat} {out : List (Block C R)}
    (h : DsScan L repo w (start, []) w' out) :
    out.Pairwise (fun a b => a.seq ≤ b.seq) ∧ out.Nodup ∧
    (∀ b ∈ out, w'.read (L.hash b.val) = some b ∧ start ≤ b.seq ∧ Concerns repo b) ∧
    ∀ b, w.read (L.hash b.val) = some b → start ≤ b.seq → Concerns repo b → b ∈ out := by
  obtain ⟨h1, h2, _, h4, h5⟩ := dsScan_spec h
  exact ⟨h1, h2, fun b hb => ⟨(h4 b hb).1, (h4 b hb).2.1, (h4 b hb).2.2.1⟩,
    fun b g1 g2 g3 => h5 b g1 g2 g3 (by simp)⟩

/-- **C34 (nothing written meanwhile).** Exactly the result of one undisturbed query. -/
theorem C34_exact {w : World C R} {start : Nat} {out : List (Block C R)}
    (h : DsScan L repo w (start, []) w out) : Query L w start repo out := by
  obtain ⟨h1, h2, h3, h4⟩ := C34_scan h
  exact ⟨h1, h2, fun b => ⟨h3 b, fun ⟨g1, g2, g3⟩ => h4 b g1 g2 g3⟩⟩

end Arroba.Store
