import Verif.Firehose.Collect
import Verif.Firehose.Joint
import Verif.Props.C57

/-! Helper lemmas for C72: passes over the log. -/

namespace Arroba.Store

variable {C R : Type} [DecidableEq C] {L : Lib C R} {Z : Nat} {be : Backend} {al : Allow} {w w' : World C R}
  {field : R → Option Nat} {goes : Nat → Nat → Bool} {err : Option Err}

/-- The number of a message is the one the collector looks at. -/
theorem processEvent_seq {e : Sent C R} {n : Nat} {msg : Message C R} (h : processEvent L w none e = .ok msg)
    (hn : e.curSeq field = some n) (hr : ∀ r, e ≠ .event (.record r)) : msg.seq = some n := by
  cases e with
  | event v =>
    cases v with
    | event e => cases h; exact hn
    | record r => exact absurd rfl (hr r)
    | commit _ => cases h
    | node _ => cases h
  | commit c =>
    simp only [processEvent] at h
    split at h
    · simp only [bind, Except.bind] at h
      repeat' (first | (split at h) | (cases h; done))
      cases h
      exact hn
    · cases h
    · cases h

/-- Nothing from number `n` on was emitted. -/
def Below (n : Nat) (p : Nat × List (Message C R) × Option Err) : Prop :=
  p.1 < n ∧ ∀ msg ∈ p.2.1, ∃ k, msg.seq = some k ∧ k < n

omit [DecidableEq C] in
theorem Below.nil {n last : Nat} (h : last < n) (x : Option Err) : Below (C := C) (R := R) n (last, [], x) :=
  ⟨h, fun _ h => (nomatch h)⟩

theorem Below.cons {n k : Nat} {e : Sent C R} {es : List (Sent C R)} (hc : e.curSeq field = some k) (hk : k < n)
    (hr : ∀ r, e ≠ .event (.record r)) (h : ∀ last, last < n → Below n (passOver L w field goes err last es)) :
    ∀ last, last < n → Below n (passOver L w field goes err last (e :: es)) := by
  intro last hl
  simp only [passOver, hc]
  split
  · exact h last hl
  · split
    · exact .nil hl _
    · cases hp : processEvent L w none e with
      | error x => exact .nil hl _
      | ok msg =>
        refine ⟨(h k hk).1, fun m hm => ?_⟩
        rcases List.mem_cons.1 hm with rfl | hm
        · exact ⟨k, processEvent_seq hp hc hr, hk⟩
        · exact (h k hk).2 m hm

theorem makeCommit_commit {cb : Block C R} {d : List (C × Option (Block C R))} {c : SentCommit C R}
    (h : makeCommit w cb d = .ok c) : c.commit = cb := by
  unfold makeCommit at h
  repeat' (first | (split at h) | (cases h; done))
  all_goals (cases h; rfl)

/-- A pass over a log with a record that looks like an event, and has no number. -/
theorem scan_below {b : Block C R} {r : R} (hv : b.val = .record r) (he : L.eventLike r = true)
    (hf : ∀ r, L.eventLike r = true → field r = none) :
    ∀ (q : List (Block C R)) (s : Scanner C R), b ∈ q → q.Pairwise (fun x y => x.seq ≤ y.seq) →
      (∀ z, s.commit = some z → s.seq = some z.seq) → (∀ k, s.seq = some k → ∀ x ∈ q, k ≤ x.seq) →
      (∀ x ∈ q, ∀ e, x.val = .event e → e.seq = x.seq ∧ x.seq ≠ b.seq) →
      ∀ last, last < b.seq → Below b.seq (passOver L w field goes (scan L w s q).2 last (scan L w s q).1)
  | [], _, hb, _, _, _, _ => by cases hb
  | x :: q, s, hb, hq, hc, hk, hev => by
    intro last hl
    have hxb : x.seq ≤ b.seq := by
      rcases List.mem_cons.1 hb with rfl | hb
      · exact Nat.le_refl _
      · exact (List.pairwise_cons.1 hq).1 b hb
    have hq' := (List.pairwise_cons.1 hq).2
    have hev' := fun y hy => hev y (List.mem_cons_of_mem _ hy)
    unfold scan
    split
    · exact .nil hl _
    · -- the commit that is complete
      have hout : ∀ out s', (if s.seq ≠ some x.seq then
          match flush w s with
          | .error e => .error e
          | .ok out => .ok (out, ⟨some x.seq, none, []⟩)
        else .ok ([], s) : Except Err (List (Sent C R) × Scanner C R)) = .ok (out, s') →
          s'.seq = some x.seq ∧ (∀ z, s'.commit = some z → s'.seq = some z.seq) ∧
          (out = [] ∨ ∃ c, out = [.commit c] ∧ c.commit.seq < b.seq) := by
        intro out s' h
        split at h
        · rename_i hne
          split at h
          · cases h
          · rename_i out' hfl
            cases h
            refine ⟨rfl, fun z hz => (nomatch hz), ?_⟩
            unfold flush at hfl
            split at hfl
            · rename_i cb hcb
              split at hfl
              · cases hfl
              · rename_i c hm
                cases hfl
                refine .inr ⟨c, rfl, ?_⟩
                rw [makeCommit_commit hm]
                have h1 := hc cb hcb
                have h2 := hk cb.seq h1 x List.mem_cons_self
                have h3 : cb.seq ≠ x.seq := fun h => hne (by rw [h1, h])
                omega
            · split at hfl
              · cases hfl
              · cases hfl; exact .inl rfl
        · rename_i heq
          cases h
          exact ⟨by simpa using heq, hc, .inl rfl⟩
      split
      · exact .nil hl _
      · rename_i out s' hs'
        obtain ⟨h1, h2, h3⟩ := hout out s' hs'
        have hk' : ∀ k, s'.seq = some k → ∀ y ∈ q, k ≤ y.seq := by
          intro k hk y hy
          rw [h1] at hk
          cases hk
          exact (List.pairwise_cons.1 hq).1 y hy
        -- the messages before come first
        have key : ∀ (err : Option Err) (rest : List (Sent C R)),
            (∀ last, last < b.seq → Below b.seq (passOver L w field goes err last rest)) →
            Below b.seq (passOver L w field goes err last (out ++ rest)) := by
          intro err rest hrest
          rcases h3 with rfl | ⟨c, rfl, h4⟩
          · exact hrest last hl
          · exact Below.cons (k := c.commit.seq) rfl h4 (by intro _ h; cases h) hrest last hl
        split
        · rename_i hlook
          dsimp only
          refine key _ _ fun last hl => ?_
          cases hxv : x.val with
          | event e =>
            obtain ⟨h5, h6⟩ := hev x List.mem_cons_self e hxv
            have hbq : b ∈ q := by
              rcases List.mem_cons.1 hb with rfl | hb
              · rw [hv] at hxv; cases hxv
              · exact hb
            exact Below.cons (k := e.seq) rfl (by omega) (by intro _ h; cases h)
              (scan_below hv he hf q s' hbq hq' h2 hk' hev') last hl
          | record r' =>
            rw [hxv] at hlook
            have : Sent.curSeq (C := C) field (.event (.record r')) = none := hf r' hlook
            simp only [passOver, this]
            exact .nil hl _
          | commit _ => rw [hxv] at hlook; cases hlook
          | node _ => rw [hxv] at hlook; cases hlook
        · rename_i hlook
          dsimp only
          have hbq : b ∈ q := by
            rcases List.mem_cons.1 hb with rfl | hb
            · rw [hv] at hlook; exact absurd he hlook
            · exact hb
          refine key _ _ (scan_below hv he hf q _ hbq hq' ?_ hk' hev')
          intro z hz
          dsimp only at hz ⊢
          split at hz
          · cases hz; exact h1
          · exact h2 z hz

/-- A pass over a log without such records raises nothing. -/
theorem passOver_raises (ss : List (Sent C R)) (last : Nat)
    (h : ∀ e ∈ ss, (e.curSeq field).isSome = true ∧ ∃ msg, processEvent L w none e = .ok msg) :
    (passOver L w field goes none last ss).2.2 = none := by
  induction ss generalizing last with
  | nil => rfl
  | cons e es ih =>
    obtain ⟨h1, msg, h2⟩ := h e List.mem_cons_self
    obtain ⟨k, h1⟩ := Option.isSome_iff_exists.1 h1
    have ih := fun last => ih last (fun e he => h e (List.mem_cons_of_mem _ he))
    simp only [passOver, h1, h2]
    split
    · exact ih _
    · split
      · rfl
      · exact ih _

/-- A patient pass emits everything. -/
theorem passOver_all {ms : List (Block C R)} {ss : List (Sent C R)} {P : Block C R → Message C R → Prop}
    (h : List.Forall₂ (fun b e => e.curSeq field = some b.seq ∧ ∃ msg, processEvent L w none e = .ok msg ∧ P b msg) ms ss)
    (hs : ms.Pairwise (fun a b => a.seq < b.seq)) (last : Nat) (hl : ∀ b ∈ ms, last < b.seq) :
    List.Forall₂ P ms (passOver L w field (fun _ _ => true) none last ss).2.1 ∧
      (passOver L w field (fun _ _ => true) none last ss).1 = (ms.getLast?.map (·.seq)).getD last := by
  induction h generalizing last with
  | nil => exact ⟨.nil, rfl⟩
  | cons h1 h2 ih =>
    rename_i b e ms ss
    obtain ⟨h3, msg, h4, h5⟩ := h1
    have hlt := hl b List.mem_cons_self
    have := ih (List.pairwise_cons.1 hs).2 b.seq (List.pairwise_cons.1 hs).1
    simp only [passOver, h3, h4]
    rw [if_neg (by omega), if_neg (by simp)]
    dsimp only
    refine ⟨.cons h5 this.1, ?_⟩
    rw [this.2]
    cases hms : ms with
    | nil => rfl
    | cons y l =>
      rw [List.getLast?_cons_cons]
      cases hg : (y :: l).getLast? with
      | none => simp at hg
      | some z => rfl

end Arroba.Store
