import Verif.Firehose.Consumer
import Verif.Mst.InvertProofs
import Verif.Xrpc.SyncRecordProofs
import Verif.Props.C27
import Verif.Storage.EventProofs

/-! Helper lemmas: what `process_event` sends. -/

namespace Arroba.Store

open Arroba.Tree

variable {C R : Type} [DecidableEq C]

section
variable {L : Lib C R} {w : World C R}

/-! ### The dict of blocks of an event has no key twice -/

theorem addRecords_nodup : ∀ {ops : List (CommitOp C)} {d d' : List (C × Option (Block C R))},
    (d.map (·.1)).Nodup → addRecords w d ops = .ok d' → (d'.map (·.1)).Nodup
  | [], d, d', hd, h => by simp only [addRecords] at h; cases h; exact hd
  | op :: ops, d, d', hd, h => by
    unfold addRecords at h
    split at h
    · exact addRecords_nodup hd h
    · split at h
      · cases h
      · split at h
        · exact addRecords_nodup hd h
        · split at h
          · cases h
          · exact addRecords_nodup (dictSet_nodup hd) h

theorem makeCommit_nodup {cb : Block C R} {d : List (C × Option (Block C R))} {s : SentCommit C R}
    (hd : (d.map (·.1)).Nodup) (h : makeCommit w cb d = .ok s) : (s.blocks.map (·.1)).Nodup := by
  unfold makeCommit at h
  split at h
  · cases h
  · split at h
    · cases h
    · rename_i h'
      have h2 := addRecords_nodup hd h'
      split at h
      · cases h
        dsimp only
        split
        · exact h2
        · exact dictSet_nodup h2
      · cases h

theorem flush_nodup {s : Scanner C R} {out : List (Sent C R)} (hd : (s.blocks.map (·.1)).Nodup)
    (h : flush w s = .ok out) : ∀ c, Sent.commit c ∈ out → (c.blocks.map (·.1)).Nodup := by
  unfold flush at h
  split at h
  · split at h
    · cases h
    · rename_i h'
      cases h
      intro c hc
      rw [List.mem_singleton] at hc
      cases hc
      exact makeCommit_nodup hd h'
  · split at h
    · cases h
    · cases h; intro c hc; cases hc

theorem scan_nodup : ∀ {q : List (Block C R)} {s : Scanner C R}, (s.blocks.map (·.1)).Nodup →
    ∀ c, Sent.commit c ∈ (scan L w s q).1 → (c.blocks.map (·.1)).Nodup
  | [], s, hd, c, hc => by
    unfold scan at hc
    split at hc
    · cases hc
    · split at hc
      · cases hc
      · split at hc
        · cases hc
        · rename_i h'
          rw [List.mem_singleton] at hc
          cases hc
          exact makeCommit_nodup hd h'
  | b :: bs, s, hd, c, hc => by
    unfold scan at hc
    split at hc
    · cases hc
    · split at hc
      · cases hc
      · rename_i out s' he
        have hs' : (s'.blocks.map (·.1)).Nodup ∧ ∀ c, Sent.commit c ∈ out → (c.blocks.map (·.1)).Nodup := by
          split at he
          · split at he
            · cases he
            · rename_i hf
              cases he
              exact ⟨by simp, flush_nodup hd hf⟩
          · cases he
            exact ⟨hd, fun c hc => by cases hc⟩
        split at hc
        · dsimp only at hc
          rw [List.mem_append, List.mem_cons] at hc
          rcases hc with hc | hc | hc
          · exact hs'.2 c hc
          · cases hc
          · exact scan_nodup hs'.1 c hc
        · dsimp only at hc
          rw [List.mem_append] at hc
          rcases hc with hc | hc
          · exact hs'.2 c hc
          · exact scan_nodup (s := { s' with blocks := _, commit := _ }) (dictSet_nodup hs'.1) c hc

/-! ### Operations -/

omit [DecidableEq C] in
theorem OpsTrace.wire {m m' : Key → Option C} {ops : List (CommitOp C)} (h : OpsTrace m ops m') :
    WireTrace m (ops.map wireOp) m' ∧ FitsAll m ops ∧ afterAll m ops = m' := by
  induction h with
  | nil M => exact ⟨.nil M, trivial, rfl⟩
  | create h _ ih => exact ⟨.create h ih.1, ⟨⟨h, by simp⟩, ih.2.1⟩, ih.2.2⟩
  | update h hne _ ih => exact ⟨.update h hne ih.1, ⟨⟨h, by simp, by simp⟩, ih.2.1⟩, ih.2.2⟩
  | delete h _ ih => exact ⟨.delete h ih.1, ⟨⟨h, by simp, by simp⟩, ih.2.1⟩, ih.2.2⟩

omit [DecidableEq C] in
theorem wireOp_inverse (op : CommitOp C) : (wireOp op).inverse = op.inverse := by
  obtain ⟨a, p, c, q⟩ := op
  cases a <;> cases q <;> simp [wireOp, WireOp.inverse, CommitOp.inverse, Action.name]

theorem undoWire_eq {E : Env C} {rd : C → Option (NodeData C)} {f : Nat} (n : Node C) :
    ∀ (ops : List (CommitOp C)), undoWire E rd f (ops.map wireOp) n = undo E rd f ops n
  | [] => rfl
  | op :: ops => by
    simp only [List.map_cons, undoWire, undo, undoWire_eq n ops, wireOp_inverse]
    rfl

theorem checkWire_eq {E : Env C} {rd : C → Option (NodeData C)} {f : Nat} (n : Node C) :
    ∀ {ops : List (CommitOp C)} {m : Key → Option C}, FitsAll m ops →
      checkWire E rd f (ops.map wireOp) n = checkOps E rd f ops n
  | [], _, _ => rfl
  | op :: ops, m, h => by
    have hc : (wireOp op).cid = op.cid := by
      obtain ⟨action, path, cid, prev⟩ := op
      cases action
      · rfl
      · rfl
      · exact h.1.2.2.symm
    simp only [List.map_cons, checkWire, checkOps, checkWire_eq n h.2, wireOp_inverse, hc]
    rfl

theorem opsOf_keys : ∀ {writes : List (Write R)} {m m' : Key → Option R},
    (∀ k, m k ≠ none → validKey k = true) → specWrites L m writes = .ok m' →
    ∀ op ∈ opsOf L m writes, validKey op.path = true
  | [], m, m', hk, h => by intro op ho; simp [opsOf] at ho
  | x :: xs, m, m', hk, h => by
    simp only [specWrites] at h
    cases h1 : specWrite L m x with
    | error e => rw [h1] at h; cases h
    | ok m1 =>
      rw [h1] at h
      have hx : validKey x.path = true ∧ ∃ v, m1 = Function.update m x.path v := by
        unfold specWrite at h1
        split at h1
        · split at h1
          · cases h1
          · split at h1
            · cases h1
            · rename_i hv
              split at h1
              · cases h1
              · cases h1
                exact ⟨by simpa using hv, _, rfl⟩
        · split at h1
          · cases h1
          · rename_i hn
            split at h1
            · cases h1
            · cases h1
              exact ⟨hk _ hn, _, rfl⟩
        · split at h1
          · cases h1
          · rename_i hn
            cases h1
            exact ⟨hk _ hn, _, rfl⟩
      obtain ⟨hx1, v, rfl⟩ := hx
      intro op ho
      simp only [opsOf, h1, List.mem_append] at ho
      rcases ho with ho | ho
      · unfold opOf at ho
        split at ho
        · rw [List.mem_singleton] at ho; subst ho; exact hx1
        · split at ho
          · cases ho
          · rw [List.mem_singleton] at ho; subst ho; exact hx1
        · rw [List.mem_singleton] at ho; subst ho; exact hx1
      · refine opsOf_keys ?_ h op ho
        intro k hkn
        by_cases hkx : k = x.path
        · subst hkx; exact hx1
        · rw [Function.update_of_ne hkx] at hkn
          exact hk k hkn

omit [DecidableEq C] in
theorem neverEmpty_take : ∀ {ops : List (CommitOp C)} {m : Key → Option C}, FitsAll m ops →
    NeverEmpty m (ops.map wireOp) →
    ∀ i, 0 < i → i < ops.length → ∃ k, afterAll m (ops.take i) k ≠ none
  | [], _, _, _, i, _, hi => by simp at hi
  | op :: ops, m, hf, h, i, h0, hi => by
    have hc : (wireOp op).cid = op.cid := by
      have := hf.1
      unfold CommitOp.fits at this
      unfold wireOp
      dsimp only
      split
      · rename_i ha
        rw [ha] at this
        exact this.2.2.symm
      · rfl
    have hu : Function.update m (wireOp op).path (wireOp op).cid = op.after m := by
      rw [hc]; rfl
    simp only [List.map_cons, NeverEmpty] at h
    rw [hu] at h
    cases i with
    | zero => omega
    | succ i =>
      simp only [List.take_succ_cons, afterAll, List.foldl_cons]
      cases i with
      | zero =>
        exact h.1 (by
          intro hn
          rw [List.map_eq_nil_iff] at hn
          subst hn
          simp at hi)
      | succ i => exact neverEmpty_take hf.2 h.2 (i + 1) (by omega) (by simpa using hi)

/-! ### The CAR file -/

theorem carNodes_eq {roots : List C} : ∀ {B : Blocks C (Block C R)} {bs : List (C × Val C R)},
    (∀ c b, (c, some b) ∈ B → L.hash b.val = c) → Xrpc.proofBlocks L B = .ok bs →
    carNodes ⟨roots, bs⟩ = readOnly Xrpc.asNode B
  | [], bs, _, h => by
    simp only [Xrpc.proofBlocks] at h
    cases h
    rfl
  | (c, none) :: B, bs, ha, h => by simp only [Xrpc.proofBlocks] at h; cases h
  | (c, some b) :: B, bs, ha, h => by
    rw [Xrpc.proofBlocks] at h
    cases h1 : Xrpc.proofBlocks L B with
    | error e => rw [h1] at h; cases h
    | ok bs' =>
      rw [h1, ok_bind] at h
      cases h
      have ih := carNodes_eq (roots := roots) (fun c b hb => ha c b (.tail _ hb)) h1
      funext x
      have hc := ha c b (.head _)
      have ihx := congrFun ih x
      unfold carNodes readOnly coverGet at ihx ⊢
      dsimp only at ihx ⊢
      rw [List.find?_cons, dictGet, hc]
      by_cases hx : c = x
      · subst hx
        simp only [decide_true, if_pos]
        simp only [Option.join_some, Option.bind_some, Xrpc.asNode]
        cases b.val <;> rfl
      · rw [if_neg hx]
        simp only [hx, decide_false]
        exact ihx

end

end Arroba.Store
