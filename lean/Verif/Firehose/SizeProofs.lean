import Verif.Storage.SizeProofs
import Verif.Firehose.PayloadProofs2
import Verif.Props.C30
import Verif.Xrpc.SyncRecordProofs

/-! Helper lemmas: how many blocks are stored with one sequence number, sent in a message, and given as a proof. -/

namespace Arroba.Store

open Arroba.Tree

section
variable {C R : Type} [DecidableEq C] {L : Lib C R} {Z : Nat}

/-- The blocks with a sequence number. -/
def World.withSeq (w : World C R) (s : Nat) : List (C × Block C R) := w.blocks.filter fun cb => cb.2.seq = s

theorem Reach.withSeq (hL : L.OK Z) {be : Backend} {al : Allow} (ht : ¬ al.torn) (hp : ¬ al.partway) {w : World C R}
    (h : Reach L be al w) {s : Nat} (hs : 1 ≤ s) : (w.withSeq s).length ≤ commitCost Z maxOps := by
  induction h with
  | empty => simp [World.withSeq, World.empty]
  | @step w w' h0 h1 ih =>
    have hw := (h0.inv hL ht).1
    rcases h1.length hL hp hw with hlen | ⟨_, bs, hbs, e⟩
    · rcases h1.makes_own (lo := w.last) ⟨hw.pos, le_refl _⟩ with ⟨bs, hbs, e⟩ | ⟨_, bs, hbs, e⟩
      all_goals
        obtain ⟨ex, e1, _, e3⟩ := putBlocks_append (L := L) bs w.blocks
        rw [← e] at e1
      · by_cases hsl : s ≤ w.last
        · have : ex.filter (fun cb => cb.2.seq = s) = [] := by
            rw [List.filter_eq_nil_iff]
            intro x hx
            have := (hbs _ (e3 x hx)).1
            simp only [decide_eq_true_eq]
            omega
          unfold World.withSeq at ih ⊢
          rw [e1, List.filter_append, this, List.append_nil]
          exact ih
        · have : w.blocks.filter (fun cb => cb.2.seq = s) = [] := by
            rw [List.filter_eq_nil_iff]
            intro x hx
            have := hw.core.blocks.seqs x.1 x.2 (mem_dictGet h0.keys_nodup hx)
            simp only [decide_eq_true_eq]
            omega
          unfold World.withSeq
          rw [e1, List.filter_append, this, List.nil_append]
          refine le_trans (List.length_filter_le _ _) ?_
          rw [e1, List.length_append] at hlen
          omega
      · have : ex.filter (fun cb => cb.2.seq = s) = [] := by
          rw [List.filter_eq_nil_iff]
          intro x hx
          have := (hbs _ (e3 x hx)).1
          simp only [decide_eq_true_eq]
          omega
        unfold World.withSeq at ih ⊢
        rw [e1, List.filter_append, this, List.append_nil]
        exact ih
    · obtain ⟨ex, e1, _, e3⟩ := putBlocks_append (L := L) bs w.blocks
      rw [← e] at e1
      have : ex.filter (fun cb => cb.2.seq = s) = [] := by
        rw [List.filter_eq_nil_iff]
        intro x hx
        have := (hbs _ (e3 x hx)).1
        simp only [decide_eq_true_eq]
        omega
      unfold World.withSeq at ih ⊢
      rw [e1, List.filter_append, this, List.append_nil]
      exact ih

theorem proofBlocks_length : ∀ {B : Blocks C (Block C R)} {bs : List (C × Val C R)},
    Xrpc.proofBlocks L B = .ok bs → bs.length = B.length
  | [], bs, h => by cases h; rfl
  | (_, none) :: _, bs, h => by cases h
  | (_, some b) :: rest, bs, h => by
    unfold Xrpc.proofBlocks at h
    obtain ⟨bs', h1, h2⟩ := bind_ok h
    cases h2
    simp [proofBlocks_length h1]

theorem opOf_length (m : Key → Option R) (w : Write R) : (opOf L m w).length ≤ 1 := by
  unfold opOf
  split
  · simp
  · split <;> simp
  · simp

theorem opsOf_length : ∀ {ws : List (Write R)} {m : Key → Option R}, (opsOf L m ws).length ≤ ws.length
  | [], m => by simp [opsOf]
  | w :: ws, m => by
    unfold opsOf
    have h := opOf_length (L := L) m w
    split
    · simp
    · have := opsOf_length (ws := ws) (m := by assumption)
      simp only [List.length_append, List.length_cons]; omega

/-- How many blocks the message for a commit has. -/
theorem Told.message_length (hL : L.OK Z) {w v : World C R} {b : Block C R} {co : Commit C} (ht : Told L Z w b co)
    (hg : ∀ c b, w.read c = some b → v.read c = some b) {s : SentCommit C R} (hs : Delivers w b (.commit s))
    (hn : (s.blocks.map (·.1)).Nodup) {kind : Key} {p : Payload C R}
    (hp : processEvent L v none (.commit s) = .ok (.commit kind p)) :
    p.blocks.blocks.length ≤ (w.withSeq b.seq).length + maxOps + 1 + maxOps * (3 * Z + 1) := by
  have hv := ht.val
  obtain ⟨ops, m', o1, o2, ⟨m, writes, o3, o6, o4, o5⟩, opsrec⟩ := ht.ops
  unfold Delivers at hs
  rw [hv] at hs
  obtain ⟨d, hs1, hd⟩ := hs
  obtain rfl : s = _ := Sent.commit.inj hs1
  dsimp only at hn
  rw [o1, Option.getD_some] at hd
  obtain ⟨t, t1, t2, t3⟩ := o2
  obtain ⟨l, hl, hwf⟩ := t1.wf
  have hnode : ∀ s ∈ nodes t, (v.read (cidOf L.env.H s)).bind Xrpc.asNode = some (nodeOf L.env.H s) := by
    intro s hs
    obtain ⟨x, b1, b2⟩ := Xrpc.stored_read t2 hs
    rw [hg _ _ b1, Option.bind_some, Xrpc.asNode, b2]
  have hgood : Good L.env v.read Xrpc.asNode t d := ⟨hnode, fun s hs hd' => by
    obtain ⟨x, hx⟩ := Option.isSome_iff_exists.1 hd'
    obtain ⟨y, rfl, hy, _⟩ := (hd _ _).1 hx
    unfold Knows readOnly coverGet
    dsimp only
    rw [hx]
    have := hnode s hs
    rw [hg _ _ hy] at this
    exact this⟩
  have hops : ops.length ≤ maxOps := by
    rw [o5]
    exact le_trans opsOf_length o6
  have hdl : d.length ≤ (w.withSeq b.seq).length + ops.length + 1 := by
    have hsub : ∀ c ∈ d.map (·.1), c ∈ co.data :: ((w.withSeq b.seq).map (·.1) ++ ops.filterMap (·.cid)) := by
      intro c hc
      obtain ⟨⟨c', x⟩, hx, rfl⟩ := List.mem_map.1 hc
      obtain ⟨y, _, hy, h⟩ := (hd _ _).1 (dictGet_of_mem hn hx)
      rcases h with h | ⟨op, ho, _, h⟩ | h
      · refine .tail _ (List.mem_append_left _ (List.mem_map.2 ⟨(c', y), ?_, rfl⟩))
        unfold World.withSeq
        rw [List.mem_filter]
        exact ⟨dictGet_mem hy, by simpa using h⟩
      · exact .tail _ (List.mem_append_right _ (List.mem_filterMap.2 ⟨op, ho, h⟩))
      · subst h; exact .head _
    have := (hn.subperm hsub).length_le
    have h2 := List.length_filterMap_le (fun op : CommitOp C => op.cid) ops
    simp only [List.length_map, List.length_cons, List.length_append] at this
    omega
  simp only [processEvent, hv, o1] at hp
  obtain ⟨B, hB, hp⟩ := bind_ok hp
  obtain ⟨car, hcar, hp⟩ := bind_ok hp
  obtain ⟨rev, _, hp⟩ := bind_ok hp
  cases hp
  dsimp only
  rw [proofBlocks_length hcar]
  have hfu := hL.fuel
  rw [← t3] at hB
  have h1 := addCoveringProofs_size hwf t1.sorted (by omega) hgood hB
  rw [List.length_map] at h1
  have h2 : ops.length * (3 * l + 1) ≤ maxOps * (3 * Z + 1) := Nat.mul_le_mul hops (by omega)
  omega

end

end Arroba.Store

namespace Arroba.Xrpc

open Arroba.Tree Arroba.Store

variable {C R : Type} [DecidableEq C] {L : Lib C R} {Z : Nat}

theorem syncGetRecord_length {cfg : Config R} (hL : L.OK Z) {be : Backend} {w w' : World C R} (hr : Reach L be .untorn w)
    {q : Key} {d : Did} (hn : Names cfg be w q d) {collection rkey : Key} {car : Car C R}
    (h : syncGetRecord cfg L be w q collection rkey = (w', .ok car)) : car.blocks.length ≤ 3 * Z + 3 := by
  obtain ⟨w1, r, o, hb, hb', co, t, l, m', h1, h2, h3, h4, h5, h6, h7, h8, h9, hlZ, h10, h11, h12, h13, h14, h15⟩ :=
    hn.tree hL hr
  have hread : ∀ c, w1.read c = w.read c := by intro c; unfold World.read; rw [h3.blocks]
  have hnode : ∀ s ∈ nodes t, (w1.read (cidOf L.env.H s)).bind asNode = some (nodeOf L.env.H s) := by
    intro s hs
    obtain ⟨b, b1, b2⟩ := stored_read h10 hs
    rw [hread, b1, Option.bind_some, asNode, b2]
  have hfuel := hL.fuel
  have hg : Good L.env w1.read asNode t ([] : Blocks C (Block C R)) := ⟨hnode, fun s hs hd => by simp [dictGet] at hd⟩
  unfold syncGetRecord at h
  simp only [h1, h2, h12] at h
  split at h
  · cases h
  · cases h
  · split at h
    · cases h
    · rename_i B hB
      rw [h4] at h
      cases hp : proofBlocks L B with
      | error e => rw [hp] at h; cases h
      | ok bs =>
        rw [hp] at h
        cases h
        have := addCoveringProofs_size h9 h11.sorted (by omega) hg hB
        have hl := proofBlocks_length hp
        simp only [List.length_cons, List.length_nil, hl] at this ⊢
        omega

end Arroba.Xrpc
