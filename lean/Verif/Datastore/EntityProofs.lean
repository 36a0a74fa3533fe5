import Verif.Datastore.Entity
import Verif.Mst.DiffProofs
import Verif.Mst.Grammar

/-! Entities: CIDs as text, and conversion there and back. -/

namespace Arroba.Entity

open Cbor Store

theorem byte_bits (b : UInt8) : UInt8.ofNat (bitsNat (byteBits b)) = b := by
  have h : ∀ n : Fin 256, UInt8.ofNat (bitsNat (byteBits (UInt8.ofNat n.1))) = UInt8.ofNat n.1 := by
    decide +kernel
  have := h ⟨b.toNat, b.toNat_lt⟩
  simpa using this

theorem char_bits : ∀ a b c d e : Bool,
    charBits (b32Alphabet.getD (bitsNat [a, b, c, d, e]) 'a') = some [a, b, c, d, e] := by
  decide +kernel

theorem text_bits : ∀ l : List Bool, ∃ k, k < 5 ∧ textBits (b32Chars l) = some (l ++ List.replicate k false)
  | [] => ⟨0, by omega, rfl⟩
  | [a] => ⟨4, by omega, by
      simp only [b32Chars, List.length_singleton, List.replicate, List.cons_append, List.nil_append, textBits]
      rw [char_bits]; rfl⟩
  | [a, b] => ⟨3, by omega, by
      simp only [b32Chars, List.length_cons, List.length_nil, List.replicate, List.cons_append, List.nil_append, textBits]
      rw [char_bits]; rfl⟩
  | [a, b, c] => ⟨2, by omega, by
      simp only [b32Chars, List.length_cons, List.length_nil, List.replicate, List.cons_append, List.nil_append, textBits]
      rw [char_bits]; rfl⟩
  | [a, b, c, d] => ⟨1, by omega, by
      simp only [b32Chars, List.length_cons, List.length_nil, List.replicate, List.cons_append, List.nil_append, textBits]
      rw [char_bits]; rfl⟩
  | a :: b :: c :: d :: e :: l => by
    obtain ⟨k, hk, h⟩ := text_bits l
    refine ⟨k, hk, ?_⟩
    simp only [b32Chars, textBits]
    rw [char_bits, h]
    rfl

theorem bits_bytes {k : Nat} (hk : k < 5) : ∀ c : Bytes,
    bitsBytes (c.flatMap byteBits ++ List.replicate k false) = some c
  | [] => by
    have : k = 0 ∨ k = 1 ∨ k = 2 ∨ k = 3 ∨ k = 4 := by omega
    rcases this with rfl | rfl | rfl | rfl | rfl <;> simp [bitsBytes]
  | b :: c => by
    have ih := bits_bytes hk c
    have hb := byte_bits b
    simp only [byteBits] at hb
    simp only [List.flatMap_cons, byteBits, List.cons_append, List.nil_append, bitsBytes]
    rw [ih, hb]
    rfl

theorem text_bytes (c : Bytes) : (textBits (b32Chars (c.flatMap byteBits))).bind bitsBytes = some c := by
  obtain ⟨k, hk, h⟩ := text_bits (c.flatMap byteBits)
  rw [h]
  exact bits_bytes hk c

theorem cidText_inj {c c' : Bytes} (h : cidText c = cidText c') : c = c' := by
  simp only [cidText, List.cons.injEq, true_and] at h
  have h1 := text_bytes c
  rw [h, text_bytes c'] at h1
  exact (Option.some.inj h1).symm

theorem textCid_cidText {c : Bytes} (h : IsCid c) : textCid (cidText c) = .ok c := by
  have := h.unCid []
  rw [List.append_nil] at this
  simp only [textCid, cidText, text_bytes, this, if_true]

theorem cidText_ne (c : Bytes) : cidText c ≠ [] := by simp [cidText]

theorem optCid_map {c : Option Bytes} (h : ∀ x ∈ c, IsCid x) : optCid (c.map cidText) = .ok c := by
  cases c with
  | none => rfl
  | some c =>
    simp only [Option.map_some, optCid, cidText_ne, if_false, textCid_cidText (h c rfl)]
    rfl

theorem textAction_actionText (a : Action) : textAction (actionText a) = .ok a := by
  cases a <;> decide +kernel

theorem textStatus_statusText (s : Status) : textStatus (statusText s) = .ok s := by
  cases s <;> decide +kernel

/-- storage.py 52-57. What CIDs an operation has. -/
def OpCids (op : CommitOp Bytes) : Prop := (∀ c ∈ op.cid, IsCid c) ∧ ∀ c ∈ op.prevCid, IsCid c

theorem opEntity_back {op : CommitOp Bytes} {e : OpEntity} (hc : OpCids op) (h : opEntity op = .ok e) :
    opOfEntity e = .ok op := by
  unfold opEntity at h
  dsimp only at h
  split at h
  · cases h
    simp only [opOfEntity, textAction_actionText, optCid_map hc.1, optCid_map hc.2]
    rfl
  · cases h

theorem opEntities_back : ∀ {ops : List (CommitOp Bytes)} {es : List OpEntity}, (∀ op ∈ ops, OpCids op) →
    opEntities ops = .ok es → opsOfEntities es = .ok ops
  | [], es, _, h => by cases h; rfl
  | op :: ops, es, hc, h => by
    unfold opEntities at h
    cases h1 : opEntity op with
    | error e => rw [h1] at h; cases h
    | ok e =>
      cases h2 : opEntities ops with
      | error x => rw [h1, h2] at h; cases h
      | ok es' =>
        rw [h1, h2] at h
        cases h
        have i1 := opEntity_back (hc op (by simp)) h1
        have i2 := opEntities_back (fun o ho => hc o (by simp [ho])) h2
        unfold opsOfEntities
        rw [i1, i2]
        rfl

/-- storage.py 72-142. What CIDs a block has. -/
def BlockCids (b : PyBlock) : Prop := IsCid b.cid ∧ ∀ op ∈ b.ops.getD [], OpCids op

/-- What reading gives for a block that was written. -/
def PyBlock.stored (here : Int → Int) (d : Did) (b : PyBlock) : PyBlock :=
  { b with ops := some (b.ops.getD []), time := ⟨b.time.moment here, none⟩, repo := .key d }

theorem fromBlock_ok {here : Int → Int} {b : PyBlock} {e : BlockEntity} (h : fromBlock here b = .ok e) :
    ∃ d seq ops, b.repo = .did d ∧ nameOk d = true ∧ b.seq = some seq ∧ opEntities (b.ops.getD []) = .ok ops ∧
      nameOk (cidText b.cid) = true ∧ e = ⟨cidText b.cid, b.encoded, d, seq, ops, b.time.moment here⟩ := by
  unfold fromBlock at h
  cases h1 : opEntities (b.ops.getD []) with
  | error x => rw [h1] at h; cases h
  | ok ops =>
    rw [h1] at h
    cases h2 : b.repo with
    | none => rw [h2] at h; cases h
    | key d => rw [h2] at h; cases h
    | did d =>
      rw [h2] at h
      by_cases h3 : nameOk d = true
      · simp only [h3, if_true] at h
        cases h4 : b.seq with
        | none => rw [h4] at h; cases h
        | some seq =>
          rw [h4] at h
          by_cases h5 : nameOk (cidText b.cid) = true
          · simp only [h5, if_true] at h
            cases h
            exact ⟨d, seq, ops, rfl, h3, rfl, rfl, h5, rfl⟩
          · simp only [h5] at h
            cases h
      · simp only [h3] at h
        cases h

theorem toBlock_fromBlock {here : Int → Int} {b : PyBlock} {e : BlockEntity} {d : Did} (hc : BlockCids b)
    (hd : b.repo = .did d) (h : fromBlock here b = .ok e) : toBlock e = .ok (b.stored here d) := by
  obtain ⟨d', seq, ops, h1, _, h3, h4, _, rfl⟩ := fromBlock_ok h
  rw [hd] at h1
  cases h1
  unfold toBlock
  rw [opEntities_back hc.2 h4, textCid_cidText hc.1]
  simp only [PyBlock.stored, h3]
  rfl

theorem newEntities_ids {here : Int → Int} {ds : Entities} : ∀ {bs : List PyBlock} {es : List BlockEntity},
    newEntities here ds bs = .ok es → ∀ e ∈ es, ∃ b ∈ bs, fromBlock here b = .ok e ∧
      dictGet ds (cidText b.cid) = none
  | [], es, h => by cases h; simp
  | b :: bs, es, h => by
    unfold newEntities at h
    split at h
    · intro e he
      obtain ⟨b', hb, h'⟩ := newEntities_ids h e he
      exact ⟨b', by simp [hb], h'⟩
    · rename_i hn
      cases h1 : fromBlock here b with
      | error x => rw [h1] at h; cases h
      | ok e1 =>
        cases h2 : newEntities here ds bs with
        | error x => rw [h1, h2] at h; cases h
        | ok es1 =>
          rw [h1, h2] at h
          cases h
          intro e he
          rcases List.mem_cons.1 he with rfl | he
          · exact ⟨b, by simp, h1, by simpa using hn⟩
          · obtain ⟨b', hb, h'⟩ := newEntities_ids h2 e he
            exact ⟨b', by simp [hb], h'⟩

theorem newEntities_has {here : Int → Int} {ds : Entities} : ∀ {bs : List PyBlock} {es : List BlockEntity},
    newEntities here ds bs = .ok es → ∀ b ∈ bs, dictGet ds (cidText b.cid) = none →
      ∃ e ∈ es, fromBlock here b = .ok e
  | [], es, h => by simp
  | b :: bs, es, h => by
    unfold newEntities at h
    intro b' hb' hn'
    split at h
    · rename_i hs
      rcases List.mem_cons.1 hb' with rfl | hb'
      · rw [hn'] at hs; cases hs
      · exact newEntities_has h b' hb' hn'
    · cases h1 : fromBlock here b with
      | error x => rw [h1] at h; cases h
      | ok e1 =>
        cases h2 : newEntities here ds bs with
        | error x => rw [h1, h2] at h; cases h
        | ok es1 =>
          rw [h1, h2] at h
          cases h
          rcases List.mem_cons.1 hb' with rfl | hb'
          · exact ⟨e1, by simp, h1⟩
          · obtain ⟨e, he, h'⟩ := newEntities_has h2 b' hb' hn'
            exact ⟨e, by simp [he], h'⟩

/-- A dict that entities are put into. -/
theorem dictGet_put {k : Key} : ∀ {es : List BlockEntity} {ds : Entities},
    (∀ e ∈ es, e.id ≠ k) → dictGet (es.foldl (fun ds e => dictSet ds e.id e) ds) k = dictGet ds k
  | [], ds, _ => rfl
  | e :: es, ds, h => by
    rw [List.foldl_cons, dictGet_put (fun x hx => h x (by simp [hx])), dictGet_dictSet,
      if_neg (fun hk => h e (by simp) hk.symm)]

theorem dictGet_put_mem {k : Key} {x : BlockEntity} : ∀ {es : List BlockEntity} {ds : Entities},
    (∃ e ∈ es, e.id = k) → (∀ e ∈ es, e.id = k → e = x) →
    dictGet (es.foldl (fun ds e => dictSet ds e.id e) ds) k = some x
  | [], ds, h, _ => by obtain ⟨e, he, _⟩ := h; cases he
  | e :: es, ds, h, hx => by
    by_cases hr : ∃ e ∈ es, e.id = k
    · rw [List.foldl_cons]
      exact dictGet_put_mem hr (fun y hy => hx y (by simp [hy]))
    · have hno : ∀ y ∈ es, y.id ≠ k := fun y hy hk => hr ⟨y, hy, hk⟩
      obtain ⟨y, hy, hk⟩ := h
      rcases List.mem_cons.1 hy with rfl | hy
      · rw [List.foldl_cons, dictGet_put hno, dictGet_dictSet, if_pos hk.symm, hx y (by simp) hk]
      · exact absurd hk (hno y hy)

/-! ### What ndb accepts -/

theorem utf8_ascii : ∀ {s : Key}, (∀ c ∈ s, c.toNat < 128) → (utf8 s).length = s.length
  | [], _ => rfl
  | c :: s, h => by
    have ih := utf8_ascii (s := s) (fun x hx => h x (by simp [hx]))
    have h1 : c.utf8Size = 1 := Char.utf8Size_eq_one_iff.2 (by
      have := h c (by simp)
      show c.val.toNat ≤ _
      have e : c.toNat = c.val.toNat := rfl
      rw [e] at this
      exact Nat.le_of_lt_succ this)
    unfold utf8 at ih ⊢
    rw [List.flatMap_cons, List.length_append, String.length_utf8EncodeChar, h1, ih, List.length_cons]
    omega

theorem grammar_ascii {k : Key} (h : KeyGrammar k) : ∀ c ∈ k, c.toNat < 128 := by
  obtain ⟨_, a, b, rfl, _, _, ha, hb⟩ := h
  have key : ∀ d ∈ keyAlphabet, d.toNat < 128 := by decide +kernel
  intro c hc
  simp only [List.mem_append, List.mem_cons] at hc
  rcases hc with hc | rfl | hc
  · exact key c (ha c hc)
  · decide
  · exact key c (hb c hc)

theorem fits_path {k : Key} (h : KeyGrammar k) : fits k = true := by
  have h1 := h.1
  unfold fits
  rw [utf8_ascii (grammar_ascii h)]
  simp only [decide_eq_true_eq]
  omega

theorem b32_ascii : ∀ (l : List Bool), (∀ c ∈ b32Chars l, c.toNat < 128) ∧ (b32Chars l).length ≤ l.length := by
  have key : ∀ n, (b32Alphabet.getD n 'a').toNat < 128 := by
    intro n
    have hall : ∀ d ∈ b32Alphabet, d.toNat < 128 := by decide +kernel
    rw [List.getD_eq_getElem?_getD]
    cases hn : b32Alphabet[n]? with
    | none => decide
    | some d => exact hall d (List.mem_of_getElem? hn)
  intro l
  induction l using b32Chars.induct with
  | case1 a b c d e l ih =>
    simp only [b32Chars]
    refine ⟨fun x hx => ?_, by simp only [List.length_cons]; omega⟩
    rcases List.mem_cons.1 hx with rfl | hx
    · exact key _
    · exact ih.1 x hx
  | case2 => simp [b32Chars]
  | case3 l h1 h2 =>
    have e : b32Chars l = [b32Alphabet.getD (bitsNat (l ++ List.replicate (5 - l.length) false)) 'a'] := by
      rcases l with _ | ⟨a, _ | ⟨b, _ | ⟨c, _ | ⟨d, _ | ⟨e, l⟩⟩⟩⟩⟩
      · exact absurd rfl (h2)
      all_goals first | rfl | exact absurd rfl (h1 _ _ _ _ _ _)
    rw [e]
    refine ⟨fun x hx => ?_, ?_⟩
    · rw [List.mem_singleton.1 hx]; exact key _
    · rcases l with _ | ⟨a, l⟩
      · exact absurd rfl h2
      · simp

theorem flatMap_bits (c : Bytes) : (c.flatMap byteBits).length = 8 * c.length := by
  induction c with
  | nil => rfl
  | cons b c ih => rw [List.flatMap_cons, List.length_append, ih]; simp [byteBits]; omega

theorem fits_cid {c : Bytes} (h : c.length ≤ 187) : fits (cidText c) = true := by
  obtain ⟨h1, h2⟩ := b32_ascii (c.flatMap byteBits)
  rw [flatMap_bits] at h2
  unfold fits cidText
  rw [utf8_ascii]
  · simp only [decide_eq_true_eq, List.length_cons]; omega
  · intro x hx
    rcases List.mem_cons.1 hx with rfl | hx
    · decide
    · exact h1 x hx

theorem nameOk_cid {c : Bytes} (h : c.length ≤ 187) : nameOk (cidText c) = true := by
  unfold nameOk
  rw [fits_cid h]
  simp [cidText]

/-- An operation of a commit: a valid path, and CIDs that are not too long. -/
def OpFits (op : CommitOp Bytes) : Prop :=
  KeyGrammar op.path ∧ (∀ c ∈ op.cid, c.length ≤ 187) ∧ ∀ c ∈ op.prevCid, c.length ≤ 187

theorem opEntities_ok : ∀ {ops : List (CommitOp Bytes)}, (∀ op ∈ ops, OpFits op) → ∃ es, opEntities ops = .ok es
  | [], _ => ⟨[], rfl⟩
  | op :: ops, h => by
    obtain ⟨es, hes⟩ := opEntities_ok (ops := ops) (fun o ho => h o (by simp [ho]))
    obtain ⟨h1, h2, h3⟩ := h op (by simp)
    have i2 : (op.cid.map cidText).all fits = true := by
      cases hc : op.cid with
      | none => rfl
      | some c => exact fits_cid (h2 c hc)
    have i3 : (op.prevCid.map cidText).all fits = true := by
      cases hc : op.prevCid with
      | none => rfl
      | some c => exact fits_cid (h3 c hc)
    refine ⟨⟨actionText op.action, op.path, op.cid.map cidText, op.prevCid.map cidText⟩ :: es, ?_⟩
    unfold opEntities
    rw [hes]
    unfold opEntity
    dsimp only
    rw [fits_path h1, i2, i3]
    rfl

theorem fromBlock_accepts {here : Int → Int} {b : PyBlock} {d : Did} {seq : Nat} (hd : b.repo = .did d)
    (hn : nameOk d = true) (hs : b.seq = some seq) (hc : b.cid.length ≤ 187)
    (ho : ∀ op ∈ b.ops.getD [], OpFits op) : ∃ e, fromBlock here b = .ok e := by
  obtain ⟨es, hes⟩ := opEntities_ok ho
  refine ⟨⟨cidText b.cid, b.encoded, d, seq, es, b.time.moment here⟩, ?_⟩
  unfold fromBlock
  rw [hes, hd, hs]
  simp only [hn, if_true, nameOk_cid hc]
  rfl

end Arroba.Entity
