import Verif.Xrpc.Overlap
import Verif.Props.C46
import Verif.Props.C17

/-! Helper lemmas: exports while other requests are served. -/

namespace Arroba.Xrpc

open Arroba.Store Arroba.Tree

variable {C R : Type} [DecidableEq C] {L : Lib C R} {Z : Nat} {be : Backend} {al : Allow}
  {w : World C R} {cfg : Config R} {ord : Nat → List (Raw C R) → List (Raw C R)}

theorem createRepo_blocks (w : World C R) (r : Ref) : (createRepo L be w r).1.blocks = w.blocks := by
  unfold createRepo
  split
  · rfl
  · split
    · cases be <;> rfl
    · rfl

theorem loadRepo_sameBlocks (w : World C R) (q : Key) : (loadRepo be w q).1.blocks = w.blocks := by
  unfold loadRepo
  split
  · rfl
  · cases be with
    | memory => rfl
    | datastore =>
      dsimp only
      split
      · rfl
      · have : ∀ row : Row C, (repoLoad w row.head row.handle row.status row.key false).1.blocks = w.blocks := by
          intro row; unfold repoLoad; split <;> rfl
        rename_i row _
        have := this row
        split <;> (rename_i he; rw [he] at this; exact this)

theorem checkHead_blocks (out : Outside C) (w : World C R) (v : Val C R) :
    (checkHead be out w v).1.blocks = w.blocks := by
  unfold checkHead
  split
  · rename_i co
    have := loadRepo_sameBlocks (be := be) w co.did
    split
    · rename_i he; rw [he] at this; exact this
    · rename_i he; rw [he] at this; exact this
    · rename_i he; rw [he] at this
      split
      · exact this
      · split
        · exact this
        · split <;> exact this
  · rfl

theorem importLoop_blocks (out : Outside C) (root : C) : ∀ (l : List (C × Val C R)) (w : World C R)
    (st : Importing C R), (importLoop be out root w st l).1.blocks = w.blocks
  | [], w, st => rfl
  | (c, v) :: l, w, st => by
    unfold importLoop
    dsimp only
    split
    · have := checkHead_blocks (be := be) out w v
      split
      · rename_i he; rw [he] at this; exact this
      · rename_i he; rw [he] at this
        exact (importLoop_blocks out root l _ _).trans this
    · exact importLoop_blocks out root l _ _

theorem importRepo_grows (out : Outside C) (w : World C R) (header : Option Key)
    (file : Except Err (Car C R)) : Grows w.blocks (importRepo cfg L be out w header file).1.blocks := by
  have hrefl : Grows w.blocks w.blocks := fun _ _ h => h
  unfold importRepo
  split
  · exact hrefl
  · split
    · exact hrefl
    · rename_i car
      split
      · exact hrefl
      · rename_i root _ _
        have := importLoop_blocks (be := be) out root car.blocks w ⟨[], none⟩
        split
        · rename_i he; rw [he] at this; rw [this]; exact hrefl
        · rename_i w' st he; rw [he] at this
          split
          · rw [this]; exact hrefl
          · rename_i co doc _
            rw [importInto, createRepo_blocks]
            show Grows w.blocks (importBlocks co.did w'.blocks st.blocks)
            rw [show w'.blocks = w.blocks from this]
            obtain ⟨l, hl, _⟩ := importBlocks_append co.did st.blocks w.blocks
            rw [hl]
            intro c b hb
            rw [dictGet_append, hb]

theorem Meanwhile.grows {w' : World C R} (h : Meanwhile cfg L be w w') : Grows w.blocks w'.blocks := by
  induction h with
  | none => exact fun _ _ h => h
  | step _ hs ih => exact ih.trans hs.puts.grows
  | «import» _ out header file ih => exact ih.trans (importRepo_grows out _ header file)

/-- All that is reachable from these CIDs is stored. -/
structure AllThere (w : World C R) (S : C → Prop) : Prop where
  there : ∀ c, S c → ∃ b, w.read c = some b
  values : ∀ c b d, S c → w.read c = some b → b.val = .node d → ∀ e ∈ d.e, S e.v
  children : ∀ c b d, S c → w.read c = some b → b.val = .node d → ∀ x ∈ d.children, S x

theorem rawDict_grows {w' : World C R} (hg : Grows w.blocks w'.blocks) : ∀ (cids : List C)
    (acc : List (Raw C R)), (∀ c ∈ cids, ∃ b, w.read c = some b) → rawDict w' cids acc = rawDict w cids acc
  | [], acc, _ => rfl
  | c :: cs, acc, h => by
    obtain ⟨b, hb⟩ := h c List.mem_cons_self
    unfold rawDict
    rw [hb, show w'.read c = some b from hg c b hb]
    exact rawDict_grows hg cs _ (fun x hx => h x (.tail _ hx))

theorem readManyRaw_grows {w' : World C R} (hg : Grows w.blocks w'.blocks) {f : List (Raw C R) → List (Raw C R)}
    {cids : List C} (h : ∀ c ∈ cids, ∃ b, w.read c = some b) :
    readManyRaw be f w' cids = readManyRaw be f w cids := by
  have hr := rawDict_grows hg cids [] h
  have ha : ∀ w'' : World C R, Grows w.blocks w''.blocks → cids.all (fun c => (w''.read c).isSome) = true := by
    intro w'' hg'
    rw [List.all_eq_true]
    intro c hc
    obtain ⟨b, hb⟩ := h c hc
    rw [show w''.read c = some b from hg' c b hb]
    rfl
  unfold readManyRaw
  cases be with
  | memory =>
    dsimp only
    rw [if_pos (ha _ hg), if_pos (ha _ (fun _ _ h => h)), hr]
  | datastore => dsimp only; rw [hr]

theorem loadRound_in {S : C → Prop} (hS : AllThere w S) {start : Int} : ∀ {items : List (Raw C R)} {r : Round C R},
    (∀ i ∈ items, S i.1 ∧ ∃ b, w.read i.1 = some b ∧ i.2 = (b.val, b.seq)) → loadRound start items = .ok r →
    (∀ c ∈ r.fetch, S c) ∧ ∀ c ∈ r.records, S c
  | [], r, _, h => by
    cases h
    exact ⟨fun _ h => (by cases h), fun _ h => (by cases h)⟩
  | (c, v, seq) :: rest, r, hi, h => by
    unfold loadRound at h
    have ih := fun r => loadRound_in hS (start := start) (items := rest) (r := r) (fun i h => hi i (.tail _ h))
    split at h
    · exact ih r h
    · split at h
      · rename_i d
        cases hr : loadRound start rest with
        | error e => rw [hr] at h; cases h
        | ok r' =>
          rw [hr] at h
          cases h
          obtain ⟨hSc, b, hb, he⟩ := hi _ List.mem_cons_self
          obtain ⟨he1, he2⟩ := Prod.mk.inj he
          obtain ⟨i1, i2⟩ := ih r' hr
          dsimp only
          rw [node_values, node_pointers]
          refine ⟨fun x hx => ?_, fun x hx => ?_⟩
          · rcases List.mem_append.1 hx with hx | hx
            · exact hS.children c b d hSc hb he1.symm x hx
            · exact i1 x hx
          · rcases List.mem_append.1 hx with hx | hx
            · obtain ⟨e, he, rfl⟩ := List.mem_map.1 hx
              exact hS.values c b d hSc hb he1.symm e he
            · exact i2 x hx
      · cases h

theorem loadAllLoopAt_eq {S : C → Prop} (hS : AllThere w S) (hord : ∀ f l, (ord f l).Perm l)
    {ws : Nat → World C R} {wl : World C R} (hws : ∀ f, Grows w.blocks (ws f).blocks)
    (hwl : Grows w.blocks wl.blocks) (start : Int) : ∀ (f : Nat) (fetch records : List C),
    (∀ c ∈ fetch, S c) → (∀ c ∈ records, S c) →
    loadAllLoopAt be ord ws wl start f fetch records = loadAllLoop be ord w start f fetch records := by
  intro f
  induction f with
  | zero =>
    intro fetch records _ hr
    cases fetch with
    | nil =>
      unfold loadAllLoopAt loadAllLoop
      rw [readManyRaw_grows hwl (fun c hc => hS.there c (hr c hc))]
      cases readManyRaw be (ord _) w records <;> rfl
    | cons c cs => rfl
  | succ f ih =>
    intro fetch records hf hr
    cases fetch with
    | nil =>
      unfold loadAllLoopAt loadAllLoop
      rw [readManyRaw_grows hwl (fun c hc => hS.there c (hr c hc))]
      cases readManyRaw be (ord _) w records <;> rfl
    | cons c cs =>
      unfold loadAllLoopAt loadAllLoop
      rw [readManyRaw_grows (hws f) (fun c hc => hS.there c (hf c hc))]
      obtain ⟨items, h1, _, h3⟩ := readManyRaw_spec (be := be) (ord := ord f) (hord f) (w := w) (cids := c :: cs)
        (fun c hc => by obtain ⟨b, hb⟩ := hS.there c (hf c hc); rw [hb]; rfl)
      rw [h1]
      dsimp only
      cases hl : loadRound start items with
      | error e => rfl
      | ok r =>
        dsimp only
        obtain ⟨i1, i2⟩ := loadRound_in hS (fun i hi => by
          obtain ⟨k1, k2⟩ := (h3 i.1 i.2).1 hi
          exact ⟨hf _ k1, k2⟩) hl
        rw [ih r.fetch (records ++ r.records) i1 (fun x hx => by
          rcases List.mem_append.1 hx with hx | hx
          · exact hr x hx
          · exact i2 x hx)]
        cases loadAllLoop be ord w start f r.fetch (records ++ r.records) <;> rfl

/-- Everything in a repo is stored. -/
theorem inside_there {seq : Nat} (hc : Core L Z seq w) {head : C} {hb : Block C R} {co : Commit C}
    (h1 : w.read head = some hb) (h2 : hb.val = .commit co) : AllThere w (Inside w head) := by
  refine ⟨?_, fun c b d hi hb hv e he => .record hi hb hv he, fun c b d hi hb hv x hx => ?_⟩
  · obtain ⟨m, t, t1, t2, t3⟩ := hc.blocks.root h1 h2
    obtain ⟨l, _, hwf⟩ := t1.wf
    have hval : ∀ s ∈ nodes t, ∀ e ∈ (nodeOf L.env.H s).e, ∃ b r, w.read e.v = some b ∧
        b.val = .record r := by
      intro s hs e he
      obtain ⟨k, hk⟩ := ser_vals he
      have hk' := (mem_leaves_iff t1.sorted _ _).1 (leaves_of_node hs _ hk)
      rw [t1.map] at hk'
      obtain ⟨r, hr, hr'⟩ := Option.map_eq_some_iff.1 hk'
      obtain ⟨b, hb1, hb2⟩ := t1.recs k r hr
      exact ⟨b, r, by rw [← hr']; exact hb1, hb2⟩
    intro c hi
    rcases (inside_iff (L := L) h1 h2 t3.symm t2 hwf hval c).1 hi with rfl | ⟨s, hs, rfl | ⟨e, he, rfl⟩⟩
    · exact ⟨_, h1⟩
    · obtain ⟨b, hb, _⟩ := stored_read t2 hs; exact ⟨b, hb⟩
    · obtain ⟨b, _, hb, _⟩ := hval s hs e he; exact ⟨b, hb⟩
  · unfold NodeData.children at hx
    rcases List.mem_append.1 hx with hx | hx
    · exact .left hi hb hv (by simpa using hx)
    · obtain ⟨e, he, hex⟩ := List.mem_filterMap.1 hx
      exact .tree hi hb hv he hex

end Arroba.Xrpc
