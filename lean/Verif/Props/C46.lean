import Verif.Xrpc.ImportProofs
import Verif.Xrpc.Example
import Verif.Props.C27
import Verif.Props.C30
import Verif.Props.C44

/-!
# C46: import preserves content

The CAR is what `carbox.read_car` returns; `TrueCids`: it has checked the CIDs of the blocks.
-/

namespace Arroba.Xrpc

open Arroba.Store

variable {C R : Type} [DecidableEq C] {L : Lib C R} {Z : Nat} {be : Backend} {al : Allow}
  {w : World C R} {cfg : Config R} {out : Outside C}

/-! ### The specification -/

/-- The CIDs of the CAR are those of its blocks. -/
def TrueCids (L : Lib C R) (car : Car C R) : Prop := ∀ x ∈ car.blocks, L.hash x.2 = x.1

/-- A storage that has just the blocks of the CAR. -/
def Car.world (car : Car C R) : World C R :=
  { (.empty : World C R) with blocks := car.blocks.map fun x => (x.1, ⟨x.2, 0, none, []⟩) }

/-- The CAR may be imported: its head `root` is there and is a commit; no repo is known by its DID; its
DID resolves to a document with a signing key; the signature verifies. -/
structure Importable (be : Backend) (out : Outside C) (w : World C R) (car : Car C R) (root : C)
    (co : Commit C) (doc : Doc) : Prop where
  first : car.roots.head? = some root
  head : (root, .commit co) ∈ car.blocks
  ok : HeadOK be out w co doc

/-- Loading by this name gives an object with these contents. -/
def Loads (be : Backend) (w : World C R) (q : Key) (o : RepoObj C R) : Prop :=
  ∃ w1 r, loadRepo be w q = (w1, .ok (some r)) ∧ w1.heap[r]? = some o

/-! ### Refusals -/

/-- Everything else is refused: the request fails, and all that is stored, the sequence numbers and
what subscribers are told stay the same. -/
theorem C46_refused (hL : L.OK Z) (hr : Reach L be al w) {header : Option Key} {file : Except Err (Car C R)}
    (hcid : ∀ car, file = .ok car → TrueCids L car)
    (h : ∀ car root co doc, file = .ok car → ¬ Importable be out w car root co doc) :
    ∃ w' e, importRepo cfg L be out w header file = (w', .error e) ∧ Loaded w w' := by
  unfold importRepo
  cases ha : auth cfg header with
  | error e => exact ⟨w, e, rfl, .refl w⟩
  | ok u =>
    cases file with
    | error e => exact ⟨w, e, rfl, .refl w⟩
    | ok car =>
      dsimp only
      cases hroots : car.roots with
      | nil => exact ⟨w, _, rfl, .refl w⟩
      | cons root rest =>
        dsimp only
        by_cases hm : root ∈ car.blocks.map (·.1)
        · obtain ⟨⟨c, v⟩, hv, rfl⟩ := List.mem_map.mp hm
          have huniq : ∀ v', (c, v') ∈ car.blocks → v' = v := fun v' hv' =>
            hL.inj ((hcid car rfl _ hv').trans (hcid car rfl _ hv).symm)
          obtain ⟨w1, e, h1, h2⟩ := checkHead_error (out := out) (v := v) (hr.plain hL).1.core (by
            rintro co doc rfl hok
            exact h car c co doc rfl ⟨by rw [hroots]; rfl, hv, hok⟩)
          rw [loop_error hm (fun v' hv' => by rw [huniq v' hv']; exact h1)]
          exact ⟨w1, e, rfl, h2⟩
        · have : importLoop be out root w ⟨[], none⟩ car.blocks = (w, .ok ⟨[] ++ car.blocks, none⟩) := by
            rw [loop_ok (co := ⟨0, [], [], none, root, []⟩) (doc := ⟨none, none⟩)
              (fun v hv => absurd (List.mem_map_of_mem (f := (·.1)) hv) hm), if_neg hm]
          rw [this]
          exact ⟨w, _, rfl, .refl w⟩

/-! ### Imports -/

/-- What `importRepo` leaves behind. -/
theorem import_eq (hL : L.OK Z) (hr : Reach L be al w) {header : Option Key}
    (ha : auth cfg header = .ok ()) {car : Car C R} (hcid : TrueCids L car) {root : C} {co : Commit C}
    {doc : Doc} (h : Importable be out w car root co doc) :
    importRepo cfg L be out w header (.ok car) =
      createRepo L be ⟨importBlocks co.did w.blocks car.blocks, w.seqs,
        w.heap ++ [⟨Arroba.load co.data, some ⟨.commit co, 0, none, co.did⟩, doc.handle,
          some .deactivated, out.newKey, false⟩], w.repos, w.rows, w.log⟩ w.heap.length := by
  unfold importRepo
  rw [ha]
  dsimp only
  obtain ⟨rest, hroots⟩ : ∃ rest, car.roots = root :: rest := by
    have := h.first
    cases hc : car.roots with
    | nil => rw [hc] at this; cases this
    | cons a l => rw [hc] at this; cases this; exact ⟨l, rfl⟩
  rw [hroots]
  dsimp only
  rw [loop_ok (co := co) (doc := doc) (fun v hv => by
    rw [show v = .commit co from hL.inj ((hcid _ hv).trans (hcid _ h.head).symm)]
    exact checkHead_ok (hr.plain hL).1.core h.ok)]
  dsimp only
  rw [if_pos (List.mem_map_of_mem (f := (·.1)) h.head)]
  rfl

/-- The stored state after an import. -/
structure Imported (L : Lib C R) (be : Backend) (out : Outside C) (car : Car C R) (root : C)
    (co : Commit C) (doc : Doc) (w w' : World C R) : Prop where
  /-- The new repo is known by its DID; it is deactivated, and its head is the head of the CAR. -/
  repo : ∃ o b, Loads be w' co.did o ∧ o.did = some co.did ∧ o.head = some b ∧ L.hash b.val = root ∧
    o.status = some .deactivated ∧ o.handle = doc.handle ∧ o.key = out.newKey ∧
    o.mst = Arroba.load co.data
  /-- Every CAR block is stored. -/
  blocks : ∀ x ∈ car.blocks, ∃ b, w'.read x.1 = some b ∧ b.val = x.2
  /-- What was stored stays the same. -/
  kept : ∀ c b, w.read c = some b → w'.read c = some b
  /-- Nothing else is stored, and new blocks have the sequence number 0. -/
  only : ∀ c b, w'.read c = some b → w.read c = some b ∨
    b.seq = 0 ∧ b.repo = co.did ∧ (c, b.val) ∈ car.blocks
  /-- New blocks come after the old ones. -/
  order : ∃ l, w'.blocks = w.blocks ++ l ∧ ∀ x ∈ l, x.2.seq = 0
  /-- No sequence number is used up, and no callback is called. -/
  seqs : w'.seqs = w.seqs
  log : w'.log = w.log
  /-- All repos that were there are found as before, by DID and by handle. -/
  others : ∀ q o, Loads be w q o → Loads be w' q o
  /-- Nothing else can be found now. -/
  onlyRepo : ∀ q o, q ≠ co.did → doc.handle ≠ some q → (Loads be w' q o ↔ Loads be w q o)

theorem findRepo_append {w : World C R} (q : Key) (x : Did × Ref) : ∀ l : List (Did × Ref),
    findRepo w q (l ++ [x]) = (findRepo w q l).or (findRepo w q [x])
  | [] => rfl
  | (d, r) :: l => by
    rw [List.cons_append]
    unfold findRepo
    cases w.heap[r]? with
    | none => exact findRepo_append q x l
    | some o =>
      dsimp only
      split
      · rfl
      · exact findRepo_append q x l

theorem findRepo_heap {w w' : World C R} (q : Key) : ∀ l : List (Did × Ref),
    (∀ x ∈ l, w'.heap[x.2]? = w.heap[x.2]?) → findRepo w' q l = findRepo w q l
  | [], _ => rfl
  | (d, r) :: l, h => by
    unfold findRepo
    rw [h _ List.mem_cons_self, findRepo_heap q l (fun x hx => h x (.tail _ hx))]

/-- A CAR that may be imported is, and the new repo is there. -/
theorem C46_imported (hL : L.OK Z) (hr : Reach L be al w) {header : Option Key}
    (ha : auth cfg header = .ok ()) {car : Car C R} (hcid : TrueCids L car) {root : C} {co : Commit C}
    {doc : Doc} (h : Importable be out w car root co doc) :
    ∃ w', importRepo cfg L be out w header (.ok car) = (w', .ok ()) ∧
      Imported L be out car root co doc w w' := by
  rw [import_eq hL hr ha hcid h]
  have hw := (hr.plain hL).1.core
  have hroot : L.hash (.commit co) = root := hcid _ h.head
  have hdid := h.ok.did
  have hget := importBlocks_get co.did car.blocks w.blocks
  have hgrow : ∀ c b, dictGet w.blocks c = some b →
      dictGet (importBlocks co.did w.blocks car.blocks) c = some b := fun c b hb => by rw [hget, hb]
  have hall : ∀ x ∈ car.blocks, ∃ b, dictGet (importBlocks co.did w.blocks car.blocks) x.1 = some b ∧
      b.val = x.2 := by
    intro x hx
    rw [hget]
    cases hb : dictGet w.blocks x.1 with
    | some b => exact ⟨b, rfl, hL.inj ((hw.blocks.addr _ _ hb).trans (hcid _ hx).symm)⟩
    | none =>
      cases hv : dictGet car.blocks x.1 with
      | none => exact absurd rfl (dictGet_eq_none.1 hv x hx)
      | some v =>
        exact ⟨_, rfl, hL.inj ((hcid _ (dictGet_mem hv)).trans (hcid _ hx).symm)⟩
  have honly : ∀ c b, dictGet (importBlocks co.did w.blocks car.blocks) c = some b →
      dictGet w.blocks c = some b ∨ b.seq = 0 ∧ b.repo = co.did ∧ (c, b.val) ∈ car.blocks := by
    intro c b hb
    rw [hget] at hb
    cases hb' : dictGet w.blocks c with
    | some b' => rw [hb'] at hb; exact .inl hb
    | none =>
      rw [hb'] at hb
      cases hv : dictGet car.blocks c with
      | none => rw [hv] at hb; cases hb
      | some v => rw [hv] at hb; cases hb; exact .inr ⟨rfl, rfl, dictGet_mem hv⟩
  have happ := importBlocks_append co.did car.blocks w.blocks
  obtain ⟨bh, hbh, hbv⟩ := hall _ h.head
  dsimp only at hbh hbv
  unfold createRepo
  dsimp only
  rw [List.getElem?_append_right (le_refl _), Nat.sub_self, List.getElem?_cons_zero]
  simp only [RepoObj.did]
  generalize hno : (⟨Arroba.load co.data, some ⟨.commit co, 0, none, co.did⟩, doc.handle,
    some .deactivated, out.newKey, false⟩ : RepoObj C R) = no at *
  cases be with
  | memory =>
    dsimp only
    refine ⟨_, rfl, ?_⟩
    have hnone : findRepo w co.did w.repos = none := by
      rcases findRepo_answers hw (q := co.did) (l := w.repos) (fun _ h => h) with
        ⟨h1, _⟩ | ⟨d, r, o, h1, h2, h3, h4, h5⟩
      · exact h1
      · exact absurd ⟨r, o, h2, h3, rfl, h5⟩ (h.ok.fresh d o.status)
    have hdict : dictGet w.repos co.did = none := by
      cases hd : dictGet w.repos co.did with
      | none => rfl
      | some r =>
        obtain ⟨_, o, ho, _⟩ := hw.repos _ _ (dictGet_mem hd)
        exact absurd ⟨r, o, dictGet_mem hd, ho, rfl, .inl rfl⟩ (h.ok.fresh co.did o.status)
    rw [dictSet_fresh hdict]
    generalize hw' : (⟨importBlocks co.did w.blocks car.blocks, w.seqs, w.heap ++ [no],
      w.repos ++ [(co.did, w.heap.length)], w.rows, w.log⟩ : World C R) = w'
    have hheap : ∀ x ∈ w.repos, w'.heap[x.2]? = w.heap[x.2]? := by
      intro x hx
      obtain ⟨_, o, ho, _⟩ := hw.repos _ _ hx
      subst hw'
      dsimp only
      rw [List.getElem?_append_left (lt_of_get ho)]
    have hnew : w'.heap[w.heap.length]? = some no := by subst hw'; simp
    have hfind : ∀ q, findRepo w' q w'.repos = (findRepo w q w.repos).or
        (if answersTo q no then some w.heap.length else none) := by
      intro q
      rw [show w'.repos = w.repos ++ [(co.did, w.heap.length)] by rw [← hw'], findRepo_append,
        findRepo_heap q _ hheap]
      congr 1
      unfold findRepo
      rw [hnew]
      rfl
    have hndid : no.did = some co.did := by subst hno; rfl
    have hmem : ∀ {q r}, findRepo w q w.repos = some r → w'.heap[r]? = w.heap[r]? := by
      intro q r hq
      rcases findRepo_answers hw (q := q) (l := w.repos) (fun _ h => h) with
        ⟨h1, _⟩ | ⟨d, r', o, h1, h2, _⟩
      · rw [h1] at hq; cases hq
      · rw [h1] at hq; cases hq; exact hheap _ h2
    have hloads : ∀ q o, q ≠ [] → (Loads .memory w' q o ↔
        ∃ r, findRepo w' q w'.repos = some r ∧ w'.heap[r]? = some o) := by
      intro q o hq
      unfold Loads loadRepo
      rw [if_neg hq]
      dsimp only
      constructor
      · rintro ⟨w1, r, h1, h2⟩
        obtain ⟨rfl, h1'⟩ := Prod.mk.inj h1
        exact ⟨r, Except.ok.inj h1', h2⟩
      · rintro ⟨r, h1, h2⟩
        exact ⟨w', r, by rw [h1], h2⟩
    have hloads0 : ∀ q o, q ≠ [] → (Loads .memory w q o ↔
        ∃ r, findRepo w q w.repos = some r ∧ w.heap[r]? = some o) := by
      intro q o hq
      unfold Loads loadRepo
      rw [if_neg hq]
      dsimp only
      constructor
      · rintro ⟨w1, r, h1, h2⟩
        obtain ⟨rfl, h1'⟩ := Prod.mk.inj h1
        exact ⟨r, Except.ok.inj h1', h2⟩
      · rintro ⟨r, h1, h2⟩
        exact ⟨w, r, by rw [h1], h2⟩
    have hempty : ∀ (w : World C R) o, ¬ Loads .memory w [] o := by
      rintro w o ⟨w1, r, h1, _⟩
      unfold loadRepo at h1
      rw [if_pos rfl] at h1
      cases h1
    refine ⟨?_, ?_, ?_, ?_, by subst hw'; exact happ, by rw [← hw'], by rw [← hw'], ?_, ?_⟩
    · refine ⟨no, ⟨.commit co, 0, none, co.did⟩, (hloads _ _ hdid).2 ⟨_, ?_, hnew⟩, hndid, by rw [← hno],
        hroot, by rw [← hno], by rw [← hno], by rw [← hno], by rw [← hno]⟩
      rw [hfind, hnone, if_pos (by unfold answersTo; rw [hndid]; simp)]
      rfl
    · subst hw'; exact hall
    · subst hw'; exact hgrow
    · subst hw'; exact honly
    · intro q o hq
      by_cases hq0 : q = []
      · subst hq0; exact absurd hq (hempty w o)
      · obtain ⟨r, h1, h2⟩ := (hloads0 q o hq0).1 hq
        exact (hloads q o hq0).2 ⟨r, by rw [hfind, h1]; rfl, by rw [hmem h1]; exact h2⟩
    · intro q o hqd hqh
      by_cases hq0 : q = []
      · subst hq0; exact iff_of_false (hempty w' o) (hempty w o)
      · rw [hloads q o hq0, hloads0 q o hq0, hfind, if_neg (by
          unfold answersTo
          rw [hndid, ← hno]
          simp only [Bool.or_eq_true, decide_eq_true_eq, Option.some.injEq]
          rintro (h1 | h1)
          · exact hqd h1.symm
          · exact hqh h1), Option.or_none]
        constructor
        · rintro ⟨r, h1, h2⟩
          exact ⟨r, h1, by rw [← hmem h1]; exact h2⟩
        · rintro ⟨r, h1, h2⟩
          exact ⟨r, h1, by rw [hmem h1]; exact h2⟩
  | datastore =>
    dsimp only
    refine ⟨_, rfl, ?_⟩
    have hdict : dictGet w.rows co.did = none := by
      cases hd : dictGet w.rows co.did with
      | none => rfl
      | some row =>
        exact absurd ⟨row, dictGet_mem hd, rfl, .inl rfl⟩ (h.ok.fresh co.did row.status)
    rw [dictSet_fresh hdict]
    rw [hroot]
    generalize hrow : (⟨doc.handle, root, some .deactivated, out.newKey⟩ : Row C) = row
    generalize hw' : (⟨importBlocks co.did w.blocks car.blocks, w.seqs, w.heap ++ [no], w.repos,
      w.rows ++ [(co.did, row)], w.log⟩ : World C R) = w'
    have hread : ∀ c, w'.read c = dictGet (importBlocks co.did w.blocks car.blocks) c := by
      intro c; rw [← hw']; rfl
    have hcommit : commitAt w' root = .ok (bh, co) := by
      unfold commitAt
      rw [hread, hbh]
      dsimp only
      rw [hbv]
    have hloads : ∀ (w : World C R) q o, q ≠ [] → (Loads .datastore w q o ↔
        ∃ row b co, findRow w q = some row ∧ commitAt w row.head = .ok (b, co) ∧
          o = ⟨Arroba.load co.data, some b, row.handle, row.status, row.key, false⟩) := by
      intro w q o hq
      unfold Loads loadRepo
      rw [if_neg hq]
      dsimp only
      constructor
      · rintro ⟨w1, r, h1, h2⟩
        cases hf : findRow w q with
        | none => rw [hf] at h1; cases h1
        | some row =>
          rw [hf] at h1
          dsimp only [repoLoad] at h1
          cases hc : commitAt w row.head with
          | error e => rw [hc] at h1; cases h1
          | ok bc =>
            obtain ⟨b, co⟩ := bc
            rw [hc] at h1
            obtain ⟨rfl, h1'⟩ := Prod.mk.inj h1
            cases h1'
            refine ⟨row, b, co, rfl, hc, ?_⟩
            simp only [World.newObj, List.getElem?_append_right (le_refl _), Nat.sub_self,
              List.getElem?_cons_zero, Option.some.injEq] at h2
            exact h2.symm
      · rintro ⟨row, b, co, h1, h2, rfl⟩
        refine ⟨{ w with heap := w.heap ++ [⟨Arroba.load co.data, some b, row.handle, row.status,
          row.key, false⟩] }, w.heap.length, ?_, ?_⟩
        · rw [h1]
          dsimp only [repoLoad]
          rw [h2]
          rfl
        · simp
    have hempty : ∀ (w : World C R) o, ¬ Loads .datastore w [] o := by
      rintro w o ⟨w1, r, h1, _⟩
      unfold loadRepo at h1
      rw [if_pos rfl] at h1
      cases h1
    have hfind : ∀ q, q ≠ co.did → findRow w' q =
        (findRow w q).or (if doc.handle = some q then some row else none) := by
      intro q hq
      have h1 : dictGet w'.rows q = dictGet w.rows q := by
        rw [← hw']
        dsimp only
        rw [dictGet_append]
        cases dictGet w.rows q with
        | some _ => rfl
        | none => simp [dictGet, Ne.symm hq]
      unfold findRow
      rw [h1]
      cases dictGet w.rows q with
      | some x => rfl
      | none =>
        dsimp only
        rw [← hw']
        dsimp only
        rw [List.find?_append]
        cases w.rows.find? (fun kv => decide (kv.2.handle = some q)) with
        | some x => rfl
        | none =>
          by_cases hh : doc.handle = some q
          · rw [if_pos hh, ← hrow]
            simp [hh]
          · rw [if_neg hh, ← hrow]
            simp [hh]
    have hold : ∀ {q row}, findRow w q = some row → ∃ b co, commitAt w row.head = .ok (b, co) ∧
        commitAt w' row.head = .ok (b, co) := by
      intro q row hq
      have hm : ∃ d, (d, row) ∈ w.rows := by
        unfold findRow at hq
        cases hd : dictGet w.rows q with
        | some x => rw [hd] at hq; cases hq; exact ⟨q, dictGet_mem hd⟩
        | none =>
          rw [hd] at hq
          obtain ⟨kv, h1, h2⟩ := Option.map_eq_some_iff.1 hq
          exact ⟨kv.1, h2 ▸ List.mem_of_find?_eq_some h1⟩
      obtain ⟨d, hm⟩ := hm
      obtain ⟨_, b, c, h1, h2, _⟩ := hw.rows d row hm
      refine ⟨b, c, ?_, ?_⟩
      · unfold commitAt World.read; rw [h1]; simp only [h2]
      · unfold commitAt; rw [hread, hgrow _ _ h1]; simp only [h2]
    have hnofind : findRow w co.did = none := by
      cases hf : findRow w co.did with
      | none => rfl
      | some row =>
        obtain ⟨b, c, h1, h2⟩ := hold hf
        have : Loads .datastore w co.did _ := (hloads w co.did _ hdid).2 ⟨row, b, c, hf, h1, rfl⟩
        obtain ⟨w1, r, h3, _⟩ := this
        rcases loadRepo_answers hw hdid with ⟨h4, _⟩ | ⟨d, st, _, _, _, h4, _⟩
        · rw [h4] at h3; cases h3
        · exact absurd h4 (h.ok.fresh d st)
    refine ⟨?_, fun x hx => by rw [hread]; exact hall x hx, fun c b hb => by rw [hread]; exact hgrow c b hb,
      fun c b hb => honly c b (by rw [← hread]; exact hb), by subst hw'; exact happ,
      by rw [← hw'], by rw [← hw'], ?_, ?_⟩
    · refine ⟨_, bh, (hloads w' _ _ hdid).2 ⟨row, bh, co, ?_, ?_, rfl⟩, did_eq rfl hbv, rfl,
        by rw [hbv, hroot], by rw [← hrow], by rw [← hrow], by rw [← hrow], rfl⟩
      · unfold findRow
        rw [← hw']
        dsimp only
        rw [dictGet_append, hdict]
        simp [dictGet]
      · rw [← hrow]; exact hcommit
    · intro q o hq
      by_cases hq0 : q = []
      · subst hq0; exact absurd hq (hempty w o)
      · obtain ⟨row', b, c, h1, h2, rfl⟩ := (hloads w q o hq0).1 hq
        have hne : q ≠ co.did := by rintro rfl; rw [hnofind] at h1; cases h1
        obtain ⟨b', c', h3, h4⟩ := hold h1
        rw [h2] at h3
        cases h3
        exact (hloads w' q _ hq0).2 ⟨row', b, c, by rw [hfind q hne, h1]; rfl, h4, rfl⟩
    · intro q o hqd hqh
      by_cases hq0 : q = []
      · subst hq0; exact iff_of_false (hempty w' o) (hempty w o)
      · rw [hloads w' q o hq0, hloads w q o hq0, hfind q hqd, if_neg hqh, Option.or_none]
        constructor
        · rintro ⟨row', b, c, h1, h2, h3⟩
          obtain ⟨b', c', h4, h5⟩ := hold h1
          rw [h2] at h5
          cases h5
          exact ⟨row', b, c, h1, h4, h3⟩
        · rintro ⟨row', b, c, h1, h2, h3⟩
          obtain ⟨b', c', h4, h5⟩ := hold h1
          rw [h2] at h4
          cases h4
          exact ⟨row', b, c, h1, h5, h3⟩

/-! ### The records -/

theorem loadRepo_blocks {be : Backend} {w w1 : World C R} {q : Key} {x : Except Err (Option Ref)}
    (h : loadRepo be w q = (w1, x)) : w1.blocks = w.blocks := by
  unfold loadRepo at h
  split at h
  · obtain ⟨rfl, _⟩ := Prod.mk.inj h; rfl
  · cases be with
    | memory => obtain ⟨rfl, _⟩ := Prod.mk.inj h; rfl
    | datastore =>
      dsimp only at h
      cases hf : findRow w q with
      | none => rw [hf] at h; obtain ⟨rfl, _⟩ := Prod.mk.inj h; rfl
      | some row =>
        rw [hf] at h
        dsimp only [repoLoad] at h
        cases hc : commitAt w row.head with
        | error e => rw [hc] at h; obtain ⟨rfl, _⟩ := Prod.mk.inj h; rfl
        | ok bc => rw [hc] at h; obtain ⟨rfl, _⟩ := Prod.mk.inj h; rfl

theorem ObjShows.obj {o o' : RepoObj C R} {m : Key → Option R} (hs : ObjShows L w o m)
    (h : o'.mst = o.mst) : ObjShows L w o' m :=
  ⟨hs.paths, fun c r => by unfold Store.getRecord; rw [h]; exact hs.get c r, by
    unfold getContents; rw [h]; exact hs.contents⟩

theorem commitShows_iff {c : C} {m : Key → Option R} : CommitShows L w c m ↔
    ∃ b co, w.read c = some b ∧ b.val = .commit co ∧
      ObjShows L w ⟨Arroba.load co.data, some b, none, none, 0, false⟩ m := by
  unfold CommitShows repoLoad
  constructor
  · rintro ⟨w1, r, o, h1, h2, h3⟩
    cases hc : commitAt w c with
    | error e => rw [hc] at h1; cases h1
    | ok bc =>
      obtain ⟨b, co⟩ := bc
      rw [hc] at h1
      obtain ⟨rfl, h1'⟩ := Prod.mk.inj h1
      cases h1'
      simp only [World.newObj, List.getElem?_append_right (le_refl _), Nat.sub_self,
        List.getElem?_cons_zero, Option.some.injEq] at h2
      subst h2
      unfold commitAt at hc
      cases hb : w.read c with
      | none => rw [hb] at hc; cases hc
      | some b' =>
        rw [hb] at hc
        dsimp only at hc
        split at hc
        · rename_i co' hv
          cases hc
          exact ⟨b, co, rfl, hv, ObjShows.congr (w := (w.newObj _).2) (w' := w) rfl h3⟩
        · cases hc
  · rintro ⟨b, co, h1, h2, h3⟩
    have : commitAt w c = .ok (b, co) := by unfold commitAt; rw [h1]; simp only [h2]
    rw [this]
    refine ⟨_, _, ⟨Arroba.load co.data, some b, none, none, 0, false⟩, rfl, ?_, ?_⟩
    · simp only [World.newObj, List.getElem?_append_right (le_refl _), Nat.sub_self,
        List.getElem?_cons_zero]
    · exact ObjShows.congr (w := w) (w' := (w.newObj _).2) rfl h3

theorem CommitShows.mono {w' : World C R} (h : ValLe w w') {c : C} {m : Key → Option R}
    (hs : CommitShows L w c m) : CommitShows L w' c m := by
  rw [commitShows_iff] at hs ⊢
  obtain ⟨b, co, h1, h2, h3⟩ := hs
  obtain ⟨b', g1, g2⟩ := h c b h1
  exact ⟨b', co, g1, g2.trans h2, ObjShows.obj (h3.mono h) rfl⟩

/-- If the CAR is complete, so that its head can be loaded and read from it alone, the new repo shows
exactly the records that the CAR has. -/
theorem C46_records_partial (hL : L.OK Z) (hr : Reach L be al w) {header : Option Key}
    (ha : auth cfg header = .ok ()) {car : Car C R} (hcid : TrueCids L car) {root : C} {co : Commit C}
    {doc : Doc} (h : Importable be out w car root co doc) {m : Key → Option R}
    (hm : CommitShows L car.world root m) :
    Shows L be (importRepo cfg L be out w header (.ok car)).1 co.did m := by
  obtain ⟨w', he, hi⟩ := C46_imported (cfg := cfg) hL hr ha hcid h
  rw [he]
  have hval : ValLe car.world w' := by
    intro c b hb
    have := dictGet_mem hb
    unfold Car.world at this
    obtain ⟨x, hx, hx'⟩ := List.mem_map.mp this
    obtain ⟨rfl, rfl⟩ := Prod.mk.inj hx'
    exact hi.blocks _ hx
  obtain ⟨b, co', h1, h2, h3⟩ := commitShows_iff.1 (CommitShows.mono hval hm)
  obtain ⟨b', h4, h5⟩ := hi.blocks _ h.head
  rw [h1] at h4
  cases h4
  rw [h2] at h5
  cases h5
  obtain ⟨o', b', ⟨w2, r', g1, g2⟩, _, _, _, _, _, _, g3⟩ := hi.repo
  exact ⟨w2, r', o', g1, g2, (ObjShows.obj h3 g3).congr (loadRepo_blocks g1)⟩

/-- All other repos show the same records as before. -/
theorem C46_others (hL : L.OK Z) (hr : Reach L be al w) {header : Option Key}
    (ha : auth cfg header = .ok ()) {car : Car C R} (hcid : TrueCids L car) {root : C} {co : Commit C}
    {doc : Doc} (h : Importable be out w car root co doc) {d : Did} {m : Key → Option R}
    (hm : Shows L be w d m) : Shows L be (importRepo cfg L be out w header (.ok car)).1 d m := by
  obtain ⟨w', he, hi⟩ := C46_imported (cfg := cfg) hL hr ha hcid h
  rw [he]
  obtain ⟨w1, r, o, h1, h2, h3⟩ := hm
  obtain ⟨w2, r', g1, g2⟩ := hi.others d o ⟨w1, r, h1, h2⟩
  refine ⟨w2, r', o, g1, g2, ObjShows.mono ?_ h3⟩
  intro c b hb
  refine ⟨b, ?_, rfl⟩
  unfold World.read at hb ⊢
  rw [loadRepo_blocks g1]
  rw [loadRepo_blocks h1] at hb
  exact hi.kept c b hb

/-! ### The firehose -/

theorem addRecords_congr {w w' : World C R} (hg : ∀ c b, w.read c = some b → w'.read c = some b) :
    ∀ (ops : List (CommitOp C)) (d : List (C × Option (Block C R))),
      (∀ op ∈ ops, op.action ≠ .delete → ∃ c b, op.cid = some c ∧ w.read c = some b) →
      addRecords w' d ops = addRecords w d ops
  | [], _, _ => rfl
  | op :: ops, d, h => by
    unfold addRecords
    have hrest : ∀ d, addRecords w' d ops = addRecords w d ops :=
      fun d => addRecords_congr hg ops d (fun op hop => h op (.tail _ hop))
    by_cases hd : op.action = .delete
    · rw [if_pos hd, if_pos hd, hrest]
    · rw [if_neg hd, if_neg hd]
      obtain ⟨c, b, h1, h2⟩ := h op List.mem_cons_self hd
      rw [h1]
      dsimp only
      cases dictGet d c with
      | some _ => exact hrest d
      | none => rw [hg c b h2, h2]; exact hrest _

theorem makeCommit_congr {hi : Nat} (hw : PBlocks L Z hi w.blocks) {w' : World C R}
    (hg : ∀ c b, w.read c = some b → w'.read c = some b) {cb : Block C R} {c : C}
    (hb : w.read c = some cb) (hl : looksCommit L cb.val = true) (hseq : cb.seq ≠ 0) (d : List (C × Option (Block C R))) :
    makeCommit w' cb d = makeCommit w cb d := by
  unfold makeCommit
  cases ho : cb.ops with
  | none => rfl
  | some ops =>
    dsimp only
    cases hv : cb.val with
    | commit co =>
      have hroot' := hw.root hb hv
      obtain ⟨ops', h1, h2⟩ := (hw.own hb hv (by omega)).ops
      rw [ho] at h1
      cases h1
      rw [addRecords_congr hg ops d (fun op hop hd => by
        obtain ⟨r, g1, b, g2, _⟩ := h2 op hop hd
        exact ⟨_, b, g1, g2⟩)]
      have hroot : ∃ b, w.read co.data = some b := by
        obtain ⟨t, l, _, _, _, _, hst, hc⟩ := hroot'
        have := hst t ((by simp [Tree.nodes]))
        rw [hc] at this
        unfold nodeIn at this
        cases hb : dictGet w.blocks co.data with
        | none => rw [hb] at this; cases this
        | some b => exact ⟨b, hb⟩
      obtain ⟨b, hb⟩ := hroot
      dsimp only
      rw [hb, hg _ _ hb]
    | node n => rw [hv] at hl; cases hl
    | record n =>
      obtain ⟨_, h1⟩ := hw.recs c cb n hb hv
      rw [ho] at h1
      cases h1
    | event n => rw [hv] at hl; cases hl

theorem scan_congr {hi : Nat} (hw : PBlocks L Z hi w.blocks) {w' : World C R}
    (hg : ∀ c b, w.read c = some b → w'.read c = some b) : ∀ (bs : List (Block C R)) (s : Scanner C R),
    (∀ b ∈ bs, ∃ c, w.read c = some b) →
    (∀ cb, s.commit = some cb → (∃ c, w.read c = some cb) ∧ looksCommit L cb.val = true ∧ cb.seq ≠ 0) →
    scan L w' s bs = scan L w s bs
  | [], s, _, hs => by
    unfold scan
    cases hc : s.commit with
    | none => rfl
    | some cb =>
      obtain ⟨⟨c, h1⟩, h2, h3⟩ := hs cb hc
      dsimp only
      rw [makeCommit_congr hw hg h1 h2 h3]
  | b :: bs, s, hb, hs => by
    unfold scan
    have hf : flush w' s = flush w s := by
      unfold flush
      cases hc : s.commit with
      | none => rfl
      | some cb =>
        obtain ⟨⟨c, h1⟩, h2, h3⟩ := hs cb hc
        dsimp only
        rw [makeCommit_congr hw hg h1 h2 h3]
    rw [hf]
    have hbs : ∀ b' ∈ bs, ∃ c, w.read c = some b' := fun b' h => hb b' (.tail _ h)
    have hrec : b.seq ≠ 0 → ∀ s' : Scanner C R, (s'.commit = none ∨ s'.commit = s.commit) →
        (scan L w' s' bs = scan L w s' bs ∧
         scan L w' { s' with
            blocks := dictSet s'.blocks (L.hash b.val) (some b),
            commit := if looksCommit L b.val then some b else s'.commit } bs =
         scan L w { s' with
            blocks := dictSet s'.blocks (L.hash b.val) (some b),
            commit := if looksCommit L b.val then some b else s'.commit } bs) := by
      intro hb0 s' hs'
      have h' : ∀ cb, s'.commit = some cb → (∃ c, w.read c = some cb) ∧ looksCommit L cb.val = true ∧ cb.seq ≠ 0 := by
        intro cb hcb
        rcases hs' with h | h
        · rw [h] at hcb; cases hcb
        · exact hs cb (h ▸ hcb)
      refine ⟨scan_congr hw hg bs s' hbs h', scan_congr hw hg bs _ hbs ?_⟩
      intro cb hcb
      dsimp only at hcb
      by_cases hl : looksCommit L b.val = true
      · rw [if_pos hl] at hcb
        cases hcb
        exact ⟨hb b List.mem_cons_self, hl, hb0⟩
      · rw [if_neg hl] at hcb
        exact h' cb hcb
    by_cases h0 : b.seq = 0
    · rw [if_pos h0, if_pos h0]
    · rw [if_neg h0, if_neg h0]
      by_cases hq : s.seq ≠ some b.seq
      · rw [if_pos hq]
        cases flush w s with
        | error e => rfl
        | ok o =>
          dsimp only
          obtain ⟨h1, h2⟩ := hrec h0 ⟨some b.seq, none, []⟩ (.inl rfl)
          dsimp only at h1 h2
          rw [h1, h2]
      · rw [if_neg hq]
        dsimp only
        obtain ⟨h1, h2⟩ := hrec h0 s (.inr rfl)
        rw [h1, h2]

/-- The firehose is unaffected: from any sequence number from 1 on (all that are ever allocated), the
event log has the same blocks as before, in the same order, and the same events are read from it. (And
no sequence number is used up, and no subscriber is told anything: `Imported.seqs`, `Imported.log`.) -/
theorem C46_firehose_partial (hL : L.OK Z) (hr : Reach L be al w) {header : Option Key}
    (ha : auth cfg header = .ok ()) {car : Car C R} (hcid : TrueCids L car) {root : C} {co : Commit C}
    {doc : Doc} (h : Importable be out w car root co doc) {start : Nat} (hst : 1 ≤ start)
    (repo : Option Did) {w' : World C R} (he : importRepo cfg L be out w header (.ok car) = (w', .ok ())) :
    readBlocksMemory w' start repo = readBlocksMemory w start repo ∧
    (∀ q, Query L w' start repo q ↔ Query L w start repo q) ∧
    (∀ q, Query L w start repo q → readEvents L w' q = readEvents L w q) := by
  obtain ⟨w1, he', hi⟩ := C46_imported (cfg := cfg) hL hr ha hcid h
  rw [he'] at he
  obtain rfl : w1 = w' := (Prod.mk.inj he).1
  refine ⟨?_, fun q => ?_, fun q hq => ?_⟩
  · obtain ⟨l, h1, h2⟩ := hi.order
    unfold readBlocksMemory
    rw [h1, List.map_append, List.filter_append]
    have : (l.map (·.2)).filter (fun b => decide (start ≤ b.seq) && inRepo repo b) = [] := by
      rw [List.filter_eq_nil_iff]
      intro b hb
      obtain ⟨x, hx, rfl⟩ := List.mem_map.mp hb
      have := h2 x hx
      rw [Bool.and_eq_true, decide_eq_true_eq]
      omega
    rw [this, List.append_nil]
  · have hm : ∀ b : Block C R, (w1.read (L.hash b.val) = some b ∧ start ≤ b.seq ∧ Concerns repo b) ↔
        (w.read (L.hash b.val) = some b ∧ start ≤ b.seq ∧ Concerns repo b) := by
      intro b
      constructor
      · rintro ⟨h1, h2, h3⟩
        rcases hi.only _ _ h1 with h4 | ⟨h4, _⟩
        · exact ⟨h4, h2, h3⟩
        · omega
      · rintro ⟨h1, h2, h3⟩
        exact ⟨hi.kept _ _ h1, h2, h3⟩
    constructor
    · exact fun hq => ⟨hq.sorted, hq.nodup, fun b => (hq.mem b).trans (hm b)⟩
    · exact fun hq => ⟨hq.sorted, hq.nodup, fun b => (hq.mem b).trans (hm b).symm⟩
  · exact scan_congr (hr.plain hL).1.core.blocks hi.kept q _ (fun b hb => ⟨_, ((hq.mem b).1 hb).1⟩)
      (fun cb hcb => by cases hcb)

/-! ### Examples -/

/-- A server with one repo, of another account. -/
def exHome (be : Backend) : ExWorld := (repoCreate exL be .empty exDid2 none 8 true 100 lucky false).1

theorem exHome_reach (be : Backend) : Reach exL be .orderly (exHome be) := by
  refine .step .empty (.create exDid2 none 8 true 100 lucky false ?_ ?_ ?_ ?_ ?_)
  · unfold isDid; decide +kernel
  · rintro h ⟨⟩
  · right; decide
  · exact .inr rfl
  · exact .inr rfl

/-- All DIDs resolve to a document with the key 7. -/
def exOut : Outside SC where
  resolve _ := .ok ⟨some 7, some exHandle⟩
  verifies co k := decide (co.sig.head? = some k)
  newKey := 9

/-- The head of Alice's repo elsewhere. -/
def exHead : SC := (readHead exL .memory (exW1 .memory) exDid).get (by decide +kernel)

/-- Her repo as a CAR. -/
def exCar : Car SC Nat := ⟨[exHead], (exW1 .memory).blocks.map fun x => (x.1, x.2.val)⟩

/-- The commit it points to. -/
def exHeadCommit : Commit SC :=
  match commitAt (exW1 .memory) exHead with
  | .ok (_, co) => co
  | .error _ => ⟨0, [], [], none, exHead, []⟩

theorem exCar_cids : TrueCids exL exCar := by
  unfold TrueCids; decide +kernel

theorem exCar_importable (be : Backend) :
    Importable be exOut (exHome be) exCar exHead exHeadCommit ⟨some 7, some exHandle⟩ where
  first := rfl
  head := by decide +kernel
  ok := {
    did := by decide +kernel
    fresh := fun d st => by
      cases be with
      | memory =>
        rintro ⟨r, o, h1, h2, _, h3⟩
        have h4 : (exHome .memory).repos = [(exDid2, 0)] := by decide +kernel
        rw [h4] at h1
        obtain ⟨rfl, rfl⟩ := Prod.mk.inj (List.mem_singleton.mp h1)
        rcases h3 with h3 | h3
        · revert h3; decide +kernel
        · have h5 : ((exHome .memory).heap[0]?).bind (·.handle) = none := by decide +kernel
          rw [h2] at h5
          rw [show o.handle = none from h5] at h3
          cases h3
      | datastore =>
        rintro ⟨row, h1, _, h3⟩
        have h4 : ∀ x ∈ (exHome .datastore).rows, x.1 = exDid2 ∧ x.2.handle = none := by decide +kernel
        obtain ⟨h5, h6⟩ := h4 _ h1
        rcases h3 with h3 | h3
        · exact absurd (h3.symm.trans h5) (by decide +kernel)
        · rw [h6] at h3; cases h3
    resolved := rfl
    sig := ⟨7, rfl, by decide +kernel⟩ }

theorem exCar_valLe : ValLe (exW1 .memory) exCar.world := by
  intro c b hb
  refine ⟨⟨b.val, 0, none, []⟩, ?_, rfl⟩
  unfold Car.world exCar World.read
  dsimp only
  rw [List.map_map]
  have : ∀ (l : List (SC × Block SC Nat)), dictGet l c = some b →
      dictGet (l.map ((fun x => (x.1, ⟨x.2, 0, none, []⟩)) ∘ fun x => (x.1, x.2.val))) c =
        some (⟨b.val, 0, none, []⟩ : Block SC Nat) := by
    intro l
    induction l with
    | nil => intro h; cases h
    | cons x l ih =>
      intro h
      rw [List.map_cons]
      unfold dictGet at h ⊢
      dsimp only [Function.comp] at h ⊢
      by_cases hx : x.1 = c
      · rw [if_pos hx] at h ⊢
        cases h
        rfl
      · rw [if_neg hx] at h ⊢
        exact ih h
  exact this _ hb

/-- Non-vacuity of `C46_records_partial`: the CAR is complete, and has the record `a`. -/
theorem exCar_complete : ∃ m : Key → Option Nat, CommitShows exL exCar.world exHead m ∧
    m "coll/a".toList = some 1 := by
  obtain ⟨b, hb, hv⟩ : ∃ b, (exW1 .memory).read exHead = some b ∧ b.val = .commit exHeadCommit := by
    have h1 : ((exW1 .memory).read exHead).map (·.val) = some (.commit exHeadCommit) := by decide +kernel
    cases hr : (exW1 .memory).read exHead with
    | none => rw [hr] at h1; cases h1
    | some b => rw [hr] at h1; exact ⟨b, rfl, Option.some.inj h1⟩
  obtain ⟨_, _, _, m, _, hm, _⟩ :=
    C27_stored_partial exL_ok (by exact id) (exW1_reach .memory) hb hv
      (Reach.native exL_ok (fun h => h) (exW1_reach .memory) hb)
  refine ⟨m, CommitShows.mono exCar_valLe hm, ?_⟩
  obtain ⟨b', co, h1, h2, h3⟩ := commitShows_iff.1 hm
  rw [h1] at hb
  cases hb
  rw [h2] at hv
  cases hv
  have h4 : Store.getRecord exL (exW1 .memory) ⟨Arroba.load exHeadCommit.data, none, none, none, 0, false⟩
      "coll".toList "a".toList = .ok (some (.record 1)) := by decide +kernel
  have h5 := (ObjShows.obj (o' := ⟨Arroba.load exHeadCommit.data, none, none, none, 0, false⟩) h3 rfl).get
    "coll".toList "a".toList
  rw [h4] at h5
  have h6 := Except.ok.inj h5
  cases hk : m ("coll".toList ++ '/' :: "a".toList) with
  | none => rw [hk] at h6; cases h6
  | some r => rw [hk] at h6; cases h6; exact hk

/-- So the import gives a repo with exactly these records. -/
example (be : Backend) : ∃ m : Key → Option Nat, m "coll/a".toList = some 1 ∧
    Shows exL be (importRepo exCfg exL be exOut (exHome be) exHeader (.ok exCar)).1
      exHeadCommit.did m := by
  obtain ⟨m, h1, h2⟩ := exCar_complete
  exact ⟨m, h2, C46_records_partial exL_ok (exHome_reach be) (by decide +kernel) exCar_cids (exCar_importable be) h1⟩

/-! ### What is not checked -/

/-- A CAR with the head only. -/
def exHeadCar : Car SC Nat := ⟨[exHead], [(exHead, .commit exHeadCommit)]⟩

def exBroken (be : Backend) : ExWorld :=
  (importRepo exCfg exL be exOut (exHome be) exHeader (.ok exHeadCar)).1

/-- What `get_record(collection, rkey)` gives, via `load_repo`. -/
def readVia (L : Lib C R) (be : Backend) (w : World C R) (d : Did) (collection rkey : Key) :
    Except Err (Option (Val C R)) :=
  match loadRepo be w d with
  | (w1, .ok (some r)) =>
    match w1.heap[r]? with
    | some o => Store.getRecord L w1 o collection rkey
    | none => .error .key
  | _ => .error .key

/-- **C46 (completeness is not checked).** A CAR without the tree and the records is imported, too, and
then the repo exists but can't be read. -/
theorem C46_incomplete_false (be : Backend) :
    (importRepo exCfg exL be exOut (exHome be) exHeader (.ok exHeadCar)).2.isOk = true ∧
    readVia exL be (exBroken be) exDid "coll".toList "a".toList = .error .attribute := by
  cases be <;> decide +kernel

/-- **C46 (reading the event log from 0).** After an import that stores a new block, reading the event
log from sequence number 0, the default, raises AssertionError at once: the blocks with the number 0 come
first. -/
theorem C46_events_false (hL : L.OK Z) (hr : Reach L be al w) {header : Option Key}
    (ha : auth cfg header = .ok ()) {car : Car C R} (hcid : TrueCids L car) {root : C} {co : Commit C}
    {doc : Doc} (h : Importable be out w car root co doc) {x : C × Val C R} (hx : x ∈ car.blocks)
    (hnew : w.read x.1 = none) {w' : World C R}
    (he : importRepo cfg L be out w header (.ok car) = (w', .ok ())) {q : List (Block C R)}
    (hq : Query L w' 0 none q) : readEvents L w' q = ([], some .assertion) := by
  obtain ⟨w1, he', hi⟩ := C46_imported (cfg := cfg) hL hr ha hcid h
  rw [he'] at he
  obtain rfl : w1 = w' := (Prod.mk.inj he).1
  obtain ⟨b, h1, h2⟩ := hi.blocks x hx
  have h3 : b.seq = 0 := by
    rcases hi.only _ _ h1 with h4 | ⟨h4, _⟩
    · rw [hnew] at h4; cases h4
    · exact h4
  have hm : b ∈ q := (hq.mem b).2 ⟨by rw [h2, hcid x hx]; exact h1, Nat.zero_le _, .inl rfl⟩
  cases q with
  | nil => cases hm
  | cons b0 bs =>
    have h0 : b0.seq = 0 := by
      rcases List.mem_cons.mp hm with rfl | hm
      · exact h3
      · have := (List.pairwise_cons.mp hq.sorted).1 b hm
        omega
    unfold readEvents scan
    rw [if_pos h0]

/-- Its hypotheses can be met. -/
example (be : Backend) : (exHead, .commit exHeadCommit) ∈ exCar.blocks ∧
    (exHome be).read exHead = none := by
  constructor
  · decide +kernel
  · cases be <;> decide +kernel

/-- Alice's repo on a server whose revs come from the clock. -/
def exClockCommit : Commit SC := { exHeadCommit with rev := "3kgq4m2aaaa22".toList, sig := [7] }

def exClockCar : Car SC Nat := ⟨[exL.hash (.commit exClockCommit)],
  (exL.hash (.commit exClockCommit), .commit exClockCommit) :: exCar.blocks⟩

/-- The imported repo, activated. -/
def exMoved : ExWorld :=
  (activateRepo exL .memory (importRepo exCfg exL .memory exOut (exHome .memory) exHeader
    (.ok exClockCar)).1 1 300).1

/-- `rev` of the head of a repo. -/
def revOf (L : Lib C R) (be : Backend) (w : World C R) (d : Did) : Option Key :=
  match readHead L be w d with
  | none => none
  | some c =>
    match commitAt w c with
    | .ok (_, co) => some co.rev
    | .error _ => none

/-- **C46 (revs go back).** The revs of this server are the TIDs of small sequence numbers, so the first
commit after an import can have a smaller rev than the imported head. -/
theorem C46_rev_false :
    let r := commit exL .memory exMoved 1 [wr .create "z" (some 5)] none lucky false
    revOf exL .memory exMoved exDid = some "3kgq4m2aaaa22".toList ∧ r.2.isOk = true ∧
    (∃ rev, revOf exL .memory r.1 exDid = some rev ∧ rev < "3kgq4m2aaaa22".toList) := by
  refine ⟨by decide +kernel, by decide +kernel, "2222222222a22".toList, ?_, by decide +kernel⟩
  decide +kernel

end Arroba.Xrpc
