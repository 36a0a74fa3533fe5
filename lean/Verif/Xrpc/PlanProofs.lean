import Verif.Xrpc.KeptProofs
import Verif.Xrpc.SurviveProofs

/-! Helper lemmas: what a request has found out when it has read. -/

namespace Arroba.Xrpc

open Arroba.Store Arroba.Tree

variable {C R : Type} [DecidableEq C] {L : Lib C R} {Z : Nat} {w : World C R} {cfg : Config R}
  {A : Accounts R} {out : Surroundings}

/-- A request that has found out what to write. Whenever the account is active and has this handle: if the write is
possible, then the answer and the effect are right; if it isn't, although the record exists or doesn't exist as
expected, then it is right to refuse it. -/
structure Planned (handle : Option Key) (L : Lib C R) (serves : Accounts R → Answer C R → Accounts R → Prop)
    (job : Job R) (ans : Answer C R) (x : Write R) : Prop where
  writes : job.writes = [x]
  accepts : ∀ (A1 : Accounts R) (a1 : Account R) (m : Key → Option R), A1 job.did = some a1 →
    a1.handle = handle → a1.status = none → (∀ k, a1.records k ≠ none → KeyGrammar k) →
    specWrites L a1.records job.writes = .ok m →
    (∀ e, ans ≠ .failed e) ∧ serves A1 ans (Function.update A1 job.did (some { a1 with records := m }))
  refuses : ∀ (m : Key → Option R) (e : Err), (∀ k, m k ≠ none → KeyGrammar k) → specWrite L m x = .error e →
    (m x.path = none ↔ x.action = .create) → ∀ (A1 : Accounts R) (a1 : Account R), A1 job.did = some a1 →
    a1.handle = handle → a1.status = none → serves A1 (.failed e) A1

/-- Where a request is after reading. -/
def PlanOK (A : Accounts R) (L : Lib C R) (serves : Accounts R → Answer C R → Accounts R → Prop)
    (aims : Did → Key → Prop) : Stage C R → Prop
  | .answered ans => serves A ans A
  | .writing job ans => ∃ a x, A job.did = some a ∧ a.status = none ∧ isDid job.did ∧
      Planned a.handle L serves job ans x ∧ (a.records x.path = none ↔ x.action = .create) ∧ aims job.did x.path
  | _ => False

theorem Finds.again {q : Key} {d : Did} {a : Account R} (h : Finds cfg A q (.ok (d, a))) {A1 : Accounts R}
    {a1 : Account R} (h1 : A1 d = some a1) (hh : a1.handle = a.handle) (hs : a1.status = none) :
    Finds cfg A1 q (.ok (d, a1)) := by
  cases h with
  | found ht hn ha hname hst =>
    exact .found ht hn h1 (hname.imp_right fun h => hh.trans h) hs

theorem Finds.status {q : Key} {d : Did} {a : Account R} (h : Finds cfg A q (.ok (d, a))) :
    A d = some a ∧ a.status = none := by
  cases h with
  | found ht hn ha hname hst => exact ⟨ha, hst⟩

theorem Finds.names {q : Key} {d : Did} {a : Account R} (h : Finds cfg A q (.ok (d, a)))
    {names : Did → Option Key} (hn : Named names A) : Designates cfg names q d := by
  cases h with
  | found ht _ ha hname hst => exact ⟨_, ht, hname.imp_right fun h => (hn d a ha).symm.trans h⟩

open scoped Classical in
theorem planPut_ok (hL : L.OK Z) (h : Kept L Z w A) (ha : Addressed L w.blocks) (hf : cfg.flask = true)
    {names : Did → Option Key} (hn : Named names A) (header : Option Key) (inp : Input R) :
    PlanOK A L (fun A1 ans A2 => ServesPut cfg L A1 header inp ans A2)
      (fun d p => Designates cfg names (inp.repo.getD []) d ∧ ∃ c k, inp.collection = some c ∧ inp.rkey = some k ∧ p = pathOf c k)
      (planPut cfg L w header inp) := by
  by_cases hm : Malformed cfg inp none
  · unfold planPut putRead
    rw [validate_iff, if_pos hm]
    show ServesPut _ _ _ _ _ _ _
    unfold ServesPut
    rw [if_pos hm]
    exact ⟨rfl, rfl⟩
  by_cases hau : Authorized cfg header
  swap
  · unfold planPut putRead
    rw [validate_iff, if_neg hm, auth_iff hf, if_neg hau]
    show ServesPut _ _ _ _ _ _ _
    unfold ServesPut
    rw [if_neg hm, if_pos hau]
    exact ⟨rfl, rfl⟩
  obtain ⟨w1, res, _, h4, h5⟩ := putRead_gives hL (h.loadsAs (cfg := cfg) hL ha) hf header inp hm hau
  have herr : ∀ e, (∃ res, Finds cfg A (inp.repo.getD []) res ∧
      match res, inp.collection, inp.rkey, inp.record with
      | .error e', _, _, _ => e = e'
      | .ok _, some _, some _, some _ => False
      | .ok _, _, _, _ => e = .key) → ServesPut (C := C) cfg L A header inp (.failed e) A := by
    rintro e ⟨res, k1, k2⟩
    unfold ServesPut
    rw [if_neg hm, if_neg (not_not.2 hau)]
    refine ⟨res, k1, ?_⟩
    rcases res with e' | ⟨d, a⟩
    · rw [show e = e' from k2]; exact ⟨rfl, rfl⟩
    · cases hc : inp.collection <;> cases hk : inp.rkey <;> cases hr : inp.record <;>
        rw [hc, hk, hr] at k2 <;> first | exact k2.elim | (rw [show e = .key from k2]; exact ⟨rfl, rfl⟩)
  unfold planPut
  rcases res with e | ⟨d, a⟩
  · rw [show putRead cfg L .datastore w header inp = (w1, .error e) from h5]
    exact herr e ⟨_, h4, rfl⟩
  cases hc : inp.collection with
  | none =>
    rw [hc] at h5
    rw [show putRead cfg L .datastore w header inp = (w1, .error .key) from h5]
    exact herr .key ⟨_, h4, by rw [hc]⟩
  | some c =>
    cases hrk : inp.rkey with
    | none =>
      rw [hc, hrk] at h5
      rw [show putRead cfg L .datastore w header inp = (w1, .error .key) from h5]
      exact herr .key ⟨_, h4, by rw [hc, hrk]⟩
    | some k =>
      rw [hc, hrk] at h5
      obtain ⟨g1, g2, g4, r, o, g5, g6, g7, g8⟩ := h5
      rw [g8]
      dsimp only
      cases hrec : inp.record with
      | none => exact herr .key ⟨_, h4, by rw [hc, hrk, hrec]⟩
      | some v =>
        dsimp only [field]
        rw [g5, Option.bind_some, g6]
        dsimp only
        have hiso : ((a.records (pathOf c k)).map (Val.record (C := C))).isNone =
            (a.records (pathOf c k)).isNone := by
          cases a.records (pathOf c k) <;> rfl
        rw [hiso]
        have hexp : a.records (pathOf c k) = none ↔
            (if (a.records (pathOf c k)).isNone then Action.create else .update) = .create := by
          cases a.records (pathOf c k) <;> simp
        -- the action is the one that fits what is there
        have hfit : ∀ (m : Key → Option R), (m (pathOf c k) = none ↔
            (if (a.records (pathOf c k)).isNone then Action.create else .update) = .create) →
            (if (a.records (pathOf c k)).isNone then Action.create else .update) =
              if (m (pathOf c k)).isNone then Action.create else .update := by
          intro m hm
          cases h1 : a.records (pathOf c k) <;> cases h2 : m (pathOf c k) <;> rw [h1, h2] at hm <;> simp_all
        have hserve : ∀ (A1 : Accounts R) (a1 : Account R) (ans : Answer C R) (A2 : Accounts R), A1 d = some a1 →
            a1.handle = a.handle → a1.status = none → (if Acceptable L v (pathOf c k) then
              ans = .written ⟨uriOf d c k, L.rcid v⟩ ∧ A2 = Function.update A1 d (some { a1 with
                records := Function.update a1.records (pathOf c k) (some v) })
              else ans = .failed .value ∧ A2 = A1) → ServesPut cfg L A1 header inp ans A2 := by
          intro A1 a1 ans A2 h1 hh hs hans
          unfold ServesPut
          rw [if_neg hm, if_neg (not_not.2 hau)]
          refine ⟨_, h4.again h1 hh hs, ?_⟩
          rw [hc, hrk, hrec]
          exact hans
        refine ⟨a, _, g2, h4.status.2, g1, ⟨rfl, fun A1 a1 m h1 hh hs hg hw => ?_,
          fun m e hg hw hf A1 a1 h1 hh hs => ?_⟩, hexp, h4.names hn, c, k, rfl, rfl, rfl⟩
        · rw [specWrites_one] at hw
          have hf : a1.records (pathOf c k) = none ↔
              (if (a.records (pathOf c k)).isNone then Action.create else .update) = .create := by
            cases ho : a.records (pathOf c k) with
            | none =>
              rw [ho] at hw
              refine ⟨fun _ => rfl, fun _ => ?_⟩
              by_contra hn
              unfold specWrite at hw
              simp only [Option.isNone, if_true] at hw
              split at hw
              · cases hw
              · split at hw
                · cases hw
                · rw [show (⟨.create, c, k, some v⟩ : Write R).path = pathOf c k from rfl, if_pos hn] at hw
                  cases hw
            | some x =>
              rw [ho] at hw
              refine ⟨fun hn => ?_, fun h => (by simp at h)⟩
              unfold specWrite at hw
              simp only [Option.isNone, Bool.false_eq_true, if_false] at hw
              rw [show (⟨.update, c, k, some v⟩ : Write R).path = pathOf c k from rfl, if_pos hn] at hw
              cases hw
          rw [hfit _ hf] at hw
          by_cases hacc : Acceptable L v (pathOf c k)
          · rw [(specPut_ok hg).1 hacc] at hw
            cases hw
            rw [atUri_ok g1 hacc.2.2]
            refine ⟨(fun _ h => nomatch h), hserve A1 a1 _ _ h1 hh hs ?_⟩
            rw [if_pos hacc]
            exact ⟨rfl, rfl⟩
          · rw [specPut_error hg hacc] at hw
            cases hw
        · have hf' : m (pathOf c k) = none ↔
              (if (a.records (pathOf c k)).isNone then Action.create else .update) = .create := hf
          rw [hfit _ hf'] at hw
          refine hserve A1 a1 _ _ h1 hh hs ?_
          by_cases hacc : Acceptable L v (pathOf c k)
          · rw [(specPut_ok hg).1 hacc] at hw
            cases hw
          · rw [specPut_error hg hacc] at hw
            cases hw
            rw [if_neg hacc]
            exact ⟨rfl, rfl⟩

theorem planDelete_ok (hL : L.OK Z) (h : Kept L Z w A) (ha : Addressed L w.blocks) (hf : cfg.flask = true)
    {names : Did → Option Key} (hn : Named names A) (header : Option Key) (inp : Input R) :
    PlanOK A L (fun A1 ans A2 => Serves cfg out L A1 (.deleteRecord header inp) ans A2)
      (Aims cfg names (.deleteRecord header inp)) (planDelete cfg L w header inp) := by
  by_cases hm : Malformed cfg inp none
  · unfold planDelete putRead
    rw [validate_iff, if_pos hm]
    show Serves cfg out L A (.deleteRecord header inp) _ A
    unfold Serves
    dsimp only
    rw [if_pos hm]
    exact ⟨rfl, rfl⟩
  by_cases hau : Authorized cfg header
  swap
  · unfold planDelete putRead
    rw [validate_iff, if_neg hm, auth_iff hf, if_neg hau]
    show Serves cfg out L A (.deleteRecord header inp) _ A
    unfold Serves
    dsimp only
    rw [if_neg hm, if_pos hau]
    exact ⟨rfl, rfl⟩
  obtain ⟨w1, res, _, h4, h5⟩ := putRead_gives hL (h.loadsAs (cfg := cfg) hL ha) hf header inp hm hau
  have hser : ∀ A1 ans A2, (∃ res, Finds cfg A1 (inp.repo.getD []) res ∧
      match res, inp.collection, inp.rkey with
      | .error e, _, _ => ans = .failed e ∧ A2 = A1
      | .ok (d, a), some c, some k => ans = .done ∧
        A2 = Function.update A1 d (some { a with records := Function.update a.records (pathOf c k) none })
      | .ok _, _, _ => ans = .failed .key ∧ A2 = A1) →
      Serves cfg out L A1 (.deleteRecord header inp) ans A2 := by
    intro A1 ans A2 k
    unfold Serves
    dsimp only
    rw [if_neg hm, if_neg (not_not.2 hau)]
    exact k
  unfold planDelete
  rcases res with e | ⟨d, a⟩
  · rw [show putRead cfg L .datastore w header inp = (w1, .error e) from h5]
    exact hser _ _ _ ⟨_, h4, rfl, rfl⟩
  cases hc : inp.collection with
  | none =>
    rw [hc] at h5
    rw [show putRead cfg L .datastore w header inp = (w1, .error .key) from h5]
    exact hser _ _ _ ⟨_, h4, by rw [hc]; exact ⟨rfl, rfl⟩⟩
  | some c =>
    cases hrk : inp.rkey with
    | none =>
      rw [hc, hrk] at h5
      rw [show putRead cfg L .datastore w header inp = (w1, .error .key) from h5]
      exact hser _ _ _ ⟨_, h4, by rw [hc, hrk]; exact ⟨rfl, rfl⟩⟩
    | some k =>
      rw [hc, hrk] at h5
      obtain ⟨g1, g2, g4, r, o, g5, g6, g7, g8⟩ := h5
      rw [g8]
      dsimp only
      cases hrec : a.records (pathOf c k) with
      | none =>
        refine hser _ _ _ ⟨_, h4, ?_⟩
        rw [hc, hrk]
        refine ⟨rfl, ?_⟩
        rw [show Function.update a.records (pathOf c k) none = a.records by
          rw [← hrec, Function.update_eq_self]]
        rw [show ({ a with records := a.records } : Account R) = a from rfl, ← g2,
          Function.update_eq_self]
      | some v =>
        dsimp only [Option.map_some]
        rw [g5, Option.bind_some, g6]
        refine ⟨a, _, g2, h4.status.2, g1, ⟨rfl, fun A1 a1 m h1 hh hs hg hw => ⟨(fun _ h => nomatch h), ?_⟩,
          fun m e hg hw hf A1 a1 h1 hh hs => ?_⟩, ?_, h4.names hn, c, k, hc, hrk, rfl⟩
        · refine hser _ _ _ ⟨_, h4.again h1 hh hs, ?_⟩
          rw [hc, hrk]
          refine ⟨rfl, ?_⟩
          rw [specWrites_one] at hw
          unfold specWrite at hw
          dsimp only at hw
          split at hw
          · cases hw
          · cases hw; rfl
        · exfalso
          unfold specWrite at hw
          dsimp only at hw
          split at hw
          · rename_i hn
            exact nomatch hf.1 hn
          · cases hw
        · constructor
          · intro hn
            rw [show (⟨.delete, c, k, none⟩ : Write R).path = pathOf c k from rfl, hrec] at hn
            cases hn
          · exact fun h => nomatch h

theorem checkCreate_ok (hL : L.OK Z) (h : Kept L Z w A) (ha : Addressed L w.blocks) (hf : cfg.flask = true)
    (header : Option Key) (inp : Input R) (tid : Key) :
    (∃ ans, checkCreate cfg w header inp = .answered ans ∧
      Serves cfg out L A (.createRecord header inp tid) ans A) ∨
    checkCreate cfg w header inp = .checked ∧ ∀ A1 ans A2,
      ServesPut cfg L A1 header { inp with rkey := some (inp.rkey.getD tid) } ans A2 →
      Serves cfg out L A1 (.createRecord header inp tid) ans A2 := by
  unfold checkCreate Serves
  dsimp only
  have hcoll : (if truthy inp.collection = true then inp.collection else inp.record.bind cfg.typ) =
      if inp.collection.getD [] ≠ [] then inp.collection else inp.record.bind cfg.typ := by
    by_cases h : truthy inp.collection = true
    · rw [if_pos h, if_pos (truthy_iff.1 h)]
    · rw [if_neg h, if_neg (fun g => h (truthy_iff.2 g))]
  rw [hcoll]
  set coll := if inp.collection.getD [] ≠ [] then inp.collection else inp.record.bind cfg.typ with hco
  rw [validate_iff]
  by_cases hm : Malformed cfg inp coll
  · simp only [if_pos hm]
    exact .inl ⟨_, rfl, rfl, trivial⟩
  simp only [if_neg hm]
  have hm' : ¬ Malformed cfg { inp with rkey := some (inp.rkey.getD tid) } none := by
    rintro (h | h | ⟨_, h, _⟩ | h)
    · exact hm (.inl h)
    · exact hm (.inr (.inl h))
    · cases h
    · exact hm (.inr (.inr (.inr h)))
  rw [auth_iff hf]
  by_cases hau : Authorized cfg header
  swap
  · rw [if_neg hau]
    refine .inl ⟨_, rfl, ?_⟩
    unfold ServesPut
    rw [if_neg hm', if_pos hau]
    exact ⟨rfl, rfl⟩
  rw [if_pos hau]
  have hq : field inp.repo = .ok (inp.repo.getD []) := by
    cases hq : inp.repo with
    | some q => rfl
    | none => exact absurd (.inr (.inl (by rw [hq]; rfl))) hm
  rw [hq]
  dsimp only
  obtain ⟨w1, res, h1, _, h7⟩ := h.loadsAs (cfg := cfg) hL ha (inp.repo.getD [])
  rw [h1]
  cases res with
  | error e =>
    refine .inl ⟨_, rfl, ?_⟩
    unfold ServesPut
    rw [if_neg hm', if_neg (not_not.2 hau)]
    exact ⟨_, h7, rfl, rfl⟩
  | ok r => exact .inr ⟨rfl, fun _ _ _ h => h⟩

theorem planChange_ok (hL : L.OK Z) (h : Kept L Z w A) (ha : Addressed L w.blocks) {did : Did}
    (hd : isDid did) (change : Change) :
    (planChange w did = .answered (.failed .attribute) ∧
      Serves cfg out L A (.setStatus did change) (.failed .attribute) A) ∨
    planChange w did = .changing ∧ ∃ a, A did = some a := by
  unfold planChange Serves
  rcases h.loadRepo hL ha (isDid_ne_nil hd) with ⟨h1, h2⟩ | ⟨d, a, o, h1, h2, h3, _⟩
  · rw [h1]
    refine .inl ⟨rfl, ?_⟩
    cases hA : A did with
    | none => simp only [hA, and_self]
    | some a => exact absurd (.inl rfl) (h2 did a hA)
  · rw [h3]
    refine .inr ⟨rfl, ?_⟩
    rcases h2 with rfl | h2
    · exact ⟨a, h1⟩
    · obtain ⟨row, _, g2, _, g4, _⟩ := h.held d a h1
      exact absurd hd (g4 did (g2.trans h2))

/-- The requests that only read, and those that aren't implemented. -/
theorem serve_read (hL : L.OK Z) (h : Kept L Z w A) (ha : Addressed L w.blocks) (hf : cfg.flask = true)
    (x : Chance) {q : Request R} (hq : match q with
      | .putRecord _ _ | .createRecord _ _ _ | .deleteRecord _ _ | .newRepo _ _ | .setStatus _ _ => False
      | _ => True) :
    Serves cfg out L A q (serve cfg out L .datastore w x q).2 A := by
  have hl := h.loadsAs (cfg := cfg) hL ha
  cases q with
  | getRecord repo collection rkey cid => exact (answers_read hL trivial hl _ _ _ _ x).1
  | listRecords repo collection limit cursor => exact (answers_list hL trivial hl _ _ _ _ x).1
  | describeRepo repo => exact (answers_describe hL trivial hl _ x).1
  | getRepoStatus did => exact (answers_status hL trivial hl _ x).1
  | applyWrites header inp =>
    unfold serve Serves applyWrites
    dsimp only
    rw [validate_iff, auth_iff hf]
    by_cases hm : Malformed cfg inp none
    · simp only [if_pos hm]
      exact ⟨trivial, rfl⟩
    simp only [if_neg hm]
    by_cases ha : Authorized cfg header
    · simp only [if_pos ha, if_neg (not_not.2 ha)]
      exact ⟨trivial, rfl⟩
    · simp only [if_neg ha, if_pos ha]
      exact ⟨trivial, rfl⟩
  | uploadBlob header =>
    unfold serve Serves
    dsimp only
    rw [(C44_unimplemented (cfg := cfg) (w := w) header ⟨none, none, none, none, false⟩).2]
    exact ⟨rfl, rfl⟩
  | putRecord _ _ => exact hq.elim
  | createRecord _ _ _ => exact hq.elim
  | deleteRecord _ _ => exact hq.elim
  | newRepo _ _ => exact hq.elim
  | setStatus _ _ => exact hq.elim

end Arroba.Xrpc
