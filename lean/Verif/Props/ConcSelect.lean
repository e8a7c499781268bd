import Verif.Props.PathSelection
import Verif.Props.ConcDemo
import Verif.Proofs.TimedSel

/-!
# Path selections of concurrent calls: C63

The store is in the state `s` after any history `h` of calls; then any set of calls runs
concurrently, their atomic actions interleaved by any schedule.
-/

namespace Rotonda.Props

open Prog Spec

variable {M : Type} [Meta M] {W : Nat}

theorem psAt_source {st : Strategy} (hm : st.inMemory = true) (h : History M W) (p : Prefix W) :
    (psAt st h p).val = (none, none) ∨ ∃ op h' tbi, op :: h' <:+ h ∧ OpStores p tbi op ∧
      (psAt st h p).val = bestBackup (recsAt st (op :: h') p) tbi := by
  induction h with
  | nil => exact .inl rfl
  | cons op h ih =>
    have keep : (psAt st (op :: h) p).val = (psAt st h p).val →
        (psAt st (op :: h) p).val = (none, none) ∨ ∃ op' h' tbi, op' :: h' <:+ op :: h ∧
          OpStores p tbi op' ∧ (psAt st (op :: h) p).val = bestBackup (recsAt st (op' :: h') p) tbi := by
      intro he
      rw [he]
      rcases ih with h1 | ⟨op', h', tbi, h1, h2⟩
      · exact .inl h1
      · exact .inr ⟨op', h', tbi, h1.trans (List.suffix_cons _ _), h2⟩
    by_cases hsel : Selects p op
    · cases op with
      | insert q r tbi =>
        obtain rfl : q = p := hsel
        cases hs : tabOf st h q.id with
        | none =>
          refine .inl ?_
          unfold psAt
          simp only [tabOf, hm, if_true, put_id, hs, upsertEntry]
          rfl
        | some x =>
          have hsome : (tabOf st h q.id).isSome := by rw [hs]; rfl
          cases tbi with
          | none =>
            refine keep ?_
            have ht := tabOf_eq hsome
            conv => lhs; unfold psAt
            simp only [tabOf, ht, put_id, if_true, hm, upsertEntry]
            rfl
          | some tbi =>
            refine .inr ⟨.insert q r (some tbi), h, tbi, List.suffix_refl _, ⟨rfl, rfl⟩, ?_⟩
            rw [psAt_insert hm hsome, storePs_val]
      | calcBest q tbi =>
        obtain rfl : q = p := hsel
        cases hs : tabOf st h q.id with
        | none =>
          refine keep ?_
          unfold psAt
          simp only [tabOf, hs]
        | some x =>
          have hsome : (tabOf st h q.id).isSome := by rw [hs]; rfl
          refine .inr ⟨.calcBest q tbi, h, tbi, List.suffix_refl _, ⟨rfl, rfl⟩, ?_⟩
          rw [psAt_calcBest hsome, storePs_val, recsAt_calcBest]
      | _ => exact hsel.elim
    · exact keep (by rw [psAt_other hsel])

section
variable {ι : Type} [DecidableEq ι] {calls : ι → Call M W} [Fam W] {st : Strategy} {F0 F fuel : Nat}
  (hF : 32 ≤ F) (hf : iterFuel W ≤ fuel) {h : History M W} {s : Rib M W}
  (hs : exec st F0 h = .ok () s)

theorem getRecord_recsAt {H : History M W} (hm : st.inMemory = true) {p : Prefix W} {b : Mui} {r : Record M}
    (h : getRecordForMui (recsAt st H p) b false = some r) :
    r.mui = b ∧ recOf H p b = some r ∧ r.status = .active := by
  simp only [getRecordForMui, get_recsAt hm] at h
  cases hr : recOf H p b with
  | none => simp [hr] at h
  | some r0 =>
    have hmui := recOf_mui hr
    simp only [hr, Option.map_some, Option.bind_some, Record.toMMV] at h
    split at h
    · rename_i hc
      cases h
      obtain ⟨m, t, sx, md⟩ := r0
      simp only at hmui hc
      subst hmui
      have : sx = .active := by
        rcases hc with hc | hc
        · cases hc
        · exact hc
      subst this
      exact ⟨rfl, rfl, rfl⟩
    · cases h

include hF hf hs in
/-- C63: along every run there is a moment of each calculation at which its answer is the
selection of the records; every answer of `best_path` is a record of a moment of the call for
an id that was the best path before; and if nobody else inserts or selects for a prefix from
the start of a calculation or of an insert for it on, then the selection of the records of
the end is stored. -/
theorem selections_explained (hm : st.inMemory = true) (t : List ι) :
    ∃ log, Explains st h (start st F fuel s calls) t log ∧
      ExplainsSelections h (start st F fuel s calls) t log := by
  obtain ⟨log, hE, _, _, _, hinv⟩ := run_explained hF hf hs calls t
  refine ⟨log, hE, ?_⟩
  have hrec : ∀ n, n ≤ t.length → ∀ a e, ((start st F fuel s calls).at t n).st.cht.slots a = some e →
      ∀ p : Prefix W, e.id = p.id → e.recs = recsAt st (histAfter h calls (log n)) p :=
    fun n hn a e he p hp => (hinv n hn).mem.recs a e he p hp.symm
  have hselAt : ∀ n, n ≤ t.length → ∀ a e, ((start st F fuel s calls).at t n).st.cht.slots a = some e →
      ∀ p : Prefix W, e.id = p.id → ∀ tbi,
      IsSelection tbi (recOf (histAfter h calls (log n)) p) (bestBackup e.recs tbi) := by
    intro n hn a e he p hp tbi
    rw [hrec n hn a e he p hp]
    exact bestBackup_recsAt hm _ p tbi
  have hans : ∀ {i n k} {x : Call M W} {a : x.Ans}, n ≤ t.length → k ≤ n → i ∉ t.take k →
      Returned ((start st F fuel s calls).exec (t.take n)) i x a → ∃ m, k ≤ m ∧ m ≤ n ∧
        (∀ l, m ≤ l → l < n → (start st F fuel s calls).Others t i l) ∧
        x.SelPost st (fun j => ((start st F fuel s calls).at t j).st) t.length
          ((start st F fuel s calls).Others t i) k a m := by
    rintro i n k x a hn hk hi ⟨rfl, ha⟩
    exact Conf.twp_answer (start st F fuel s calls) t hk hn ha
      (run_twp (calls := calls) hF hf hs t i (hk.trans hn) hi)
  -- the selection stored at the end
  have hstored : ∀ {i} {p : Prefix W} {tbi sel k m}, m ≤ t.length → k ≤ m →
      (∀ l, m ≤ l → l < t.length → (start st F fuel s calls).Others t i l) →
      Selected (fun j => ((start st F fuel s calls).at t j).st) t.length
        ((start st F fuel s calls).Others t i) p tbi k m sel → AloneFor calls t k i p →
      IsSelection tbi (recOf (histAfter h calls (log t.length)) p) sel ∧
        StoredFor ((start st F fuel s calls).exec t).st p tbi
          (recOf (histAfter h calls (log t.length)) p) := by
    intro i p tbi sel k m hmN hkm hO hsel hal
    have hq := run_quiet (calls := calls) (fuel := fuel) (F := F) (st := st) hF hf hs t hal
    have hc := (hsel.2 hq).keep (hq.keep (i := m) (j := t.length) hkm hmN (Nat.le_refl _) hO)
    obtain ⟨a, e, he, hid, h1, h2⟩ := hc
    have hi1 := hselAt _ (Nat.le_refl _) a e he p hid tbi
    rw [h1] at hi1
    refine ⟨hi1, fun b r hb hr => ?_⟩
    have hsane := (hinv _ (Nat.le_refl _)).sane.recs
    have hre := hrec _ (Nat.le_refl _) a e he p hid
    rw [← Conf.at_length]
    have hb' : e.ps.val.1 = some b := by rw [h2]; exact IsFirst.unique hi1.1 hb
    have hg : getRecordForMui e.recs b false = if r.status = .active then some r else none := by
      have hmui := recOf_mui hr
      simp only [hre, getRecordForMui, get_recsAt hm, hr, Option.map_some, Option.bind_some,
        Record.toMMV]
      obtain ⟨m, t, sx, md⟩ := r
      simp only at hmui
      subst hmui
      cases sx <;> simp [MMV.toRecord]
    unfold ribBestPath
    rcases run_retrievePrefix (M := M) p.clean hsane with ⟨hr1, hn⟩ | ⟨ref, e', hr1, he', hid'⟩
    · exact absurd ⟨a, e, he, hid⟩ hn
    · obtain rfl : a = ref.addr := hsane.unique he he' (hid.trans hid'.symm)
      rw [he] at he'; cases he'
      by_cases hact : r.status = .active
      · rw [if_pos hact] at hg ⊢
        simp only [run_bind, run_onRecs, hr1, Outcome.mapState, Outcome.andThen, run_readAt' he, hb', hg,
          pure_def, run]
      · rw [if_neg hact] at hg ⊢
        simp only [run_bind, run_onRecs, hr1, Outcome.mapState, Outcome.andThen, run_readAt' he, hb', hg,
          pure_def, run]
  refine ⟨?_, ?_, ?_, ?_⟩
  · intro n hn i p tbi sel hr k hk hi
    obtain ⟨m, h1, h2, _, h3⟩ := hans hn hk hi hr
    obtain ⟨⟨a, k1, k2, h4, h5, h6, ⟨e, he, hid, h7⟩, _⟩, _⟩ := h3 sel rfl
    have := hselAt k1 (by omega) a e he p hid tbi
    rw [h7] at this
    exact ⟨k1, h4, by omega, this⟩
  · intro n hn i p r hr k hk hi
    obtain ⟨m, h1, h2, _, h3⟩ := hans hn hk hi hr
    obtain ⟨a, k1, k2, h4, h5, h6, b, ⟨e, he, hid, h7⟩, e2, he2, hid2, h8⟩ := h3 r rfl
    rw [hrec k2 (by omega) a e2 he2 p hid2] at h8
    obtain ⟨rfl, h9, h10⟩ := getRecord_recsAt hm h8
    refine ⟨k1, k2, h4, h5, by omega, ?_, h9, h10⟩
    rcases run_selections (calls := calls) hF hf hs t (n := k1) (by omega) he with
      h0 | ⟨e0, h0, h11, h12⟩ | ⟨j, hj, q, tbi, hq, hst, l, hl, e0, h0, h11, h12⟩
    · rw [h0] at h7; cases h7
    · right
      have ht := (exec_ok_inv hs).tab.at h0
      rw [h11, hid] at ht
      have hps : psAt st h p = e0.ps := by unfold psAt; rw [ht]; rfl
      rw [h12, ← hps] at h7
      rcases psAt_source hm h p with hn | ⟨op, h', tbi, h13, h14, h15⟩
      · rw [hn] at h7; cases h7
      · rw [h15] at h7
        have := (bestBackup_recsAt hm (op :: h') p tbi).1
        rw [h7] at this
        exact ⟨op, h', tbi, h13, h14, this⟩
    · left
      obtain rfl : q = p := Prefix.id_inj (hq.symm.trans hid)
      refine ⟨j, hj, tbi, hst, l, by omega, ?_⟩
      have := (hselAt l (by omega) a e0 h0 q (h11.trans hid) tbi).1
      rw [← h12, h7] at this
      exact this
  · intro i p tbi sel hr k hk hi hal
    rw [← List.take_length (l := t)] at hr
    obtain ⟨m, h1, h2, hO, h3⟩ := hans (Nat.le_refl _) hk hi hr
    exact hstored h2 h1 hO (h3 sel rfl) hal
  · intro i p r tbi rep hr k hk hi hp hal
    rw [← List.take_length (l := t)] at hr
    obtain ⟨m, h1, h2, hO, h3⟩ := hans (Nat.le_refl _) hk hi hr
    have hne : recsAt st (histAfter h calls (log k)) p ≠ [] := by
      obtain ⟨m', hm'⟩ := hp
      have := inserted_iff_recOf.1 hm'
      intro hnil
      have hg := get_recsAt hm (histAfter h calls (log k)) p m'
      rw [hnil] at hg
      cases hr' : recOf (histAfter h calls (log k)) p m' with
      | none => rw [hr'] at this; cases this
      | some r' => rw [hr'] at hg; cases hg
    obtain ⟨sel, hsel⟩ := h3 hm tbi rfl ((hinv k hk).mem.has p hne) ⟨rep, rfl⟩
    exact (hstored h2 h1 hO hsel hal).2

end

/-! ## The selection can be stale without being marked outdated -/

section
open Demo

/-- The better route that is inserted during a calculation. -/
def better : Record Md := rec1 2 1 3

/-- The records after the insert of the better route. -/
def withBetter : Mui → Option (Record Md) := recOf (.insert ten8 better none :: one) ten8

theorem withBetter_first : IsFirst () withBetter (some 2#32) := by
  refine ⟨better, by decide +kernel, fun m' r' h hne => ?_⟩
  have hm : m' = 1#32 := by
    by_contra hn
    have : withBetter m' = none := by
      simp [withBetter, recOf, one, better, rec1, hn, hne, Ne.symm hn, Ne.symm hne]
    rw [this] at h
    cases h
  subst hm
  have : withBetter 1#32 = some (rec1 1 1 7) := by decide +kernel
  rw [this] at h
  cases h
  exact .inl (by decide +kernel)

/-- The best path is the route of id 1 and the selection is not marked outdated. -/
def staleAt (s : Rib Md 32) : Bool :=
  (match (ribBestPath ten8.id).run s with
    | .ok (some (.ok r)) _ => decide (r.mui = 1#32)
    | _ => false) &&
  (match (ribIsPsOutdated ten8.id).run s with
    | .ok (.ok b) _ => !b
    | _ => false)

theorem staleAt_iff {s : Rib Md 32} (h : staleAt s = true) :
    (∃ r s', (ribBestPath ten8.id).run s = .ok (some (.ok r)) s' ∧ r.mui = 1#32) ∧
    ∃ s', (ribIsPsOutdated ten8.id).run s = .ok (.ok false) s' := by
  unfold staleAt at h
  rw [Bool.and_eq_true] at h
  obtain ⟨h1, h2⟩ := h
  constructor
  · split at h1
    · rename_i r s' he
      exact ⟨r, s', he, of_decide_eq_true h1⟩
    · cases h1
  · split at h2
    · rename_i b s' he
      cases b
      · exact ⟨s', he⟩
      · cases h2
    · cases h2

theorem not_storedFor {s : Rib Md 32} (h : staleAt s = true) : ¬ StoredFor s ten8 () withBetter := by
  obtain ⟨⟨r, s', h1, h2⟩, _⟩ := staleAt_iff h
  intro hst
  have := hst 2#32 better withBetter_first (by decide +kernel)
  rw [h1] at this
  have hb : better.status = .active := rfl
  rw [if_pos hb] at this
  injection this with h3
  injection h3 with h4
  injection h4 with h5
  rw [h5] at h2
  exact absurd h2 (by decide)

/-- C63, the general statement fails: `upsert_prefix` marks the selection outdated before it
stores the record.  A calculation in between selects among the old records and takes the mark
away.  When both calls have returned the selection is that of the old records and is not
marked outdated. -/
theorem invalidation_lost : ¬ ∀ (s : Rib Md 32) (t : List Bool) a b,
    exec .memoryOnly 32 one = .ok () s →
    Returned (two .memoryOnly s (.insert ten8 better none) (.calcBest ten8 ()) t) true
      (.insert ten8 better none) a →
    Returned (two .memoryOnly s (.insert ten8 better none) (.calcBest ten8 ()) t) false
      (.calcBest ten8 ()) b →
    (∃ s', (ribIsPsOutdated ten8.id).run
      (two .memoryOnly s (.insert ten8 better none) (.calcBest ten8 ()) t).st = .ok (.ok false) s') →
    StoredFor (two .memoryOnly s (.insert ten8 better none) (.calcBest ten8 ()) t).st ten8 () withBetter := by
  intro hall
  obtain ⟨s, hs, hc⟩ := after_ok (o := exec .memoryOnly 32 one) (chk := fun s =>
    ansIs (fun _ => true) ((two .memoryOnly s (.insert ten8 better none) (.calcBest ten8 ())
      (turns 11 50 100)).pool true) &&
    ansIs (fun _ => true) ((two .memoryOnly s (.insert ten8 better none) (.calcBest ten8 ())
      (turns 11 50 100)).pool false) &&
    staleAt (two .memoryOnly s (.insert ten8 better none) (.calcBest ten8 ()) (turns 11 50 100)).st)
    (by decide +kernel)
  rw [Bool.and_eq_true, Bool.and_eq_true] at hc
  obtain ⟨⟨h1, h2⟩, h3⟩ := hc
  obtain ⟨a, ha, _⟩ := ansIs_iff.1 h1
  obtain ⟨b, hb, _⟩ := ansIs_iff.1 h2
  exact not_storedFor h3 (hall s _ a b hs ⟨rfl, ha⟩ ⟨rfl, hb⟩ (staleAt_iff h3).2)

/-- C63, also with a selection by the insert itself: a calculation that has read the old
records stores its selection over the newer one. -/
theorem older_selection_wins : ¬ ∀ (s : Rib Md 32) (t : List Bool) a b,
    exec .memoryOnly 32 one = .ok () s →
    Returned (two .memoryOnly s (.calcBest ten8 ()) (.insert ten8 better (some ())) t) true
      (.calcBest ten8 ()) a →
    Returned (two .memoryOnly s (.calcBest ten8 ()) (.insert ten8 better (some ())) t) false
      (.insert ten8 better (some ())) b →
    (∃ s', (ribIsPsOutdated ten8.id).run
      (two .memoryOnly s (.calcBest ten8 ()) (.insert ten8 better (some ())) t).st = .ok (.ok false) s') →
    StoredFor (two .memoryOnly s (.calcBest ten8 ()) (.insert ten8 better (some ())) t).st ten8 () withBetter := by
  intro hall
  obtain ⟨s, hs, hc⟩ := after_ok (o := exec .memoryOnly 32 one) (chk := fun s =>
    ansIs (fun _ => true) ((two .memoryOnly s (.calcBest ten8 ()) (.insert ten8 better (some ()))
      (turns 2 50 100)).pool true) &&
    ansIs (fun _ => true) ((two .memoryOnly s (.calcBest ten8 ()) (.insert ten8 better (some ()))
      (turns 2 50 100)).pool false) &&
    staleAt (two .memoryOnly s (.calcBest ten8 ()) (.insert ten8 better (some ())) (turns 2 50 100)).st)
    (by decide +kernel)
  rw [Bool.and_eq_true, Bool.and_eq_true] at hc
  obtain ⟨⟨h1, h2⟩, h3⟩ := hc
  obtain ⟨a, ha, _⟩ := ansIs_iff.1 h1
  obtain ⟨b, hb, _⟩ := ansIs_iff.1 h2
  exact not_storedFor h3 (hall s _ a b hs ⟨rfl, ha⟩ ⟨rfl, hb⟩ (staleAt_iff h3).2)

/-- The run of the first counterexample: the calculation in the middle of the insert has
answered with the selection of one moment. -/
example : ∃ s, exec .memoryOnly 32 one = .ok () s ∧ ∃ log sel n1,
    Explains .memoryOnly one (start .memoryOnly 32 (iterFuel 32) s
      (fun i : Bool => if i then .insert ten8 better none else .calcBest ten8 ())) (turns 11 50 100) log ∧
    IsSelection () (recOf (histAfter one (fun i : Bool =>
      if i then .insert ten8 better none else .calcBest ten8 ()) (log n1)) ten8) sel := by
  obtain ⟨s, hs, hc⟩ := after_ok (o := exec .memoryOnly 32 one) (chk := fun s =>
    ansIs (fun a : Except StoreError (Option Mui × Option Mui) =>
      match a with | .ok _ => true | _ => false)
      ((two .memoryOnly s (.insert ten8 better none) (.calcBest ten8 ())
      (turns 11 50 100)).pool false)) (by decide +kernel)
  obtain ⟨a, ha, hok⟩ := ansIs_iff.1 hc
  obtain ⟨log, hE, hS⟩ := selections_explained (F := 32) (fuel := iterFuel 32) (Nat.le_refl _)
    (Nat.le_refl _) hs (calls := fun i : Bool => if i then .insert ten8 better none else .calcBest ten8 ())
    rfl (turns 11 50 100)
  cases a with
  | error e => cases hok
  | ok sel =>
    clear hc hok
    generalize turns 11 50 100 = t at *
    obtain ⟨n1, _, _, hn⟩ := hS.calculated _ (Nat.le_refl _) false ten8 () sel
      (by rw [List.take_length]; exact ⟨rfl, ha⟩) 0 (Nat.zero_le _) (by simp)
    exact ⟨s, hs, log, sel, n1, hE, hn⟩

/-- A calculation and, in the middle of it, an insert for another prefix: the selection of the
records is stored. -/
example : ∃ s, exec .memoryOnly 32 one = .ok () s ∧ ∃ log : ℕ → List Bool, StoredFor (two .memoryOnly s
    (.calcBest ten8 ()) (.insert ten16b better none) (turns 2 300 100)).st ten8 ()
      (recOf (histAfter one (fun i : Bool =>
        if i then .calcBest ten8 () else .insert ten16b better none) (log (turns 2 300 100).length)) ten8) := by
  obtain ⟨s, hs, hc⟩ := after_ok (o := exec .memoryOnly 32 one) (chk := fun s =>
    ansIs (fun a : Except StoreError (Option Mui × Option Mui) =>
      match a with | .ok _ => true | _ => false)
      ((two .memoryOnly s (.calcBest ten8 ()) (.insert ten16b better none)
      (turns 2 300 100)).pool true)) (by decide +kernel)
  obtain ⟨a, ha, hok⟩ := ansIs_iff.1 hc
  obtain ⟨log, hE, hS⟩ := selections_explained (F := 32) (fuel := iterFuel 32) (Nat.le_refl _)
    (Nat.le_refl _) hs (calls := fun i : Bool => if i then .calcBest ten8 () else .insert ten16b better none)
    rfl (turns 2 300 100)
  cases a with
  | error e => cases hok
  | ok sel =>
    clear hc hok
    generalize turns 2 300 100 = t at *
    refine ⟨s, hs, log, (hS.current true ten8 () sel ⟨rfl, ha⟩ 0 (Nat.zero_le _) (by simp) ?_).2⟩
    intro m _ hm
    cases t[m]
    · have hne : ten16b ≠ ten8 := by decide
      exact .inr hne
    · exact .inl rfl

end

end Rotonda.Props
