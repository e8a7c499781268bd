import Verif.Proofs.PathSel
import Verif.Proofs.CountSpec
import Verif.Props.Demo

/-!
# Path selection: C26, C27

For the strategies that keep records in memory (`PersistOnly` keeps no path
selections: every call below answers `StoreNotReadyError` or `None`).
-/

namespace Rotonda.Props

open Spec Prog

variable {M : Type} {W : Nat} [Meta M]

/-! ## C26 -/

/-- C26: the calculation returns the first and the second record of the prefix in
the order of the metadata, ties broken by id. -/
theorem selection_correct [Fam W] {st : Strategy} (hm : st.inMemory = true) {F : Nat}
    {h : History M W} {s : Rib M W} (hs : exec st F h = .ok () s) {p : Prefix W}
    (hp : Present h p) (tbi : Meta.TBI M) :
    ∃ sel s', (ribCalcBest p.id tbi).run s = .ok (.ok sel) s' ∧ IsSelection tbi (recOf h p) sel := by
  obtain ⟨s', hr, _⟩ := run_calcBest (exec_ok_inv hs) p tbi
  have ht := tabOf_eq (tabOf_present hm hp)
  simp only [calcBestRes, ht] at hr
  exact ⟨_, s', hr, bestBackup_recsAt hm h p tbi⟩

/-- C26: the selection does not depend on anything but the records. -/
theorem selection_unique {tbi : Meta.TBI M} {R : Mui → Option (Record M)}
    {a b : Option Mui × Option Mui} (ha : IsSelection tbi R a) (hb : IsSelection tbi R b) : a = b :=
  IsSelection.unique ha hb

/-- C26: histories with the same records of a prefix have the same selection, in
particular histories that differ in the order of their inserts. -/
theorem selection_order_independent [Fam W] {st : Strategy} (hm : st.inMemory = true) {F : Nat}
    {h h' : History M W} {s s' : Rib M W} (hs : exec st F h = .ok () s)
    (hs' : exec st F h' = .ok () s') {p : Prefix W} (hp : Present h p) (hp' : Present h' p)
    (hsame : ∀ m, recOf h p m = recOf h' p m) (tbi : Meta.TBI M) :
    ∃ sel s1 s1', (ribCalcBest p.id tbi).run s = .ok (.ok sel) s1 ∧
      (ribCalcBest p.id tbi).run s' = .ok (.ok sel) s1' := by
  obtain ⟨sel, s1, hr, hsel⟩ := selection_correct hm hs hp tbi
  obtain ⟨sel', s1', hr', hsel'⟩ := selection_correct hm hs' hp' tbi
  have : recOf h' p = recOf h p := funext fun m => (hsame m).symm
  rw [this] at hsel'
  rw [IsSelection.unique hsel' hsel] at hr'
  exact ⟨sel, s1, s1', hr, hr'⟩

theorem storePs_val (ps : PsCell) (v : Option Mui × Option Mui) : (storePs ps v).val = v := by
  unfold storePs
  split
  · assumption
  · rfl

theorem psAt_calcBest {st : Strategy} {h : History M W} {p : Prefix W}
    (hs : (tabOf st h p.id).isSome) (tbi : Meta.TBI M) :
    psAt st (.calcBest p tbi :: h) p = storePs (psAt st h p) (bestBackup (recsAt st h p) tbi) := by
  have ht := tabOf_eq hs
  conv => lhs; unfold psAt
  simp only [tabOf, ht, put_id, if_true]
  rfl

theorem psAt_insert {st : Strategy} (hm : st.inMemory = true) {h : History M W} {p : Prefix W}
    (hs : (tabOf st h p.id).isSome) (r : Record M) (tbi : Meta.TBI M) :
    psAt st (.insert p r (some tbi) :: h) p = storePs { psAt st h p with tag := true }
      (bestBackup (recsAt st (.insert p r (some tbi) :: h) p) tbi) := by
  have ht := tabOf_eq hs
  rw [recsAt_insert hm, if_pos rfl]
  conv => lhs; unfold psAt
  simp only [tabOf, ht, put_id, if_true, hm, upsertEntry]
  rfl

theorem stored_val {st : Strategy} (hm : st.inMemory = true) {h h1 : History M W} {p : Prefix W}
    {tbi : Meta.TBI M} {op : Op M W} (hop : Stores h p tbi op) (h1s : ∀ o ∈ h1, ¬ Selects p o) :
    IsSelection tbi (recOf (op :: h) p) (psAt st (h1 ++ op :: h) p).val := by
  rw [psAt_append h1s]
  obtain ⟨hp, hop⟩ := hop
  have hsome := tabOf_present hm hp
  rcases hop with rfl | ⟨r, rfl⟩
  · rw [psAt_calcBest hsome, storePs_val]
    have := bestBackup_recsAt hm (.calcBest p tbi :: h) p tbi
    rwa [recsAt_calcBest] at this
  · rw [psAt_insert hm hsome, storePs_val]
    exact bestBackup_recsAt hm _ p tbi

theorem stores_present {h : History M W} {p : Prefix W} {tbi : Meta.TBI M} {op : Op M W}
    (hop : Stores h p tbi op) (h1 : History M W) : Present (h1 ++ op :: h) p := by
  obtain ⟨⟨m, r, t, hmem, hr⟩, _⟩ := hop
  exact ⟨m, r, t, by simp [hmem], hr⟩

/-- C26: `best_path` returns the current record of the path that was the best one
when the selection was stored last, provided that record is active.
Missing: see `best_path_fails` and `insert_selects_fails`. -/
theorem best_path_partial [Fam W] {st : Strategy} (hm : st.inMemory = true) {F : Nat}
    {h h1 : History M W} {p : Prefix W} {tbi : Meta.TBI M} {op : Op M W}
    (hop : Stores h p tbi op) (h1s : ∀ o ∈ h1, ¬ Selects p o) {s : Rib M W}
    (hs : exec st F (h1 ++ op :: h) = .ok () s) {b : Mui}
    (hb : IsFirst tbi (recOf (op :: h) p) (some b)) {r : Record M}
    (hr : recOf (h1 ++ op :: h) p b = some r) (ha : r.status = .active) :
    (ribBestPath (M := M) p.id).run s = .ok (some (.ok r)) s := by
  rw [run_bestPath (exec_ok_inv hs) p, tabOf_eq (tabOf_present hm (stores_present hop h1))]
  have hsel := stored_val hm hop h1s
  have hv : (psAt st (h1 ++ op :: h) p).val.1 = some b := IsFirst.unique hsel.1 hb
  simp only [Option.map_some, hv]
  have hmui := recOf_mui hr
  simp only [getRecordForMui, get_recsAt hm, hr, Option.map_some, Option.bind_some, Record.toMMV, ha,
    or_true, if_true]
  subst hmui
  obtain ⟨m, t, sx, md⟩ := r
  simp only at ha
  subst ha
  rfl

/-- C26: whether or not its record is active, the best path that was stored stays the
one that `best_path` looks up: for a withdrawn record the answer is
`StoreNotReadyError`. -/
theorem best_path_withdrawn [Fam W] {st : Strategy} (hm : st.inMemory = true) {F : Nat}
    {h h1 : History M W} {p : Prefix W} {tbi : Meta.TBI M} {op : Op M W}
    (hop : Stores h p tbi op) (h1s : ∀ o ∈ h1, ¬ Selects p o) {s : Rib M W}
    (hs : exec st F (h1 ++ op :: h) = .ok () s) {b : Mui}
    (hb : IsFirst tbi (recOf (op :: h) p) (some b)) {r : Record M}
    (hr : recOf (h1 ++ op :: h) p b = some r) (ha : r.status ≠ .active) :
    (ribBestPath (M := M) p.id).run s = .ok (some (.error .storeNotReady)) s := by
  rw [run_bestPath (exec_ok_inv hs) p, tabOf_eq (tabOf_present hm (stores_present hop h1))]
  have hsel := stored_val hm hop h1s
  have hv : (psAt st (h1 ++ op :: h) p).val.1 = some b := IsFirst.unique hsel.1 hb
  simp only [Option.map_some, hv]
  simp only [getRecordForMui, get_recsAt hm, hr, Option.map_some, Option.bind_some, Record.toMMV, ha,
    or_false, Bool.false_eq_true, if_false]

/-- Two records for 10.0.0.0/8, the better one withdrawn, and a selection. -/
def wdBest : History Demo.Md 32 :=
  [.calcBest Demo.ten8 (), .withdrawFor Demo.ten8 1#32 7#64,
    .insert Demo.ten8 (Demo.rec1 3 2 8) none, .insert Demo.ten8 (Demo.rec1 1 1 7) none]

/-- C26 is false: withdrawn records take part in the selection, so right after a
successful calculation `best_path` can fail although an active record exists. -/
theorem best_path_fails : ∃ s, exec .memoryOnly 0 wdBest = .ok () s ∧
    (ribBestPath Demo.ten8.id).run s = .ok (some (.error .storeNotReady)) s ∧
    ∃ r, recOf wdBest Demo.ten8 3#32 = some r ∧ r.status = .active := by
  obtain ⟨s, hs, hi⟩ := exec_inv .memoryOnly 0 wdBest
  refine ⟨s, hs, ?_, Demo.rec1 3 2 8, by decide, rfl⟩
  rw [run_bestPath hi]
  rfl

/-- C26 is false: the first insert for a prefix stores no selection although it is
given tie breaker information. -/
theorem insert_selects_fails : ∃ s,
    exec .memoryOnly 0 [.insert Demo.ten8 (Demo.rec1 1 1 7) (some ())] = .ok () s ∧
    (ribBestPath Demo.ten8.id).run s = .ok (some (.error .bestPathNotFound)) s := by
  obtain ⟨s, hs, hi⟩ := exec_inv .memoryOnly 0
    [.insert Demo.ten8 (Demo.rec1 1 1 7) (some ())]
  refine ⟨s, hs, ?_⟩
  rw [run_bestPath hi]
  rfl

/-- Three records; the last two have equal metadata. -/
def three : History Demo.Md 32 :=
  [.insert Demo.ten8 (Demo.rec1 9 3 8) none, .insert Demo.ten8 (Demo.rec1 3 2 8) none,
    .insert Demo.ten8 (Demo.rec1 1 1 12) none]

/-- The hypotheses of the theorems above are met, and the answer is as expected. -/
example : Present three Demo.ten8 ∧ Stores three Demo.ten8 () (.calcBest Demo.ten8 ()) ∧
    (∃ s s', exec .memoryOnly 0 three = .ok () s ∧
      (ribCalcBest (M := Demo.Md) Demo.ten8.id ()).run s = .ok (.ok (some 3#32, some 9#32)) s') := by
  refine ⟨by decide, ⟨by decide, .inl rfl⟩, ?_⟩
  obtain ⟨s, hs, hi⟩ := exec_inv .memoryOnly 0 three
  obtain ⟨s', hr, _⟩ := run_calcBest hi Demo.ten8 ()
  exact ⟨s, s', hs, hr⟩

/-! ## C27 -/

/-- C27: an insert for a known prefix without tie breaker information makes the
selection outdated, and it stays so until the next insert or calculation for it.
Missing: see `outdated_first_insert_fails` and `outdated_after_calc_fails`. -/
theorem outdated_after_insert_partial [Fam W] {st : Strategy} (hm : st.inMemory = true) {F : Nat}
    {h h1 : History M W} {p : Prefix W} (hp : Present h p) {r : Record M}
    (h1s : ∀ o ∈ h1, ¬ Selects p o) {s : Rib M W}
    (hs : exec st F (h1 ++ .insert p r none :: h) = .ok () s) :
    (ribIsPsOutdated (M := M) p.id).run s = .ok (.ok true) s := by
  have hpre : Present (h1 ++ .insert p r none :: h) p := ⟨r.mui, r, none, by simp, rfl⟩
  rw [run_isPsOutdated (exec_ok_inv hs) p, tabOf_eq (tabOf_present hm hpre), psAt_append h1s]
  have ht := tabOf_eq (tabOf_present hm hp)
  have : psAt st (.insert p r none :: h) p = { psAt st h p with tag := true } := by
    conv => lhs; unfold psAt
    simp only [tabOf, ht, put_id, if_true, hm, upsertEntry]
    rfl
  rw [this]

theorem psAt_val_other {st : Strategy} {h : History M W} {p : Prefix W} {op : Op M W}
    (hop : ¬ StoresSel p op) : (psAt st (op :: h) p).val = (psAt st h p).val := by
  by_cases hs : Selects p op
  · cases op with
    | insert q r tbi =>
      have hq : q = p := hs
      subst hq
      have : tbi = none := by
        by_contra hne
        exact hop ⟨rfl, hne⟩
      subst this
      unfold psAt
      simp only [tabOf]
      cases hm : st.inMemory with
      | false => rfl
      | true =>
        simp only [if_true, put_id]
        cases tabOf st h q.id <;> rfl
    | calcBest q tbi => exact absurd hs hop
    | withdrawFor => cases hs
    | activateFor => cases hs
    | withdraw => cases hs
    | activate => cases hs
  · rw [psAt_other hs]

theorem psAt_val_append {st : Strategy} {h h1 : History M W} {p : Prefix W}
    (h1s : ∀ op ∈ h1, ¬ StoresSel p op) : (psAt st (h1 ++ h) p).val = (psAt st h p).val := by
  induction h1 with
  | nil => rfl
  | cons op h1 ih =>
    rw [List.cons_append, psAt_val_other (h1s op (by simp)), ih (fun o ho => h1s o (by simp [ho]))]

theorem fresh_of_changed [Fam W] {st : Strategy} (hm : st.inMemory = true) {F : Nat}
    {h h1 : History M W} {p : Prefix W} {tbi : Meta.TBI M} {op : Op M W} (hop : Stores h p tbi op)
    (h1s : ∀ o ∈ h1, ¬ Selects p o) {s : Rib M W} (hs : exec st F (h1 ++ op :: h) = .ok () s)
    (hch : ¬ IsSelection tbi (recOf (op :: h) p) (psAt st h p).val) :
    (ribIsPsOutdated (M := M) p.id).run s = .ok (.ok false) s := by
  rw [run_isPsOutdated (exec_ok_inv hs) p, tabOf_eq (tabOf_present hm (stores_present hop h1)),
    psAt_append h1s]
  have hsome := tabOf_present hm hop.1
  have hsel := bestBackup_recsAt hm (op :: h) p tbi
  rcases hop.2 with rfl | ⟨r, rfl⟩
  · rw [recsAt_calcBest] at hsel
    have hne : ¬ (psAt st h p).val = bestBackup (recsAt st h p) tbi := fun c => hch (c ▸ hsel)
    rw [psAt_calcBest hsome, storePs, if_neg hne]
  · have hne : ¬ (psAt st h p).val = bestBackup (recsAt st (.insert p r (some tbi) :: h) p) tbi :=
      fun c => hch (c ▸ hsel)
    rw [psAt_insert hm hsome, storePs, if_neg hne]

/-- C27: after the first stored selection for a prefix the flag is false, until the
next insert or calculation for the prefix. -/
theorem fresh_after_first_selection_partial [Fam W] {st : Strategy} (hm : st.inMemory = true)
    {F : Nat} {h h1 : History M W} {p : Prefix W} {tbi : Meta.TBI M} {op : Op M W}
    (hop : Stores h p tbi op) (hfirst : ∀ o ∈ h, ¬ StoresSel p o)
    (h1s : ∀ o ∈ h1, ¬ Selects p o) {s : Rib M W} (hs : exec st F (h1 ++ op :: h) = .ok () s) :
    (ribIsPsOutdated (M := M) p.id).run s = .ok (.ok false) s := by
  refine fresh_of_changed hm hop h1s hs ?_
  have hv : (psAt st h p).val = (none, none) := by
    have := psAt_val_append (st := st) (h := []) (p := p) hfirst
    rw [List.append_nil] at this
    rw [this]; rfl
  rw [hv]
  rintro ⟨h1, _⟩
  obtain ⟨m, hmi⟩ := hop.1
  have hmi' : Inserted (op :: h) p m := by
    obtain ⟨r, t, hmem, hr⟩ := hmi
    exact ⟨r, t, by simp [hmem], hr⟩
  have := (inserted_iff_recOf (h := op :: h) (p := p) (m := m)).1 hmi'
  rw [h1 m] at this
  simp at this

/-- C27: after a stored selection that differs from the one stored before, the flag
is false, until the next insert or calculation for the prefix. -/
theorem fresh_after_changed_selection_partial [Fam W] {st : Strategy} (hm : st.inMemory = true)
    {F : Nat} {h0 h1 h2 : History M W} {p : Prefix W} {tbi0 tbi : Meta.TBI M} {op0 op : Op M W}
    (hop0 : Stores h0 p tbi0 op0) (h1s : ∀ o ∈ h1, ¬ StoresSel p o)
    (hop : Stores (h1 ++ op0 :: h0) p tbi op) (h2s : ∀ o ∈ h2, ¬ Selects p o)
    (hch : ∀ sel, IsSelection tbi0 (recOf (op0 :: h0) p) sel →
      ¬ IsSelection tbi (recOf (op :: (h1 ++ op0 :: h0)) p) sel) {s : Rib M W}
    (hs : exec st F (h2 ++ op :: (h1 ++ op0 :: h0)) = .ok () s) :
    (ribIsPsOutdated (M := M) p.id).run s = .ok (.ok false) s := by
  refine fresh_of_changed hm hop h2s hs (hch _ ?_)
  rw [psAt_val_append h1s]
  exact stored_val (h1 := []) hm hop0 (by simp)

/-- C27 is false: after the first insert for a prefix no selection was calculated,
but the flag is false. -/
theorem outdated_first_insert_fails : ∃ s,
    exec .memoryOnly 0 [.insert Demo.ten8 (Demo.rec1 1 1 7) none] = .ok () s ∧
    (ribIsPsOutdated Demo.ten8.id).run s = .ok (.ok false) s := by
  obtain ⟨s, hs, hi⟩ := exec_inv .memoryOnly 0 [.insert Demo.ten8 (Demo.rec1 1 1 7) none]
  refine ⟨s, hs, ?_⟩
  rw [run_isPsOutdated hi]
  rfl

/-- Insert, select, insert the same again, select. -/
def again : History Demo.Md 32 :=
  [.calcBest Demo.ten8 (), .insert Demo.ten8 (Demo.rec1 1 2 7) none, .calcBest Demo.ten8 (),
    .insert Demo.ten8 (Demo.rec1 1 1 7) none]

/-- C27 is false: right after a successful calculation the flag can be true, when
the selection is the same as before; `is_ps_outdated` then stays true however often
the selection is calculated. -/
theorem outdated_after_calc_fails : ∃ s, exec .memoryOnly 0 again = .ok () s ∧
    (ribIsPsOutdated Demo.ten8.id).run s = .ok (.ok true) s ∧
    (ribCalcBest (M := Demo.Md) Demo.ten8.id ()).run s = .ok (.ok (some 1#32, none)) s := by
  obtain ⟨s, hs, hi⟩ := exec_inv .memoryOnly 0 again
  refine ⟨s, hs, ?_, ?_⟩
  · rw [run_isPsOutdated hi]
    rfl
  · unfold ribCalcBest
    rcases run_retrievePrefix Demo.ten8.clean hi.tab.inv with ⟨hr, hn⟩ | ⟨ref, e, hr, he, hid⟩
    · have hf := (hi.tab.none_iff _).2 hn
      exact absurd hf (by decide)
    · have hf := hi.tab.at he
      rw [hid] at hf
      have h1 : tabOf .memoryOnly again Demo.ten8.id =
        some ([(1#32, ⟨⟨[7#8]⟩, 2#64, .active⟩)], ⟨1, true, (some 1#32, none)⟩) := by decide
      rw [h1] at hf
      have h2 := Option.some.inj hf
      have hr1 : e.recs = [(1#32, ⟨⟨[7#8]⟩, 2#64, .active⟩)] := (congrArg Prod.fst h2).symm
      have hp1 : e.ps = ⟨1, true, (some 1#32, none)⟩ := (congrArg Prod.snd h2).symm
      have hb : bestBackup e.recs (() : Meta.TBI Demo.Md) = (some 1#32, none) := by rw [hr1]; decide
      simp only [run_bind, run_onRecs, hr, Outcome.mapState, Outcome.andThen,
        run_calculateAndStore he, hb]
      have : ({ e with ps := storePs e.ps (some 1#32, none) } : StoredPrefix Demo.Md 32) = e := by
        rw [hp1]
        cases e
        simp only at hp1
        subst hp1
        rfl
      rw [this, set_self_slots he]

/-- The hypotheses of the theorems above are met. -/
example : Present (M := Demo.Md) [.insert Demo.ten8 (Demo.rec1 1 1 7) none] Demo.ten8 ∧
    Stores three Demo.ten8 () (.calcBest Demo.ten8 ()) ∧
    (∀ o ∈ three, ¬ StoresSel Demo.ten8 o) ∧
    ¬ Selects Demo.ten8 (Op.withdraw (M := Demo.Md) 1#32) ∧
    (∃ sel, IsSelection () (recOf three Demo.ten8) sel) := by
  refine ⟨by decide, ⟨by decide, .inl rfl⟩, ?_, fun h => h, ?_⟩
  · intro o ho
    simp only [three, List.mem_cons, List.not_mem_nil, or_false] at ho
    rcases ho with rfl | rfl | rfl <;> exact fun h => h.2 rfl
  · exact ⟨_, bestBackup_recsAt (st := .memoryOnly) rfl three Demo.ten8 ()⟩

end Rotonda.Props
