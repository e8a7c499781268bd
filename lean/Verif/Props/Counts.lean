import Verif.Props.Commute
import Verif.Proofs.CountSpec
import Mathlib.Tactic.IntervalCases

/-!
# Counters and reports: C16, C17, C18, C19, C20, C21, C42
-/

namespace Rotonda.Props

open Prog Spec

variable {M : Type} [Meta M] {W : Nat}

/-! ## C17 -/

/-- C17: the total prefix count is the number of distinct inserted prefixes. -/
theorem prefixes_count_total [hW : Fam W] {st : Strategy} {F : Nat} {h : History M W} {s : Rib M W}
    (hs : exec st F h = .ok () s) :
    ∃ c, ribPrefixesCount.run s = .ok c s ∧ c.total = (prefixes h).ncard ∧ (prefixes h).Finite := by
  have hi := exec_ok_inv hs
  have hw : W ≤ 128 := by have := hW.width; omega
  refine ⟨_, run_ribPrefixesCount s, ?_, present_finite h⟩
  rw [← sum_len_ncard (S := prefixes h) (present_finite h) hw]
  show ((List.range 129).map s.prefixes).sum = _
  congr 1
  apply List.map_congr_left
  intro l _
  exact hi.prefixes l

/-- C17: the total count for a length is the number of distinct inserted prefixes
of that length; lengths the family does not have are rejected. -/
theorem prefixes_count_for_len_total [hW : Fam W] {st : Strategy} {F : Nat} {h : History M W}
    {s : Rib M W} (hs : exec st F h = .ok () s) (l : Nat) :
    ∃ r, (ribPrefixesCountForLen l).run s = .ok r s ∧
      (l ≤ W → ∃ c, r = .ok c ∧ c.total = Set.ncard {p ∈ prefixes h | p.len = l}) ∧
      (W < l → r = .error .prefixLengthInvalid) := by
  have hi := exec_ok_inv hs
  unfold ribPrefixesCountForLen
  by_cases hl : l ≤ W
  · rw [if_pos hl]
    exact ⟨_, rfl, fun _ => ⟨_, rfl, hi.prefixes l⟩, fun h => by omega⟩
  · rw [if_neg hl]
    exact ⟨_, rfl, fun h => absurd h hl, fun _ => rfl⟩

/-- C17: the counts for the lengths of the family add up to the total count. -/
theorem prefixes_count_sum [hW : Fam W] {st : Strategy} {F : Nat} {h : History M W} {s : Rib M W}
    (hs : exec st F h = .ok () s) :
    ∃ c, ribPrefixesCount.run s = .ok c s ∧ ∃ f : Nat → UpsertCounters,
      (∀ l, l ≤ W → (ribPrefixesCountForLen l).run s = .ok (.ok (f l)) s) ∧
      c.total = ((List.range (W + 1)).map fun l => (f l).total).sum := by
  have hi := exec_ok_inv hs
  have hw := hW.width
  refine ⟨_, run_ribPrefixesCount s, fun l => ⟨0, 0, s.prefixes l⟩, fun l hl => ?_, ?_⟩
  · unfold ribPrefixesCountForLen; rw [if_pos hl]; rfl
  · show ((List.range 129).map s.prefixes).sum = ((List.range (W + 1)).map s.prefixes).sum
    have hz : ∀ l, W < l → s.prefixes l = 0 := by
      intro l hl
      rw [hi.prefixes l]
      have : {p : Prefix W | Present h p ∧ p.len = l} = ∅ := by
        ext p
        simp only [Set.mem_ofPred_eq, Set.mem_empty_iff_false, iff_false]
        rintro ⟨_, h2⟩
        have := p.le; omega
      rw [this, Set.ncard_empty]
    have hsplit : List.range 129 = List.range (W + 1) ++ (List.range (128 - W)).map (W + 1 + ·) := by
      rw [← List.range_add]; congr 1; omega
    rw [hsplit, List.map_append, List.sum_append]
    have : (((List.range (128 - W)).map (W + 1 + ·)).map s.prefixes).sum = 0 := by
      apply List.sum_eq_zero
      intro x hx
      simp only [List.mem_map, List.mem_range] at hx
      obtain ⟨_, ⟨a, _, rfl⟩, rfl⟩ := hx
      exact hz _ (by omega)
    omega

/-- The store of the examples holds four distinct prefixes. -/
theorem Demo.prefixes_hist : prefixes Rotonda.Demo.hist =
    {Rotonda.Demo.ten8, Rotonda.Demo.ten16, Rotonda.Demo.other, Rotonda.Demo.host} := by
  ext p
  simp only [prefixes, Set.mem_ofPred_eq, Set.mem_insert_iff, Set.mem_singleton_iff]
  unfold Rotonda.Demo.hist
  rw [present_other rfl, present_other rfl, present_other rfl]
  simp only [present_insert]
  have : ¬ Present ([] : History Rotonda.Demo.Md 32) p := by simp [Present, Inserted]
  tauto

theorem Demo.prefixes_hist_card : (prefixes Rotonda.Demo.hist).ncard = 4 := by
  rw [Demo.prefixes_hist]
  have : ({Rotonda.Demo.ten8, Rotonda.Demo.ten16, Rotonda.Demo.other, Rotonda.Demo.host} :
      Set (Prefix 32)) = ((({Rotonda.Demo.ten8, Rotonda.Demo.ten16, Rotonda.Demo.other,
      Rotonda.Demo.host} : Finset (Prefix 32))) : Set (Prefix 32)) := by simp
  rw [this, Set.ncard_coe_finset]
  decide

example : ∃ s, exec .memoryOnly 0 Rotonda.Demo.hist = .ok () s ∧ ∃ c,
    ribPrefixesCount.run s = .ok c s ∧ c.total = 4 := by
  obtain ⟨s, hs, _⟩ := exec_inv .memoryOnly 0 Rotonda.Demo.hist
  obtain ⟨c, h1, h2, _⟩ := prefixes_count_total hs
  exact ⟨s, hs, c, h1, h2.trans Demo.prefixes_hist_card⟩

example : ∃ s, exec .persistOnly 0 Rotonda.Demo.hist = .ok () s ∧
    (ribPrefixesCountForLen 33).run s = .ok (.error .prefixLengthInvalid) s := by
  obtain ⟨s, hs, _⟩ := exec_inv .persistOnly 0 Rotonda.Demo.hist
  obtain ⟨r, h1, _, h2⟩ := prefixes_count_for_len_total hs 33
  rw [h2 (by decide)] at h1
  exact ⟨s, hs, h1⟩

/-! ## C18 -/

/-- Number of insert calls in a history. -/
def insertCalls (h : History M W) : Nat := h.countP fun op => match op with
  | .insert _ _ _ => true
  | _ => false

/-- No pair is inserted twice. -/
def NoRepeat : History M W → Prop
  | [] => True
  | .insert p r _ :: h => ¬ Inserted h p r.mui ∧ NoRepeat h
  | _ :: h => NoRepeat h

theorem numInserts_eq (h : History M W) : numInserts h = insertCalls h := by
  induction h with
  | nil => rfl
  | cons op h ih => cases op <;> simp_all [numInserts, insertCalls]

theorem numInserts_noRepeat {h : History M W} (hn : NoRepeat h) : numInserts h = (pairs h).ncard := by
  induction h with
  | nil =>
    have : pairs ([] : History M W) = ∅ := by ext; simp [pairs, Inserted]
    rw [this]; simp [numInserts]
  | cons op h ih =>
    cases op with
    | insert p r tbi =>
      have h1 : (p, r.mui) ∉ pairs h := hn.1
      rw [pairs_insert, Set.ncard_insert_of_notMem h1 (pairs_finite h), numInserts, ih hn.2]
    | _ => rw [pairs_other rfl]; exact ih hn

/-- C18, partly: the total route count is the number of insert calls.  It is the
number of distinct pairs when no pair was inserted twice, and never less.
Missing: the count is too high after repeated inserts of a pair, see
`routes_count_fails`. -/
theorem routes_count_total_partial [Fam W] {st : Strategy} {F : Nat} {h : History M W} {s : Rib M W}
    (hs : exec st F h = .ok () s) :
    ∃ c, ribRoutesCount.run s = .ok c s ∧ c.total = insertCalls h ∧ (pairs h).ncard ≤ c.total ∧
      (NoRepeat h → c.total = (pairs h).ncard) := by
  have hi := exec_ok_inv hs
  refine ⟨_, run_ribRoutesCount s, ?_, ?_, fun hn => ?_⟩
  · exact hi.routes.trans (numInserts_eq h)
  · exact (numInserts_ge h).trans hi.routes.ge
  · exact hi.routes.trans (numInserts_noRepeat hn)

example : ∃ s, exec .writeAhead 0 Rotonda.Demo.hist = .ok () s ∧ ∃ c,
    ribRoutesCount.run s = .ok c s ∧ c.total = 5 := by
  obtain ⟨s, hs, _⟩ := exec_inv .writeAhead 0 Rotonda.Demo.hist
  obtain ⟨c, h1, h2, _⟩ := routes_count_total_partial hs
  exact ⟨s, hs, c, h1, h2⟩

/-- The same pair, inserted twice. -/
def Demo.twice : History Rotonda.Demo.Md 32 :=
  [.insert Rotonda.Demo.ten8 (Rotonda.Demo.rec1 1 2 8) none,
    .insert Rotonda.Demo.ten8 (Rotonda.Demo.rec1 1 1 7) none]

/-- C18 does not hold: one pair inserted twice is counted as two routes, with
every strategy. -/
theorem routes_count_fails (st : Strategy) (F : Nat) :
    ∃ s, exec st F Demo.twice = .ok () s ∧ ∃ c, ribRoutesCount.run s = .ok c s ∧
      (pairs Demo.twice).ncard = 1 ∧ c.total = 2 := by
  obtain ⟨s, hs, _⟩ := exec_inv st F Demo.twice
  obtain ⟨c, h1, h2, _⟩ := routes_count_total_partial hs
  refine ⟨s, hs, c, h1, ?_, h2⟩
  unfold Demo.twice
  rw [pairs_insert, pairs_insert]
  have : pairs ([] : History Rotonda.Demo.Md 32) = ∅ := by ext; simp [pairs, Inserted]
  rw [this, Set.insert_eq_of_mem (by simp [Rotonda.Demo.rec1])]
  simp

/-! ## C19 -/

/-- C19, partly: in memory the prefix count counts the prefixes whose first call was
an insert; these are all inserted prefixes when no status of a prefix is changed
before it is inserted.  With `PersistOnly` no prefix is held in memory and the
count is 0.  The in-memory route count and the persisted counts are always 0.
Missing: see `memory_count_fails` and `persisted_count_fails`. -/
theorem stored_counts_partial [hW : Fam W] {st : Strategy} {F : Nat} {h : History M W} {s : Rib M W}
    (hs : exec st F h = .ok () s) :
    ∃ c c', ribPrefixesCount.run s = .ok c s ∧ ribRoutesCount.run s = .ok c' s ∧
      (st.inMemory = true → c.inMemory = Set.ncard {p | firstCall h p = some true}) ∧
      (st.inMemory = true → (∀ p, firstCall h p ≠ some false) → c.inMemory = (prefixes h).ncard) ∧
      (st.inMemory = false → c.inMemory = 0) ∧
      c.persisted = 0 ∧ c'.inMemory = 0 ∧ c'.persisted = 0 := by
  have hi := exec_ok_inv hs
  have hw : W ≤ 128 := by have := hW.width; omega
  have key : st.inMemory = true →
      s.cht.prefixesCount = Set.ncard {p | firstCall h p = some true} := by
    intro hm
    have hfin : {p | firstCall h p = some true}.Finite :=
      (present_finite h).subset fun p hp => first_present hp
    rw [← sum_len_ncard hfin hw]
    unfold PCht.prefixesCount
    rw [hi.memPrefixes]
    congr 1
    apply List.map_congr_left
    intro l _
    exact memPrefixes_spec hm h l
  refine ⟨_, _, run_ribPrefixesCount s, run_ribRoutesCount s, key, fun hm hn => ?_, fun hm => ?_, rfl, hi.memNodes, rfl⟩
  · refine (key hm).trans ?_
    congr 1
    ext p
    refine ⟨fun hp => first_present hp, fun hp => ?_⟩
    have h1 := firstCall_present hp
    have h2 := hn p
    show firstCall h p = some true
    cases hx : firstCall h p with
    | none => exact absurd hx h1
    | some b => cases b with
      | true => rfl
      | false => exact absurd hx h2
  · cases st with
    | persistOnly =>
      show s.cht.prefixesCount = 0
      unfold PCht.prefixesCount
      apply List.sum_eq_zero
      intro x hx
      simp only [List.mem_map] at hx
      obtain ⟨l, _, rfl⟩ := hx
      rw [hi.memPrefixes]
      exact memPrefixes_persistOnly h l
    | _ => simp [Strategy.inMemory] at hm

/-- C19: the prefix table keeps the right number of routes in memory in a counter of
its own, which no function of the interface reads. -/
theorem memory_routes_kept [Fam W] {st : Strategy} {F : Nat} {h : History M W} {s : Rib M W}
    (hm : st.inMemory = true) (hs : exec st F h = .ok () s) : s.cht.routes = (pairs h).ncard :=
  (exec_ok_inv hs).memRoutes.trans (memRoutes_spec hm h)

/-- One prefix, its status changed before it is inserted. -/
def Demo.early : History Rotonda.Demo.Md 32 :=
  [.insert Rotonda.Demo.ten8 (Rotonda.Demo.rec1 1 1 7) none,
    .withdrawFor Rotonda.Demo.ten8 1#32 0#64]

theorem Demo.pairs_early : (pairs Demo.early).ncard = 1 := by
  unfold Demo.early
  rw [pairs_insert, pairs_other rfl]
  have : pairs ([] : History Rotonda.Demo.Md 32) = ∅ := by ext; simp [pairs, Inserted]
  rw [this]; simp

/-- C19 does not hold in memory: a store with one prefix and one record counts no
prefix and no route in memory. -/
theorem memory_count_fails (F : Nat) :
    ∃ s, exec .memoryOnly F Demo.early = .ok () s ∧ ∃ c c',
      ribPrefixesCount.run s = .ok c s ∧ ribRoutesCount.run s = .ok c' s ∧
      (prefixes Demo.early).ncard = 1 ∧ (pairs Demo.early).ncard = 1 ∧
      c.total = 1 ∧ c.inMemory = 0 ∧ c'.inMemory = 0 := by
  obtain ⟨s, hs, _⟩ := exec_inv .memoryOnly F Demo.early
  obtain ⟨c, c', h1, h2, h3, _, _, _, h4, _⟩ := stored_counts_partial hs
  obtain ⟨c2, h5, h6, _⟩ := prefixes_count_total hs
  rw [h1] at h5
  cases h5
  have hp : prefixes Demo.early = {Rotonda.Demo.ten8} := by
    ext p
    simp only [prefixes, Set.mem_ofPred_eq, Set.mem_singleton_iff]
    unfold Demo.early
    rw [present_insert, present_other rfl]
    have : ¬ Present ([] : History Rotonda.Demo.Md 32) p := by simp [Present, Inserted]
    clear h1 h2 h6
    tauto
  have hf : {p | firstCall Demo.early p = some true} = ∅ := by
    ext p
    simp only [Set.mem_ofPred_eq, Set.mem_empty_iff_false, iff_false]
    simp only [Demo.early, firstCall]
    by_cases c : Rotonda.Demo.ten8 = p <;> simp [c]
  rw [hp, Set.ncard_singleton] at h6
  refine ⟨s, hs, c, c', h1, h2, by rw [hp, Set.ncard_singleton], Demo.pairs_early, h6, ?_, h4⟩
  rw [h3 rfl, hf, Set.ncard_empty]

/-- C19 does not hold for what is persisted: with `PersistOnly` the record is in the
persistence tree, and the persisted counts are 0. -/
theorem persisted_count_fails (F : Nat) :
    ∃ s, exec .persistOnly F Demo.early = .ok () s ∧ s.lsm ≠ [] ∧ ∃ c c',
      ribPrefixesCount.run s = .ok c s ∧ ribRoutesCount.run s = .ok c' s ∧
      c.persisted = 0 ∧ c'.persisted = 0 := by
  obtain ⟨s, hs, hi⟩ := exec_inv .persistOnly F Demo.early
  obtain ⟨c, c', h1, h2, _, _, _, h3, _, h4⟩ := stored_counts_partial hs
  refine ⟨s, hs, ?_, c, c', h1, h2, h3, h4⟩
  rw [hi.lsm]
  decide

example : ∃ s, exec .persistHistory 0 Rotonda.Demo.hist = .ok () s ∧ ∃ c,
    ribPrefixesCount.run s = .ok c s ∧ c.inMemory = 4 := by
  obtain ⟨s, hs, _⟩ := exec_inv .persistHistory 0 Rotonda.Demo.hist
  obtain ⟨c, c', h1, _, _, h2, _⟩ := stored_counts_partial hs
  refine ⟨s, hs, c, h1, (h2 rfl fun p => ?_).trans Demo.prefixes_hist_card⟩
  simp only [Rotonda.Demo.hist, firstCall]
  by_cases c1 : Rotonda.Demo.ten8 = p
  · simp [c1]
  · by_cases c2 : Rotonda.Demo.ten16 = p <;> by_cases c3 : Rotonda.Demo.other = p <;>
      by_cases c4 : Rotonda.Demo.host = p <;> simp [c1, c2, c3, c4]

/-! ## C20, C21 -/

/-- C20, partly: an in-memory store reports a prefix as new exactly when it was not
inserted before.  `PersistOnly` always reports it as new, see `prefix_new_fails`. -/
theorem prefix_new_partial [Fam W] {st : Strategy} {F : Nat} {h : History M W} {s : Rib M W}
    (hs : exec st F h = .ok () s) (p : Prefix W) (r : Record M) (tbi : Option (Meta.TBI M)) :
    ∃ rep s', (ribInsert st F p.id r tbi).run s = .ok (.ok rep) s' ∧
      (st.inMemory = true → (rep.prefixNew = true ↔ ¬ Present h p)) ∧
      (st.inMemory = false → rep.prefixNew = true) := by
  obtain ⟨s', hr, _⟩ := run_ribInsert (exec_ok_inv hs) F p r tbi
  refine ⟨_, s', hr, fun hm => ?_, fun hm => ?_⟩
  · unfold insertReport
    rw [if_pos hm]
    by_cases hp : Present h p
    · simp only [if_pos hp]
      have h1 := firstCall_present hp
      rw [tab_none_iff hm]
      simp [h1, hp]
    · simp [hp]
  · unfold insertReport
    simp [hm]

/-- C20 does not hold with `PersistOnly`: the second insert of a prefix reports it as
new. -/
theorem prefix_new_fails (F : Nat) :
    ∃ s, exec .persistOnly F Demo.twice = .ok () s ∧ Present Demo.twice Rotonda.Demo.ten8 ∧
      ∃ rep s', (ribInsert .persistOnly F Rotonda.Demo.ten8.id (Rotonda.Demo.rec1 1 3 9) none).run s =
        .ok (.ok rep) s' ∧ rep.prefixNew = true := by
  obtain ⟨s, hs, _⟩ := exec_inv .persistOnly F Demo.twice
  obtain ⟨rep, s', h1, _, h2⟩ := prefix_new_partial hs Rotonda.Demo.ten8
    (Rotonda.Demo.rec1 1 3 9) none
  exact ⟨s, hs, by decide, rep, s', h1, h2 rfl⟩

/-- The ids with a record on a prefix after a history. -/
def muis (h : History M W) (p : Prefix W) : Set Mui := {m | Inserted h p m}

omit [Meta M] in
theorem length_ncard {rs : Recs M} (hk : KeysNodup rs) :
    rs.length = Set.ncard {m | (rs.get m).isSome} := by
  have : {m | (rs.get m).isSome} = ((rs.map Prod.fst).toFinset : Set Mui) := by
    ext m
    simp only [Set.mem_ofPred_eq, List.coe_toFinset]
    exact lookup_isSome_iff
  rw [this, Set.ncard_coe_finset, List.toFinset_card_of_nodup hk, List.length_map]

/-- C21, partly: `mui_new` is always true, which is right when the id had no record
on the prefix.  The count is right in memory when the id had a record on the prefix
or the prefix had none; else it is 1.  With `PersistOnly` it is 0.
Missing: see `mui_report_fails`. -/
theorem mui_report_partial [Fam W] {st : Strategy} {F : Nat} {h : History M W} {s : Rib M W}
    (hs : exec st F h = .ok () s) (p : Prefix W) (r : Record M) (tbi : Option (Meta.TBI M)) :
    ∃ rep s', (ribInsert st F p.id r tbi).run s = .ok (.ok rep) s' ∧ rep.muiNew = true ∧
      (st.inMemory = true → (Inserted h p r.mui ∨ ¬ Present h p) →
        rep.muiCount = (muis (.insert p r tbi :: h) p).ncard) ∧
      (st.inMemory = true → ¬ Inserted h p r.mui → rep.muiCount = 1) ∧
      (st.inMemory = false → rep.muiCount = 0) := by
  obtain ⟨s', hr, _⟩ := run_ribInsert (exec_ok_inv hs) F p r tbi
  have hget : st.inMemory = true → ∀ m, ((tabOf st h p.id).bind fun x => x.1.get m).isSome ↔
      Inserted h p m := by
    intro hm m
    have h1 := get_recsAt hm h p m
    have h2 : (recsAt st h p).get m = (tabOf st h p.id).bind fun x => x.1.get m := by
      unfold recsAt; cases tabOf st h p.id <;> rfl
    rw [← h2, h1, inserted_iff_recOf, Option.isSome_map]
  have hone : st.inMemory = true → ¬ Inserted h p r.mui → (insertReport st h p r).muiCount = 1 := by
    intro hm hn
    rw [← hget hm] at hn
    unfold insertReport
    rw [if_pos hm]
    cases hx : tabOf st h p.id with
    | none => rfl
    | some x =>
      rw [hx] at hn
      simp only [Option.bind_some] at hn ⊢
      cases hy : x.1.get r.mui with
      | none => rfl
      | some y => rw [hy] at hn; simp at hn
  refine ⟨_, s', hr, ?_, fun hm hc => ?_, hone, fun hm => ?_⟩
  · unfold insertReport; split <;> rfl
  · rcases hc with hc | hc
    · have hset : muis (.insert p r tbi :: h) p =
          {m | (((recsAt st h p).insert r.mui r.toMMV).get m).isSome} := by
        ext m
        simp only [muis, Set.mem_ofPred_eq, inserted_insert, get_insert, true_and]
        split
        · rename_i c; simp [c]
        · rename_i c
          rw [get_recsAt hm, Option.isSome_map, ← inserted_iff_recOf]
          simp [c]
      rw [hset, ← length_ncard ((keysNodup_recsAt h p).insert _ _)]
      rw [← hget hm] at hc
      unfold insertReport recsAt
      rw [if_pos hm]
      cases hx : tabOf st h p.id with
      | none => rw [hx] at hc; simp at hc
      | some x =>
        rw [hx] at hc
        simp only [Option.bind_some] at hc ⊢
        cases hy : x.1.get r.mui with
        | none => rw [hy] at hc; simp at hc
        | some y => rfl
    · have : muis (.insert p r tbi :: h) p = {r.mui} := by
        ext m
        simp only [muis, Set.mem_ofPred_eq, inserted_insert, true_and, Set.mem_singleton_iff]
        constructor
        · rintro (h1 | h1)
          · exact h1
          · exact absurd ⟨m, h1⟩ hc
        · exact .inl
      rw [this, Set.ncard_singleton]
      exact hone hm fun hx => hc ⟨_, hx⟩
  · unfold insertReport; simp [hm]

/-- C21 does not hold: replacing a record reports a new id; a second id on a prefix
is reported with a count of 1 instead of 2. -/
theorem mui_report_fails (F : Nat) :
    ∃ s, exec .memoryOnly F Demo.twice = .ok () s ∧
      (Inserted Demo.twice Rotonda.Demo.ten8 1#32 ∧ ∃ rep s',
        (ribInsert .memoryOnly F Rotonda.Demo.ten8.id (Rotonda.Demo.rec1 1 3 9) none).run s =
          .ok (.ok rep) s' ∧ rep.muiNew = true) ∧
      (¬ Inserted Demo.twice Rotonda.Demo.ten8 2#32 ∧ ∃ rep s',
        (ribInsert .memoryOnly F Rotonda.Demo.ten8.id (Rotonda.Demo.rec1 2 3 9) none).run s =
          .ok (.ok rep) s' ∧ rep.muiCount = 1) := by
  obtain ⟨s, hs, _⟩ := exec_inv .memoryOnly F Demo.twice
  obtain ⟨rep, s', h1, h2, _⟩ := mui_report_partial hs Rotonda.Demo.ten8
    (Rotonda.Demo.rec1 1 3 9) none
  obtain ⟨rep2, s2, h3, _, _, h4, _⟩ := mui_report_partial hs Rotonda.Demo.ten8
    (Rotonda.Demo.rec1 2 3 9) none
  have hn : ¬ Inserted Demo.twice Rotonda.Demo.ten8 2#32 := by
    rw [inserted_iff_recOf]; decide
  exact ⟨s, hs, ⟨by rw [inserted_iff_recOf]; decide, rep, s', h1, h2⟩, hn, rep2, s2, h3, h4 rfl hn⟩

/-! ## C16 -/

/-- A status change for one prefix and id. -/
inductive StatusChange (p : Prefix W) (m : Mui) : Op M W → Prop
  | withdraw (t : LTime) : StatusChange p m (.withdrawFor p m t)
  | activate (t : LTime) : StatusChange p m (.activateFor p m t)

theorem statusChange_spec {h1 h : History M W} {p : Prefix W} {m : Mui} {op : Op M W}
    (ho : StatusChange p m op) (hn : ¬ Inserted h p m) :
    recOf (h1 ++ op :: h) = recOf (h1 ++ h) ∧ keptOf (h1 ++ op :: h) = keptOf (h1 ++ h) ∧
      globWd (h1 ++ op :: h) = globWd (h1 ++ h) ∧ Present (h1 ++ op :: h) = Present (h1 ++ h) := by
  have hrec : recOf h p m = none := by
    rw [inserted_iff_recOf] at hn; simpa using hn
  have hkept : keptOf h p m = none := by
    have : ∀ g : History M W, recOf g p m = none → keptOf g p m = none := by
      intro g
      induction g with
      | nil => intro _; rfl
      | cons o g ih =>
        cases o with
        | insert q r tbi =>
          simp only [recOf, keptOf]
          split
          · intro hx; cases hx
          · exact ih
        | withdrawFor q k t =>
          simp only [recOf, keptOf]
          split
          · intro hx; rw [ih (by simpa using hx)]; rfl
          · exact ih
        | activateFor q k t =>
          simp only [recOf, keptOf]
          split
          · intro hx; rw [ih (by simpa using hx)]; rfl
          · exact ih
        | _ => exact ih
    exact this h hrec
  have hrec' : recOf (op :: h) = recOf h := by
    funext q k
    cases ho <;>
    · simp only [recOf]
      split
      · rename_i c; rw [← c.1, ← c.2, hrec]; rfl
      · rfl
  have hkept' : keptOf (op :: h) = keptOf h := by
    funext q k
    cases ho <;>
    · simp only [keptOf]
      split
      · rename_i c; rw [← c.1, ← c.2, hkept]; rfl
      · rfl
  have hglob : globWd (op :: h) = globWd h := by funext k; cases ho <;> rfl
  refine ⟨?_, ?_, ?_, ?_⟩
  · induction h1 with
    | nil => exact hrec'
    | cons o h1 ih =>
      funext x k
      have := congrFun (congrFun ih x) k
      cases o <;> simp only [List.cons_append, recOf, this]
  · induction h1 with
    | nil => exact hkept'
    | cons o h1 ih =>
      funext x k
      have := congrFun (congrFun ih x) k
      cases o <;> simp only [List.cons_append, keptOf, this]
  · funext k
    exact globWd_congr (congrFun hglob k)
  · funext x
    rw [eq_iff_iff]
    unfold Present Inserted
    have : ∀ r tbi, (Op.insert x r tbi : Op M W) ∈ h1 ++ op :: h ↔
        Op.insert x r tbi ∈ h1 ++ h := by
      intro r tbi
      simp only [List.mem_append, List.mem_cons]
      constructor
      · rintro (hx | rfl | hx)
        · exact .inl hx
        · cases ho
        · exact .inr hx
      · rintro (hx | hx)
        · exact .inl hx
        · exact .inr (.inr hx)
    simp only [this]

/-- C16, partly: the first status change for an unknown prefix is rejected by the
strategies that keep records in memory.  Missing: later ones are accepted, and
`PersistOnly` accepts them all, see `unknown_status_accepted`. -/
theorem unknown_status_rejected_partial [Fam W] {st : Strategy} {F : Nat} {h : History M W}
    {s : Rib M W} (hs : exec st F h = .ok () s) (hm : st.inMemory = true) {p : Prefix W}
    (hp : firstCall h p = none) (m : Mui) (t : LTime) :
    (∃ e s', (ribMarkWithdrawnForPrefix st p.id m t).run s = .ok (.error e) s') ∧
    (∃ e s', (ribMarkActiveForPrefix st p.id m t).run s = .ok (.error e) s') := by
  have hi := exec_ok_inv hs
  obtain ⟨s1, h1, _⟩ := run_withdrawFor hi p m t
  obtain ⟨s2, h2, _⟩ := run_activateFor hi p m t
  have hn := Option.isNone_iff_eq_none.1 ((tab_none_iff hm).2 hp)
  cases st with
  | persistOnly => simp [Strategy.inMemory] at hm
  | _ =>
    simp only [withdrawForRes, activateForRes, hn] at h1 h2
    exact ⟨⟨_, s1, h1⟩, ⟨_, s2, h2⟩⟩

/-- C16, partly: a status change for a pair that is not in the store changes no later
record query, `contains` or `match_prefix`, whatever calls follow.
Missing: it changes later counts and later results of status changes, see
`memory_count_fails` and `unknown_status_accepted`. -/
theorem unknown_status_invisible_partial [Fam W] {st : Strategy} {F : Nat} {h1 h : History M W}
    {s s' : Rib M W} {p : Prefix W} {m : Mui} {op : Op M W} (ho : StatusChange p m op)
    (hn : ¬ Inserted h p m) (hs : exec st F (h1 ++ op :: h) = .ok () s)
    (hs' : exec st F (h1 ++ h) = .ok () s') :
    (∀ (x : Prefix W) (mui : Option Mui) (iw : Bool),
      ∃ o o', (ribGetValue st x.id mui iw).run s = .ok (.ok o) s ∧
        (ribGetValue st x.id mui iw).run s' = .ok (.ok o') s' ∧ (o.getD []).Perm (o'.getD [])) ∧
    (∀ x : Prefix W, ∃ b, (ribContains x.id none).run s = .ok b s ∧
      (ribContains x.id none).run s' = .ok b s') ∧
    (∀ (x : Prefix W) (o : MatchOptions), ∃ (N : Nat) (a b : QueryResult M W),
      (∀ fuel, N ≤ fuel → (ribMatchPrefix st fuel x.id o).run s = .ok (.ok a) s ∧
        (ribMatchPrefix st fuel x.id o).run s' = .ok (.ok b) s') ∧ SameResult a b) := by
  obtain ⟨e1, e2, e3, e4⟩ := statusChange_spec (h1 := h1) ho hn
  refine lookups_determined hs hs' e4 fun mui iw x => ?_
  funext y
  unfold Shown effective storedRec
  simp only [e1, e2, e3]

example : firstCall Rotonda.Demo.hist Rotonda.Demo.ten23 = none ∧
    ¬ Inserted Rotonda.Demo.hist Rotonda.Demo.ten23 1#32 := by
  rw [inserted_iff_recOf]; decide

/-- One status change, for a prefix that is not there. -/
def Demo.phantom : History Rotonda.Demo.Md 32 := [.withdrawFor Rotonda.Demo.ten8 1#32 0#64]

/-- C16 does not hold: the second status change for a prefix that was never inserted
succeeds in memory, the first one already with `PersistOnly`. -/
theorem unknown_status_accepted (F : Nat) :
    (¬ Present Demo.phantom Rotonda.Demo.ten8 ∧ ∃ s, exec .memoryOnly F Demo.phantom = .ok () s ∧
      ∃ s', (ribMarkWithdrawnForPrefix .memoryOnly Rotonda.Demo.ten8.id 1#32 1#64).run s =
        .ok (.ok ()) s') ∧
    (∃ s, exec .persistOnly F ([] : History Rotonda.Demo.Md 32) = .ok () s ∧
      ∃ s', (ribMarkWithdrawnForPrefix .persistOnly Rotonda.Demo.ten8.id 1#32 1#64).run s =
        .ok (.ok ()) s') := by
  obtain ⟨s, hs, hi⟩ := exec_inv .memoryOnly F Demo.phantom
  obtain ⟨s1, h1, _⟩ := run_withdrawFor hi Rotonda.Demo.ten8 1#32 1#64
  obtain ⟨s2, hs2, hi2⟩ := exec_inv .persistOnly F ([] : History Rotonda.Demo.Md 32)
  obtain ⟨s3, h3, _⟩ := run_withdrawFor hi2 Rotonda.Demo.ten8 1#32 1#64
  refine ⟨⟨by decide, s, hs, s1, ?_⟩, s2, hs2, s3, ?_⟩
  · rw [h1]
    have : (tabOf .memoryOnly Demo.phantom Rotonda.Demo.ten8.id).isSome := by
      rw [← Option.not_isNone, Bool.not_eq_true', ← Bool.not_eq_true, tab_none_iff rfl]; decide
    simp only [withdrawForRes, this, if_true]
  · rw [h3]; rfl

/-! ## C42 -/

/-- C42: the node count is the number of stride positions the inserted prefixes need,
plus the root. -/
theorem nodes_count [Fam W] {st : Strategy} {F : Nat} {h : History M W} {s : Rib M W}
    (hs : exec st F h = .ok () s) :
    ∃ n, ribNodesCount.run s = .ok n s ∧ n = (positions h).ncard + 1 ∧ (positions h).Finite := by
  have hi := exec_ok_inv hs
  exact ⟨_, rfl, nodes_positions hi.tree hi.nodes, positions_finite hi.tree hi.nodes⟩

/-- 10.0.0.0/8 needs one node below the root. -/
example : ∃ s, exec .memoryOnly 0 Demo.twice = .ok () s ∧ ∃ n,
    ribNodesCount.run s = .ok n s ∧ n = 2 := by
  obtain ⟨s, hs, _⟩ := exec_inv .memoryOnly 0 Demo.twice
  obtain ⟨n, h1, h2, _⟩ := nodes_count hs
  refine ⟨s, hs, n, h1, ?_⟩
  rw [h2]
  have : positions Demo.twice = {Rotonda.Demo.pfx 0#32 4 (by decide)} := by
    ext x
    simp only [positions, Set.mem_ofPred_eq, Set.mem_singleton_iff]
    have hpres : ∀ p, Present Demo.twice p ↔ p = Rotonda.Demo.ten8 := by
      intro p
      unfold Demo.twice
      rw [present_insert, present_insert]
      have : ¬ Present ([] : History Rotonda.Demo.Md 32) p := by simp [Present, Inserted]
      tauto
    constructor
    · rintro ⟨h4, h0, p, hp, hlt, hc⟩
      obtain rfl := (hpres p).1 hp
      have hl : Rotonda.Demo.ten8.len = 8 := rfl
      have hx : x.len = 4 := by omega
      apply Prefix.id_inj
      apply Clean.eq_of_bits x.clean (Prefix.clean (Rotonda.Demo.pfx 0#32 4 (by decide))) hx
      intro i hi
      have hi' : i < x.len := hi
      refine (hc.2 i hi').trans ?_
      have hi4 : i < 4 := by omega
      interval_cases i <;> decide
    · rintro rfl
      exact ⟨by decide, by decide, Rotonda.Demo.ten8, (hpres _).2 rfl, by decide, by decide⟩
  rw [this, Set.ncard_singleton]

end Rotonda.Props
