import Verif.Proofs.RibSeq

/-!
# The record table against the specification of histories
-/

namespace Rotonda

open Prog Spec

variable {M : Type} {W : Nat} [Meta M]

theorem recOf_mui {h : History M W} {p : Prefix W} {m : Mui} {r : Record M}
    (hr : recOf h p m = some r) : r.mui = m := by
  induction h generalizing r with
  | nil => simp [recOf] at hr
  | cons op h ih =>
    cases op with
    | insert p' r' tbi =>
      simp only [recOf] at hr
      split at hr
      · rename_i c; cases hr; exact c.2
      · exact ih hr
    | withdrawFor p' m' t =>
      simp only [recOf] at hr
      split at hr
      · cases hx : recOf h p m with
        | none => rw [hx] at hr; cases hr
        | some x => rw [hx] at hr; cases hr; exact ih (r := x) hx
      · exact ih hr
    | activateFor p' m' t =>
      simp only [recOf] at hr
      split at hr
      · cases hx : recOf h p m with
        | none => rw [hx] at hr; cases hr
        | some x => rw [hx] at hr; cases hr; exact ih (r := x) hx
      · exact ih hr
    | _ => exact ih hr

/-- The records in memory for a prefix. -/
def recsAt (st : Strategy) (h : History M W) (p : Prefix W) : Recs M :=
  ((tabOf st h p.id).map Prod.fst).getD []

omit [Meta M] in
theorem put_id {f : Tab M W} {p q : Prefix W} {x : Recs M × PsCell} :
    f.put p.id x q.id = if q = p then some x else f q.id := by
  unfold Tab.put
  by_cases hq : q = p
  · subst hq; simp
  · rw [Function.update_of_ne (fun he => hq (Prefix.id_inj he)), if_neg hq]

theorem recsAt_insert {st : Strategy} (hm : st.inMemory = true) {h : History M W}
    {p q : Prefix W} {r : Record M} {tbi} :
    recsAt st (.insert p r tbi :: h) q =
      if q = p then (recsAt st h p).insert r.mui r.toMMV else recsAt st h q := by
  unfold recsAt
  simp only [tabOf, hm, if_true, put_id]
  split
  · cases tabOf st h p.id <;> rfl
  · rfl

theorem recsAt_withdrawFor {st : Strategy} (hm : st.inMemory = true) {h : History M W}
    {p q : Prefix W} {m : Mui} {t : LTime} :
    recsAt st (.withdrawFor p m t :: h) q =
      if q = p then markStatus (recsAt st h p) m t .withdrawn else recsAt st h q := by
  unfold recsAt
  simp only [tabOf, hm, if_true, put_id]
  split
  · cases tabOf st h p.id <;> rfl
  · rfl

theorem recsAt_activateFor {st : Strategy} (hm : st.inMemory = true) {h : History M W}
    {p q : Prefix W} {m : Mui} {t : LTime} :
    recsAt st (.activateFor p m t :: h) q =
      if q = p then markStatus (recsAt st h p) m t .active else recsAt st h q := by
  unfold recsAt
  simp only [tabOf, hm, if_true, put_id]
  split
  · cases tabOf st h p.id <;> rfl
  · rfl

theorem recsAt_calcBest {st : Strategy} {h : History M W} {p q : Prefix W} {tbi} :
    recsAt st (.calcBest p tbi :: h) q = recsAt st h q := by
  unfold recsAt
  simp only [tabOf]
  cases hx : tabOf st h p.id with
  | none => rfl
  | some x =>
    simp only [put_id]
    split
    · rename_i c; subst c; rw [hx]; rfl
    · rfl

/-- The table holds the record of the specification. -/
theorem get_recsAt {st : Strategy} (hm : st.inMemory = true) (h : History M W) (p : Prefix W)
    (m : Mui) : (recsAt st h p).get m = (recOf h p m).map Record.toMMV := by
  induction h with
  | nil => rfl
  | cons op h ih =>
    cases op with
    | insert p' r tbi =>
      rw [recsAt_insert hm, recOf]
      by_cases hp : p = p'
      · subst hp
        simp only [if_true, get_insert, true_and]
        by_cases hk : m = r.mui
        · simp [hk]
        · rw [if_neg hk, if_neg (fun e => hk e.symm), ih]
      · rw [if_neg hp, if_neg (fun e => hp e.1.symm), ih]
    | withdrawFor p' m' t =>
      rw [recsAt_withdrawFor hm, recOf]
      by_cases hp : p = p'
      · subst hp
        simp only [if_true, markStatus, get_modify, true_and]
        by_cases hk : m = m'
        · subst hk
          simp only [if_true, ih, Option.map_map]
          rfl
        · rw [if_neg hk, if_neg (fun e => hk e.symm), ih]
      · rw [if_neg hp, if_neg (fun e => hp e.1.symm), ih]
    | activateFor p' m' t =>
      rw [recsAt_activateFor hm, recOf]
      by_cases hp : p = p'
      · subst hp
        simp only [if_true, markStatus, get_modify, true_and]
        by_cases hk : m = m'
        · subst hk
          simp only [if_true, ih, Option.map_map]
          rfl
        · rw [if_neg hk, if_neg (fun e => hk e.symm), ih]
      · rw [if_neg hp, if_neg (fun e => hp e.1.symm), ih]
    | withdraw m' => exact ih
    | activate m' => exact ih
    | calcBest p' tbi => rw [recsAt_calcBest]; exact ih

/-! ## Keys are not repeated -/

/-- No mui occurs twice. -/
def KeysNodup (rs : Recs M) : Prop := (rs.map Prod.fst).Nodup

omit [Meta M] in
theorem mem_insert_keys {rs : Recs M} {m k : Mui} {v : MMV M} :
    k ∈ (rs.insert m v).map Prod.fst ↔ k = m ∨ k ∈ rs.map Prod.fst := by
  induction rs with
  | nil => simp [Recs.insert]
  | cons kv rs ih =>
    obtain ⟨a, x⟩ := kv
    simp only [Recs.insert]
    split
    · rename_i c; subst c; simp
    · simp only [List.map_cons, List.mem_cons, ih]
      constructor
      · rintro (h | h | h)
        · exact .inr (.inl h)
        · exact .inl h
        · exact .inr (.inr h)
      · rintro (h | h | h)
        · exact .inr (.inl h)
        · exact .inl h
        · exact .inr (.inr h)

omit [Meta M] in
theorem KeysNodup.insert {rs : Recs M} (h : KeysNodup rs) (m : Mui) (v : MMV M) :
    KeysNodup (rs.insert m v) := by
  unfold KeysNodup at *
  induction rs with
  | nil => simp [Recs.insert]
  | cons kv rs ih =>
    obtain ⟨a, x⟩ := kv
    simp only [Recs.insert]
    rw [List.map_cons, List.nodup_cons] at h
    split
    · rename_i c; subst c; rw [List.map_cons, List.nodup_cons]; exact h
    · rename_i c
      rw [List.map_cons, List.nodup_cons]
      refine ⟨fun hm => ?_, ih h.2⟩
      rcases mem_insert_keys.1 hm with h1 | h1
      · exact c h1
      · exact h.1 h1

omit [Meta M] in
theorem keys_modify {rs : Recs M} {m : Mui} {f : MMV M → MMV M} :
    (rs.modify m f).map Prod.fst = rs.map Prod.fst := by
  unfold Recs.modify
  rw [List.map_map]
  apply List.map_congr_left
  intro kv _
  simp only [Function.comp]
  split <;> rfl

theorem keysNodup_recsAt {st : Strategy} (h : History M W) (p : Prefix W) :
    KeysNodup (recsAt st h p) := by
  cases hm : st.inMemory with
  | false =>
    have : tabOf st h = fun _ => none := by
      induction h with
      | nil => rfl
      | cons op h ih => cases op <;> simp [tabOf, hm, ih]
    simp [recsAt, this, KeysNodup]
  | true =>
    induction h with
    | nil => simp [recsAt, tabOf, KeysNodup]
    | cons op h ih =>
      cases op with
      | insert p' r tbi =>
        rw [recsAt_insert hm]
        split
        · rename_i c; subst c; exact ih.insert _ _
        · exact ih
      | withdrawFor p' m' t =>
        rw [recsAt_withdrawFor hm]
        split
        · rename_i c; subst c; unfold KeysNodup markStatus; rw [keys_modify]; exact ih
        · exact ih
      | activateFor p' m' t =>
        rw [recsAt_activateFor hm]
        split
        · rename_i c; subst c; unfold KeysNodup markStatus; rw [keys_modify]; exact ih
        · exact ih
      | withdraw m' => exact ih
      | activate m' => exact ih
      | calcBest p' tbi => rw [recsAt_calcBest]; exact ih

omit [Meta M] in
theorem mem_iff_get {rs : Recs M} (h : KeysNodup rs) {m : Mui} {v : MMV M} :
    (m, v) ∈ rs ↔ rs.get m = some v := by
  unfold KeysNodup at h
  unfold Recs.get
  induction rs with
  | nil => simp
  | cons kv rs ih =>
    obtain ⟨a, x⟩ := kv
    rw [List.map_cons, List.nodup_cons] at h
    rw [List.mem_cons, List.lookup_cons, ih h.2]
    by_cases c : m = a
    · subst c
      simp only [Prod.mk.injEq, true_and, BEq.rfl]
      constructor
      · rintro (rfl | hl)
        · rfl
        · refine absurd ?_ h.1
          have : (Recs.get rs m).isSome := by unfold Recs.get; rw [hl]; rfl
          exact lookup_isSome_iff.1 this
      · intro hx; cases hx; exact .inl rfl
    · have hf : (m == a) = false := by simpa using c
      simp only [Prod.mk.injEq, c, false_and, false_or, hf]

/-! ## Filtering -/

omit [Meta M] in
theorem noneIfEmpty_getD {α : Type} (l : List α) : (noneIfEmpty l).getD [] = l := by
  cases l <;> rfl

omit [Meta M] in
theorem noneIfEmpty_ne {α : Type} (l : List α) : noneIfEmpty l ≠ some [] := by
  cases l <;> simp [noneIfEmpty]

omit [Meta M] in
theorem KeysNodup.pairwise {rs : Recs M} (h : KeysNodup rs) :
    rs.Pairwise (fun a b => a.1 ≠ b.1) := by
  unfold KeysNodup List.Nodup at h
  rwa [List.pairwise_map] at h

/-- The answer of the in-memory filter. -/
theorem filtered_answers {st : Strategy} (hm : st.inMemory = true) (h : History M W) (p : Prefix W)
    (mui : Option Mui) (iw : Bool) :
    Answers (getFilteredRecords (recsAt st h p) mui iw (globWd h)) (Shown st h mui iw p) := by
  have hnd := keysNodup_recsAt (st := st) h p
  have hst : ∀ m, storedRec st h p m = recOf h p m := by
    intro m; cases st <;> first | rfl | (simp [Strategy.inMemory] at hm)
  have hps : ∀ x, passes st x ↔ x = .active := by
    intro m; cases st <;> first | rfl | (simp [Strategy.inMemory] at hm)
  have hmem : ∀ k v, (k, v) ∈ recsAt st h p ↔ ∃ r, recOf h p k = some r ∧ r.toMMV = v := by
    intro k v
    rw [mem_iff_get hnd, get_recsAt hm, Option.map_eq_some_iff]
  have hback : ∀ {k r}, recOf h p k = some r → r.toMMV.toRecord k = r := by
    intro k r hr
    have := recOf_mui hr
    cases r; simp only [Record.toMMV, MMV.toRecord]; simp only at this; rw [this]
  have hrew : ∀ {k : Mui} {r : Record M}, recOf h p k = some r →
      (rewriteStatus (globWd h) k r.toMMV).toRecord k = effective h r := by
    intro k r hr
    have := recOf_mui hr
    cases r
    simp only at this
    subst this
    simp only [rewriteStatus, effective, Record.toMMV, MMV.toRecord]
    split <;> rfl
  have hemui : ∀ r : Record M, (effective h r).mui = r.mui := by
    intro r; unfold effective; split <;> rfl
  cases mui with
  | some m =>
    have hone : ∀ o : Option (Record M), Answers (o.map fun r => [r]) (fun r => o = some r) := by
      intro o
      cases o with
      | none => exact ⟨⟨by simp, by simp⟩, by simp⟩
      | some a => exact ⟨⟨by simp, by simp [eq_comm]⟩, by simp⟩
    have hfin : getFilteredRecords (recsAt st h p) (some m) iw (globWd h) =
        (getFilteredRecordForMui (recsAt st h p) m iw (globWd h)).map fun r => [r] := rfl
    rw [hfin]
    convert hone _ using 1
    funext r
    rw [eq_iff_iff]
    unfold Shown
    simp only [hst, hps, Option.some.injEq]
    cases iw with
    | true =>
      simp only [getFilteredRecordForMui, getRecordForMuiRewritten, get_recsAt hm, Option.map_map,
        Option.map_eq_some_iff, Function.comp]
      constructor
      · rintro ⟨r0, h1, h2, h3⟩
        have := h2 m rfl
        subst this
        exact ⟨r0, h1, (hrew h1).trans h3.symm⟩
      · rintro ⟨r0, h1, h2⟩
        rw [hrew h1] at h2
        have hmu : r.mui = m := by rw [← h2, hemui, recOf_mui h1]
        subst hmu
        exact ⟨r0, h1, fun _ h => h, h2.symm⟩
    | false =>
      simp only [getFilteredRecordForMui, getRecordForMui, get_recsAt hm, Option.bind_map,
        Option.bind_eq_some_iff, Bool.false_eq_true, false_or, hm, Option.isSome_some, and_self,
        or_true, and_true]
      constructor
      · rintro ⟨r0, h1, h2, rfl, h4⟩
        have := h2 m rfl
        subst this
        refine ⟨r, h1, ?_⟩
        simp only [Function.comp]
        rw [if_pos (by exact h4), hback h1]
      · rintro ⟨r0, h1, h2⟩
        simp only [Function.comp] at h2
        split at h2
        · rename_i c
          rw [hback h1] at h2
          cases h2
          have := recOf_mui h1
          subst this
          exact ⟨_, h1, fun _ h => h, rfl, c⟩
        · cases h2
  | none =>
    cases iw with
    | true =>
      have hfin : getFilteredRecords (recsAt st h p) none true (globWd h) =
        noneIfEmpty (asRecordsRewritten (recsAt st h p) (globWd h)) := rfl
      rw [hfin]
      refine ⟨⟨?_, fun r => ?_⟩, noneIfEmpty_ne _⟩
      · rw [noneIfEmpty_getD, asRecordsRewritten, List.pairwise_map]
        exact hnd.pairwise.imp fun hab => by simpa [MMV.toRecord] using hab
      · rw [noneIfEmpty_getD, asRecordsRewritten, List.mem_map]
        unfold Shown
        simp only [hst]
        constructor
        · rintro ⟨⟨k, v⟩, hkv, rfl⟩
          obtain ⟨r0, h1, rfl⟩ := (hmem _ _).1 hkv
          refine ⟨r0, ?_, fun m hx => (by cases hx), hrew h1⟩
          have : ((rewriteStatus (globWd h) k r0.toMMV).toRecord k).mui = k := rfl
          rw [this]; exact h1
        · rintro ⟨r0, h1, _, h3⟩
          exact ⟨(r.mui, r0.toMMV), (hmem _ _).2 ⟨r0, h1, rfl⟩, (hrew h1).trans h3.symm⟩
    | false =>
      have hfin : getFilteredRecords (recsAt st h p) none false (globWd h) =
        noneIfEmpty (asActiveRecordsNotIn (recsAt st h p) (globWd h)) := rfl
      rw [hfin]
      refine ⟨⟨?_, fun r => ?_⟩, noneIfEmpty_ne _⟩
      · rw [noneIfEmpty_getD, asActiveRecordsNotIn, List.pairwise_filterMap]
        refine hnd.pairwise.imp fun {a b} hab x hx y hy => ?_
        split at hx <;> split at hy <;> simp_all
        rw [← hx, ← hy]; simpa [MMV.toRecord] using hab
      · rw [noneIfEmpty_getD, asActiveRecordsNotIn, List.mem_filterMap]
        unfold Shown
        simp only [hst, hps]
        constructor
        · rintro ⟨⟨k, v⟩, hkv, hx⟩
          obtain ⟨r0, h1, rfl⟩ := (hmem _ _).1 hkv
          split at hx
          · rename_i c
            rw [hback h1] at hx
            cases hx
            have := recOf_mui h1
            subst this
            exact ⟨_, h1, fun m hx => (by cases hx), rfl, c.1, .inl c.2⟩
          · cases hx
        · rintro ⟨r0, h1, _, rfl, h4, h5⟩
          refine ⟨(r.mui, r.toMMV), (hmem _ _).2 ⟨r, h1, rfl⟩, ?_⟩
          simp only [Option.isSome_none, Bool.false_eq_true, and_false, or_false] at h5
          simp only
          rw [if_pos ⟨h4, h5⟩, hback h1]

end Rotonda
