import Verif.Proofs.StarLift

/-!
# Concurrent queries through the public interface: C71

What C37, C38, C53 and C56 say about the calls of one family, for the calls of the store over
both families and in terms of these calls alone: any history, any set of concurrent calls of
any kind about prefixes of either family, any schedule.
-/

namespace Rotonda.Props

open Prog Spec

variable {M : Type} [Meta M] {ι : Type} [DecidableEq ι] {calls : ι → StarCall M}

section
variable {st : Strategy} {F0 F fuel : Nat} (hF : 32 ≤ F) (hf : iterFuel 128 ≤ fuel)
  {h : List (StarOp M)} {s : Star M} (hs : starExec st F0 h = .ok () s)
include hF hf hs

omit hF hs in
private theorem fuel4 : iterFuel 32 ≤ fuel :=
  Nat.le_trans (by unfold iterFuel; norm_num) hf

/-- C71 and C37, `contains`: a positive answer is about a prefix some insert was called for. -/
theorem star_concurrent_contains_sound {t : List ι} {j : ι} {p : AnyPrefix} {mui : Option Mui}
    (hr : StarReturned ((starStart st F fuel s calls).exec t) j (.contains p mui) true) :
    ∃ m, StarBegun h calls t p m := by
  obtain ⟨t4, t6, hI⟩ := run_interleaves st F fuel s calls t
  obtain ⟨h4, h6⟩ := starExec_ok hs
  rw [← List.take_length (l := t)] at hr
  cases p with
  | v4 p =>
    obtain ⟨b, hb, he⟩ := returned_v4 hI (Nat.le_refl _) (x := .contains (.v4 p) mui)
      (y := .contains p mui) (g := fun a => a) rfl hr
    cases he
    obtain ⟨m, hm⟩ := concurrent_contains_sound hF (fuel4 hf) h4 hb
    have := (runView4 h hI).begun (Nat.le_refl _) hm
    rw [List.take_length] at this
    exact ⟨m, this⟩
  | v6 p =>
    obtain ⟨b, hb, he⟩ := returned_v6 hI (Nat.le_refl _) (x := .contains (.v6 p) mui)
      (y := .contains p mui) (g := fun a => a) rfl hr
    cases he
    obtain ⟨m, hm⟩ := concurrent_contains_sound hF hf h6 hb
    have := (runView6 h hI).begun (Nat.le_refl _) hm
    rw [List.take_length] at this
    exact ⟨m, this⟩

/-- C71 and C37, `contains`: no prefix is missed whose insert returned before the query started
(not the default routes). -/
theorem star_concurrent_contains_complete_partial {t u : List ι} {j : ι} (hj : j ∉ t) {p : AnyPrefix}
    {m : Mui} (h0 : 0 < Pub.len p) (hc : StarCompleted h ((starStart st F fuel s calls).exec t) p m) {b : Bool}
    (hr : StarReturned ((starStart st F fuel s calls).exec (t ++ u)) j (.contains p none) b) : b = true := by
  obtain ⟨t4, t6, hI⟩ := run_interleaves st F fuel s calls (t ++ u)
  obtain ⟨h4, h6⟩ := starExec_ok hs
  rw [← List.take_length (l := t ++ u)] at hr
  cases p with
  | v4 p =>
    obtain ⟨b, hb, rfl⟩ := returned_v4 hI (Nat.le_refl _) (x := .contains (.v4 p) none)
      (y := .contains p none) (g := fun a => a) rfl hr
    have v := runView4 h hI
    obtain ⟨w, hw⟩ := v.split
    rw [hw] at hb
    exact concurrent_contains_complete_partial hF (fuel4 hf) h4 (v.notMem hj) h0 (v.completed' hc) hb
  | v6 p =>
    obtain ⟨b, hb, rfl⟩ := returned_v6 hI (Nat.le_refl _) (x := .contains (.v6 p) none)
      (y := .contains p none) (g := fun a => a) rfl hr
    have v := runView6 h hI
    obtain ⟨w, hw⟩ := v.split
    rw [hw] at hb
    exact concurrent_contains_complete_partial hF hf h6 (v.notMem hj) h0 (v.completed' hc) hb

/-- C71 and C37, less specifics: no errors, no duplicates, no empty records; only prefixes
that cover `p` and that some insert was called for; with withdrawn routes included none is
missed whose insert returned before the iteration started (not the default routes). -/
theorem star_concurrent_less_specifics_partial {t u : List ι} {j : ι} (hj : j ∉ t) {p : AnyPrefix}
    {mui : Option Mui} {iw : Bool} {l : List (FatalResult (PubRecord M))}
    (hr : StarReturned ((starStart st F fuel s calls).exec (t ++ u)) j (.lessIter p mui iw) l) :
    ∃ qs : List (PubRecord M), l = qs.map .ok ∧ (qs.map PubRecord.pfx).Nodup ∧
      (∀ x ∈ qs, x.recs ≠ [] ∧ Pub.Covers x.pfx p ∧ x.pfx ≠ p ∧
        ∃ m, StarBegun h calls (t ++ u) x.pfx m) ∧
      (iw = true → ∀ q m, 0 < Pub.len q → Pub.Covers q p → q ≠ p → (mui = none ∨ mui = some m) →
        StarCompleted h ((starStart st F fuel s calls).exec t) q m → ∃ rs, ⟨q, rs⟩ ∈ qs) := by
  obtain ⟨t4, t6, hI⟩ := run_interleaves st F fuel s calls (t ++ u)
  obtain ⟨h4, h6⟩ := starExec_ok hs
  rw [← List.take_length (l := t ++ u)] at hr
  cases p with
  | v4 p =>
    obtain ⟨b, hb, rfl⟩ := returned_v4 hI (Nat.le_refl _) (x := .lessIter (.v4 p) mui iw)
      (y := .lessIter p mui iw) (g := Star.pubs4) rfl hr
    exact (runView4 h hI).less hF (fuel4 hf) h4 hj hb
  | v6 p =>
    obtain ⟨b, hb, rfl⟩ := returned_v6 hI (Nat.le_refl _) (x := .lessIter (.v6 p) mui iw)
      (y := .lessIter p mui iw) (g := Star.pubs6) rfl hr
    exact (runView6 h hI).less hF hf h6 hj hb

/-- C71 and C38, more specifics: no errors, no duplicates, no empty records; only prefixes
covered by `p` that some insert was called for.  With withdrawn routes included none is missed
whose insert returned before the iteration started, if no insert below `p` needs a new tree
node while it runs.  Partial as `concurrent_more_specifics_partial`. -/
theorem star_concurrent_more_specifics_partial {t u : List ι} {j : ι} (hj : j ∉ t) {p : AnyPrefix}
    {mui : Option Mui} {iw : Bool} {l : List (FatalResult (PubRecord M))}
    (hr : StarReturned ((starStart st F fuel s calls).exec (t ++ u)) j (.moreIter p mui iw) l) :
    ∃ qs : List (PubRecord M), l = qs.map .ok ∧ (qs.map PubRecord.pfx).Nodup ∧
      (∀ x ∈ qs, x.recs ≠ [] ∧ Pub.Covers p x.pfx ∧ ∃ m, StarBegun h calls (t ++ u) x.pfx m) ∧
      (iw = true → StarNoNewNodes h ((starStart st F fuel s calls).exec t) (t ++ u) (Pub.Covers p) →
        Pub.len p < Pub.width p → ∀ q m, 0 < Pub.len q → Pub.Covers p q →
        (mui = none ∨ mui = some m) →
        StarCompleted h ((starStart st F fuel s calls).exec t) q m → ∃ rs, ⟨q, rs⟩ ∈ qs) := by
  obtain ⟨t4, t6, hI⟩ := run_interleaves st F fuel s calls (t ++ u)
  obtain ⟨h4, h6⟩ := starExec_ok hs
  rw [← List.take_length (l := t ++ u)] at hr
  cases p with
  | v4 p =>
    obtain ⟨b, hb, rfl⟩ := returned_v4 hI (Nat.le_refl _) (x := .moreIter (.v4 p) mui iw)
      (y := .moreIter p mui iw) (g := Star.pubs4) rfl hr
    exact (runView4 h hI).more hF (fuel4 hf) h4 hj hb
  | v6 p =>
    obtain ⟨b, hb, rfl⟩ := returned_v6 hI (Nat.le_refl _) (x := .moreIter (.v6 p) mui iw)
      (y := .moreIter p mui iw) (g := Star.pubs6) rfl hr
    exact (runView6 h hI).more hF hf h6 hj hb

/-- C71 and C38, all prefixes of both families: no errors, no prefix twice, only prefixes some
insert was called for; a prefix whose insert returned before the iteration started is given
with records, if no insert of its family needs a new tree node while it runs (not the default
routes). -/
theorem star_concurrent_prefixes_partial {t u : List ι} {j : ι} (hj : j ∉ t)
    {l : List (FatalResult (PubRecord M))}
    (hr : StarReturned ((starStart st F fuel s calls).exec (t ++ u)) j .prefixesIter l) :
    ∃ qs : List (PubRecord M), l = qs.map .ok ∧ (qs.map PubRecord.pfx).Nodup ∧
      (∀ x ∈ qs, ∃ m, StarBegun h calls (t ++ u) x.pfx m) ∧
      (∀ q m, StarNoNewNodes h ((starStart st F fuel s calls).exec t) (t ++ u)
          (fun q' => Pub.width q' = Pub.width q) → 0 < Pub.len q →
        StarCompleted h ((starStart st F fuel s calls).exec t) q m → ∃ rs, ⟨q, rs⟩ ∈ qs ∧ rs ≠ []) := by
  obtain ⟨t4, t6, hI⟩ := run_interleaves st F fuel s calls (t ++ u)
  obtain ⟨h4, h6⟩ := starExec_ok hs
  rw [← List.take_length (l := t ++ u)] at hr
  obtain ⟨b, b', hb, hb', rfl⟩ := returned_both hI (Nat.le_refl _) (x := .prefixesIter)
    (y := .prefixesIter) (z := .prefixesIter) (g := fun a b => Star.pubs4 a ++ Star.pubs6 b) (.inr rfl) hr
  obtain ⟨qs, a1, a2, a3, a4⟩ := (runView4 h hI).all hF (fuel4 hf) h4 hj hb
  obtain ⟨qs', b1, b2, b3, b4⟩ := (runView6 h hI).all hF hf h6 hj hb'
  refine ⟨qs.map (View.pub .v4) ++ qs'.map (View.pub .v6), ?_, ?_, ?_, ?_⟩
  · rw [List.map_append]
    exact congrArg₂ (· ++ ·) a1 b1
  · rw [List.map_append]
    refine List.nodup_append.2 ⟨a2, b2, fun x hx y hy he => ?_⟩
    obtain ⟨x', hx', rfl⟩ := List.mem_map.1 hx
    obtain ⟨y', hy', rfl⟩ := List.mem_map.1 hy
    obtain ⟨_, _, rfl⟩ := List.mem_map.1 hx'
    obtain ⟨_, _, rfl⟩ := List.mem_map.1 hy'
    cases he
  · intro x hx
    rcases List.mem_append.1 hx with hx | hx
    · exact a3 x hx
    · exact b3 x hx
  · intro q m hq h0 hc
    cases q with
    | v4 q =>
      obtain ⟨rs, hm, hne⟩ := a4 hq q m h0 hc
      exact ⟨rs, List.mem_append_left _ hm, hne⟩
    | v6 q =>
      obtain ⟨rs, hm, hne⟩ := b4 hq q m h0 hc
      exact ⟨rs, List.mem_append_right _ hm, hne⟩

/-- C71 and C38, the records of one peer for IPv4, likewise. -/
theorem star_concurrent_records_for_mui4_partial {t u : List ι} {j : ι} (hj : j ∉ t) {m : Mui}
    {iw : Bool} {l : List (FatalResult (PubRecord M))}
    (hr : StarReturned ((starStart st F fuel s calls).exec (t ++ u)) j (.recordsForMui4 m iw) l) :
    ∃ qs : List (PubRecord M), l = qs.map .ok ∧ (qs.map PubRecord.pfx).Nodup ∧
      (∀ x ∈ qs, Pub.width x.pfx = 32 ∧ x.recs ≠ [] ∧ ∃ m, StarBegun h calls (t ++ u) x.pfx m) ∧
      (iw = true → StarNoNewNodes h ((starStart st F fuel s calls).exec t) (t ++ u)
          (fun q => Pub.width q = 32) →
        ∀ q, 0 < Pub.len (.v4 q) → StarCompleted h ((starStart st F fuel s calls).exec t) (.v4 q) m →
          ∃ rs, ⟨.v4 q, rs⟩ ∈ qs) := by
  obtain ⟨t4, t6, hI⟩ := run_interleaves st F fuel s calls (t ++ u)
  obtain ⟨h4, h6⟩ := starExec_ok hs
  rw [← List.take_length (l := t ++ u)] at hr
  obtain ⟨b, hb, rfl⟩ := returned_v4 hI (Nat.le_refl _) (x := .recordsForMui4 m iw)
    (y := .recordsForMui m iw) (g := Star.pubs4) rfl hr
  exact (runView4 h hI).forMui hF (fuel4 hf) h4 hj hb

/-- C71 and C38, the records of one peer for IPv6, likewise. -/
theorem star_concurrent_records_for_mui6_partial {t u : List ι} {j : ι} (hj : j ∉ t) {m : Mui}
    {iw : Bool} {l : List (FatalResult (PubRecord M))}
    (hr : StarReturned ((starStart st F fuel s calls).exec (t ++ u)) j (.recordsForMui6 m iw) l) :
    ∃ qs : List (PubRecord M), l = qs.map .ok ∧ (qs.map PubRecord.pfx).Nodup ∧
      (∀ x ∈ qs, Pub.width x.pfx = 128 ∧ x.recs ≠ [] ∧ ∃ m, StarBegun h calls (t ++ u) x.pfx m) ∧
      (iw = true → StarNoNewNodes h ((starStart st F fuel s calls).exec t) (t ++ u)
          (fun q => Pub.width q = 128) →
        ∀ q, 0 < Pub.len (.v6 q) → StarCompleted h ((starStart st F fuel s calls).exec t) (.v6 q) m →
          ∃ rs, ⟨.v6 q, rs⟩ ∈ qs) := by
  obtain ⟨t4, t6, hI⟩ := run_interleaves st F fuel s calls (t ++ u)
  obtain ⟨h4, h6⟩ := starExec_ok hs
  rw [← List.take_length (l := t ++ u)] at hr
  obtain ⟨b, hb, rfl⟩ := returned_v6 hI (Nat.le_refl _) (x := .recordsForMui6 m iw)
    (y := .recordsForMui m iw) (g := Star.pubs6) rfl hr
  exact (runView6 h hI).forMui hF hf h6 hj hb

/-- C71, C37 and C38, `match_prefix`: never an error; the prefix found covers `p` (equals it for an
exact match), has records, and some insert was called for it.  With withdrawn routes
included, when `q` covers `p` and its insert returned before the query started, the answer is
`q` or longer, or nothing at all because of a longer prefix which is begun but not completed;
the less and the more specifics as above.  Partial as `concurrent_match_partial`. -/
theorem star_concurrent_match_partial {t u : List ι} {j : ι} (hj : j ∉ t) {p : AnyPrefix}
    {o : MatchOptions} {res : FatalResult (Star.Result M)}
    (hr : StarReturned ((starStart st F fuel s calls).exec (t ++ u)) j (.matchPrefix p o) res) :
    ∃ x, res = .ok x ∧
      (∀ q, x.prefix_ = some q → Pub.Covers q p ∧ x.records ≠ [] ∧
        (o.matchType = .exactMatch → q = p) ∧ ∃ m, StarBegun h calls (t ++ u) q m) ∧
      (o.includeWithdrawn = true → ∀ q m, 0 < Pub.len q → (o.mui = none ∨ o.mui = some m) →
        StarCompleted h ((starStart st F fuel s calls).exec t) q m → Pub.Covers q p →
        (o.matchType = .exactMatch → q = p) →
        (∃ q', x.prefix_ = some q' ∧ Pub.len q ≤ Pub.len q') ∨
        (x.prefix_ = none ∧ o.matchType ≠ .exactMatch ∧
          ∃ q' m', Pub.len q < Pub.len q' ∧ Pub.Covers q' p ∧ StarBegun h calls (t ++ u) q' m' ∧
            ∀ m'', (o.mui = none ∨ o.mui = some m'') →
              ¬ StarCompleted h ((starStart st F fuel s calls).exec t) q' m'')) ∧
      (o.includeLessSpecifics = true → ∃ l, x.lessSpecifics = some l ∧
        ((Pub.items l).map PubRecord.pfx).Nodup ∧
        (∀ y ∈ Pub.items l, y.recs ≠ [] ∧ Pub.Covers y.pfx p ∧ y.pfx ≠ p ∧
          ∃ m, StarBegun h calls (t ++ u) y.pfx m) ∧
        (o.includeWithdrawn = true → ∀ q m, 0 < Pub.len q → Pub.Covers q p → q ≠ p →
          (o.mui = none ∨ o.mui = some m) →
          StarCompleted h ((starStart st F fuel s calls).exec t) q m → ∃ rs, ⟨q, rs⟩ ∈ Pub.items l)) ∧
      (o.includeMoreSpecifics = true → ∃ l, x.moreSpecifics = some l ∧
        ((Pub.items l).map PubRecord.pfx).Nodup ∧
        (∀ y ∈ Pub.items l, y.recs ≠ [] ∧ Pub.Covers p y.pfx ∧ y.pfx ≠ p ∧
          ∃ m, StarBegun h calls (t ++ u) y.pfx m) ∧
        (o.includeWithdrawn = true → StarNoNewNodes h ((starStart st F fuel s calls).exec t) (t ++ u)
            (Pub.Covers p) →
          Pub.len p < Pub.width p → ∀ q m, 0 < Pub.len q → Pub.Covers p q → q ≠ p →
          (o.mui = none ∨ o.mui = some m) →
          StarCompleted h ((starStart st F fuel s calls).exec t) q m → ∃ rs, ⟨q, rs⟩ ∈ Pub.items l)) := by
  obtain ⟨t4, t6, hI⟩ := run_interleaves st F fuel s calls (t ++ u)
  obtain ⟨h4, h6⟩ := starExec_ok hs
  rw [← List.take_length (l := t ++ u)] at hr
  cases p with
  | v4 p =>
    obtain ⟨b, hb, rfl⟩ := returned_v4 hI (Nat.le_refl _) (x := .matchPrefix (.v4 p) o)
      (y := .matchPrefix p o) (g := fun a => Except.map Star.result4 a) rfl hr
    exact (runView4 h hI).match_ hF (fuel4 hf) h4 hj hb
  | v6 p =>
    obtain ⟨b, hb, rfl⟩ := returned_v6 hI (Nat.le_refl _) (x := .matchPrefix (.v6 p) o)
      (y := .matchPrefix p o) (g := fun a => Except.map Star.result6 a) rfl hr
    exact (runView6 h hI).match_ hF hf h6 hj hb

/-- C71 and C53: once an insert `i` for `(p, m)` has returned, the record read for `(p, m)` in
any later state is the one of an insert `j` for `(p, m)` that had not returned before `i`
started, or that record with the status and the time of a status change `k` of `(p, m)` that
had not returned before `j` started.  Partial as `concurrent_upsert_marked_partial`. -/
theorem star_concurrent_upsert_marked_partial {t : List ι} {i : ι} {p : AnyPrefix} {r : Record M}
    {tbi : Option (Meta.TBI M)} {a : Except StoreError UpsertReport} (ht : StarTracked st calls)
    (hr : StarReturned ((starStart st F fuel s calls).exec t) i (.insert p r tbi) a) (u : List ι) :
    ∃ j ∈ t ++ u, ∃ r' tbi' w, calls j = .insert p r' tbi' ∧ r'.mui = r.mui ∧
      StarNotBefore (starStart st F fuel s calls) (t ++ u) j i ∧
      ∃ r0, (Star.getRecords st p (some r.mui) true).run ((starStart st F fuel s calls).exec (t ++ u)).st =
          .ok (.ok (some [shownAs w r0])) ((starStart st F fuel s calls).exec (t ++ u)).st ∧
        (r0 = asStored st r' ∨ ∃ k ∈ t ++ u, ∃ tm rs, StarMarksRoute (calls k) p r.mui tm rs ∧
          StarNotBefore (starStart st F fuel s calls) (t ++ u) k j ∧
          r0 = Spec.marked st tm rs (asStored st r')) := by
  obtain ⟨t4, t6, hI⟩ := run_interleaves st F fuel s calls (t ++ u)
  obtain ⟨h4, h6⟩ := starExec_ok hs
  have hst := hI.state (t ++ u).length (Nat.le_refl _)
  rw [List.take_length] at hst
  cases p with
  | v4 p =>
    obtain ⟨j, hj, r', tbi', w, hc, hm, hnb, -, r0, hv, hor⟩ :=
      (runView4 h hI).upsertMarked hF (fuel4 hf) h4 ht hr
    refine ⟨j, hj, r', tbi', w, hc, hm, hnb, r0, ?_, hor⟩
    rw [hst]
    show ((ribGetValue st p.id (some r.mui) true).zoom Star.v4L).run _ = _
    rw [run_v4, hv]; rfl
  | v6 p =>
    obtain ⟨j, hj, r', tbi', w, hc, hm, hnb, -, r0, hv, hor⟩ :=
      (runView6 h hI).upsertMarked hF hf h6 ht hr
    refine ⟨j, hj, r', tbi', w, hc, hm, hnb, r0, ?_, hor⟩
    rw [hst]
    show ((ribGetValue st p.id (some r.mui) true).zoom Star.v6L).run _ = _
    rw [run_v6, hv]; rfl

/-- C71 and C53: once a status change `i` of `(p, m)` has returned `Ok`, and a record for `(p, m)`
was inserted at any time, the record read for `(p, m)` in any later state is the one of an
insert that had not returned before `i` started, or it has the status and the time of `i` or
of another status change of `(p, m)` that had not returned before `i` started. -/
theorem star_concurrent_mark_partial {t : List ι} {i : ι} {p : AnyPrefix} {m : Mui} {tm : LTime}
    (ht : StarTracked st calls)
    (hr : StarReturned ((starStart st F fuel s calls).exec t) i (.withdrawFor p m tm) (.ok ()) ∨
      StarReturned ((starStart st F fuel s calls).exec t) i (.activateFor p m tm) (.ok ()))
    (u : List ι) (hins : StarCompleted h ((starStart st F fuel s calls).exec (t ++ u)) p m) :
    ∃ j ∈ t ++ u, ∃ r0 w, StarNotBefore (starStart st F fuel s calls) (t ++ u) j i ∧
      (Star.getRecords st p (some m) true).run ((starStart st F fuel s calls).exec (t ++ u)).st =
        .ok (.ok (some [shownAs w r0])) ((starStart st F fuel s calls).exec (t ++ u)).st ∧
      r0.mui = m ∧
      ((∃ r' tbi', calls j = .insert p r' tbi' ∧ r'.mui = m ∧ r0 = asStored st r') ∨
        ∃ tm' rs', StarMarksRoute (calls j) p m tm' rs' ∧ r0.ltime = tm' ∧ r0.status = rs') := by
  obtain ⟨t4, t6, hI⟩ := run_interleaves st F fuel s calls (t ++ u)
  obtain ⟨h4, h6⟩ := starExec_ok hs
  have hle : t.length ≤ (t ++ u).length := by simp
  have hst := hI.state (t ++ u).length (Nat.le_refl _)
  rw [List.take_length] at hst
  rw [← List.take_left (l₁ := t) (l₂ := u)] at hr
  cases p with
  | v4 p =>
    have hr' : Returned ((start4 st F fuel s calls).exec (t4 t.length)) i (.withdrawFor p m tm) (.ok ()) ∨
        Returned ((start4 st F fuel s calls).exec (t4 t.length)) i (.activateFor p m tm) (.ok ()) := by
      rcases hr with hr | hr
      · obtain ⟨b, hb, he⟩ := returned_v4 hI hle (x := .withdrawFor (.v4 p) m tm)
          (y := .withdrawFor p m tm) (g := fun a => a) rfl hr
        cases he; exact .inl hb
      · obtain ⟨b, hb, he⟩ := returned_v4 hI hle (x := .activateFor (.v4 p) m tm)
          (y := .activateFor p m tm) (g := fun a => a) rfl hr
        cases he; exact .inr hb
    obtain ⟨j, hj, r0, w, hnb, -, hv, hrest⟩ := (runView4 h hI).mark hF (fuel4 hf) h4 ht hr' hins
    refine ⟨j, hj, r0, w, hnb, ?_, hrest⟩
    rw [hst]
    show ((ribGetValue st p.id (some m) true).zoom Star.v4L).run _ = _
    rw [run_v4, hv]; rfl
  | v6 p =>
    have hr' : Returned ((start6 st F fuel s calls).exec (t6 t.length)) i (.withdrawFor p m tm) (.ok ()) ∨
        Returned ((start6 st F fuel s calls).exec (t6 t.length)) i (.activateFor p m tm) (.ok ()) := by
      rcases hr with hr | hr
      · obtain ⟨b, hb, he⟩ := returned_v6 hI hle (x := .withdrawFor (.v6 p) m tm)
          (y := .withdrawFor p m tm) (g := fun a => a) rfl hr
        cases he; exact .inl hb
      · obtain ⟨b, hb, he⟩ := returned_v6 hI hle (x := .activateFor (.v6 p) m tm)
          (y := .activateFor p m tm) (g := fun a => a) rfl hr
        cases he; exact .inr hb
    obtain ⟨j, hj, r0, w, hnb, -, hv, hrest⟩ := (runView6 h hI).mark hF hf h6 ht hr' hins
    refine ⟨j, hj, r0, w, hnb, ?_, hrest⟩
    rw [hst]
    show ((ribGetValue st p.id (some m) true).zoom Star.v6L).run _ = _
    rw [run_v6, hv]; rfl

/-- C71 and C56: once an insert for `(p, m)` has returned, a query over several prefixes that
starts later and asks for withdrawn routes too, when it reports `p`, gives for `m` the record of
this insert or of another insert for `(p, m)` that had not returned before this one started. -/
theorem star_concurrent_upsert_walk {t u : List ι} {i k : ι} {p : AnyPrefix} {r : Record M}
    {tbi : Option (Meta.TBI M)} {a : Except StoreError UpsertReport} (ht : StarTracked st calls)
    (hm : ∀ i t, calls i ≠ .withdrawFor p r.mui t ∧ calls i ≠ .activateFor p r.mui t)
    (hr : StarReturned ((starStart st F fuel s calls).exec t) i (.insert p r tbi) a) (hk : k ∉ t)
    {x : StarCall M} {b : x.Ans} (hb : StarReturned ((starStart st F fuel s calls).exec (t ++ u)) k x b)
    {mui : Option Mui} (hx : starAsks x = some (mui, true)) (hmui : ∀ m, mui = some m → m = r.mui)
    {rs : List (Record M)} (hrs : ⟨p, rs⟩ ∈ starReports x b) :
    ∃ j ∈ t ++ u, ∃ r' tbi' w, calls j = .insert p r' tbi' ∧ r'.mui = r.mui ∧
      StarNotBefore (starStart st F fuel s calls) (t ++ u) j i ∧
      shownAs w (asStored st r') ∈ rs ∧
      ∀ y ∈ rs, y.mui = r.mui → y = shownAs w (asStored st r') := by
  obtain ⟨t4, t6, hI⟩ := run_interleaves st F fuel s calls (t ++ u)
  obtain ⟨h4, h6⟩ := starExec_ok hs
  rw [← List.take_length (l := t ++ u)] at hb
  cases p with
  | v4 p =>
    rcases part4_reports hI h (Nat.le_refl _) hb hx with ⟨y, b', hb', hy, hrep, -⟩ | ⟨hno, -⟩
    · exact (runView4 h hI).upsertWalk hF (fuel4 hf) h4 ht hm hr hk hb' hy hmui ((hrep p rs).1 hrs)
    · exact (hno p rs hrs).elim
  | v6 p =>
    rcases part6_reports hI h (Nat.le_refl _) hb hx with ⟨y, b', hb', hy, hrep, -⟩ | ⟨hno, -⟩
    · exact (runView6 h hI).upsertWalk hF hf h6 ht hm hr hk hb' hy hmui ((hrep p rs).1 hrs)
    · exact (hno p rs hrs).elim

/-- C71 and C56: a route that was visible before the calls started and that none of them touches
is reported, as it was, by every query that is due to report it. -/
theorem star_concurrent_steady_partial {t u : List ι} {k : ι} (ht : StarTracked st calls)
    {q : AnyPrefix} (h0 : 0 < Pub.len q) {r : Record M} {mui : Option Mui} {iw : Bool}
    (hv : Pub.Visible st h mui iw q r) (hT : ∀ i ∈ t ++ u, ¬ StarTouches (calls i) q r.mui)
    (hk : k ∉ t) {x : StarCall M} {b : x.Ans}
    (hb : StarReturned ((starStart st F fuel s calls).exec (t ++ u)) k x b)
    (hx : starAsks x = some (mui, iw))
    (hd : StarDue h ((starStart st F fuel s calls).exec t) (t ++ u) x q) :
    ∃ rs, ⟨q, rs⟩ ∈ starReports x b ∧ r ∈ rs := by
  obtain ⟨t4, t6, hI⟩ := run_interleaves st F fuel s calls (t ++ u)
  obtain ⟨h4, h6⟩ := starExec_ok hs
  have hle : t.length ≤ (t ++ u).length := by simp
  rw [← List.take_length (l := t ++ u)] at hb
  have hd' : StarDue h ((starStart st F fuel s calls).exec ((t ++ u).take t.length))
      ((t ++ u).take (t ++ u).length) x q := by rw [List.take_left, List.take_length]; exact hd
  cases q with
  | v4 q =>
    rcases part4_reports hI h (Nat.le_refl _) hb hx with ⟨y, b', hb', hy, hrep, hdue⟩ | ⟨-, hno⟩
    · obtain ⟨rs, hm, hr⟩ := (runView4 h hI).steady hF (fuel4 hf) h4 ht h0 hv hT hk hb' hy
        (hdue q _ hle hd')
      exact ⟨rs, (hrep q rs).2 hm, hr⟩
    · exact (hno q _ hd').elim
  | v6 q =>
    rcases part6_reports hI h (Nat.le_refl _) hb hx with ⟨y, b', hb', hy, hrep, hdue⟩ | ⟨-, hno⟩
    · obtain ⟨rs, hm, hr⟩ := (runView6 h hI).steady hF hf h6 ht h0 hv hT hk hb' hy
        (hdue q _ hle hd')
      exact ⟨rs, (hrep q rs).2 hm, hr⟩
    · exact (hno q _ hd').elim

end

/-! ## Examples -/

section
open Rotonda.Demo

private abbrev qCalls : Fin 5 → StarCall Md
  | 0 => .insert (.v4 ten16) (rec1 2 2 3) none
  | 1 => .insert (.v6 doc48) (rec1 3 5 6) none
  | 2 => .prefixesIter
  | 3 => .matchPrefix (.v6 docHost) ⟨.longestMatch, true, true, true, none⟩
  | 4 => .withdrawFor (.v4 ten8) 2#32 9#64

/-- The inserts take turns, the IPv4 one finishes, and the status change. -/
private def qTurns : List (Fin 5) :=
  (List.replicate 10 [0, 1]).flatten ++ List.replicate 80 0 ++ List.replicate 20 4

/-- Then the queries start while the IPv6 insert is under way, and everything finishes. -/
private def qMore : List (Fin 5) :=
  (List.replicate 4 [1, 2, 3]).flatten ++ List.replicate 350 2 ++ List.replicate 500 3 ++
    List.replicate 60 1

private def qChk (o : Outcome Unit (Star Md)) (chk : Star Md → Bool) : Bool :=
  match o with
  | .ok _ s => chk s
  | _ => false

private theorem qChk_ok {o : Outcome Unit (Star Md)} {chk : Star Md → Bool}
    (h : qChk o chk = true) : ∃ s, o = .ok () s ∧ chk s = true := by
  cases o with
  | ok a s => exact ⟨s, rfl, h⟩
  | panic => cases h
  | diverge => cases h

private abbrev qStart (s : Star Md) := starStart .memoryOnly 32 (iterFuel 128) s qCalls

private theorem queries_demo : ∃ s, starExec .memoryOnly 32 nested = .ok () s ∧
    (∃ a, StarReturned ((qStart s).exec qTurns) 0 (.insert (.v4 ten16) (rec1 2 2 3) none) a) ∧
    (∀ a, ((qStart s).exec qTurns).pool 1 ≠ .ret a) ∧
    StarReturned ((qStart s).exec qTurns) 4 (.withdrawFor (.v4 ten8) 2#32 9#64) (.ok ()) ∧
    (∃ l, StarReturned ((qStart s).exec (qTurns ++ qMore)) 2 .prefixesIter l) ∧
    ∃ x, StarReturned ((qStart s).exec (qTurns ++ qMore)) 3
      (.matchPrefix (.v6 docHost) ⟨.longestMatch, true, true, true, none⟩) x := by
  obtain ⟨s, hs, hc⟩ := qChk_ok (o := starExec .memoryOnly 32 nested) (chk := fun s =>
    let c := (qStart s).exec qTurns
    let d := (qStart s).exec (qTurns ++ qMore)
    ansIs (fun _ => true) (c.pool 0) && !ansIs (fun _ => true) (c.pool 1) &&
    ansIs (fun x : Except StoreError Unit => match x with
      | .ok _ => true
      | .error _ => false) (c.pool 4) && ansIs (fun _ => true) (d.pool 2) &&
    ansIs (fun _ => true) (d.pool 3)) (by decide +kernel)
  simp only [Bool.and_eq_true, Bool.not_eq_true'] at hc
  obtain ⟨⟨⟨⟨h0, h1⟩, h4⟩, h2⟩, h3⟩ := hc
  obtain ⟨a, ha, -⟩ := ansIs_iff.1 h0
  obtain ⟨b, hb, hok⟩ := ansIs_iff.1 h4
  obtain ⟨c, hc, -⟩ := ansIs_iff.1 h2
  obtain ⟨d, hd, -⟩ := ansIs_iff.1 h3
  refine ⟨s, hs, ⟨a, rfl, ha⟩, fun x hx => ?_, ?_, ⟨c, rfl, hc⟩, ⟨d, rfl, hd⟩⟩
  · have := (ansIs_iff (P := fun _ => true)).2 ⟨x, hx, rfl⟩
    rw [h1] at this; cases this
  · cases (b : Except StoreError Unit) with
    | ok u => exact ⟨rfl, hb⟩
    | error e => cases hok

private theorem q2 : (2 : Fin 5) ∉ qTurns := by decide
private theorem q3 : (3 : Fin 5) ∉ qTurns := by decide

private theorem quiet {s : Star Md} {a}
    (ha : StarReturned ((qStart s).exec qTurns) 0 (.insert (.v4 ten16) (rec1 2 2 3) none) a)
    (R : AnyPrefix → Prop) : StarNoNewNodes nested ((qStart s).exec qTurns) (qTurns ++ qMore) R := by
  intro i _ q r tbi hc _ _
  fin_cases i
  · cases hc
    exact ⟨.v4 ten16, _, .inr ⟨0, _, _, _, ha, rfl⟩, rfl, by decide, fun _ _ => rfl⟩
  · cases hc
    refine ⟨.v6 doc48, 2#32, .inl ⟨rec1 2 3 9, none, ?_, rfl⟩, rfl, by decide, fun _ _ => rfl⟩
    exact List.mem_cons_of_mem _ List.mem_cons_self
  all_goals cases hc

private theorem unmarked : StarTracked Strategy.memoryOnly qCalls := by rintro ⟨⟩

/-- The iteration that starts later gives 10.1.0.0/16, with the record of the insert that had
returned, and the route of 2001:db8::/32 as it was. -/
example : ∃ s l, starExec .memoryOnly 32 nested = .ok () s ∧
    StarReturned ((qStart s).exec (qTurns ++ qMore)) 2 .prefixesIter l ∧
    (∃ qs : List (PubRecord Md), l = qs.map .ok ∧ ∃ rs, ⟨.v4 ten16, rs⟩ ∈ qs) ∧
    (∀ rs, ⟨.v4 ten16, rs⟩ ∈ starReports (M := Md) .prefixesIter l → ∃ y ∈ rs, y.mui = 2#32) ∧
    ∃ rs, ⟨.v6 doc, rs⟩ ∈ starReports (M := Md) .prefixesIter l ∧ rec1 1 1 7 ∈ rs := by
  obtain ⟨s, hs, ⟨a, ha⟩, -, -, ⟨l, hl⟩, -⟩ := queries_demo
  refine ⟨s, l, hs, hl, ?_, fun rs hrs => ?_, ?_⟩
  · obtain ⟨qs, e1, -, -, e4⟩ := star_concurrent_prefixes_partial (F := 32) (Nat.le_refl _)
      (Nat.le_refl _) hs q2 hl
    obtain ⟨rs, hm, -⟩ := e4 (.v4 ten16) 2#32 (quiet ha _) (by decide) (.inr ⟨0, _, _, a, ha, rfl⟩)
    exact ⟨qs, e1, rs, hm⟩
  · obtain ⟨j, -, r', tbi', w, hj, hm, -, hmem, -⟩ := star_concurrent_upsert_walk (F := 32)
      (Nat.le_refl _) (Nat.le_refl _) hs unmarked (by
        intro i tm
        fin_cases i <;> exact ⟨(by rintro ⟨⟩), (by rintro ⟨⟩)⟩) ha q2 hl rfl (by rintro m ⟨⟩) hrs
    refine ⟨_, hmem, ?_⟩
    unfold shownAs
    split <;> exact hm
  · refine star_concurrent_steady_partial (F := 32) (Nat.le_refl _) (Nat.le_refl _) hs unmarked
      (by decide) (mui := none) (iw := true) ⟨rec1 1 1 7, by decide, by rintro m ⟨⟩, by decide⟩ ?_ q2 hl rfl
      (quiet ha _)
    intro i _
    fin_cases i <;> rintro (⟨r, tbi, hc, hm⟩ | ⟨tm, rs, ⟨hc, -⟩ | ⟨hc, -⟩⟩ | hc | ⟨-, hc | hc⟩ | ⟨-, hc | hc⟩) <;>
      cases hc

/-- The match that starts later finds 2001:db8:1::/48, and 2001:db8::/32 above it. -/
example : ∃ s x, starExec .memoryOnly 32 nested = .ok () s ∧
    StarReturned ((qStart s).exec (qTurns ++ qMore)) 3
      (.matchPrefix (.v6 docHost) ⟨.longestMatch, true, true, true, none⟩) (.ok x) ∧
    (∃ l, x.lessSpecifics = some l ∧ ∃ rs, ⟨.v6 doc, rs⟩ ∈ Pub.items l) ∧
    ∀ q, x.prefix_ = some q → Pub.Covers q (.v6 docHost) := by
  obtain ⟨s, hs, -, -, -, -, ⟨res, hres⟩⟩ := queries_demo
  obtain ⟨x, rfl, h1, -, h3, -⟩ := star_concurrent_match_partial (F := 32) (Nat.le_refl _)
    (Nat.le_refl _) hs q3 hres
  refine ⟨s, x, hs, hres, ?_, fun q hq => (h1 q hq).1⟩
  obtain ⟨l, e1, -, -, e4⟩ := h3 rfl
  refine ⟨l, e1, e4 rfl (.v6 doc) 1#32 (by decide) (show Covers doc docHost by decide) (by decide) (.inl rfl)
    (.inl ⟨rec1 1 1 7, none, ?_, rfl⟩)⟩
  exact List.mem_cons_of_mem _ (List.mem_cons_of_mem _ (List.mem_cons_of_mem _ List.mem_cons_self))

/-- The status change that had returned shows in every later state. -/
example : ∃ s, starExec .memoryOnly 32 nested = .ok () s ∧ ∀ u, ∃ r0 w,
    (Star.getRecords .memoryOnly (.v4 ten8) (some 2#32) true).run ((qStart s).exec (qTurns ++ u)).st =
      .ok (.ok (some [shownAs w r0])) ((qStart s).exec (qTurns ++ u)).st ∧
    r0.ltime = 9#64 ∧ r0.status = .withdrawn := by
  obtain ⟨s, hs, -, -, hw, -⟩ := queries_demo
  refine ⟨s, hs, fun u => ?_⟩
  obtain ⟨j, -, r0, w, -, hv, -, hor⟩ := star_concurrent_mark_partial (F := 32) (Nat.le_refl _)
    (Nat.le_refl _) hs unmarked (.inl hw) u (.inl ⟨rec1 2 2 8, none,
      List.mem_cons_of_mem _ (List.mem_cons_of_mem _ List.mem_cons_self), rfl⟩)
  refine ⟨r0, w, hv, ?_⟩
  rcases hor with ⟨r', tbi', hc, -⟩ | ⟨tm, rs, ⟨hc, hrs⟩ | ⟨hc, hrs⟩, h1, h2⟩
  · fin_cases j <;> cases hc
  · fin_cases j <;> cases hc
    exact ⟨h1, h2.trans hrs⟩
  · fin_cases j <;> cases hc

end

end Rotonda.Props
