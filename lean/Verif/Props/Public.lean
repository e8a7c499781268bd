import Verif.Proofs.Public
import Verif.Props.Persist

/-!
# The public interface reports what was stored: C61

For a prefix of either family, after an arbitrary history of calls of the public
interface.  The statements are over `Spec.Pub`, which speaks of public calls only.
-/

namespace Rotonda.Props

open Prog Spec

variable {M : Type} [Meta M] {st : Strategy} {F : Nat} {h : List (StarOp M)} {s : Star M}

/-- C61: `get_records_for_prefix`. -/
theorem public_get_records (hs : starExec st F h = .ok () s) (p : AnyPrefix) (mui : Option Mui)
    (iw : Bool) :
    ∃ o, (Star.getRecords st p mui iw).run s = .ok (.ok o) s ∧
      Answers o (Pub.Shown st h mui iw p) := by
  obtain ⟨h4, h6⟩ := starExec_ok hs
  unfold Star.getRecords Star.on
  cases p with
  | v4 p =>
    obtain ⟨o, h1, h2⟩ := get_records h4 p mui iw
    exact ⟨o, by rw [run_v4, h1]; rfl, by rw [(view4 h).shown]; exact h2⟩
  | v6 p =>
    obtain ⟨o, h1, h2⟩ := get_records h6 p mui iw
    exact ⟨o, by rw [run_v6, h1]; rfl, by rw [(view6 h).shown]; exact h2⟩

/-- C61: `contains`, but for the default routes (see `contains_default_false`). -/
theorem public_contains_partial (hs : starExec st F h = .ok () s) (p : AnyPrefix)
    (h0 : 0 < Pub.len p) :
    ∃ b, (Star.contains p none).run s = .ok b s ∧ (b = true ↔ Pub.Present h p) := by
  obtain ⟨h4, h6⟩ := starExec_ok hs
  unfold Star.contains Star.on
  cases p with
  | v4 p =>
    obtain ⟨b, h1, h2⟩ := contains_partial h4 p h0
    exact ⟨b, by rw [run_v4, h1]; rfl, by rw [(view4 h).present]; exact h2⟩
  | v6 p =>
    obtain ⟨b, h1, h2⟩ := contains_partial h6 p h0
    exact ⟨b, by rw [run_v6, h1]; rfl, by rw [(view6 h).present]; exact h2⟩

/-- C61: everything `match_prefix` returns.  Missing for C03 to C05, as for one family:
default routes are never found, and there is no fallback to a shorter match. -/
theorem public_match_prefix_partial (hs : starExec st F h = .ok () s) (p : AnyPrefix)
    (o : MatchOptions) :
    ∃ (N : Nat) (res : Star.Result M),
      (∀ fuel, N ≤ fuel → (Star.matchPrefix st fuel p o).run s = .ok (.ok res) s) ∧
      (o.matchType ≠ .exactMatch → Pub.HasMatch res .longestMatch
        (Pub.IsLongest (Pub.Proper h) p) (Pub.Shown st h o.mui o.includeWithdrawn)) ∧
      (o.matchType = .exactMatch → Pub.HasMatch res .exactMatch
        (fun q => q = p ∧ Pub.Proper h p) (Pub.Shown st h o.mui o.includeWithdrawn)) ∧
      (o.includeLessSpecifics = true → ∃ l, res.lessSpecifics = some l ∧
        Pub.Descending (Pub.items l) ∧
        Pub.Listing (fun q => Pub.Proper h q ∧ Pub.Covers q p ∧ q ≠ p)
          (Pub.Shown st h o.mui o.includeWithdrawn) (Pub.items l)) ∧
      (o.includeMoreSpecifics = true → ∃ l, res.moreSpecifics = some l ∧
        Pub.Listing (fun q => Pub.Proper h q ∧ Pub.Covers p q ∧ q ≠ p)
          (Pub.Shown st h o.mui o.includeWithdrawn) (Pub.items l)) ∧
      (o.includeLessSpecifics = false → res.lessSpecifics = none) ∧
      (o.includeMoreSpecifics = false → res.moreSpecifics = none) := by
  obtain ⟨h4, h6⟩ := starExec_ok hs
  unfold Star.matchPrefix Star.on
  cases p with
  | v4 p =>
    obtain ⟨N, r, h1, h2⟩ := (view4 h).match_prefix h4 p o
    exact ⟨N, _, fun fuel hf => by rw [run_v4, run_bind, h1 fuel hf]; rfl, h2⟩
  | v6 p =>
    obtain ⟨N, r, h1, h2⟩ := (view6 h).match_prefix h6 p o
    exact ⟨N, _, fun fuel hf => by rw [run_v6, run_bind, h1 fuel hf]; rfl, h2⟩

/-- C61: `less_specifics_iter_from`, but for the default routes. -/
theorem public_less_iter_partial (hs : starExec st F h = .ok () s) (p : AnyPrefix)
    (mui : Option Mui) (iw : Bool) :
    ∃ l : List (PubRecord M), (Star.lessIter st p mui iw).run s = .ok (l.map .ok) s ∧
      Pub.Descending l ∧
      Pub.Listing (fun q => Pub.Proper h q ∧ Pub.Covers q p ∧ q ≠ p) (Pub.Shown st h mui iw) l := by
  obtain ⟨h4, h6⟩ := starExec_ok hs
  unfold Star.lessIter Star.on
  cases p with
  | v4 p =>
    obtain ⟨l, h1, h2⟩ := (view4 h).less_iter h4 p mui iw
    refine ⟨_, ?_, h2⟩
    rw [run_v4, run_bind, h1]
    show Outcome.ok _ s = _
    rw [Star.pubs4, List.map_map, List.map_map]; rfl
  | v6 p =>
    obtain ⟨l, h1, h2⟩ := (view6 h).less_iter h6 p mui iw
    refine ⟨_, ?_, h2⟩
    rw [run_v6, run_bind, h1]
    show Outcome.ok _ s = _
    rw [Star.pubs6, List.map_map, List.map_map]; rfl

/-- C61: `more_specifics_iter_from`.  Missing, as for one family: it yields nothing for a
host prefix, not even the prefix itself; no default routes; it stops at once for a
globally withdrawn id. -/
theorem public_more_iter_partial (hs : starExec st F h = .ok () s) (p : AnyPrefix)
    (mui : Option Mui) (iw : Bool)
    (hstop : ∀ m, mui = some m → iw = false → Pub.withdrawn h p m = false) :
    ∃ (N : Nat) (l : List (PubRecord M)),
      (∀ fuel, N ≤ fuel → (Star.moreIter st fuel p mui iw).run s = .ok (l.map .ok) s) ∧
      Pub.Listing (fun q => Pub.len p < Pub.width p ∧ Pub.Proper h q ∧ Pub.Covers p q)
        (Pub.Visible st h mui iw) l := by
  obtain ⟨h4, h6⟩ := starExec_ok hs
  unfold Star.moreIter Star.on
  cases p with
  | v4 p =>
    obtain ⟨N, l, h1, h2⟩ := (view4 h).more_iter h4 p mui iw hstop
    refine ⟨N, _, fun fuel hf => ?_, h2⟩
    rw [run_v4, run_bind, h1 fuel hf]
    show Outcome.ok _ s = _
    rw [Star.pubs4, List.map_map, List.map_map]; rfl
  | v6 p =>
    obtain ⟨N, l, h1, h2⟩ := (view6 h).more_iter h6 p mui iw hstop
    refine ⟨N, _, fun fuel hf => ?_, h2⟩
    rw [run_v6, run_bind, h1 fuel hf]
    show Outcome.ok _ s = _
    rw [Star.pubs6, List.map_map, List.map_map]; rfl

/-- C61: `iter_records_for_mui_v4` and `iter_records_for_mui_v6`, but for the default
routes: the records of the id for the prefixes of the family. -/
theorem public_records_for_mui_partial (hs : starExec st F h = .ok () s) (m : Mui) (iw : Bool) :
    (∃ (N : Nat) (l : List (PubRecord M)),
      (∀ fuel, N ≤ fuel → (Star.recordsForMui4 st fuel m iw).run s = .ok (l.map .ok) s) ∧
      Pub.Listing (fun q => Pub.Proper h q ∧ ∃ p, q = .v4 p) (Pub.Visible st h (some m) iw) l ∧
      ∀ q rs, ⟨q, rs⟩ ∈ l → ∃ r, rs = [r] ∧ r.mui = m) ∧
    (∃ (N : Nat) (l : List (PubRecord M)),
      (∀ fuel, N ≤ fuel → (Star.recordsForMui6 st fuel m iw).run s = .ok (l.map .ok) s) ∧
      Pub.Listing (fun q => Pub.Proper h q ∧ ∃ p, q = .v6 p) (Pub.Visible st h (some m) iw) l ∧
      ∀ q rs, ⟨q, rs⟩ ∈ l → ∃ r, rs = [r] ∧ r.mui = m) := by
  obtain ⟨h4, h6⟩ := starExec_ok hs
  constructor
  · obtain ⟨N, l, h1, h2⟩ := (view4 h).records_for_mui h4 m iw
    refine ⟨N, _, fun fuel hf => ?_, h2⟩
    unfold Star.recordsForMui4
    rw [run_v4, run_bind, h1 fuel hf]
    show Outcome.ok _ s = _
    rw [Star.pubs4, List.map_map, List.map_map]; rfl
  · obtain ⟨N, l, h1, h2⟩ := (view6 h).records_for_mui h6 m iw
    refine ⟨N, _, fun fuel hf => ?_, h2⟩
    unfold Star.recordsForMui6
    rw [run_v6, run_bind, h1 fuel hf]
    show Outcome.ok _ s = _
    rw [Star.pubs6, List.map_map, List.map_map]; rfl

/-- C61: what `less_specifics_from` returns (the records of the set are those of `p`,
and `p` is reported exactly when absent, see `less_from_fails`). -/
theorem public_less_from_partial (hs : starExec st F h = .ok () s) (p : AnyPrefix)
    (mui : Option Mui) (iw : Bool) :
    ∃ res : Star.Result M, (Star.lessFrom st p mui iw).run s = .ok (.ok res) s ∧
      res.matchType = .emptyMatch ∧ Lists res.records (Pub.Shown st h mui iw p) ∧
      res.moreSpecifics = none ∧
      Pub.SetOf (Pub.Shown st h mui iw p)
        (fun q => Pub.Proper h q ∧ Pub.Covers q p ∧ q ≠ p) res.lessSpecifics ∧
      (mui = none → (res.prefix_ = none ↔ Pub.Proper h p)) ∧
      (∀ q, res.prefix_ = some q → q = p) := by
  obtain ⟨h4, h6⟩ := starExec_ok hs
  unfold Star.lessFrom Star.on
  cases p with
  | v4 p =>
    obtain ⟨r, h1, h2⟩ := (view4 h).less_from h4 p mui iw
    exact ⟨_, by rw [run_v4, run_bind, h1]; rfl, h2⟩
  | v6 p =>
    obtain ⟨r, h1, h2⟩ := (view6 h).less_from h6 p mui iw
    exact ⟨_, by rw [run_v6, run_bind, h1]; rfl, h2⟩

/-- C61: what `more_specifics_from` returns (with the same reservations). -/
theorem public_more_from_partial (hs : starExec st F h = .ok () s) (p : AnyPrefix)
    (mui : Option Mui) (iw : Bool) :
    ∃ (N : Nat) (res : Star.Result M),
      (∀ fuel, N ≤ fuel → (Star.moreFrom st fuel p mui iw).run s = .ok (.ok res) s) ∧
      res.matchType = .emptyMatch ∧ Lists res.records (Pub.Shown st h mui iw p) ∧
      res.lessSpecifics = none ∧
      Pub.SetOf (Pub.Shown st h mui iw p)
        (fun q => Pub.len p < Pub.width p ∧ Pub.Proper h q ∧ Pub.Covers p q) res.moreSpecifics ∧
      (mui = none → (res.prefix_ = none ↔ Pub.Proper h p)) ∧
      (∀ q, res.prefix_ = some q → q = p) := by
  obtain ⟨h4, h6⟩ := starExec_ok hs
  unfold Star.moreFrom Star.on
  cases p with
  | v4 p =>
    obtain ⟨N, r, h1, h2⟩ := (view4 h).more_from h4 p mui iw
    exact ⟨N, _, fun fuel hf => by rw [run_v4, run_bind, h1 fuel hf]; rfl, h2⟩
  | v6 p =>
    obtain ⟨N, r, h1, h2⟩ := (view6 h).more_from h6 p mui iw
    exact ⟨N, _, fun fuel hf => by rw [run_v6, run_bind, h1 fuel hf]; rfl, h2⟩

/-- C61: the report of `insert` about the prefix; with `PersistOnly` it is always
reported as new (see `prefix_new_fails`). -/
theorem public_prefix_new_partial (hs : starExec st F h = .ok () s) (p : AnyPrefix) (r : Record M)
    (tbi : Option (Meta.TBI M)) :
    ∃ rep s', (Star.insert st F p r tbi).run s = .ok (.ok rep) s' ∧
      starExec st F (.insert p r tbi :: h) = .ok () s' ∧
      (st.inMemory = true → (rep.prefixNew = true ↔ ¬ Pub.Present h p)) ∧
      (st.inMemory = false → rep.prefixNew = true) := by
  obtain ⟨h4, h6⟩ := starExec_ok hs
  have hx : ∀ {rep s'}, (Star.insert st F p r tbi).run s = .ok (.ok rep) s' →
      starExec st F (.insert p r tbi :: h) = .ok () s' := by
    intro rep s' hr
    show (starExec st F h).andThen _ = _
    rw [hs]
    show (Star.insert st F p r tbi >>= fun _ => pure ()).run s = _
    rw [run_bind, hr]; rfl
  cases p with
  | v4 p =>
    obtain ⟨rep, s', h1, h2, h3⟩ := prefix_new_partial h4 p r tbi
    have hr : (Star.insert st F (.v4 p) r tbi).run s = .ok (.ok rep) { s with v4 := s' } := by
      unfold Star.insert Star.on
      rw [run_v4, h1]; rfl
    exact ⟨rep, _, hr, hx hr, fun hm => by rw [h2 hm, (view4 h).present], h3⟩
  | v6 p =>
    obtain ⟨rep, s', h1, h2, h3⟩ := prefix_new_partial h6 p r tbi
    have hr : (Star.insert st F (.v6 p) r tbi).run s = .ok (.ok rep) { s with v6 := s' } := by
      unfold Star.insert Star.on
      rw [run_v6, h1]; rfl
    exact ⟨rep, _, hr, hx hr, fun hm => by rw [h2 hm, (view6 h).present], h3⟩

/-- C61: `calculate_and_store_best_and_backup_path` returns the first and the second
record of the prefix. -/
theorem public_selection_correct (hm : st.inMemory = true) (hs : starExec st F h = .ok () s)
    {p : AnyPrefix} (hp : Pub.Present h p) (tbi : Meta.TBI M) :
    ∃ sel s', (Star.calcBest p tbi).run s = .ok (.ok sel) s' ∧
      IsSelection tbi (Pub.recOf h p) sel := by
  obtain ⟨h4, h6⟩ := starExec_ok hs
  unfold Star.calcBest Star.on
  cases p with
  | v4 p =>
    obtain ⟨sel, s', h1, h2⟩ := selection_correct hm h4 (present_hist4.2 hp) tbi
    refine ⟨sel, _, by rw [run_v4, h1]; rfl, ?_⟩
    rw [funext (recOf_hist4 h p)]; exact h2
  | v6 p =>
    obtain ⟨sel, s', h1, h2⟩ := selection_correct hm h6 (present_hist6.2 hp) tbi
    refine ⟨sel, _, by rw [run_v6, h1]; rfl, ?_⟩
    rw [funext (recOf_hist6 h p)]; exact h2

/-- C61: `best_path` gives the current record of the id that the last call that stored
a selection for the prefix chose, when that record is active (else an error, see
`best_path_withdrawn`). -/
theorem public_best_path_partial (hm : st.inMemory = true) {h1 : List (StarOp M)} {p : AnyPrefix}
    {tbi : Meta.TBI M} {op : StarOp M} (hop : Pub.Stores h p tbi op)
    (h1s : ∀ o ∈ h1, ¬ Pub.Selects p o) (hs : starExec st F (h1 ++ op :: h) = .ok () s) {b : Mui}
    (hb : IsFirst tbi (Pub.recOf (op :: h) p) (some b)) {r : Record M}
    (hr : Pub.recOf (h1 ++ op :: h) p b = some r) (ha : r.status = .active) :
    (Star.bestPath (M := M) p).run s = .ok (some (.ok r)) s := by
  obtain ⟨h4, h6⟩ := starExec_ok hs
  unfold Star.bestPath Star.on
  cases p with
  | v4 p =>
    obtain ⟨op', ho, hst⟩ := stores4 hop
    rw [hist4_append, hist4_cons ho] at h4
    rw [recOf_hist4, hist4_append, hist4_cons ho] at hr
    rw [funext (recOf_hist4 (op :: h) p), hist4_cons ho] at hb
    show ((ribBestPath p.id).zoom Star.v4L).run s = _
    rw [run_v4, best_path_partial hm hst (selects4 h1s) h4 hb hr ha]; rfl
  | v6 p =>
    obtain ⟨op', ho, hst⟩ := stores6 hop
    rw [hist6_append, hist6_cons ho] at h6
    rw [recOf_hist6, hist6_append, hist6_cons ho] at hr
    rw [funext (recOf_hist6 (op :: h) p), hist6_cons ho] at hb
    show ((ribBestPath p.id).zoom Star.v6L).run s = _
    rw [run_v6, best_path_partial hm hst (selects6 h1s) h6 hb hr ha]; rfl

/-- C61: after an insert for a known prefix without tie breaker information
`is_ps_outdated` is true until the next insert or calculation for it. -/
theorem public_outdated_partial (hm : st.inMemory = true) {h1 : List (StarOp M)} {p : AnyPrefix}
    (hp : Pub.Present h p) {r : Record M} (h1s : ∀ o ∈ h1, ¬ Pub.Selects p o)
    (hs : starExec st F (h1 ++ .insert p r none :: h) = .ok () s) :
    (Star.isPsOutdated (M := M) p).run s = .ok (.ok true) s := by
  obtain ⟨h4, h6⟩ := starExec_ok hs
  unfold Star.isPsOutdated Star.on
  cases p with
  | v4 p =>
    rw [hist4_append, hist4_cons rfl] at h4
    show ((ribIsPsOutdated p.id).zoom Star.v4L).run s = _
    rw [run_v4, outdated_after_insert_partial hm (present_hist4.2 hp) (selects4 h1s) h4]; rfl
  | v6 p =>
    rw [hist6_append, hist6_cons rfl] at h6
    show ((ribIsPsOutdated p.id).zoom Star.v6L).run s = _
    rw [run_v6, outdated_after_insert_partial hm (present_hist6.2 hp) (selects6 h1s) h6]; rfl

/-- C61: `persist_prefixes_iter` yields what is persisted for IPv4 and then for IPv6
(missing: errors in place of records with metadata, and `PersistOnly`, see
`persist_iter_fails`). -/
theorem public_persist_iter_partial (hst : st ≠ .persistOnly) (hs : starExec st F h = .ok () s) :
    ∃ (l4 : List (FatalResult (PrefixRecord M 32))) (l6 : List (FatalResult (PrefixRecord M 128))),
      (Star.persistPrefixesIter4 st).run s = .ok (Star.pubs4 l4) s ∧
      (Star.persistPrefixesIter6 st).run s = .ok (Star.pubs6 l6) s ∧
      (Star.persistPrefixesIter st).run s = .ok (Star.pubs4 l4 ++ Star.pubs6 l6) s ∧
      (∀ q rs, .ok ⟨q, rs⟩ ∈ Star.pubs4 l4 → ∃ p, q = .v4 p ∧ ∀ r ∈ rs, ∃ k b, k.pfx = p ∧
        persistedBy st (hist4 h) k = some b ∧ r = k.record b) ∧
      ∀ q rs, .ok ⟨q, rs⟩ ∈ Star.pubs6 l6 → ∃ p, q = .v6 p ∧ ∀ r ∈ rs, ∃ k b, k.pfx = p ∧
        persistedBy st (hist6 h) k = some b ∧ r = k.record b := by
  obtain ⟨h4, h6⟩ := starExec_ok hs
  obtain ⟨l4, r4, m4⟩ := persist_iter_sound hst h4
  obtain ⟨l6, r6, m6⟩ := persist_iter_sound hst h6
  have k4 : (Star.persistPrefixesIter4 st).run s = .ok (Star.pubs4 l4) s := by
    unfold Star.persistPrefixesIter4
    rw [run_v4, run_bind, r4]; rfl
  have k6 : (Star.persistPrefixesIter6 st).run s = .ok (Star.pubs6 l6) s := by
    unfold Star.persistPrefixesIter6
    rw [run_v6, run_bind, r6]; rfl
  refine ⟨l4, l6, k4, k6, ?_, fun q rs hm => ?_, fun q rs hm => ?_⟩
  · unfold Star.persistPrefixesIter
    rw [run_bind, k4]
    simp only [Outcome.andThen]
    rw [run_bind, k6]; rfl
  · obtain ⟨x, hx, he⟩ := List.mem_map.1 hm
    cases x with
    | error e => cases he
    | ok x =>
      obtain ⟨p, g⟩ := x
      injection he with he; cases he
      exact ⟨p, rfl, m4 p g hx⟩
  · obtain ⟨x, hx, he⟩ := List.mem_map.1 hm
    cases x with
    | error e => cases he
    | ok x =>
      obtain ⟨p, g⟩ := x
      injection he with he; cases he
      exact ⟨p, rfl, m6 p g hx⟩

/-! ## Examples -/

/-- `2001:db8:1::/48` and `2001:db8:1::1/128`. -/
def doc48 : Prefix 128 := Demo.pfx 0x20010db8000100000000000000000000#128 48 (by decide)
def docHost : Prefix 128 := Demo.pfx 0x20010db8000100000000000000000001#128 128 (by decide)

/-- Nested IPv6 routes, an IPv4 route, and the withdrawal of id 2 for IPv6. -/
def nested : List (StarOp Demo.Md) :=
  [.withdraw6 2#32, .insert (.v6 doc48) (Demo.rec1 2 3 9) none,
    .insert (.v4 Demo.ten8) (Demo.rec1 2 2 8) none, .insert (.v6 Demo.doc) (Demo.rec1 1 1 7) none]

theorem nested_shown48 : Pub.Shown .memoryOnly nested none true (.v6 doc48)
    { Demo.rec1 2 3 9 with status := .withdrawn } :=
  ⟨Demo.rec1 2 3 9, by decide, fun m hm => (by cases hm), by decide⟩

theorem nested_shown : Pub.Shown .memoryOnly nested none true (.v6 Demo.doc) (Demo.rec1 1 1 7) :=
  ⟨Demo.rec1 1 1 7, by decide, fun m hm => (by cases hm), by decide⟩

theorem nested_present (p : AnyPrefix) :
    Pub.Present nested p ↔ p = .v6 doc48 ∨ p = .v4 Demo.ten8 ∨ p = .v6 Demo.doc := by
  unfold Pub.Present nested
  simp only [List.mem_cons, StarOp.insert.injEq, List.not_mem_nil, or_false, reduceCtorEq, false_or]
  constructor
  · rintro ⟨r, t, h | h | h⟩
    · exact .inl h.1
    · exact .inr (.inl h.1)
    · exact .inr (.inr h.1)
  · rintro (rfl | rfl | rfl)
    · exact ⟨_, _, .inl ⟨rfl, rfl, rfl⟩⟩
    · exact ⟨_, _, .inr (.inl ⟨rfl, rfl, rfl⟩)⟩
    · exact ⟨_, _, .inr (.inr ⟨rfl, rfl, rfl⟩)⟩

/-- A search for the host finds the /48, withdrawn, and lists the /32 among the less
specifics. -/
example : ∃ s, starExec .memoryOnly 0 nested = .ok () s ∧ ∃ N res,
    (∀ fuel, N ≤ fuel → (Star.matchPrefix .memoryOnly fuel (.v6 docHost)
      ⟨.longestMatch, true, true, true, none⟩).run s = .ok (.ok res) s) ∧
    res.prefix_ = some (.v6 doc48) ∧ { Demo.rec1 2 3 9 with status := .withdrawn } ∈ res.records ∧
    ∃ l, res.lessSpecifics = some l ∧ ∃ rs, ⟨.v6 Demo.doc, rs⟩ ∈ Pub.items l ∧
      Demo.rec1 1 1 7 ∈ rs := by
  obtain ⟨s, hs⟩ := star_never_fails .memoryOnly 0 nested
  obtain ⟨N, res, hr, h1, -, h2, -⟩ := public_match_prefix_partial hs (.v6 docHost)
    ⟨.longestMatch, true, true, true, none⟩
  obtain ⟨k1, k2, -⟩ := h1 (by decide)
  obtain ⟨l, hl, -, hL⟩ := h2 rfl
  have hpre : res.prefix_ = some (.v6 doc48) := by
    refine (k1 _).2 ⟨⟨⟨(nested_present _).2 (.inl rfl), by decide⟩, ?_, ?_⟩, _, nested_shown48⟩
    · show Covers doc48 docHost; decide
    · rintro q ⟨hq, -⟩ hc
      rcases (nested_present q).1 hq with rfl | rfl | rfl
      · exact Nat.le_refl _
      · exact absurd hc id
      · decide
  obtain ⟨rs, hrs⟩ := (hL.mem (.v6 Demo.doc)).2 ⟨⟨⟨(nested_present _).2 (.inr (.inr rfl)), by decide⟩,
    (by show Covers Demo.doc docHost; decide), by decide⟩, _, nested_shown⟩
  exact ⟨s, hs, N, res, hr, hpre, ((k2 _ hpre).2.2 _).2 nested_shown48, l, hl, rs, hrs,
    ((hL.recs _ _ hrs).2 _).2 nested_shown⟩

/-- More specifics of the /32: the /48. -/
example : ∃ s, starExec .memoryOnly 0 nested = .ok () s ∧ ∃ N l,
    (∀ fuel, N ≤ fuel → (Star.moreIter .memoryOnly fuel (.v6 Demo.doc) none true).run s =
      .ok ((l : List (PubRecord Demo.Md)).map .ok) s) ∧ ∃ rs, ⟨.v6 doc48, rs⟩ ∈ l := by
  obtain ⟨s, hs⟩ := star_never_fails .memoryOnly 0 nested
  obtain ⟨N, l, hr, hL⟩ := public_more_iter_partial hs (.v6 Demo.doc) none true
    (fun m hm => (by cases hm))
  refine ⟨s, hs, N, l, hr, (hL.mem _).2 ⟨⟨by decide, ⟨(nested_present _).2 (.inl rfl), by decide⟩,
    (by show Covers Demo.doc doc48; decide)⟩, { Demo.rec1 2 3 9 with status := .withdrawn },
    Demo.rec1 2 3 9, by decide, fun m hm => (by cases hm), by decide⟩⟩

/-- Records of id 2: withdrawn for IPv6, active for IPv4. -/
example : ∃ s, starExec .memoryOnly 0 nested = .ok () s ∧
    (∃ o, (Star.getRecords .memoryOnly (.v4 Demo.ten8) none false).run s = .ok (.ok o) s ∧
      Demo.rec1 2 2 8 ∈ o.getD []) ∧
    ∃ o, (Star.getRecords .memoryOnly (.v6 doc48) none false).run s = .ok (.ok o) s ∧
      o.getD [] = [] := by
  obtain ⟨s, hs⟩ := star_never_fails .memoryOnly 0 nested
  obtain ⟨o, h1, ⟨-, h2⟩, -⟩ := public_get_records hs (.v4 Demo.ten8) none false
  obtain ⟨o', h1', ⟨-, h2'⟩, -⟩ := public_get_records hs (.v6 doc48) none false
  refine ⟨s, hs, ⟨o, h1, (h2 _).2 ⟨_, by decide, fun m hm => (by cases hm), rfl, rfl, ?_⟩⟩,
    o', h1', ?_⟩
  · exact .inl (by decide)
  · rw [List.eq_nil_iff_forall_not_mem]
    intro r hr
    obtain ⟨r0, k1, -, rfl, -, k4⟩ := (h2' r).1 hr
    rcases k4 with k4 | ⟨-, k4⟩
    · have hm : r.mui = 2#32 := by
        by_contra hne
        have : Pub.storedRec .memoryOnly nested (.v6 doc48) r.mui = none := by
          show Pub.recOf nested (.v6 doc48) r.mui = none
          have hd : (AnyPrefix.v6 Demo.doc = .v6 doc48) = False := by simpa using by decide
          simp only [nested, Pub.recOf, Demo.rec1, reduceCtorEq, false_and, if_false, true_and, hd]
          rw [if_neg (fun h => hne h.symm)]
        rw [this] at k1; cases k1
      rw [hm] at k4
      exact absurd k4 (by decide)
    · cases k4

/-- The path selection theorems apply to a second IPv6 route and a calculation. -/
def selected : List (StarOp Demo.Md) :=
  [.insert (.v6 Demo.doc) (Demo.rec1 3 3 9) none, .insert (.v6 Demo.doc) (Demo.rec1 1 1 7) none]

example : Pub.Present selected (.v6 Demo.doc) ∧
    Pub.Stores selected (.v6 Demo.doc) () (.calcBest (.v6 Demo.doc) ()) ∧
    ¬ Pub.Selects (M := Demo.Md) (.v6 Demo.doc) (.calcBest (.v4 Demo.ten8) ()) := by
  have hp : Pub.Present selected (.v6 Demo.doc) := ⟨_, _, List.mem_cons_self⟩
  exact ⟨hp, ⟨hp, .inl rfl⟩, fun h => by cases h⟩

end Rotonda.Props
