import Verif.Proofs.StarConc
import Verif.Props.Counts
import Verif.Props.Iterate
import Verif.Props.Lookup

/-!
# Both address families: C10, C45, C49
-/

namespace Rotonda.Demo

open Spec

/-- `2001:db8::/32`. -/
def doc : Prefix 128 := pfx 0x20010db8000000000000000000000000#128 32 (by decide)

/-- Routes for both families from id 1, then 1 withdrawn for IPv4. -/
def mixed : List (StarOp Md) :=
  [.withdraw4 1#32, .insert (.v6 doc) (rec1 1 1 7) none, .insert (.v4 ten8) (rec1 1 1 7) none]

end Rotonda.Demo

namespace Rotonda.Props

open Prog Spec

variable {M : Type} [Meta M]

/-! ## C10 -/

/-- C10: a call on an IPv4 prefix, or changing the status of an id for IPv4, does
not change the answer of any query about IPv6. -/
theorem isolation_v6 {st : Strategy} {F : Nat} {h : List (StarOp M)} {s s' : Star M}
    {op : StarOp M} (hs : starExec st F h = .ok () s) (hs' : starExec st F (op :: h) = .ok () s')
    (ho : op6 op = none) {fuel : Nat} {α : Type} {q : Prog (Star M) α} (hq : Query6 st fuel q) :
    answer (q.run s') = answer (q.run s) := by
  have h6 := (starExec_ok hs).2
  have h6' := (starExec_ok hs').2
  unfold hist6 at h6'
  rw [List.filterMap_cons_none ho] at h6'
  have he : exec st F (hist6 h) = .ok () s'.v6 := h6'
  rw [h6] at he
  refine query6_answer hq ?_
  injection he with _ he
  exact he.symm

/-- C10, the other way round. -/
theorem isolation_v4 {st : Strategy} {F : Nat} {h : List (StarOp M)} {s s' : Star M}
    {op : StarOp M} (hs : starExec st F h = .ok () s) (hs' : starExec st F (op :: h) = .ok () s')
    (ho : op4 op = none) {fuel : Nat} {α : Type} {q : Prog (Star M) α} (hq : Query4 st fuel q) :
    answer (q.run s') = answer (q.run s) := by
  have h4 := (starExec_ok hs).1
  have h4' := (starExec_ok hs').1
  unfold hist4 at h4'
  rw [List.filterMap_cons_none ho] at h4'
  have he : exec st F (hist4 h) = .ok () s'.v4 := h4'
  rw [h4] at he
  refine query4_answer hq ?_
  injection he with _ he
  exact he.symm

/-- C10, also while other threads run: no atomic step of a call that only concerns
IPv4, in any state whatsoever, changes the answer of a query about IPv6. -/
theorem isolation_v6_steps (st : Strategy) (F : Nat) {op : StarOp M} (ho : op6 op = none) :
    (op.prog st F).Always fun s s' => ∀ (fuel : Nat) (α : Type) (q : Prog (Star M) α),
      Query6 st fuel q → answer (q.run s') = answer (q.run s) :=
  (starOp_keeps6 ho).mono fun _ _ h _ _ _ hq => query6_answer hq h

/-- C10, also while other threads run, the other way round. -/
theorem isolation_v4_steps (st : Strategy) (F : Nat) {op : StarOp M} (ho : op4 op = none) :
    (op.prog st F).Always fun s s' => ∀ (fuel : Nat) (α : Type) (q : Prog (Star M) α),
      Query4 st fuel q → answer (q.run s') = answer (q.run s) :=
  (starOp_keeps4 ho).mono fun _ _ h _ _ _ hq => query4_answer hq h

/-- What queries about a family answer is determined by the calls that concern
that family; those about a prefix are the ones of its family, `mark_mui_as_withdrawn`
concerns both. -/
theorem families_independent {st : Strategy} {F : Nat} {h h' : List (StarOp M)} {s s' : Star M}
    (hs : starExec st F h = .ok () s) (hs' : starExec st F h' = .ok () s') (fuel : Nat) {α : Type}
    {q : Prog (Star M) α} :
    (hist4 h = hist4 h' → Query4 st fuel q → answer (q.run s) = answer (q.run s')) ∧
    (hist6 h = hist6 h' → Query6 st fuel q → answer (q.run s) = answer (q.run s')) := by
  obtain ⟨a4, a6⟩ := starExec_ok hs
  obtain ⟨b4, b6⟩ := starExec_ok hs'
  refine ⟨fun he hq => query4_answer hq ?_, fun he hq => query6_answer hq ?_⟩
  · rw [he, b4] at a4; injection a4 with _ a4; exact a4.symm
  · rw [he, b6] at a6; injection a6 with _ a6; exact a6.symm

example : ∃ s s', starExec .memoryOnly 0 Demo.mixed = .ok () s ∧
    starExec .memoryOnly 0 (.insert (.v4 Demo.ten16) (Demo.rec1 1 1 7) none :: Demo.mixed) = .ok () s' ∧
    answer ((Star.getRecords .memoryOnly (.v6 Demo.doc) none false).run s') =
      answer ((Star.getRecords .memoryOnly (.v6 Demo.doc) none false).run s) := by
  obtain ⟨s, hs, -⟩ := starExec_split (st := .memoryOnly) (F := 0) Demo.mixed
  obtain ⟨s', hs', -⟩ := starExec_split (st := .memoryOnly) (F := 0)
    (.insert (.v4 Demo.ten16) (Demo.rec1 1 1 7) none :: Demo.mixed)
  exact ⟨s, s', hs, hs', isolation_v6 hs hs' rfl (fuel := 0) (.getRecords _ _ _)⟩

/-! ## C45 -/

/-- C45, the getters of a family: they report the last status change of the id that
concerns the family. -/
theorem mui_status_families {st : Strategy} {F : Nat} {h : List (StarOp M)} {s : Star M}
    (hs : starExec st F h = .ok () s) (m : Mui) :
    (Star.muiIsWithdrawn4 m).run s = .ok (withdrawnIn4 m h) s ∧
    (Star.muiIsWithdrawn6 m).run s = .ok (withdrawnIn6 m h) s ∧
    (Star.isMuiActive4 m).run s = .ok (!withdrawnIn4 m h) s ∧
    (Star.isMuiActive6 m).run s = .ok (!withdrawnIn6 m h) s := by
  obtain ⟨h4, h6⟩ := starExec_ok hs
  have i4 := exec_ok_inv h4
  have i6 := exec_ok_inv h6
  have a4 : (ribIsMuiActive m).run s.v4 = .ok (!globWd (hist4 h) m) s.v4 := by
    unfold ribIsMuiActive; rw [run_bind, run_withdrawnMuis i4.toQ]; rfl
  have a6 : (ribIsMuiActive m).run s.v6 = .ok (!globWd (hist6 h) m) s.v6 := by
    unfold ribIsMuiActive; rw [run_bind, run_withdrawnMuis i6.toQ]; rfl
  rw [← globWd_hist4, ← globWd_hist6]
  refine ⟨?_, ?_, ?_, ?_⟩
  · rw [Star.muiIsWithdrawn4, run_v4, run_muiIsWithdrawn i4.toQ]; rfl
  · rw [Star.muiIsWithdrawn6, run_v6, run_muiIsWithdrawn i6.toQ]; rfl
  · rw [Star.isMuiActive4, run_v4, a4]; rfl
  · rw [Star.isMuiActive6, run_v6, a6]; rfl

/-- C45 for `is_mui_active` as it is: false only if the id is withdrawn for both
families.  The property wants false if it is withdrawn for either. -/
theorem mui_active_partial {st : Strategy} {F : Nat} {h : List (StarOp M)} {s : Star M}
    (hs : starExec st F h = .ok () s) (m : Mui) :
    ∃ b, (Star.isMuiActive m).run s = .ok b s ∧
      (b = false ↔ withdrawnIn4 m h = true ∧ withdrawnIn6 m h = true) := by
  obtain ⟨-, -, h4, h6⟩ := mui_status_families hs m
  refine ⟨!(withdrawnIn4 m h && withdrawnIn6 m h), ?_, by simp⟩
  unfold Star.isMuiActive
  rw [run_bind, h4]
  simp only [Outcome.andThen]
  cases withdrawnIn4 m h with
  | false => rfl
  | true => simp only [Bool.not_true, Bool.false_eq_true, if_false, h6, Bool.true_and]

/-- C45 for `is_mui_active` as it is stated. -/
def MuiActiveExact (M : Type) [Meta M] : Prop :=
  ∀ (st : Strategy) (F : Nat) (h : List (StarOp M)) (s : Star M), starExec st F h = .ok () s →
    ∀ m, (Star.isMuiActive m).run s =
      .ok (decide (withdrawnIn4 m h = false ∧ withdrawnIn6 m h = false)) s

/-- C45 is false of the code: an id withdrawn for IPv4 only is still active. -/
theorem mui_active_fails : ¬ MuiActiveExact Demo.Md := by
  intro hall
  obtain ⟨s, hs, -⟩ := starExec_split (st := .memoryOnly) (F := 0) Demo.mixed
  have h1 := hall _ _ _ _ hs 1#32
  obtain ⟨b, h2, hb⟩ := mui_active_partial hs 1#32
  rw [h1] at h2
  injection h2 with h2
  subst h2
  exact absurd hb (by decide)

/-- After `mark_mui_as_withdrawn` the id is withdrawn for both, and the other ids
keep their status. -/
theorem mark_withdrawn_both {st : Strategy} {F : Nat} {h : List (StarOp M)} {s s' : Star M}
    {m : Mui} (hs : starExec st F h = .ok () s)
    (hs' : starExec st F (.withdraw m :: h) = .ok () s') :
    (Star.isMuiActive m).run s' = .ok false s' ∧
    ∀ k, k ≠ m → answer ((Star.isMuiActive k).run s') = answer ((Star.isMuiActive k).run s) := by
  constructor
  · obtain ⟨b, h1, hb⟩ := mui_active_partial hs' m
    rw [h1, hb.2 (by simp [withdrawnIn4, withdrawnIn6])]
  · intro k hk
    obtain ⟨b, h1, hb⟩ := mui_active_partial hs k
    obtain ⟨b', h1', hb'⟩ := mui_active_partial hs' k
    have : b' = b := by
      have : b' = false ↔ b = false := by rw [hb, hb']; simp [withdrawnIn4, withdrawnIn6, hk]
      cases b <;> cases b' <;> simp_all
    rw [h1, h1', this]; rfl

example : ∃ s, starExec .memoryOnly 0 Demo.mixed = .ok () s ∧
    (Star.muiIsWithdrawn4 1#32).run s = .ok true s ∧
    (Star.muiIsWithdrawn6 1#32).run s = .ok false s ∧
    (Star.isMuiActive 1#32).run s = .ok true s := by
  obtain ⟨s, hs, -⟩ := starExec_split (st := .memoryOnly) (F := 0) Demo.mixed
  obtain ⟨h1, h2, -⟩ := mui_status_families hs 1#32
  obtain ⟨b, h3, hb⟩ := mui_active_partial hs 1#32
  refine ⟨s, hs, h1, h2, ?_⟩
  cases b with
  | true => exact h3
  | false => exact absurd (hb.1 rfl) (by decide)

/-! ## C49 -/

theorem present_hist4 {h : List (StarOp M)} {p : Prefix 32} :
    Present (hist4 h) p ↔ ∃ r t, StarOp.insert (.v4 p) r t ∈ h := by
  unfold Present Inserted hist4
  constructor
  · rintro ⟨m, r, t, hm, -⟩
    obtain ⟨op, ho, he⟩ := List.mem_filterMap.1 hm
    rcases op with (⟨q | q, r', t'⟩ | ⟨q | q, k, t'⟩ | ⟨q | q, k, t'⟩ | k | k | k | k | k | ⟨q | q, t'⟩)
    all_goals simp only [op4, Option.some.injEq, Op.insert.injEq, reduceCtorEq] at he
    obtain ⟨rfl, rfl, rfl⟩ := he
    exact ⟨_, _, ho⟩
  · rintro ⟨r, t, hm⟩
    exact ⟨_, r, t, List.mem_filterMap.2 ⟨_, hm, rfl⟩, rfl⟩

theorem present_hist6 {h : List (StarOp M)} {p : Prefix 128} :
    Present (hist6 h) p ↔ ∃ r t, StarOp.insert (.v6 p) r t ∈ h := by
  unfold Present Inserted hist6
  constructor
  · rintro ⟨m, r, t, hm, -⟩
    obtain ⟨op, ho, he⟩ := List.mem_filterMap.1 hm
    rcases op with (⟨q | q, r', t'⟩ | ⟨q | q, k, t'⟩ | ⟨q | q, k, t'⟩ | k | k | k | k | k | ⟨q | q, t'⟩)
    all_goals simp only [op6, Option.some.injEq, Op.insert.injEq, reduceCtorEq] at he
    obtain ⟨rfl, rfl, rfl⟩ := he
    exact ⟨_, _, ho⟩
  · rintro ⟨r, t, hm⟩
    exact ⟨_, r, t, List.mem_filterMap.2 ⟨_, hm, rfl⟩, rfl⟩

/-- C49: the total prefix count of the store is the number of distinct prefixes
inserted, of both families. -/
theorem star_prefixes_count {st : Strategy} {F : Nat} {h : List (StarOp M)} {s : Star M}
    (hs : starExec st F h = .ok () s) :
    ∃ c, Star.prefixesCount.run s = .ok c s ∧
      c.total = Set.ncard {p : Prefix 32 | ∃ r t, StarOp.insert (.v4 p) r t ∈ h} +
        Set.ncard {p : Prefix 128 | ∃ r t, StarOp.insert (.v6 p) r t ∈ h} := by
  obtain ⟨h4, h6⟩ := starExec_ok hs
  obtain ⟨a, ha, ea, -⟩ := prefixes_count_total h4
  obtain ⟨b, hb, eb, -⟩ := prefixes_count_total h6
  refine ⟨Star.addCounters a b, ?_, ?_⟩
  · unfold Star.prefixesCount Star.prefixesCount4 Star.prefixesCount6
    rw [run_bind, run_v4, ha]
    simp only [Outcome.mapState, Outcome.andThen]
    rw [run_bind, run_v6, hb]
    rfl
  · have e4 : prefixes (hist4 h) = {p : Prefix 32 | ∃ r t, StarOp.insert (.v4 p) r t ∈ h} :=
      Set.ext fun _ => present_hist4
    have e6 : prefixes (hist6 h) = {p : Prefix 128 | ∃ r t, StarOp.insert (.v6 p) r t ∈ h} :=
      Set.ext fun _ => present_hist6
    rw [← e4, ← e6, ← ea, ← eb]
    rfl

/-- C49: the counters of the store are the sums of those of the families. -/
theorem star_counts_sum {st : Strategy} {F : Nat} {h : List (StarOp M)} {s : Star M}
    (hs : starExec st F h = .ok () s) :
    (∃ a b c, Star.prefixesCount4.run s = .ok a s ∧ Star.prefixesCount6.run s = .ok b s ∧
      Star.prefixesCount.run s = .ok c s ∧ c.inMemory = a.inMemory + b.inMemory ∧
      c.persisted = a.persisted + b.persisted ∧ c.total = a.total + b.total) ∧
    (∃ a b c, Star.routesCount4.run s = .ok a s ∧ Star.routesCount6.run s = .ok b s ∧
      Star.routesCount.run s = .ok c s ∧ c.inMemory = a.inMemory + b.inMemory ∧
      c.persisted = a.persisted + b.persisted ∧ c.total = a.total + b.total) ∧
    ∃ a b, Star.nodesCount4.run s = .ok a s ∧ Star.nodesCount6.run s = .ok b s ∧
      Star.nodesCount.run s = .ok (a + b) s := by
  obtain ⟨h4, h6⟩ := starExec_ok hs
  refine ⟨?_, ?_, ?_⟩
  · obtain ⟨a, ha, -⟩ := prefixes_count_total h4
    obtain ⟨b, hb, -⟩ := prefixes_count_total h6
    have k4 : Star.prefixesCount4.run s = .ok a s := by rw [Star.prefixesCount4, run_v4, ha]; rfl
    have k6 : Star.prefixesCount6.run s = .ok b s := by rw [Star.prefixesCount6, run_v6, hb]; rfl
    refine ⟨a, b, Star.addCounters a b, k4, k6, ?_, rfl, rfl, rfl⟩
    rw [Star.prefixesCount, run_bind, k4]
    simp only [Outcome.andThen]
    rw [run_bind, k6]; rfl
  · obtain ⟨a, ha, -⟩ := routes_count_total_partial h4
    obtain ⟨b, hb, -⟩ := routes_count_total_partial h6
    have k4 : Star.routesCount4.run s = .ok a s := by rw [Star.routesCount4, run_v4, ha]; rfl
    have k6 : Star.routesCount6.run s = .ok b s := by rw [Star.routesCount6, run_v6, hb]; rfl
    refine ⟨a, b, Star.addCounters a b, k4, k6, ?_, rfl, rfl, rfl⟩
    rw [Star.routesCount, run_bind, k4]
    simp only [Outcome.andThen]
    rw [run_bind, k6]; rfl
  · obtain ⟨a, ha, -⟩ := nodes_count h4
    obtain ⟨b, hb, -⟩ := nodes_count h6
    have k4 : Star.nodesCount4.run s = .ok a s := by rw [Star.nodesCount4, run_v4, ha]; rfl
    have k6 : Star.nodesCount6.run s = .ok b s := by rw [Star.nodesCount6, run_v6, hb]; rfl
    refine ⟨a, b, k4, k6, ?_⟩
    rw [Star.nodesCount, run_bind, k4]
    simp only [Outcome.andThen]
    rw [run_bind, k6]; rfl

/-- C49: `prefixes_iter` ends; it yields IPv4 prefixes and then IPv6 ones, each inserted
prefix but the default routes once, with all its records. -/
theorem star_prefixes_iter_partial {st : Strategy} {F : Nat} {h : List (StarOp M)} {s : Star M}
    (hs : starExec st F h = .ok () s) :
    ∃ (N : Nat) (l4 : List (PrefixRecord M 32)) (l6 : List (PrefixRecord M 128)),
      (∀ fuel, N ≤ fuel → (Star.prefixesIter st fuel).run s =
        .ok ((l4.map Star.pub4 ++ l6.map Star.pub6).map .ok) s) ∧
      (l4.map Prod.fst).Nodup ∧ (l6.map Prod.fst).Nodup ∧
      (∀ q, q ∈ l4.map Prod.fst ↔ (∃ r t, StarOp.insert (.v4 q) r t ∈ h) ∧ 0 < q.len) ∧
      (∀ q, q ∈ l6.map Prod.fst ↔ (∃ r t, StarOp.insert (.v6 q) r t ∈ h) ∧ 0 < q.len) ∧
      (∀ q rs, (q, rs) ∈ l4 → Lists rs fun r => ∃ r0, storedRec st (hist4 h) q r.mui = some r0 ∧
        r = effective (hist4 h) r0) ∧
      ∀ q rs, (q, rs) ∈ l6 → Lists rs fun r => ∃ r0, storedRec st (hist6 h) q r.mui = some r0 ∧
        r = effective (hist6 h) r0 := by
  obtain ⟨h4, h6⟩ := starExec_ok hs
  obtain ⟨N4, l4, r4, nd4, m4, v4⟩ := prefixes_iter_partial h4
  obtain ⟨N6, l6, r6, nd6, m6, v6⟩ := prefixes_iter_partial h6
  refine ⟨max N4 N6, l4, l6, fun fuel hf => ?_, nd4, nd6, fun q => ?_, fun q => ?_, v4, v6⟩
  · refine (run_mixed (sim_start st F fuel (.prefixesIter (M := M))) (r4 fuel (by omega))
      (r6 fuel (by omega))).trans ?_
    rw [List.map_append, Star.pubs4, Star.pubs6, List.map_map, List.map_map, List.map_map,
      List.map_map]
    rfl
  · rw [m4 q, present_hist4]
  · rw [m6 q, present_hist6]

example : ∃ s, starExec .memoryOnly 0 Demo.mixed = .ok () s ∧
    ∃ N l, (∀ fuel, N ≤ fuel →
        (Star.prefixesIter .memoryOnly fuel).run s = .ok ((l : List (PubRecord Demo.Md)).map .ok) s) ∧
      AnyPrefix.v6 Demo.doc ∈ l.map PubRecord.pfx ∧
      AnyPrefix.v4 Demo.ten8 ∈ l.map PubRecord.pfx := by
  obtain ⟨s, hs, -⟩ := starExec_split (st := .memoryOnly) (F := 0) Demo.mixed
  obtain ⟨N, l4, l6, hr, -, -, h4, h6, -⟩ := star_prefixes_iter_partial hs
  refine ⟨s, hs, N, _, hr, ?_, ?_⟩
  · have := (h6 Demo.doc).2 ⟨⟨_, _, by simp only [Demo.mixed, List.mem_cons]; exact .inr (.inl rfl)⟩, by decide⟩
    obtain ⟨x, hx, he⟩ := List.mem_map.1 this
    exact List.mem_map.2 ⟨Star.pub6 x, List.mem_append_right _ (List.mem_map_of_mem hx),
      congrArg AnyPrefix.v6 he⟩
  · have := (h4 Demo.ten8).2 ⟨⟨_, _, by simp only [Demo.mixed, List.mem_cons]; exact .inr (.inr (.inl rfl))⟩, by decide⟩
    obtain ⟨x, hx, he⟩ := List.mem_map.1 this
    exact List.mem_map.2 ⟨Star.pub4 x, List.mem_append_left _ (List.mem_map_of_mem hx),
      congrArg AnyPrefix.v4 he⟩

/-- No call over both families panics or gets stuck. -/
theorem star_never_fails (st : Strategy) (F : Nat) (h : List (StarOp M)) :
    ∃ s, starExec st F h = .ok () s :=
  (starExec_split h).imp fun _ h => h.1

end Rotonda.Props
