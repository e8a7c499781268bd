import Verif.Proofs.StarBridge
import Verif.Props.Families
import Verif.Props.Concurrent
import Verif.Props.Linear
import Verif.Props.ConcCounts
import Mathlib.Tactic.FinCases

/-!
# Concurrent calls of the public interface: C51

The store of both families is in the state `s` after any history `h` of calls of the
public interface; then any set of its calls runs concurrently, their atomic actions
interleaved by any schedule.
-/

namespace Rotonda.Props

open Prog Spec

variable {M : Type} [Meta M] {ι : Type} [DecidableEq ι] {calls : ι → StarCall M}

/-- C51: every run is a run of the IPv4 store and one of the IPv6 store that do not
influence each other: each family is in the state, and every call gives the answer,
of these runs.  In particular the theorems about one family (C35–C41) hold for both. -/
theorem families_interleave (st : Strategy) (F fuel : Nat) (s : Star M) (calls : ι → StarCall M)
    (t : List ι) :
    ∃ t4 t6, Interleaves (starStart st F fuel s calls)
      (start st F fuel s.v4 (fun i => call4 (calls i)))
      (start st F fuel s.v6 (fun i => call6 (calls i))) t t4 t6 :=
  run_interleaves st F fuel s calls t

section
variable {st : Strategy} {F0 F fuel : Nat} (hF : 32 ≤ F) (hf : iterFuel 128 ≤ fuel)
  {h : List (StarOp M)} {s : Star M} (hs : starExec st F0 h = .ok () s)
include hF hf hs

omit hF hs in
private theorem fuel4 : iterFuel 32 ≤ fuel :=
  Nat.le_trans (by unfold iterFuel; norm_num) hf

/-- C51: no call panics, and none gets stuck, except the global status changes. -/
theorem star_concurrent_no_panic (t : List ι) (i : ι) :
    ((starStart st F fuel s calls).exec t).pool i ≠ .panic ∧
      ((∀ m, calls i ≠ .withdraw m ∧ calls i ≠ .withdraw4 m ∧ calls i ≠ .withdraw6 m ∧
          calls i ≠ .activate4 m ∧ calls i ≠ .activate6 m) →
        ((starStart st F fuel s calls).exec t).pool i ≠ .diverge) := by
  obtain ⟨t4, t6, hI⟩ := run_interleaves st F fuel s calls t
  obtain ⟨h4, h6⟩ := starExec_ok hs
  have n4 := concurrent_no_panic (calls := fun i => call4 (calls i)) hF (fuel4 hf) h4 (t4 t.length) i
  have n6 := concurrent_no_panic (calls := fun i => call6 (calls i)) hF hf h6 (t6 t.length) i
  have hp := hI.panics t.length (Nat.le_refl _) i
  have hd := hI.stuck t.length (Nat.le_refl _) i
  rw [List.take_length] at hp hd
  refine ⟨fun h => (hp h).elim n4.1 n6.1, fun hne h => (hd h).elim (n4.2 ?_ ?_) (n6.2 ?_ ?_)⟩
  · intro m hc
    rcases call4_withdraw hc with hc | hc
    · exact (hne m).2.1 hc
    · exact (hne m).1 hc
  · exact fun m hc => (hne m).2.2.2.1 (call4_activate hc)
  · intro m hc
    rcases call6_withdraw hc with hc | hc
    · exact (hne m).2.2.1 hc
    · exact (hne m).1 hc
  · exact fun m hc => (hne m).2.2.2.2 (call6_activate hc)

/-- C51: every call but the global status changes returns when given enough turns. -/
theorem star_concurrent_calls_return (sched : Nat → ι) {i : ι}
    (hne : ∀ m, calls i ≠ .withdraw m ∧ calls i ≠ .withdraw4 m ∧ calls i ≠ .withdraw6 m ∧
      calls i ≠ .activate4 m ∧ calls i ≠ .activate6 m) (hfair : ∀ n, ∃ m, n ≤ m ∧ sched m = i) :
    ∃ n a, ((starStart st F fuel s calls).exec ((List.range n).map sched)).pool i = .ret a := by
  obtain ⟨n, hn⟩ := Conf.ends (starStart st F fuel s calls) sched i hfair
  have hnp := star_concurrent_no_panic (calls := calls) hF hf hs ((List.range n).map sched) i
  refine ⟨n, ?_⟩
  cases hp : ((starStart st F fuel s calls).exec ((List.range n).map sched)).pool i with
  | ret a => exact ⟨a, rfl⟩
  | act f k => rw [hp] at hn; exact hn.elim
  | panic => exact (hnp.1 hp).elim
  | diverge => exact (hnp.2 hne hp).elim

/-- C51 and C35: once an insert of `p` has returned, `contains(p, None)` is true in every
later state.  Partial: not for the default routes. -/
theorem star_concurrent_contains_partial {t : List ι} {i : ι} {p : AnyPrefix} {r : Record M}
    {tbi : Option (Meta.TBI M)} {a : Except StoreError UpsertReport} (h0 : 0 < anyLen p)
    (hr : StarReturned ((starStart st F fuel s calls).exec t) i (.insert p r tbi) a) (u : List ι) :
    (Star.contains p none).run ((starStart st F fuel s calls).exec (t ++ u)).st =
      .ok true ((starStart st F fuel s calls).exec (t ++ u)).st := by
  obtain ⟨t4, t6, hI⟩ := run_interleaves st F fuel s calls (t ++ u)
  obtain ⟨h4, h6⟩ := starExec_ok hs
  have hle : t.length ≤ (t ++ u).length := by simp
  have hst := hI.state (t ++ u).length (Nat.le_refl _)
  rw [List.take_length] at hst
  have hr' : StarReturned ((starStart st F fuel s calls).exec ((t ++ u).take t.length)) i
    (.insert p r tbi) a := by rw [List.take_left]; exact hr
  cases p with
  | v4 q =>
    obtain ⟨b, hb, -⟩ := returned_v4 hI hle (x := .insert (.v4 q) r tbi)
      (y := .insert q r tbi) (g := fun a => a) rfl hr'
    obtain ⟨u4, hu⟩ := hI.split.prefix4 hle (Nat.le_refl _)
    have := concurrent_contains_partial (calls := fun i => call4 (calls i)) hF (fuel4 hf) h4
      (t := t4 t.length) h0 (.inr ⟨i, r, tbi, b, hb, rfl⟩) u4
    rw [hu] at this
    rw [hst]
    show ((ribContains q.id none).zoom Star.v4L).run _ = _
    rw [run_v4, this]; rfl
  | v6 q =>
    obtain ⟨b, hb, -⟩ := returned_v6 hI hle (x := .insert (.v6 q) r tbi)
      (y := .insert q r tbi) (g := fun a => a) rfl hr'
    obtain ⟨u6, hu⟩ := hI.split.prefix6 hle (Nat.le_refl _)
    have := concurrent_contains_partial (calls := fun i => call6 (calls i)) hF hf h6
      (t := t6 t.length) h0 (.inr ⟨i, r, tbi, b, hb, rfl⟩) u6
    rw [hu] at this
    rw [hst]
    show ((ribContains q.id none).zoom Star.v6L).run _ = _
    rw [run_v6, this]; rfl

/-- C51 and C39: once an insert for `(p, m)` has returned, the record read for `(p, m)` in
any later state is the one of this insert or of another insert for `(p, m)` that had not
returned before this one started. -/
theorem star_concurrent_upsert {t : List ι} {i : ι} {p : AnyPrefix} {r : Record M}
    {tbi : Option (Meta.TBI M)} {a : Except StoreError UpsertReport}
    (ht : st = .persistOnly → ∀ i q m t, calls i ≠ .activateFor q m t)
    (hm : ∀ i t, calls i ≠ .withdrawFor p r.mui t ∧ calls i ≠ .activateFor p r.mui t)
    (hr : StarReturned ((starStart st F fuel s calls).exec t) i (.insert p r tbi) a) (u : List ι) :
    ∃ j ∈ t ++ u, ∃ r' tbi' w, calls j = .insert p r' tbi' ∧ r'.mui = r.mui ∧
      StarNotBefore (starStart st F fuel s calls) (t ++ u) j i ∧
      (Star.getRecords st p (some r.mui) true).run ((starStart st F fuel s calls).exec (t ++ u)).st =
        .ok (.ok (some [shownAs w (asStored st r')]))
          ((starStart st F fuel s calls).exec (t ++ u)).st := by
  obtain ⟨t4, t6, hI⟩ := run_interleaves st F fuel s calls (t ++ u)
  obtain ⟨h4, h6⟩ := starExec_ok hs
  have hle : t.length ≤ (t ++ u).length := by simp
  have hst := hI.state (t ++ u).length (Nat.le_refl _)
  rw [List.take_length] at hst
  have hr' : StarReturned ((starStart st F fuel s calls).exec ((t ++ u).take t.length)) i
    (.insert p r tbi) a := by rw [List.take_left]; exact hr
  cases p with
  | v4 q =>
    obtain ⟨b, hb, -⟩ := returned_v4 hI hle (x := .insert (.v4 q) r tbi)
      (y := .insert q r tbi) (g := fun a => a) rfl hr'
    obtain ⟨u4, hu⟩ := hI.split.prefix4 hle (Nat.le_refl _)
    obtain ⟨j, hj, r', tbi', w, hc, hmui, hnb, -, hv⟩ := concurrent_upsert
      (calls := fun i => call4 (calls i)) hF (fuel4 hf) h4 (t := t4 t.length)
      (fun he i q m tm hc => ht he i _ m tm (call4_activateFor hc))
      (fun i tm => ⟨fun hc => (hm i tm).1 (call4_withdrawFor hc),
        fun hc => (hm i tm).2 (call4_activateFor hc)⟩) hb u4
    rw [hu] at hj hnb hv
    have hcj : calls j = .insert (.v4 q) r' tbi' := call4_insert hc
    refine ⟨j, ?_, r', tbi', w, hcj, hmui, notBefore_v4 hI ?_ hnb, ?_⟩
    · exact List.mem_of_mem_take (hI.split.mem4 (Nat.le_refl _) hj)
    · rw [hcj]; rintro y g ⟨⟩
    · rw [hst]
      show ((ribGetValue st q.id (some r.mui) true).zoom Star.v4L).run _ = _
      rw [run_v4, hv]; rfl
  | v6 q =>
    obtain ⟨b, hb, -⟩ := returned_v6 hI hle (x := .insert (.v6 q) r tbi)
      (y := .insert q r tbi) (g := fun a => a) rfl hr'
    obtain ⟨u6, hu⟩ := hI.split.prefix6 hle (Nat.le_refl _)
    obtain ⟨j, hj, r', tbi', w, hc, hmui, hnb, -, hv⟩ := concurrent_upsert
      (calls := fun i => call6 (calls i)) hF hf h6 (t := t6 t.length)
      (fun he i q m tm hc => ht he i _ m tm (call6_activateFor hc))
      (fun i tm => ⟨fun hc => (hm i tm).1 (call6_withdrawFor hc),
        fun hc => (hm i tm).2 (call6_activateFor hc)⟩) hb u6
    rw [hu] at hj hnb hv
    have hcj : calls j = .insert (.v6 q) r' tbi' := call6_insert hc
    refine ⟨j, ?_, r', tbi', w, hcj, hmui, notBefore_v6 hI (.inl ?_) hnb, ?_⟩
    · exact List.mem_of_mem_take (hI.split.mem6 (Nat.le_refl _) hj)
    · rw [hcj]; exact ⟨_, _, rfl⟩
    · rw [hst]
      show ((ribGetValue st q.id (some r.mui) true).zoom Star.v6L).run _ = _
      rw [run_v6, hv]; rfl

omit hF hf hs in
private theorem active_of_withdrawn {W : Nat} {m : Mui} {s : Rib M W} {w : Bool}
    (h : (ribMuiIsWithdrawn m).run s = .ok w s) : (ribIsMuiActive m).run s = .ok (!w) s := by
  unfold ribMuiIsWithdrawn at h
  unfold ribIsMuiActive
  rw [run_bind] at h ⊢
  cases hw : (withdrawnMuis.zoom Rib.treeL : Prog (Rib M W) _).run s with
  | panic => rw [hw] at h; cases h
  | diverge => rw [hw] at h; cases h
  | ok x s' => rw [hw] at h; cases h; rfl

/-- C51: once `mark_mui_as_withdrawn` for `m` has returned, `m` is withdrawn for both
families in every later state, if every call that marks `m` as active had returned before
it started. -/
theorem star_concurrent_withdraw {t : List ι} {i : ι} {m : Mui} (hc : calls i = .withdraw m)
    {a : (calls i).Ans} (hr : ((starStart st F fuel s calls).exec t).pool i = .ret a) (u : List ι)
    (hact : ∀ j ∈ t ++ u, calls j = .activate4 m ∨ calls j = .activate6 m →
      ¬ StarNotBefore (starStart st F fuel s calls) (t ++ u) j i) :
    (Star.isMuiActive m).run ((starStart st F fuel s calls).exec (t ++ u)).st =
        .ok false ((starStart st F fuel s calls).exec (t ++ u)).st ∧
      (Star.muiIsWithdrawn4 m).run ((starStart st F fuel s calls).exec (t ++ u)).st =
        .ok true ((starStart st F fuel s calls).exec (t ++ u)).st ∧
      (Star.muiIsWithdrawn6 m).run ((starStart st F fuel s calls).exec (t ++ u)).st =
        .ok true ((starStart st F fuel s calls).exec (t ++ u)).st := by
  obtain ⟨t4, t6, hI⟩ := run_interleaves st F fuel s calls (t ++ u)
  obtain ⟨h4, h6⟩ := starExec_ok hs
  have hle : t.length ≤ (t ++ u).length := by simp
  have hst := hI.state (t ++ u).length (Nat.le_refl _)
  rw [List.take_length] at hst
  have hr' : ((starStart st F fuel s calls).exec ((t ++ u).take t.length)).pool i = .ret a := by
    rw [List.take_left]; exact hr
  obtain ⟨b4, hb4⟩ := part4_returned hI hle hr' (by rw [hc]; rintro y g ⟨⟩)
  obtain ⟨b6, hb6⟩ := part6_returned hI hle hr' (by rw [hc]; exact .inr ⟨_, _, _, rfl⟩)
  obtain ⟨u4, hu4⟩ := hI.split.prefix4 hle (Nat.le_refl _)
  obtain ⟨u6, hu6⟩ := hI.split.prefix6 hle (Nat.le_refl _)
  have w4 : (ribMuiIsWithdrawn m).run ((start4 st F fuel s calls).exec (t4 (t ++ u).length)).st =
      .ok true ((start4 st F fuel s calls).exec (t4 (t ++ u).length)).st := by
    obtain ⟨j, hj, w, hcj, hnb, hw⟩ := concurrent_status_partial (calls := fun i => call4 (calls i))
      hF (fuel4 hf) h4 (t := t4 t.length) (i := i) (m := m)
      (.inl (show call4 (calls i) = .withdraw m by rw [hc]; rfl)) hb4 u4
    rw [hu4] at hj hnb hw
    cases w with
    | true => exact hw
    | false =>
      have ha := call4_activate hcj
      refine (hact j (List.mem_of_mem_take (hI.split.mem4 (Nat.le_refl _) hj)) (.inl ha)
        (notBefore_v4 hI ?_ hnb)).elim
      rw [ha]; rintro y g ⟨⟩
  have w6 : (ribMuiIsWithdrawn m).run ((start6 st F fuel s calls).exec (t6 (t ++ u).length)).st =
      .ok true ((start6 st F fuel s calls).exec (t6 (t ++ u).length)).st := by
    obtain ⟨j, hj, w, hcj, hnb, hw⟩ := concurrent_status_partial (calls := fun i => call6 (calls i))
      hF hf h6 (t := t6 t.length) (i := i) (m := m)
      (.inl (show call6 (calls i) = .withdraw m by rw [hc]; rfl)) hb6 u6
    rw [hu6] at hj hnb hw
    cases w with
    | true => exact hw
    | false =>
      have ha := call6_activate hcj
      refine (hact j (List.mem_of_mem_take (hI.split.mem6 (Nat.le_refl _) hj)) (.inr ha)
        (notBefore_v6 hI (.inl ?_) hnb)).elim
      rw [ha]; exact ⟨_, _, rfl⟩
  rw [hst]
  refine ⟨?_, ?_, ?_⟩
  · unfold Star.isMuiActive Star.isMuiActive4 Star.isMuiActive6
    rw [run_bind, run_v4, active_of_withdrawn w4]
    show ((ribIsMuiActive m).zoom Star.v6L).run _ = _
    rw [run_v6, active_of_withdrawn w6]; rfl
  · unfold Star.muiIsWithdrawn4; rw [run_v4, w4]; rfl
  · unfold Star.muiIsWithdrawn6; rw [run_v6, w6]; rfl

omit hF hf hs in
private theorem ncard_any (S : Set AnyPrefix) (h4 : {p | AnyPrefix.v4 p ∈ S}.Finite)
    (h6 : {p | AnyPrefix.v6 p ∈ S}.Finite) :
    S.ncard = {p | AnyPrefix.v4 p ∈ S}.ncard + {p | AnyPrefix.v6 p ∈ S}.ncard := by
  have he : S = AnyPrefix.v4 '' {p | AnyPrefix.v4 p ∈ S} ∪ AnyPrefix.v6 '' {p | AnyPrefix.v6 p ∈ S} := by
    ext p
    constructor
    · intro hp
      cases p with
      | v4 q => exact .inl ⟨q, hp, rfl⟩
      | v6 q => exact .inr ⟨q, hp, rfl⟩
    · rintro (⟨q, hq, rfl⟩ | ⟨q, hq, rfl⟩) <;> exact hq
  rw [he, Set.ncard_union_eq _ (h4.image _) (h6.image _),
    Set.ncard_image_of_injective _ (fun a b h => by cases h; rfl),
    Set.ncard_image_of_injective _ (fun a b h => by cases h; rfl), ← he]
  rw [Set.disjoint_left]
  rintro _ ⟨q, -, rfl⟩ ⟨q', -, hq⟩
  cases hq

/-- C51 and C41: the total prefix count of the store when the schedule has run is at least
the number of prefixes inserted before the calls started and at most that number plus the
number of calls that insert a new prefix.  When all inserts have returned successfully it is
at least the number of prefixes inserted, and it is that number when besides no two inserts
of the same new prefix overlapped.  Partial as C41. -/
theorem star_concurrent_prefix_count_partial (t : List ι) :
    ∃ c, Star.prefixesCount.run ((starStart st F fuel s calls).exec t).st =
        .ok c ((starStart st F fuel s calls).exec t).st ∧
      (starPrefixesBy h calls []).ncard ≤ c.total ∧
      c.total ≤ (starPrefixesBy h calls []).ncard + (starNewInserts h calls t).ncard ∧
      (StarAllInserted ((starStart st F fuel s calls).exec t) t →
        (starPrefixesBy h calls t).ncard ≤ c.total ∧
        (StarApart h (starStart st F fuel s calls) t → c.total = (starPrefixesBy h calls t).ncard)) := by
  obtain ⟨t4, t6, hI⟩ := run_interleaves st F fuel s calls t
  obtain ⟨h4, h6⟩ := starExec_ok hs
  have hst := hI.state t.length (Nat.le_refl _)
  rw [List.take_length] at hst
  obtain ⟨c4, r4, lo4, up4, all4⟩ := concurrent_prefix_count_partial
    (calls := fun i => call4 (calls i)) hF (fuel4 hf) h4 (t4 t.length)
  obtain ⟨c6, r6, lo6, up6, all6⟩ := concurrent_prefix_count_partial
    (calls := fun i => call6 (calls i)) hF hf h6 (t6 t.length)
  have fin4 : (prefixes (hist4 h)).Finite := present_finite _
  have fin6 : (prefixes (hist6 h)).Finite := present_finite _
  -- the sets of the families
  have p4 : {p | AnyPrefix.v4 p ∈ starPrefixesBy h calls []} = prefixes (hist4 h) := by
    ext p
    refine ⟨?_, fun hp => .inl (present_hist4.1 hp)⟩
    rintro (hp | ⟨i, hi, -⟩)
    · exact present_hist4.2 hp
    · cases hi
  have p6 : {p | AnyPrefix.v6 p ∈ starPrefixesBy h calls []} = prefixes (hist6 h) := by
    ext p
    refine ⟨?_, fun hp => .inl (present_hist6.1 hp)⟩
    rintro (hp | ⟨i, hi, -⟩)
    · exact present_hist6.2 hp
    · cases hi
  have e0 : (starPrefixesBy h calls []).ncard =
      (prefixes (hist4 h)).ncard + (prefixes (hist6 h)).ncard := by
    rw [ncard_any _ (by rw [p4]; exact fin4) (by rw [p6]; exact fin6), p4, p6]
  have hsub4 : ∀ {i}, i ∈ t4 t.length → i ∈ t := fun hi =>
    List.mem_of_mem_take (hI.split.mem4 (Nat.le_refl _) hi)
  have hsub6 : ∀ {i}, i ∈ t6 t.length → i ∈ t := fun hi =>
    List.mem_of_mem_take (hI.split.mem6 (Nat.le_refl _) hi)
  have hret4 : ∀ {i p r tbi a}, StarReturned ((starStart st F fuel s calls).exec t) i
      (.insert (.v4 p) r tbi) a →
      Returned ((start4 st F fuel s calls).exec (t4 t.length)) i (.insert p r tbi) a := by
    intro i p r tbi a hr
    rw [← List.take_length (l := t)] at hr
    obtain ⟨b, hb, rfl⟩ := returned_v4 hI (Nat.le_refl _) (x := .insert (.v4 p) r tbi)
      (y := .insert p r tbi) (g := fun a => a) rfl hr
    exact hb
  have hret6 : ∀ {i p r tbi a}, StarReturned ((starStart st F fuel s calls).exec t) i
      (.insert (.v6 p) r tbi) a →
      Returned ((start6 st F fuel s calls).exec (t6 t.length)) i (.insert p r tbi) a := by
    intro i p r tbi a hr
    rw [← List.take_length (l := t)] at hr
    obtain ⟨b, hb, rfl⟩ := returned_v6 hI (Nat.le_refl _) (x := .insert (.v6 p) r tbi)
      (y := .insert p r tbi) (g := fun a => a) rfl hr
    exact hb
  have hnew : (newInserts (hist4 h) (fun i => call4 (calls i)) (t4 t.length)).ncard +
      (newInserts (hist6 h) (fun i => call6 (calls i)) (t6 t.length)).ncard ≤
      (starNewInserts h calls t).ncard := by
    rw [← Set.ncard_union_eq ?_ ((List.finite_toSet (t4 t.length)).subset fun i hi => hi.1)
      ((List.finite_toSet (t6 t.length)).subset fun i hi => hi.1)]
    · refine Set.ncard_le_ncard ?_ ((List.finite_toSet t).subset fun i hi => hi.1)
      rintro i (⟨hi, p, ⟨r, tbi, hc⟩, hp⟩ | ⟨hi, p, ⟨r, tbi, hc⟩, hp⟩)
      · exact ⟨hsub4 hi, _, r, tbi, call4_insert hc, fun r' tbi' hm => hp (present_hist4.2 ⟨r', tbi', hm⟩)⟩
      · exact ⟨hsub6 hi, _, r, tbi, call6_insert hc, fun r' tbi' hm => hp (present_hist6.2 ⟨r', tbi', hm⟩)⟩
    · rw [Set.disjoint_left]
      rintro i ⟨-, p, ⟨r, tbi, hc⟩, -⟩ ⟨-, p', ⟨r', tbi', hc'⟩, -⟩
      have := (call4_insert hc).symm.trans (call6_insert hc')
      cases this
  refine ⟨Star.addCounters c4 c6, ?_, ?_, ?_, fun hall => ?_⟩
  · rw [hst]
    unfold Star.prefixesCount Star.prefixesCount4 Star.prefixesCount6
    rw [run_bind, run_v4, r4]
    simp only [Outcome.mapState, Outcome.andThen]
    rw [run_bind, run_v6, r6]; rfl
  · rw [e0]; exact Nat.add_le_add lo4 lo6
  · rw [e0]
    show c4.total + c6.total ≤ _
    omega
  · have a4 : AllInserted ((start4 st F fuel s calls).exec (t4 t.length)) (t4 t.length) := by
      intro i hi p r tbi hc
      obtain ⟨rep, hrep⟩ := hall i (hsub4 hi) _ r tbi (call4_insert hc)
      exact ⟨rep, hret4 hrep⟩
    have a6 : AllInserted ((start6 st F fuel s calls).exec (t6 t.length)) (t6 t.length) := by
      intro i hi p r tbi hc
      obtain ⟨rep, hrep⟩ := hall i (hsub6 hi) _ r tbi (call6_insert hc)
      exact ⟨rep, hret6 hrep⟩
    have q4 : {p | AnyPrefix.v4 p ∈ starPrefixesBy h calls t} =
        prefixesBy (hist4 h) (fun i => call4 (calls i)) (t4 t.length) := by
      ext p
      constructor
      · rintro (hp | ⟨i, hi, r, tbi, hc⟩)
        · exact .inl (present_hist4.2 hp)
        · obtain ⟨rep, hrep⟩ := hall i hi _ r tbi hc
          exact .inr ⟨i, returned_insert_mem (hret4 hrep), r, tbi, (hret4 hrep).1⟩
      · rintro (hp | ⟨i, hi, r, tbi, hc⟩)
        · exact .inl (present_hist4.1 hp)
        · exact .inr ⟨i, hsub4 hi, r, tbi, call4_insert hc⟩
    have q6 : {p | AnyPrefix.v6 p ∈ starPrefixesBy h calls t} =
        prefixesBy (hist6 h) (fun i => call6 (calls i)) (t6 t.length) := by
      ext p
      constructor
      · rintro (hp | ⟨i, hi, r, tbi, hc⟩)
        · exact .inl (present_hist6.2 hp)
        · obtain ⟨rep, hrep⟩ := hall i hi _ r tbi hc
          exact .inr ⟨i, returned_insert_mem (hret6 hrep), r, tbi, (hret6 hrep).1⟩
      · rintro (hp | ⟨i, hi, r, tbi, hc⟩)
        · exact .inl (present_hist6.1 hp)
        · exact .inr ⟨i, hsub6 hi, r, tbi, call6_insert hc⟩
    have e1 : (starPrefixesBy h calls t).ncard =
        (prefixesBy (hist4 h) (fun i => call4 (calls i)) (t4 t.length)).ncard +
        (prefixesBy (hist6 h) (fun i => call6 (calls i)) (t6 t.length)).ncard := by
      rw [ncard_any _ (by rw [q4]; exact prefixesBy_finite hF (fuel4 hf) h4 _)
        (by rw [q6]; exact prefixesBy_finite hF hf h6 _), q4, q6]
    rw [e1]
    refine ⟨Nat.add_le_add (all4 a4).1 (all6 a6).1, fun hap => ?_⟩
    have b4 : Apart (hist4 h) (start4 st F fuel s calls) (t4 t.length) := by
      rintro i hi j hj hij p ⟨r, tbi, hc⟩ ⟨r', tbi', hc'⟩ hp
      have ci := call4_insert hc
      have cj := call4_insert hc'
      refine (hap i (hsub4 hi) j (hsub4 hj) hij _ r tbi r' tbi' ci cj
        (fun r tbi hm => hp (present_hist4.2 ⟨r, tbi, hm⟩))).imp (mt (notBefore_v4 hI ?_))
        (mt (notBefore_v4 hI ?_))
      · rw [ci]; rintro y g ⟨⟩
      · rw [cj]; rintro y g ⟨⟩
    have b6 : Apart (hist6 h) (start6 st F fuel s calls) (t6 t.length) := by
      rintro i hi j hj hij p ⟨r, tbi, hc⟩ ⟨r', tbi', hc'⟩ hp
      have ci := call6_insert hc
      have cj := call6_insert hc'
      refine (hap i (hsub6 hi) j (hsub6 hj) hij _ r tbi r' tbi' ci cj
        (fun r tbi hm => hp (present_hist6.2 ⟨r, tbi, hm⟩))).imp (mt (notBefore_v6 hI (.inl ?_)))
        (mt (notBefore_v6 hI (.inl ?_)))
      · rw [ci]; exact ⟨_, _, rfl⟩
      · rw [cj]; exact ⟨_, _, rfl⟩
    rw [← (all4 a4).2 b4, ← (all6 a6).2 b6]; rfl

end

/-! ## Examples -/

section
open Rotonda.Demo

abbrev starCalls : Fin 3 → StarCall Md
  | 0 => .insert (.v4 ten16) (rec1 2 2 3) none
  | 1 => .insert (.v6 doc) (rec1 2 2 3) none
  | 2 => .withdraw 2#32

/-- The three calls take turns, then finish one after another. -/
def starTurns : List (Fin 3) :=
  (List.replicate 10 [0, 1]).flatten ++ [2, 0, 2, 1, 2, 0, 2] ++ List.replicate 80 0 ++
    List.replicate 80 1 ++ List.replicate 10 2

private def starChk (o : Outcome Unit (Star Md)) (chk : Star Md → Bool) : Bool :=
  match o with
  | .ok _ s => chk s
  | _ => false

private theorem starChk_ok {o : Outcome Unit (Star Md)} {chk : Star Md → Bool}
    (h : starChk o chk = true) : ∃ s, o = .ok () s ∧ chk s = true := by
  cases o with
  | ok a s => exact ⟨s, rfl, h⟩
  | panic => cases h
  | diverge => cases h

private def okRep (x : Except StoreError UpsertReport) : Bool :=
  match x with
  | .ok _ => true
  | .error _ => false

theorem star_demo : ∃ s, starExec .memoryOnly 32 mixed = .ok () s ∧
    (∃ rep, StarReturned ((starStart .memoryOnly 32 (iterFuel 128) s starCalls).exec starTurns) 0
      (.insert (.v4 ten16) (rec1 2 2 3) none) (.ok rep)) ∧
    (∃ rep, StarReturned ((starStart .memoryOnly 32 (iterFuel 128) s starCalls).exec starTurns) 1
      (.insert (.v6 doc) (rec1 2 2 3) none) (.ok rep)) ∧
    StarReturned ((starStart .memoryOnly 32 (iterFuel 128) s starCalls).exec starTurns) 2
      (.withdraw 2#32) () := by
  obtain ⟨s, hs, hc⟩ := starChk_ok (o := starExec .memoryOnly 32 mixed) (chk := fun s =>
    let c := (starStart .memoryOnly 32 (iterFuel 128) s starCalls).exec starTurns
    ansIs okRep (c.pool 0) && ansIs okRep (c.pool 1) && ansIs (fun _ => true) (c.pool 2))
    (by decide +kernel)
  simp only [Bool.and_eq_true] at hc
  obtain ⟨⟨h0, h1⟩, h2⟩ := hc
  obtain ⟨a, ha, oa⟩ := ansIs_iff.1 h0
  obtain ⟨b, hb, ob⟩ := ansIs_iff.1 h1
  obtain ⟨c, hc, -⟩ := ansIs_iff.1 h2
  refine ⟨s, hs, ?_, ?_, ⟨rfl, hc⟩⟩
  · cases (a : Except StoreError UpsertReport) with
    | ok rep => exact ⟨rep, rfl, ha⟩
    | error e => cases oa
  · cases (b : Except StoreError UpsertReport) with
    | ok rep => exact ⟨rep, rfl, hb⟩
    | error e => cases ob

/-- The hypotheses of the theorems hold in this run. -/
example : ∃ s, starExec .memoryOnly 32 mixed = .ok () s ∧
    (∀ u, (Star.contains (.v6 doc) none).run
      ((starStart .memoryOnly 32 (iterFuel 128) s starCalls).exec (starTurns ++ u)).st =
        .ok true ((starStart .memoryOnly 32 (iterFuel 128) s starCalls).exec (starTurns ++ u)).st) ∧
    (∀ u, (Star.isMuiActive 2#32).run
      ((starStart .memoryOnly 32 (iterFuel 128) s starCalls).exec (starTurns ++ u)).st =
        .ok false ((starStart .memoryOnly 32 (iterFuel 128) s starCalls).exec (starTurns ++ u)).st) ∧
    (∀ u, ∃ j ∈ starTurns ++ u, ∃ r' tbi' w,
      starCalls j = .insert (.v4 ten16) r' tbi' ∧ r'.mui = 2#32 ∧
      StarNotBefore (starStart .memoryOnly 32 (iterFuel 128) s starCalls) (starTurns ++ u) j 0 ∧
      (Star.getRecords .memoryOnly (.v4 ten16) (some 2#32) true).run
        ((starStart .memoryOnly 32 (iterFuel 128) s starCalls).exec (starTurns ++ u)).st =
        .ok (.ok (some [shownAs w (asStored .memoryOnly r')]))
          ((starStart .memoryOnly 32 (iterFuel 128) s starCalls).exec (starTurns ++ u)).st) := by
  obtain ⟨s, hs, ⟨ra, ha⟩, ⟨rb, hb⟩, hc⟩ := star_demo
  refine ⟨s, hs, fun u => ?_, fun u => ?_, fun u => ?_⟩
  · exact star_concurrent_contains_partial (F := 32) (Nat.le_refl _) (Nat.le_refl _) hs (by decide) hb u
  · obtain ⟨h, hp⟩ := hc
    refine (star_concurrent_withdraw (F := 32) (Nat.le_refl _) (Nat.le_refl _) hs h hp u ?_).1
    rintro j - (hj | hj) <;> (fin_cases j <;> cases hj)
  · refine star_concurrent_upsert (F := 32) (Nat.le_refl _) (Nat.le_refl _) hs (by rintro ⟨⟩) ?_ ha u
    intro i tm
    fin_cases i <;> exact ⟨(by rintro ⟨⟩), (by rintro ⟨⟩)⟩

/-- Two prefixes before the calls, three afterwards. -/
example : ∃ s, starExec .memoryOnly 32 mixed = .ok () s ∧
    ∃ c, Star.prefixesCount.run
        ((starStart .memoryOnly 32 (iterFuel 128) s starCalls).exec starTurns).st =
        .ok c ((starStart .memoryOnly 32 (iterFuel 128) s starCalls).exec starTurns).st ∧
      c.total = (starPrefixesBy mixed starCalls starTurns).ncard := by
  obtain ⟨s, hs, ⟨ra, ha⟩, ⟨rb, hb⟩, -⟩ := star_demo
  obtain ⟨c, h1, -, -, h4⟩ := star_concurrent_prefix_count_partial (F := 32) (Nat.le_refl _)
    (Nat.le_refl _) hs (calls := starCalls) starTurns
  refine ⟨s, hs, c, h1, (h4 ?_).2 ?_⟩
  · intro i _ p r tbi hi
    fin_cases i
    · cases hi; exact ⟨_, ha⟩
    · cases hi; exact ⟨_, hb⟩
    · cases hi
  · intro i _ j _ hij p r tbi r' tbi' hi hj
    fin_cases i <;> fin_cases j <;> first | exact (hij rfl).elim | cases hi
    all_goals (cases hj)

end

end Rotonda.Props
