import Verif.Proofs.CountRun
import Verif.Props.Counts
import Verif.Props.ConcDemo

/-!
# The prefix count under concurrency: C41

The claim "after all concurrent inserts have returned, the total prefix count equals
the number of distinct prefixes inserted" is false of the code in two ways, both
exhibited below: two inserts of the same new prefix that overlap can both count it,
and an insert that returns an error has not counted its new prefix.  What holds under
every interleaving: the count is at least the number of prefixes when all inserts have
succeeded, it exceeds the initial count by at most the number of inserts of new
prefixes, and it is exact when inserts of the same new prefix do not overlap.
-/

namespace Rotonda.Props

open Prog Spec

variable {M : Type} [Meta M] {W : Nat} {ι : Type} [DecidableEq ι] {calls : ι → Call M W}

section
variable [hW : Fam W] {st : Strategy} {F0 F fuel : Nat} (hF : 32 ≤ F) (hf : iterFuel W ≤ fuel)
  {h : History M W} {s : Rib M W} (hs : exec st F0 h = .ok () s) (t : List ι)
include hF hf hs

theorem prefixesBy_finite : (prefixesBy h calls t).Finite := by
  have : prefixesBy h calls t ⊆ {p | Present h p} ∪ (fun i => (calls i).pfx) '' {i | i ∈ t} := by
    rintro p (hp | ⟨i, hi, r, tbi, hc⟩)
    · exact .inl hp
    · exact .inr ⟨i, hi, by simp only [hc]; rfl⟩
  exact ((present_finite h).union ((List.finite_toSet t).image _)).subset this

private theorem counter_bounds (l : ℕ) :
    Set.ncard {p ∈ prefixes h | p.len = l} ≤
        ((start st F fuel s calls).exec t).st.prefixes l ∧
    ((start st F fuel s calls).exec t).st.prefixes l ≤ Set.ncard {p ∈ prefixes h | p.len = l} +
      Set.ncard {i | i ∈ newInserts h calls t ∧ (calls i).pfx.len = l} ∧
    (AllInserted ((start st F fuel s calls).exec t) t →
      Set.ncard {p ∈ prefixesBy h calls t | p.len = l} ≤
        ((start st F fuel s calls).exec t).st.prefixes l ∧
      (Apart h (start st F fuel s calls) t →
        ((start st F fuel s calls).exec t).st.prefixes l =
          Set.ncard {p ∈ prefixesBy h calls t | p.len = l})) := by
  have heq := count_eq (calls := calls) hF hf hs t l t.length (Nat.le_refl _)
  rw [Conf.at_length] at heq
  have hfin := counters_finite (start st F fuel s calls) t l t.length
  have him := counted_image (calls := calls) hF hf hs t l (n := t.length)
  refine ⟨by rw [heq]; exact Nat.le_add_right _ _, ?_, fun hall => ?_⟩
  · rw [heq]
    refine Nat.add_le_add_left (Set.ncard_le_ncard ?_ ((List.finite_toSet t).subset
      fun i hi => hi.1.1)) _
    rintro i hi
    obtain ⟨⟨_, hl⟩, hnp⟩ := him ⟨i, hi, rfl⟩
    obtain ⟨hcnt, p, ⟨r, tbi, hc⟩, _⟩ := hi
    refine ⟨⟨hcnt.mem, p, ⟨r, tbi, hc⟩, ?_⟩, hl⟩
    have : (calls i).pfx = p := by rw [hc]; rfl
    rwa [← this]
  · have hset : {p ∈ prefixesBy h calls t | p.len = l} = {p | Present h p ∧ p.len = l} ∪
        (fun i => (calls i).pfx) '' counters (start st F fuel s calls) t l t.length := by
      rw [Set.Subset.antisymm him (all_counted hF hf hs t hall l)]
      ext p
      constructor
      · rintro ⟨hp, hl⟩
        by_cases hpr : Present h p
        · exact .inl ⟨hpr, hl⟩
        · exact .inr ⟨⟨hp, hl⟩, hpr⟩
      · rintro (⟨hp, hl⟩ | ⟨hp, _⟩)
        · exact ⟨.inl hp, hl⟩
        · exact hp
    rw [hset, heq]
    refine ⟨(Set.ncard_union_le _ _).trans (Nat.add_le_add_left (Set.ncard_image_le hfin) _),
      fun hap => ?_⟩
    rw [Set.ncard_union_eq ?_ ((present_finite h).subset fun p hp => hp.1) (hfin.image _),
      Set.ncard_image_of_injOn (counted_once hF hf hs t hap l)]
    rw [Set.disjoint_left]
    rintro p ⟨hp, _⟩ hq
    exact (him hq).2 hp

/-- C41, part: for every schedule and every length, the total count for the length when
the schedule has run is at least the number of prefixes inserted before the calls started
and at most that number plus the number of calls that insert a new prefix.  When all
inserts have returned successfully it is at least the number of prefixes inserted.  When
besides no two inserts of the same new prefix overlapped it is that number.

Missing: exactness when inserts of the same new prefix overlap
(`concurrent_overcount`) or when an insert returns an error (`concurrent_undercount`);
both fail. -/
theorem concurrent_prefix_count_for_len_partial (l : ℕ) :
    ∃ r, (ribPrefixesCountForLen l).run ((start st F fuel s calls).exec t).st =
        .ok r ((start st F fuel s calls).exec t).st ∧
      (W < l → r = .error .prefixLengthInvalid) ∧
      (l ≤ W → ∃ c, r = .ok c ∧
        Set.ncard {p ∈ prefixes h | p.len = l} ≤ c.total ∧
        c.total ≤ Set.ncard {p ∈ prefixes h | p.len = l} +
          Set.ncard {i ∈ newInserts h calls t | ∃ p, Inserts (calls i) p ∧ p.len = l} ∧
        (AllInserted ((start st F fuel s calls).exec t) t →
          Set.ncard {p ∈ prefixesBy h calls t | p.len = l} ≤ c.total ∧
          (Apart h (start st F fuel s calls) t →
            c.total = Set.ncard {p ∈ prefixesBy h calls t | p.len = l}))) := by
  unfold ribPrefixesCountForLen
  by_cases hl : l ≤ W
  · rw [if_pos hl]
    refine ⟨_, rfl, fun h => absurd h (by omega), fun _ => ⟨_, rfl, ?_⟩⟩
    have hb := counter_bounds (calls := calls) hF hf hs t l
    have he : {i | i ∈ newInserts h calls t ∧ (calls i).pfx.len = l} =
        {i ∈ newInserts h calls t | ∃ p, Inserts (calls i) p ∧ p.len = l} := by
      ext i
      refine and_congr_right ?_
      rintro ⟨_, p, ⟨r, tbi, hc⟩, _⟩
      have hp : (calls i).pfx = p := by rw [hc]; rfl
      rw [hp]
      constructor
      · exact fun h => ⟨p, ⟨r, tbi, hc⟩, h⟩
      · rintro ⟨p', ⟨r', tbi', hc'⟩, h⟩
        rw [hc] at hc'
        cases hc'
        exact h
    rw [he] at hb
    exact hb
  · rw [if_neg hl]
    exact ⟨_, rfl, fun _ => rfl, fun h => absurd h hl⟩

/-- C41, part: the same for the total count over all lengths. -/
theorem concurrent_prefix_count_partial :
    ∃ c, ribPrefixesCount.run ((start st F fuel s calls).exec t).st =
        .ok c ((start st F fuel s calls).exec t).st ∧
      (prefixes h).ncard ≤ c.total ∧
      c.total ≤ (prefixes h).ncard + (newInserts h calls t).ncard ∧
      (AllInserted ((start st F fuel s calls).exec t) t →
        (prefixesBy h calls t).ncard ≤ c.total ∧
        (Apart h (start st F fuel s calls) t → c.total = (prefixesBy h calls t).ncard)) := by
  have hw : W ≤ 128 := by have := hW.width; omega
  have hb := counter_bounds (calls := calls) hF hf hs t
  have hmono : ∀ f g : ℕ → ℕ, (∀ l, f l ≤ g l) → ((List.range 129).map f).sum ≤
      ((List.range 129).map g).sum := by
    intro f g hfg
    exact List.sum_le_sum fun l _ => hfg l
  refine ⟨_, run_ribPrefixesCount _, ?_, ?_, fun hall => ⟨?_, fun hap => ?_⟩⟩
  · rw [← sum_len_ncard (S := prefixes h) (present_finite h) hw]
    exact hmono _ _ fun l => (hb l).1
  · rw [← sum_len_ncard (S := prefixes h) (present_finite h) hw,
      ← sum_fiber_ncard (S := newInserts h calls t) ((List.finite_toSet t).subset fun i hi => hi.1)
        (fun i => (calls i).pfx.len) (fun i _ => (calls i).pfx.le.trans hw), ← List.sum_map_add]
    exact hmono _ _ fun l => (hb l).2.1
  · rw [← sum_len_ncard (prefixesBy_finite hF hf hs t) hw]
    exact hmono _ _ fun l => ((hb l).2.2 hall).1
  · rw [← sum_len_ncard (prefixesBy_finite hF hf hs t) hw]
    show ((List.range 129).map _).sum = _
    congr 1
    apply List.map_congr_left
    intro l _
    exact ((hb l).2.2 hall).2 hap

end

/-! ## Counterexamples and examples -/

section
open Rotonda.Demo

/-- An insert returned successfully. -/
private def okAns (x : Except StoreError UpsertReport) : Bool :=
  match x with
  | .ok _ => true
  | .error _ => false

private theorem okAns_iff {x : Except StoreError UpsertReport} (h : okAns x = true) :
    ∃ rep, x = .ok rep := by
  cases x with
  | ok rep => exact ⟨rep, rfl⟩
  | error e => cases h

private abbrev x2 (tbi : Option Unit) : Call Md 32 := .insert ten16 (rec1 2 2 3) tbi
private abbrev x3 (tbi : Option Unit) : Call Md 32 := .insert ten16 (rec1 3 2 3) tbi

private theorem two_prefixes {h : History Md 32} {tbi : Option Unit}
    (hh : ∀ p, Present h p ↔ p = ten8) {t : List Bool} (ht : true ∈ t) :
    (prefixesBy h (fun i : Bool => if i then x2 tbi else x3 tbi) t).ncard = 2 := by
  have : prefixesBy h (fun i : Bool => if i then x2 tbi else x3 tbi) t = {ten8, ten16} := by
    ext p
    constructor
    · rintro (hp | ⟨i, _, r, tbi', hi⟩)
      · exact .inl ((hh p).1 hp)
      · cases i <;> (cases hi; exact .inr rfl)
    · rintro (rfl | rfl)
      · exact .inl ((hh _).2 rfl)
      · exact .inr ⟨true, ht, _, _, rfl⟩
  rw [this]
  exact Set.ncard_pair (by decide)

private theorem one_present (p : Prefix 32) : Present one p ↔ p = ten8 := by
  simp [Present, Inserted, one]

private theorem all_of {x y : Prefix 32} {r q : Record Md}
    {c : Conf (Rib Md 32) Bool (fun i => (if i then .insert x r none else .insert y q none :
      Call Md 32).Ans)} {ra rb : UpsertReport} {t : List Bool}
    (ha : c.pool true = .ret (.ok ra)) (hb : c.pool false = .ret (.ok rb)) :
    AllInserted (calls := fun i => if i then .insert x r none else .insert y q none) c t := by
  intro i _ p r tbi hi
  cases i with
  | true => cases hi; exact ⟨ra, rfl, ha⟩
  | false => cases hi; exact ⟨rb, rfl, hb⟩

private theorem count_of {s : Rib Md 32} {n : ℕ} (h : ((List.range 129).map s.prefixes).sum = n) :
    ∃ c, ribPrefixesCount.run s = .ok c s ∧ c.total = n :=
  ⟨_, run_ribPrefixesCount s, h⟩

/-- C41 fails: two overlapping inserts of the same new prefix both count it.  Both have
returned successfully, two prefixes were inserted and the count is three. -/
theorem concurrent_overcount :
    ∃ s, exec .memoryOnly 32 one = .ok () s ∧ ∃ t,
      AllInserted (two .memoryOnly s (x2 none) (x3 none) t) t ∧ true ∈ t ∧ false ∈ t ∧
      (prefixesBy one (fun i : Bool => if i then x2 none else x3 none) t).ncard = 2 ∧
      ∃ c, ribPrefixesCount.run (two .memoryOnly s (x2 none) (x3 none) t).st =
        .ok c (two .memoryOnly s (x2 none) (x3 none) t).st ∧ c.total = 3 := by
  obtain ⟨s, hs, hc⟩ := after_ok (o := exec .memoryOnly 32 one) (chk := fun s =>
    ansIs okAns ((two .memoryOnly s (x2 none) (x3 none) (turns 31 60 40)).pool true) &&
    (ansIs okAns ((two .memoryOnly s (x2 none) (x3 none) (turns 31 60 40)).pool false) &&
    decide (((List.range 129).map
      (two .memoryOnly s (x2 none) (x3 none) (turns 31 60 40)).st.prefixes).sum = 3)))
    (by decide +kernel)
  rw [Bool.and_eq_true, Bool.and_eq_true] at hc
  obtain ⟨a, ha, hPa⟩ := ansIs_iff.1 hc.1
  obtain ⟨b, hb, hPb⟩ := ansIs_iff.1 hc.2.1
  obtain ⟨ra, rfl⟩ := okAns_iff hPa
  obtain ⟨rb, rfl⟩ := okAns_iff hPb
  have hsum := of_decide_eq_true hc.2.2
  clear hc
  refine ⟨s, hs, turns 31 60 40, ?_, by decide, by decide,
    two_prefixes one_present (by decide), count_of hsum⟩
  exact all_of ha hb

/-- 10.0.0.0/8, then a withdrawal for 10.0.0.0/16, which was never inserted; the
withdrawal leaves an entry without records behind. -/
private def phantom : History Md 32 := [.withdrawFor ten16 1 1, .insert ten8 (rec1 1 1 7) none]

private theorem phantom_present (p : Prefix 32) : Present phantom p ↔ p = ten8 := by
  simp [Present, Inserted, phantom]

/-- C41 fails: of two overlapping inserts of the same new prefix, the one that was to
count it can return an error instead.  Both have returned, two prefixes were inserted, one of
them also by the call that succeeded, and the count is one. -/
theorem concurrent_undercount :
    ∃ s, exec .memoryOnly 32 phantom = .ok () s ∧ ∃ t,
      Returned (two .memoryOnly s (x2 (some ())) (x3 (some ())) t) true (x2 (some ()))
        (.error .pathSelectionOutdated) ∧
      (∃ rep, Returned (two .memoryOnly s (x2 (some ())) (x3 (some ())) t) false (x3 (some ()))
        (.ok rep)) ∧
      (prefixesBy phantom (fun i : Bool => if i then x2 (some ()) else x3 (some ())) t).ncard = 2 ∧
      ∃ c, ribPrefixesCount.run (two .memoryOnly s (x2 (some ())) (x3 (some ())) t).st =
        .ok c (two .memoryOnly s (x2 (some ())) (x3 (some ())) t).st ∧ c.total = 1 := by
  obtain ⟨s, hs, hc⟩ := after_ok (o := exec .memoryOnly 32 phantom) (chk := fun s =>
    ansIs (fun x : Except StoreError UpsertReport => match x with
      | .error .pathSelectionOutdated => true
      | _ => false)
      ((two .memoryOnly s (x2 (some ())) (x3 (some ())) (turns 38 60 40)).pool true) &&
    (ansIs okAns ((two .memoryOnly s (x2 (some ())) (x3 (some ())) (turns 38 60 40)).pool false) &&
    decide (((List.range 129).map
      (two .memoryOnly s (x2 (some ())) (x3 (some ())) (turns 38 60 40)).st.prefixes).sum = 1)))
    (by decide +kernel)
  rw [Bool.and_eq_true, Bool.and_eq_true] at hc
  obtain ⟨a, ha, hPa⟩ := ansIs_iff.1 hc.1
  obtain ⟨b, hb, hPb⟩ := ansIs_iff.1 hc.2.1
  obtain ⟨rb, rfl⟩ := okAns_iff hPb
  have hsum := of_decide_eq_true hc.2.2
  clear hc
  refine ⟨s, hs, turns 38 60 40, ?_, ⟨rb, rfl, hb⟩,
    two_prefixes phantom_present (by decide), count_of hsum⟩
  split at hPa
  · exact ⟨rfl, ha⟩
  · cases hPa

/-- The hypotheses of the exact count can be met by two inserts of the same new prefix:
the one had returned before the other started. -/
example : ∃ s, exec .memoryOnly 32 one = .ok () s ∧
    ∃ c, ribPrefixesCount.run (two .memoryOnly s (x2 none) (x3 none) (turns 60 60 0)).st =
      .ok c (two .memoryOnly s (x2 none) (x3 none) (turns 60 60 0)).st ∧ c.total = 2 := by
  obtain ⟨s, hs, hc⟩ := after_ok (o := exec .memoryOnly 32 one) (chk := fun s =>
    ansIs okAns ((two .memoryOnly s (x2 none) (x3 none) (turns 60 60 0)).pool true) &&
    (ansIs okAns ((two .memoryOnly s (x2 none) (x3 none) (turns 60 60 0)).pool false) &&
    ansIs okAns ((two .memoryOnly s (x2 none) (x3 none) ((turns 60 60 0).take 60)).pool true)))
    (by decide +kernel)
  rw [Bool.and_eq_true, Bool.and_eq_true] at hc
  obtain ⟨a, ha, hPa⟩ := ansIs_iff.1 hc.1
  obtain ⟨b, hb, hPb⟩ := ansIs_iff.1 hc.2.1
  obtain ⟨d, hd, -⟩ := ansIs_iff.1 hc.2.2
  obtain ⟨ra, rfl⟩ := okAns_iff hPa
  obtain ⟨rb, rfl⟩ := okAns_iff hPb
  clear hc
  have hA : AllInserted (two .memoryOnly s (x2 none) (x3 none) (turns 60 60 0)) (turns 60 60 0) :=
    all_of ha hb
  have hn : false ∉ (turns 60 60 0).take 60 := by decide
  have hb' : ¬ NotBefore (start .memoryOnly 32 (iterFuel 32) s
      (fun i : Bool => if i then x2 none else x3 none)) (turns 60 60 0) true false :=
    fun h => h 60 hn d hd
  obtain ⟨c, hrun, _, _, hall⟩ := concurrent_prefix_count_partial (F := 32) (fuel := iterFuel 32)
    (calls := fun i : Bool => if i then x2 none else x3 none) (Nat.le_refl _) (Nat.le_refl _) hs
    (turns 60 60 0)
  refine ⟨s, hs, c, hrun, ?_⟩
  rw [(hall ?_).2 ?_]
  · exact two_prefixes one_present (by decide)
  · exact hA
  · intro i _ j _ hij p _ _ _
    cases i with
    | true => cases j with
      | true => exact absurd rfl hij
      | false => exact .inl hb'
    | false => cases j with
      | true => exact .inr hb'
      | false => exact absurd rfl hij

/-- And by two inserts of different new prefixes that overlap. -/
example : ∃ s, exec .memoryOnly 32 one = .ok () s ∧ ∃ c, ribPrefixesCount.run
    (two .memoryOnly s (x2 none) (.insert ten16b (rec1 3 2 3) none) (turns 31 60 40)).st = .ok c
      (two .memoryOnly s (x2 none) (.insert ten16b (rec1 3 2 3) none) (turns 31 60 40)).st ∧
    c.total = 3 := by
  obtain ⟨s, hs, hc⟩ := after_ok (o := exec .memoryOnly 32 one) (chk := fun s =>
    ansIs okAns ((two .memoryOnly s (x2 none) (.insert ten16b (rec1 3 2 3) none)
      (turns 31 60 40)).pool true) &&
    ansIs okAns ((two .memoryOnly s (x2 none) (.insert ten16b (rec1 3 2 3) none)
      (turns 31 60 40)).pool false)) (by decide +kernel)
  rw [Bool.and_eq_true] at hc
  obtain ⟨a, ha, hPa⟩ := ansIs_iff.1 hc.1
  obtain ⟨b, hb, hPb⟩ := ansIs_iff.1 hc.2
  obtain ⟨ra, rfl⟩ := okAns_iff hPa
  obtain ⟨rb, rfl⟩ := okAns_iff hPb
  clear hc
  have hA : AllInserted (two .memoryOnly s (x2 none) (.insert ten16b (rec1 3 2 3) none)
    (turns 31 60 40)) (turns 31 60 40) := all_of ha hb
  obtain ⟨c, hrun, _, _, hall⟩ := concurrent_prefix_count_partial (F := 32) (fuel := iterFuel 32)
    (calls := fun i : Bool => if i then x2 none else .insert ten16b (rec1 3 2 3) none)
    (Nat.le_refl _) (Nat.le_refl _) hs (turns 31 60 40)
  refine ⟨s, hs, c, hrun, ?_⟩
  rw [(hall ?_).2 ?_]
  · have : prefixesBy one (fun i : Bool => if i then x2 none else .insert ten16b (rec1 3 2 3) none)
        (turns 31 60 40) = {ten8, ten16, ten16b} := by
      ext p
      constructor
      · rintro (hp | ⟨i, _, r, tbi', hi⟩)
        · exact .inl ((one_present p).1 hp)
        · cases i
          · cases hi; exact .inr (.inr rfl)
          · cases hi; exact .inr (.inl rfl)
      · rintro (rfl | rfl | rfl)
        · exact .inl ((one_present _).2 rfl)
        · exact .inr ⟨true, by decide, _, _, rfl⟩
        · exact .inr ⟨false, by decide, _, _, rfl⟩
    rw [this]
    rw [Set.ncard_insert_of_notMem ?_ (Set.toFinite _), Set.ncard_pair (by decide)]
    rintro (h | h)
    · exact absurd h (by decide)
    · exact absurd h (by decide)
  · exact hA
  · intro i _ j _ hij p hi hj _
    clear hrun
    obtain ⟨r, tbi, hi⟩ := hi
    obtain ⟨r', tbi', hj⟩ := hj
    exfalso
    have : ten16 ≠ ten16b := by decide
    cases i with
    | true => cases j with
      | true => exact hij rfl
      | false => cases hi; cases hj
    | false => cases j with
      | true => cases hi; cases hj
      | false => exact hij rfl

end

end Rotonda.Props
