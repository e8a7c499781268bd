import Verif.Proofs.LsmSpec
import Verif.Proofs.TreeIter
import Verif.Proofs.ReadOnly

/-!
# Results of the queries, sequentially
-/

namespace Rotonda

open Prog Spec

variable {M : Type} {W : Nat}

/-! ## Prefixes and their ids -/

theorem toPrefix_id (p : Prefix W) : p.id.toPrefix = some p := by
  unfold PrefixId.toPrefix
  have h : p.id.len ≤ W ∧ ∀ i, i < W → p.id.len ≤ i → p.id.bits.getMsbD i = false :=
    ⟨p.le, fun i _ hi => p.host i hi⟩
  rw [dif_pos h]; rfl

/-- A well-formed id is the id of a prefix. -/
theorem exists_prefix {q : PrefixId W} (hq : q.Clean) : ∃ p : Prefix W, p.id = q :=
  ⟨⟨q.bits, q.len, hq.1, hq.2⟩, rfl⟩

theorem covers_trunc {p q : Prefix W} :
    Covers q p ↔ q.len ≤ p.len ∧ p.id.truncateTo q.len = q.id := by
  unfold Covers
  constructor
  · rintro ⟨h1, h2⟩
    refine ⟨h1, ?_⟩
    simp only [PrefixId.truncateTo]
    have := (truncate_eq_iff (x := p.bits) (n := q.id) q.clean).2 (fun i hi => (h2 i hi).symm)
    simp only [Prefix.id] at this ⊢
    rw [this]
  · rintro ⟨h1, h2⟩
    refine ⟨h1, fun i hi => ?_⟩
    have h3 : truncateToLen p.bits q.id.len = q.id.bits := congrArg PrefixId.bits h2
    exact ((truncate_eq_iff q.clean).1 h3 i hi).symm

theorem covers_trunc' {p q : Prefix W} :
    Covers p q ↔ p.len ≤ q.len ∧ truncateToLen q.bits p.len = p.bits := by
  rw [covers_trunc]
  constructor
  · rintro ⟨h1, h2⟩; exact ⟨h1, congrArg PrefixId.bits h2⟩
  · rintro ⟨h1, h2⟩
    refine ⟨h1, ?_⟩
    simp only [PrefixId.truncateTo, Prefix.id]
    rw [h2]

variable [Meta M]

theorem inS_id {h : History M W} {p : Prefix W} :
    inS (pairsOf h) p.id = true ↔ Proper h p := by
  rw [inS_iff, pairsOf_id]
  exact and_comm

omit [Meta M] in
theorem nodes_read {α : Type} {q : Prog (NSlots W) α} {s : Rib M W} {a : α}
    (h : q.run s.tree.slots = .ok a s.tree.slots) : (onNodes (M := M) q).run s = .ok a s := by
  rw [run_onNodes, h]; rfl

theorem run_prefixExistsId [Fam W] {st : Strategy} {h : History M W} {s : Rib M W}
    (hi : QInv st h s) (p : Prefix W) :
    (ribContains p.id none).run s = .ok (inS (pairsOf h) p.id) s := by
  unfold ribContains
  simp only [prefixExists]
  rw [run_tree, run_zoom Tree.slotsL_lawful]
  simp only [Tree.slotsL, hi.tree.run_prefixExistsN p.clean, Outcome.mapState]

/-- The longest match in the tree. -/
theorem run_longest [Fam W] {st : Strategy} {h : History M W} {s : Rib M W}
    (hi : QInv st h s) (p : Prefix W) :
    ∃ o : Option (Prefix W), (onNodes (M := M) (longestMatchingPrefix p.id)).run s =
        .ok (o.map Prefix.id) s ∧
      match o with
      | some q => IsLongest (Proper h) p q
      | none => ∀ q, Proper h q → ¬ Covers q p := by
  have hrun := nodes_read (M := M) (hi.tree.longestMatchingPrefix p.clean)
  cases hf : ((List.range' 1 p.id.len).reverse.map p.id.truncateTo).find? (inS (pairsOf h)) with
  | none =>
    refine ⟨none, by rw [hrun, hf]; rfl, fun q hq hc => ?_⟩
    rw [covers_trunc] at hc
    rw [List.find?_eq_none] at hf
    apply hf q.id
    · rw [List.mem_map]
      exact ⟨q.len, by rw [List.mem_reverse, List.mem_range'_1]; simp only [Prefix.id]
                       have := hq.2; omega, hc.2⟩
    · exact inS_id.2 hq
  | some x =>
    rw [List.find?_map, Option.map_eq_some_iff] at hf
    obtain ⟨l, hl, rfl⟩ := hf
    obtain ⟨hin, as, bs, hab, hpre⟩ := List.find?_eq_some_iff_append.1 hl
    have hmem : l ∈ (List.range' 1 p.id.len).reverse := by rw [hab]; simp
    rw [List.mem_reverse, List.mem_range'_1] at hmem
    have hpl := p.le
    have hlp : l ≤ p.len := by simp only [Prefix.id] at hmem; omega
    obtain ⟨q, hq⟩ := exists_prefix (truncateTo_clean p.id (l := l) (by omega))
    have hql : q.len = l := congrArg PrefixId.len hq
    simp only [Function.comp] at hin
    rw [← hq] at hin
    refine ⟨some q, ?_, inS_id.1 hin, covers_trunc.2 ⟨by omega, by rw [hql, hq]⟩, ?_⟩
    · rw [hrun, List.find?_map, hl]
      simp only [Option.map_some, hq]
    · intro q' hq' hc
      rw [covers_trunc] at hc
      by_contra hlt
      rw [hql] at hlt
      have hm' : q'.len ∈ (List.range' 1 p.id.len).reverse := by
        rw [List.mem_reverse, List.mem_range'_1]; simp only [Prefix.id]
        have := hq'.2; omega
      have hsorted : ((List.range' 1 p.id.len).reverse).Pairwise (fun a b => b < a) := by
        rw [List.pairwise_reverse]
        exact List.pairwise_lt_range'
      rw [hab] at hm' hsorted
      rw [List.mem_append, List.mem_cons] at hm'
      rcases hm' with hm' | hm' | hm'
      · have := hpre _ hm'
        simp only [Function.comp, hc.2, Bool.not_eq_true'] at this
        rw [inS_id.2 hq'] at this; cases this
      · omega
      · rw [List.pairwise_append, List.pairwise_cons] at hsorted
        have := hsorted.2.1.1 _ hm'
        omega

/-- The less specifics in the tree. -/
theorem run_less [Fam W] {st : Strategy} {h : History M W} {s : Rib M W}
    (hi : QInv st h s) (p : Prefix W) :
    ∃ l : List (Prefix W), (onNodes (M := M) (lessSpecifics p.id)).run s = .ok (l.map Prefix.id) s ∧
      l.Pairwise (fun a b => b.len < a.len) ∧
      ∀ q, q ∈ l ↔ Proper h q ∧ Covers q p ∧ q ≠ p := by
  have hrun := nodes_read (M := M) (hi.tree.lessSpecifics p.clean)
  have hpl := p.le
  obtain ⟨l, hl, hP⟩ := exists_list_map (f := Prefix.id (W := W)) (P := fun _ => True)
    (l := ((List.range' 1 (p.id.len - 1)).reverse.filter
          (fun k => inS (pairsOf h) (p.id.truncateTo k))).map p.id.truncateTo) (by
      intro x hx
      obtain ⟨k, hk, rfl⟩ := List.mem_map.1 hx
      rw [List.mem_filter, List.mem_reverse, List.mem_range'_1] at hk
      have hk1 := hk.1
      simp only [Prefix.id] at hk1
      obtain ⟨q, hq⟩ := exists_prefix (truncateTo_clean p.id (l := k) (by omega))
      exact ⟨q, trivial, hq.symm⟩)
  refine ⟨l, by rw [hrun, hl], ?_, fun q => ?_⟩
  · have h1 : (l.map Prefix.id).Pairwise (fun a b => b.len < a.len) := by
      rw [hl, List.pairwise_map]
      have hsorted : ((List.range' 1 (p.id.len - 1)).reverse).Pairwise (fun a b => b < a) := by
        rw [List.pairwise_reverse]
        exact List.pairwise_lt_range'
      exact hsorted.sublist List.filter_sublist
    rw [List.pairwise_map] at h1
    exact h1
  · have h1 : q ∈ l ↔ q.id ∈ l.map Prefix.id := by
      rw [List.mem_map]
      constructor
      · intro hq; exact ⟨q, hq, rfl⟩
      · rintro ⟨q', hq', he⟩; rw [← Prefix.id_inj he]; exact hq'
    rw [h1, hl, List.mem_map]
    constructor
    · rintro ⟨k, hk, hq⟩
      rw [List.mem_filter, List.mem_reverse, List.mem_range'_1, hq] at hk
      have hk1 := hk.1
      have hql : k = q.len := congrArg PrefixId.len hq
      simp only [Prefix.id] at hk1
      refine ⟨inS_id.1 hk.2, covers_trunc.2 ⟨by omega, by rw [← hql, hq]⟩, ?_⟩
      rintro rfl; omega
    · rintro ⟨hin, hc, hne⟩
      have hc' := covers_trunc.1 hc
      refine ⟨q.len, ?_, hc'.2⟩
      rw [List.mem_filter, List.mem_reverse, List.mem_range'_1, hc'.2]
      refine ⟨⟨hin.2, ?_⟩, inS_id.2 hin⟩
      simp only [Prefix.id]
      have : q.len ≠ p.len := by
        intro he
        apply hne
        apply Prefix.id_inj
        rw [← hc'.2, he]
        exact truncate_self p.clean
      omega

/-- The more specifics in the tree. -/
theorem run_more [Fam W] {st : Strategy} {h : History M W} {s : Rib M W}
    (hi : QInv st h s) (p : Prefix W) :
    ∃ (l : List (Prefix W)) (N : Nat), (∀ fuel, N ≤ fuel →
        (onNodes (M := M) (moreSpecifics fuel p.id)).run s = .ok (l.map Prefix.id) s) ∧
      l.Nodup ∧ ∀ q, q ∈ l ↔ p.len < W ∧ Proper h q ∧ Covers p q := by
  by_cases hlt : p.len < W
  · obtain ⟨out, N, hrun, hnd, hmem⟩ := run_moreSpecifics hi.tree.linked p.clean hlt
    obtain ⟨l, hl, _⟩ := exists_list_map (f := Prefix.id (W := W)) (P := fun _ => True)
      (l := out) (by
        intro x hx
        obtain ⟨q, hq⟩ := exists_prefix ((hmem x).1 hx).1.1
        exact ⟨q, trivial, hq.symm⟩)
    refine ⟨l, N, fun fuel hf => ?_, ?_, fun q => ?_⟩
    · rw [nodes_read (hrun fuel hf), hl]
    · exact List.Nodup.of_map Prefix.id (hl ▸ hnd)
    · have h1 : q ∈ l ↔ q.id ∈ l.map Prefix.id := by
        rw [List.mem_map]
        constructor
        · intro hq; exact ⟨q, hq, rfl⟩
        · rintro ⟨q', hq', he⟩; rw [← Prefix.id_inj he]; exact hq'
      rw [h1, hl, hmem, covers_trunc']
      constructor
      · rintro ⟨⟨hc, h0, hs⟩, h2, h3⟩
        exact ⟨hlt, ⟨pairsOf_id.1 ((hi.tree.pfxSet_iff hc h0).1 hs), h0⟩, h2, h3⟩
      · rintro ⟨_, ⟨hp, h0⟩, h2, h3⟩
        exact ⟨⟨q.clean, h0, (hi.tree.pfxSet_iff q.clean h0).2 (pairsOf_id.2 hp)⟩, h2, h3⟩
  · refine ⟨[], 0, fun fuel _ => ?_, List.nodup_nil, fun q => ?_⟩
    · apply nodes_read
      unfold moreSpecifics moreSpecificStart
      have : W ≤ p.id.len := by simp only [Prefix.id]; omega
      simp only [this, if_true, pure_bind']
      rfl
    · simp [hlt]

/-! ## Records of a list of prefixes -/

theorem shown_present {st : Strategy} {h : History M W} {mui : Option Mui} {iw : Bool}
    {p : Prefix W} {r : Record M} (hs : Shown st h mui iw p r) : Present h p := by
  obtain ⟨r0, h0, _⟩ := hs
  have hrec : ∀ (h : History M W) m x, recOf h p m = some x → Present h p := by
    intro h
    induction h with
    | nil => intro m x hx; simp [recOf] at hx
    | cons op h ih =>
      intro m x hx
      have lift : Present h p → Present (op :: h) p := by
        rintro ⟨k, r, tbi, hm, hk⟩
        exact ⟨k, r, tbi, List.mem_cons_of_mem _ hm, hk⟩
      cases op with
      | insert q r tbi =>
        simp only [recOf] at hx
        split at hx
        · rename_i c
          exact ⟨r.mui, r, tbi, by rw [← c.1]; exact List.mem_cons_self, rfl⟩
        · exact lift (ih _ _ hx)
      | withdrawFor q k t =>
        simp only [recOf] at hx
        split at hx
        · obtain ⟨y, hy, _⟩ := Option.map_eq_some_iff.1 hx
          exact lift (ih _ _ hy)
        · exact lift (ih _ _ hx)
      | activateFor q k t =>
        simp only [recOf] at hx
        split at hx
        · obtain ⟨y, hy, _⟩ := Option.map_eq_some_iff.1 hx
          exact lift (ih _ _ hy)
        · exact lift (ih _ _ hx)
      | withdraw k => exact lift (ih _ _ hx)
      | activate k => exact lift (ih _ _ hx)
      | calcBest q t => exact lift (ih _ _ hx)
  have hkept : ∀ (h : History M W) m x, keptOf h p m = some x → Present h p := by
    intro h
    induction h with
    | nil => intro m x hx; simp [keptOf] at hx
    | cons op h ih =>
      intro m x hx
      have lift : Present h p → Present (op :: h) p := by
        rintro ⟨k, r, tbi, hm, hk⟩
        exact ⟨k, r, tbi, List.mem_cons_of_mem _ hm, hk⟩
      cases op with
      | insert q r tbi =>
        simp only [keptOf] at hx
        split at hx
        · rename_i c
          exact ⟨r.mui, r, tbi, by rw [← c.1]; exact List.mem_cons_self, rfl⟩
        · exact lift (ih _ _ hx)
      | withdrawFor q k t =>
        simp only [keptOf] at hx
        split at hx
        · obtain ⟨y, hy, _⟩ := Option.map_eq_some_iff.1 hx
          exact lift (ih _ _ hy)
        · exact lift (ih _ _ hx)
      | activateFor q k t =>
        simp only [keptOf] at hx
        split at hx
        · obtain ⟨y, hy, _⟩ := Option.map_eq_some_iff.1 hx
          exact lift (ih _ _ hy)
        · exact lift (ih _ _ hx)
      | withdraw k => exact lift (ih _ _ hx)
      | activate k => exact lift (ih _ _ hx)
      | calcBest q t => exact lift (ih _ _ hx)
  cases st with
  | persistOnly =>
    simp only [storedRec] at h0
    obtain ⟨x, hx, _⟩ := Option.map_eq_some_iff.1 h0
    exact hkept _ _ _ hx
  | memoryOnly => exact hrec _ _ _ h0
  | writeAhead => exact hrec _ _ _ h0
  | persistHistory => exact hrec _ _ _ h0

/-- The prefixes of a list that have records, with their records. -/
def withValues (st : Strategy) (h : History M W) (mui : Option Mui) (iw : Bool)
    (l : List (Prefix W)) : List (PrefixRecord M W) :=
  l.filterMap fun q => (valueOf st h q mui iw).map fun v => (q, v)

theorem run_filterValues [Fam W] {st : Strategy} {h : History M W} {s : Rib M W}
    (hi : QInv st h s) (mui : Option Mui) (iw : Bool) (l : List (Prefix W)) :
    (filterValues st mui iw (l.map Prefix.id)).run s =
      .ok ((withValues st h mui iw l).map .ok) s := by
  induction l with
  | nil => rfl
  | cons p l ih =>
    simp only [List.map_cons, filterValues, run_bind, run_ribGetValue hi, Outcome.andThen,
      toPrefix_id, ofOption, ret_bind, ih, withValues, List.filterMap_cons]
    cases valueOf st h p mui iw with
    | none => simp only [Option.map_none, pure_def, run]
    | some v => simp only [Option.map_some, pure_def, run, List.map_cons]

theorem mem_withValues {st : Strategy} {h : History M W} {mui : Option Mui} {iw : Bool}
    {l : List (Prefix W)} {q : Prefix W} {rs : List (Record M)} :
    (q, rs) ∈ withValues st h mui iw l ↔ q ∈ l ∧ valueOf st h q mui iw = some rs := by
  unfold withValues
  rw [List.mem_filterMap]
  constructor
  · rintro ⟨q', hq', he⟩
    obtain ⟨v, hv, he⟩ := Option.map_eq_some_iff.1 he
    cases he
    exact ⟨hq', hv⟩
  · rintro ⟨h1, h2⟩
    exact ⟨q, h1, by rw [h2]; rfl⟩

theorem withValues_sublist {st : Strategy} {h : History M W} {mui : Option Mui} {iw : Bool}
    (l : List (Prefix W)) : ((withValues st h mui iw l).map Prod.fst).Sublist l := by
  unfold withValues
  induction l with
  | nil => simp
  | cons p l ih =>
    rw [List.filterMap_cons]
    cases valueOf st h p mui iw with
    | none => exact ih.cons _
    | some v => exact ih.cons_cons _

theorem valueOf_some [Fam W] {st : Strategy} {h : History M W} {mui : Option Mui} {iw : Bool}
    {q : Prefix W} : (∃ rs, valueOf st h q mui iw = some rs) ↔ ∃ r, Shown st h mui iw q r := by
  obtain ⟨⟨_, hm⟩, hne⟩ := valueOf_answers st h q mui iw
  constructor
  · rintro ⟨rs, hrs⟩
    rw [hrs] at hm hne
    cases rs with
    | nil => exact absurd rfl hne
    | cons r rs => exact ⟨r, (hm r).1 (by simp)⟩
  · rintro ⟨r, hr⟩
    have := (hm r).2 hr
    cases hv : valueOf st h q mui iw with
    | none => rw [hv] at this; simp at this
    | some rs => exact ⟨rs, rfl⟩

theorem listing_withValues [Fam W] {st : Strategy} {h : History M W} {mui : Option Mui} {iw : Bool}
    {l : List (Prefix W)} {P : Prefix W → Prop} (hnd : l.Nodup) (hm : ∀ q, q ∈ l ↔ P q) :
    Listing P (Shown st h mui iw) (withValues st h mui iw l) := by
  refine ⟨hnd.sublist (withValues_sublist l), fun q => ?_, fun q rs hq => ?_⟩
  · rw [← hm, ← valueOf_some]
    constructor
    · rintro ⟨rs, hrs⟩
      exact ⟨(mem_withValues.1 hrs).1, rs, (mem_withValues.1 hrs).2⟩
    · rintro ⟨h1, rs, h2⟩
      exact ⟨rs, mem_withValues.2 ⟨h1, h2⟩⟩
  · have h1 := (mem_withValues.1 hq).2
    have := (valueOf_answers st h q mui iw).1
    rw [h1] at this
    exact this

theorem descending_withValues {st : Strategy} {h : History M W} {mui : Option Mui} {iw : Bool}
    {l : List (Prefix W)} (hd : l.Pairwise (fun a b => b.len < a.len)) :
    Descending (withValues st h mui iw l) := by
  have := hd.sublist (withValues_sublist (st := st) (h := h) (mui := mui) (iw := iw) l)
  rw [List.pairwise_map] at this
  exact this

theorem collectFatal_ok {α : Type} (l : List α) :
    collectFatal (l.map (.ok : α → FatalResult α)) = .ok l := by
  induction l with
  | nil => rfl
  | cons a l ih => simp only [List.map_cons, collectFatal, ih]

theorem run_fillRecords [Fam W] {st : Strategy} {h : History M W} {s : Rib M W}
    (hi : QInv st h s) (mui : Option Mui) (iw : Bool) (o : Option (List (Prefix W))) :
    (fillRecords st mui iw (o.map fun l => l.map Prefix.id)).run s =
      .ok (.ok (o.map (withValues st h mui iw))) s := by
  cases o with
  | none => rfl
  | some l =>
    simp only [Option.map_some, fillRecords, run_bind, run_filterValues hi, Outcome.andThen,
      collectFatal_ok, pure_def, run]

/-- The prefix and match type found in the tree, from the longest match. -/
def treeFound (p : Prefix W) (mt : MatchType) (lm : Option (Prefix W)) :
    MatchType × Option (Prefix W) :=
  match mt, lm with
  | .exactMatch, some q => if q.id = p.id then (.exactMatch, some q) else (.emptyMatch, none)
  | .exactMatch, none => (.emptyMatch, none)
  | _, lm => (.longestMatch, lm)

/-- The prefix part of `match_prefix`, from the match in the tree. -/
def matchPart (st : Strategy) (h : History M W) (o : MatchOptions)
    (f : MatchType × Option (Prefix W)) : MatchType × Option (Prefix W) × List (Record M) :=
  match f.2 with
  | none => (.emptyMatch, none, [])
  | some q =>
    match valueOf st h q o.mui o.includeWithdrawn with
    | none => (.emptyMatch, none, [])
    | some rs => (f.1, some q, rs)

theorem valueOf_ne_nil [Fam W] (st : Strategy) (h : History M W) (p : Prefix W) (mui : Option Mui)
    (iw : Bool) : valueOf st h p mui iw ≠ some [] := (valueOf_answers st h p mui iw).2

theorem filter_map_id (p : Prefix W) (l : List (Prefix W)) :
    (l.map Prefix.id).filter (fun q => decide (q ≠ p.id)) =
      (l.filter (fun q => decide (q.id ≠ p.id))).map Prefix.id := by
  rw [List.filter_map]; rfl

/-- One match, one list of less specifics and one of more specifics, for all options. -/
theorem run_match_all [Fam W] {st : Strategy} {h : History M W} {s : Rib M W}
    (hi : QInv st h s) (p : Prefix W) :
    ∃ (lm : Option (Prefix W)) (ls ms : List (Prefix W)) (N : Nat),
      (match lm with
        | some q => IsLongest (Proper h) p q
        | none => ∀ q, Proper h q → ¬ Covers q p) ∧
      (ls.Pairwise (fun a b => b.len < a.len) ∧
        ∀ q, q ∈ ls ↔ Proper h q ∧ Covers q p ∧ q ≠ p) ∧
      (ms.Nodup ∧ ∀ q, q ∈ ms ↔ Proper h q ∧ Covers p q ∧ q ≠ p) ∧
      ∀ (o : MatchOptions) (fuel : Nat), N ≤ fuel → (ribMatchPrefix st fuel p.id o).run s =
        .ok (.ok ⟨(matchPart st h o (treeFound p o.matchType lm)).1, (matchPart st h o (treeFound p o.matchType lm)).2.1, (matchPart st h o (treeFound p o.matchType lm)).2.2,
          if o.includeLessSpecifics then some (withValues st h o.mui o.includeWithdrawn ls) else none,
          if o.includeMoreSpecifics then some (withValues st h o.mui o.includeWithdrawn ms)
            else none⟩) s := by
  obtain ⟨lm, hlm, hlm'⟩ := run_longest hi p
  obtain ⟨ls, hls, hls'⟩ := run_less hi p
  obtain ⟨ms, N, hms, hnd, hms'⟩ := run_more hi p
  refine ⟨lm, ls, ms.filter (fun q => decide (q.id ≠ p.id)), N, hlm', hls',
    ⟨hnd.filter _, fun q => ?_⟩, fun o fuel hf => ?_⟩
  · rw [List.mem_filter, hms', decide_eq_true_iff]
    have hne : q.id ≠ p.id ↔ q ≠ p := by
      constructor
      · rintro h1 rfl; exact h1 rfl
      · intro h1 h2; exact h1 (Prefix.id_inj h2)
    rw [hne]
    constructor
    · rintro ⟨⟨_, h1, h2⟩, h3⟩; exact ⟨h1, h2, h3⟩
    · rintro ⟨h1, h2, h3⟩
      refine ⟨⟨?_, h1, h2⟩, h3⟩
      by_contra hc
      have hl := h2.1
      have := q.le
      have := p.le
      have hc' := (covers_trunc.1 h2).2
      have : p.len = q.len := by omega
      apply h3
      apply Prefix.id_inj
      rw [← hc', this]
      exact (truncate_self q.clean).symm
  · -- the tree part
    have inv : ∀ {α : Type} {q : Prog (NSlots W) α} {a : α}, (onNodes (M := M) q).run s = .ok a s →
        q.run s.tree.slots = .ok a s.tree.slots := by
      intro α q a hq
      rw [run_onNodes] at hq
      cases hr : q.run s.tree.slots with
      | ok b x =>
        rw [hr] at hq
        simp only [Outcome.mapState, Outcome.ok.injEq] at hq
        have : x = s.tree.slots := congrArg (fun r : Rib M W => r.tree.slots) hq.2
        rw [hq.1, this]
      | panic => rw [hr] at hq; cases hq
      | diverge => rw [hr] at hq; cases hq
    have opt : ∀ {α : Type} (b : Bool) {q : Prog (NSlots W) α} {a : α},
        q.run s.tree.slots = .ok a s.tree.slots →
        (optionally b q).run s.tree.slots = .ok (if b then some a else none) s.tree.slots := by
      intro α b q a hq
      cases b
      · rfl
      · simp only [optionally, if_true, run_bind, hq, Outcome.andThen, pure_def, run]
    have htree : (onNodes (M := M) (treeMatchPrefix fuel p.id o.matchType o.includeLessSpecifics
        o.includeMoreSpecifics)).run s = .ok ⟨(treeFound p o.matchType lm).1,
          (treeFound p o.matchType lm).2.map Prefix.id,
          ((if o.includeLessSpecifics then some ls else none).map fun l => l.map Prefix.id),
          ((if o.includeMoreSpecifics then some (ms.filter (fun q => decide (q.id ≠ p.id)))
            else none).map fun l => l.map Prefix.id)⟩ s := by
      apply nodes_read
      unfold treeMatchPrefix
      rw [run_bind, inv hlm]
      simp only [Outcome.andThen]
      rw [run_bind, opt _ (inv hls)]
      simp only [Outcome.andThen]
      rw [run_bind, opt _ (inv (hms fuel hf))]
      simp only [Outcome.andThen, pure_def, run]
      congr 2
      · cases o.matchType <;> cases lm <;> simp only [Option.map_some, Option.map_none, treeFound]
        split <;> rfl
      · cases o.matchType <;> cases lm <;> simp only [Option.map_some, Option.map_none, treeFound]
        split <;> rfl
      · cases o.includeLessSpecifics <;> rfl
      · cases o.includeMoreSpecifics
        · rfl
        · simp only [if_true, Option.map_some, filter_map_id]
    have hpart : ∀ (f : MatchType × Option (Prefix W)),
        (ribMatchFound (M := M) st o.mui o.includeWithdrawn f.1 (f.2.map Prefix.id)).run s =
          .ok (matchPart st h o f) s := by
      rintro ⟨ty, c⟩
      cases c with
      | none => rfl
      | some q =>
        simp only [ribMatchFound, matchPart, Option.map_some, toPrefix_id, ofOption, ret_bind,
          run_bind, run_ribGetValue hi, Outcome.andThen]
        cases hv : valueOf st h q o.mui o.includeWithdrawn with
        | none => rfl
        | some rs =>
          cases rs with
          | nil => exact absurd hv (valueOf_ne_nil _ _ _ _ _)
          | cons r rs => rfl
    unfold ribMatchPrefix
    rw [run_bind, htree]
    simp only [Outcome.andThen]
    rw [run_bind, hpart]
    simp only [Outcome.andThen]
    rw [run_bind, run_fillRecords hi]
    simp only [Outcome.andThen]
    rw [run_bind, run_fillRecords hi]
    simp only [Outcome.andThen, pure_def, run]
    congr 3
    · cases o.includeLessSpecifics <;> rfl
    · cases o.includeMoreSpecifics <;> rfl

theorem run_match [Fam W] {st : Strategy} {h : History M W} {s : Rib M W}
    (hi : QInv st h s) (p : Prefix W) (o : MatchOptions) :
    ∃ (lm : Option (Prefix W)) (ls ms : List (Prefix W)) (N : Nat),
      (match lm with
        | some q => IsLongest (Proper h) p q
        | none => ∀ q, Proper h q → ¬ Covers q p) ∧
      (ls.Pairwise (fun a b => b.len < a.len) ∧
        ∀ q, q ∈ ls ↔ Proper h q ∧ Covers q p ∧ q ≠ p) ∧
      (ms.Nodup ∧ ∀ q, q ∈ ms ↔ Proper h q ∧ Covers p q ∧ q ≠ p) ∧
      ∀ fuel, N ≤ fuel → (ribMatchPrefix st fuel p.id o).run s =
        .ok (.ok ⟨(matchPart st h o (treeFound p o.matchType lm)).1, (matchPart st h o (treeFound p o.matchType lm)).2.1, (matchPart st h o (treeFound p o.matchType lm)).2.2,
          if o.includeLessSpecifics then some (withValues st h o.mui o.includeWithdrawn ls) else none,
          if o.includeMoreSpecifics then some (withValues st h o.mui o.includeWithdrawn ms)
            else none⟩) s := by
  obtain ⟨lm, ls, ms, N, h1, h2, h3, h4⟩ := run_match_all hi p
  exact ⟨lm, ls, ms, N, h1, h2, h3, h4 o⟩

/-! ## Iterators -/

omit [Meta M] in
/-- Run alone, an iterator whose items are looked up as they are yielded gives the
items of the collected prefixes. -/
theorem run_lazily {σ β : Type} {next : Nat → σ → Prog (NSlots W) (Option (PrefixId W × σ))}
    {coll : Nat → σ → Prog (NSlots W) (List (PrefixId W))}
    (hn : ∀ n st, (next n st).ReadOnly)
    (h0 : ∀ st s out s', (coll 0 st).run s ≠ .ok out s')
    (hc : ∀ n st, coll (n + 1) st = (next (n + 1) st >>= fun r =>
      match r with
      | none => pure []
      | some (p, st') => coll n st' >>= fun rest => pure (p :: rest)))
    {body : PrefixId W → Prog (Rib M W) β} {s : Rib M W} (fuel : Nat) :
    ∀ (st : σ) (out : List (PrefixId W)) (bs : List β) (t : NSlots W),
      (coll fuel st).run s.tree.slots = .ok out t →
      List.Forall₂ (fun p b => (body p).run s = .ok b s) out bs →
      (lazily next body fuel st).run s = .ok bs s := by
  induction fuel with
  | zero => intro st out bs t h; exact absurd h (h0 _ _ _ _)
  | succ n ih =>
    intro st out bs t h hb
    rw [hc, run_bind] at h
    unfold lazily
    cases hr : (next (n + 1) st).run s.tree.slots with
    | panic => rw [hr] at h; cases h
    | diverge => rw [hr] at h; cases h
    | ok r t' =>
      cases (hn _ _).run_eq hr
      rw [run_bind, nodes_read hr]
      rw [hr] at h
      cases r with
      | none =>
        cases h; cases hb; rfl
      | some x =>
        obtain ⟨p, st'⟩ := x
        simp only [Outcome.andThen] at h ⊢
        rw [run_bind] at h
        cases hr2 : (coll n st').run s.tree.slots with
        | panic => rw [hr2] at h; cases h
        | diverge => rw [hr2] at h; cases h
        | ok rest t2 =>
          rw [hr2] at h
          cases h
          cases hb with
          | cons h1 h2 =>
            rw [run_bind, h1]
            simp only [Outcome.andThen]
            rw [run_bind, ih st' rest _ _ hr2 h2]
            rfl

omit [Meta M] in
theorem run_eachMore {β : Type} {body : PrefixId W → Prog (Rib M W) β} {s : Rib M W} {fuel : Nat}
    {p : PrefixId W} {out : List (PrefixId W)} {bs : List β}
    (h : (onNodes (M := M) (moreSpecifics fuel p)).run s = .ok out s)
    (hb : List.Forall₂ (fun p b => (body p).run s = .ok b s) out bs) :
    (eachMore fuel p body).run s = .ok bs s := by
  rw [run_onNodes] at h
  unfold moreSpecifics at h
  rw [run_bind] at h
  unfold eachMore
  cases hr : (moreSpecificStart p).run s.tree.slots with
  | panic => rw [hr] at h; cases h
  | diverge => rw [hr] at h; cases h
  | ok r t =>
    cases (readOnly_moreSpecificStart p).run_eq hr
    rw [run_bind, nodes_read hr]
    rw [hr] at h
    cases r with
    | none => cases h; cases hb; rfl
    | some st =>
      simp only [Outcome.andThen] at h ⊢
      cases hr2 : (msCollect fuel st).run s.tree.slots with
      | panic => rw [hr2] at h; cases h
      | diverge => rw [hr2] at h; cases h
      | ok out' t2 =>
        cases (readOnly_msCollect _ _).run_eq hr2
        rw [hr2] at h
        simp only [Outcome.mapState] at h
        cases h
        exact run_lazily (coll := msCollect) readOnly_msNext (fun _ _ _ _ h => by cases h)
          (fun n st => by
            conv => lhs; unfold msCollect
            congr 1
            funext r
            rcases r with _ | ⟨p, st⟩ <;> rfl) _ _ _ _ _ hr2 hb

omit [Meta M] in
theorem run_eachLess {β : Type} {body : PrefixId W → Prog (Rib M W) β} {s : Rib M W}
    {p : PrefixId W} {out : List (PrefixId W)} {bs : List β}
    (h : (onNodes (M := M) (lessSpecifics p)).run s = .ok out s)
    (hb : List.Forall₂ (fun p b => (body p).run s = .ok b s) out bs) :
    (eachLess p body).run s = .ok bs s := by
  rw [run_onNodes] at h
  unfold lessSpecifics at h
  cases hr2 : (lsCollect p 256 p.len).run s.tree.slots with
  | panic => rw [hr2] at h; cases h
  | diverge => rw [hr2] at h; cases h
  | ok out' t2 =>
    cases (readOnly_lsCollect _ _ _).run_eq hr2
    rw [hr2] at h
    simp only [Outcome.mapState] at h
    cases h
    refine run_lazily (coll := lsCollect p) (fun _ _ => readOnly_lsNext _ _) (fun _ _ _ _ h => by cases h)
      (fun n st => ?_) _ _ _ _ _ hr2 hb
    unfold lsNext
    conv => lhs; unfold lsCollect
    rw [bind_assoc']
    congr 1
    funext r
    cases r <;> rfl

theorem run_filterItem [Fam W] {st : Strategy} {h : History M W} {s : Rib M W}
    (hi : QInv st h s) (mui : Option Mui) (iw : Bool) (q : Prefix W) :
    (filterItem st mui iw q.id).run s =
      .ok ((valueOf st h q mui iw).map fun v => .ok (q, v)) s := by
  unfold filterItem
  rw [run_bind, run_ribGetValue hi]
  simp only [Outcome.andThen, toPrefix_id, ofOption, ret_bind]
  cases valueOf st h q mui iw <;> rfl

theorem run_filterItems [Fam W] {st : Strategy} {h : History M W} {s : Rib M W}
    (hi : QInv st h s) (mui : Option Mui) (iw : Bool) (l : List (Prefix W)) :
    ∃ bs, List.Forall₂ (fun p b => (filterItem st mui iw p).run s = .ok b s) (l.map Prefix.id) bs ∧
      bs.filterMap id = (withValues st h mui iw l).map .ok := by
  induction l with
  | nil => exact ⟨[], .nil, rfl⟩
  | cons q l ih =>
    obtain ⟨bs, h1, h2⟩ := ih
    refine ⟨_ :: bs, .cons (run_filterItem hi mui iw q) h1, ?_⟩
    unfold withValues at h2 ⊢
    rw [List.filterMap_cons, List.filterMap_cons]
    cases valueOf st h q mui iw with
    | none => exact h2
    | some v =>
      simp only [Option.map_some, id, List.map_cons]
      congr 1

theorem run_pfxItems [Fam W] {st : Strategy} {h : History M W} {s : Rib M W}
    (hi : QInv st h s) (l : List (Prefix W)) :
    List.Forall₂ (fun p b => (pfxItem st p).run s = .ok b s) (l.map Prefix.id)
      (l.map fun q => .ok (q, (valueOf st h q none true).getD [])) := by
  induction l with
  | nil => exact .nil
  | cons q l ih =>
    refine .cons ?_ ih
    unfold pfxItem
    simp only [toPrefix_id, ofOption, ret_bind]
    rw [run_bind, run_ribGetValue hi]
    rfl

/-- The prefix of length zero. -/
def Prefix.root (W : Nat) : Prefix W := ⟨0#W, 0, Nat.zero_le _, fun i _ => by simp⟩

theorem covers_root (q : Prefix W) : Covers (Prefix.root W) q :=
  ⟨Nat.zero_le _, fun i hi => absurd hi (Nat.not_lt_zero _)⟩

theorem run_prefixesIter [hW : Fam W] {st : Strategy} {h : History M W} {s : Rib M W}
    (hi : QInv st h s) : ∃ (l : List (Prefix W)) (N : Nat), (∀ fuel, N ≤ fuel →
      (ribPrefixesIter st fuel).run s =
        .ok (l.map fun q => .ok (q, (valueOf st h q none true).getD [])) s) ∧
      l.Nodup ∧ ∀ q, q ∈ l ↔ Proper h q := by
  obtain ⟨l, N, hms, hnd, hms'⟩ := run_more hi (Prefix.root W)
  refine ⟨l, N, fun fuel hf => ?_, hnd, fun q => ?_⟩
  · exact run_eachMore (hms fuel hf) (run_pfxItems hi l)
  · rw [hms']
    have : (Prefix.root W).len < W := by
      have := hW.width; simp only [Prefix.root]; omega
    simp only [this, covers_root, and_true, true_and]

theorem run_muiIsWithdrawn {st : Strategy} {h : History M W} {s : Rib M W} (hi : QInv st h s)
    (m : Mui) : (ribMuiIsWithdrawn m).run s = .ok (globWd h m) s := by
  unfold ribMuiIsWithdrawn
  rw [run_bind, run_withdrawnMuis hi]
  rfl

/-- Does `more_specifics_iter_from` give up at once. -/
def stopped (h : History M W) (mui : Option Mui) (iw : Bool) : Bool :=
  match mui with
  | some m => !iw && globWd h m
  | none => false

theorem run_moreIter [Fam W] {st : Strategy} {h : History M W} {s : Rib M W} (hi : QInv st h s)
    (p : Prefix W) (mui : Option Mui) (iw : Bool) :
    ∃ (l : List (Prefix W)) (N : Nat), (∀ fuel, N ≤ fuel →
      (ribMoreSpecificsIter st fuel p.id mui iw).run s =
        .ok (if stopped h mui iw then [] else (withValues st h mui iw l).map .ok) s) ∧
      l.Nodup ∧ ∀ q, q ∈ l ↔ p.len < W ∧ Proper h q ∧ Covers p q := by
  obtain ⟨l, N, hms, hnd, hms'⟩ := run_more hi p
  refine ⟨l, N, fun fuel hf => ?_, hnd, hms'⟩
  have hgo : (eachMore fuel p.id (filterItem (M := M) st mui iw) >>= fun l =>
      pure (l.filterMap id)).run s = .ok ((withValues st h mui iw l).map .ok) s := by
    obtain ⟨bs, h1, h2⟩ := run_filterItems hi mui iw l
    rw [run_bind, run_eachMore (hms fuel hf) h1, ← h2]
    rfl
  unfold ribMoreSpecificsIter stopped
  cases mui with
  | none =>
    simp only [pure_bind', Bool.false_eq_true, if_false]
    exact hgo
  | some m =>
    cases iw with
    | true =>
      simp only [pure_bind', Bool.false_eq_true, if_false, Bool.true_eq_false, Bool.not_true,
        Bool.false_and]
      exact hgo
    | false =>
      simp only [if_true, Bool.not_false, Bool.true_and]
      rw [run_bind, run_muiIsWithdrawn hi]
      simp only [Outcome.andThen]
      cases globWd h m with
      | true => rfl
      | false => simp only [Bool.false_eq_true, if_false]; exact hgo

theorem run_lessIter [Fam W] {st : Strategy} {h : History M W} {s : Rib M W} (hi : QInv st h s)
    (p : Prefix W) (mui : Option Mui) (iw : Bool) :
    ∃ l : List (Prefix W), (ribLessSpecificsIter st p.id mui iw).run s =
        .ok ((withValues st h mui iw l).map .ok) s ∧
      l.Pairwise (fun a b => b.len < a.len) ∧
      ∀ q, q ∈ l ↔ Proper h q ∧ Covers q p ∧ q ≠ p := by
  obtain ⟨ls, hls, hls'⟩ := run_less hi p
  refine ⟨ls, ?_, hls'⟩
  unfold ribLessSpecificsIter
  obtain ⟨bs, h1, h2⟩ := run_filterItems hi mui iw ls
  rw [run_bind, run_eachLess hls h1, ← h2]
  rfl

end Rotonda
