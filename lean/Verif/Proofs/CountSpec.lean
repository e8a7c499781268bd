import Verif.Proofs.QuerySeq
import Verif.Spec.Counts
import Mathlib.Algebra.BigOperators.Group.Finset.Basic
import Mathlib.Algebra.Order.BigOperators.Group.Finset

/-!
# The counters and the sets they count
-/

namespace Rotonda

open Prog Spec

variable {M : Type} {W : Nat} [Meta M]

/-- Counting by the value of a function. -/
theorem sum_fiber_ncard {α : Type} {S : Set α} (hf : S.Finite) (f : α → ℕ)
    (hb : ∀ a ∈ S, f a ≤ 128) :
    ((List.range 129).map fun l => Set.ncard {a | a ∈ S ∧ f a = l}).sum = S.ncard := by
  classical
  rw [Set.ncard_eq_toFinset_card S hf]
  rw [Finset.card_eq_sum_card_fiberwise (f := f) (t := Finset.range 129)
    (fun a ha => by have := hb a (by simpa using ha); simp; omega)]
  rw [Finset.sum_eq_multiset_sum]
  simp only [Finset.range_val, Multiset.range, Multiset.map_coe, Multiset.sum_coe]
  congr 1
  apply List.map_congr_left
  intro l _
  have hfl : {a | a ∈ S ∧ f a = l}.Finite := hf.subset fun p hp => hp.1
  rw [Set.ncard_eq_toFinset_card _ hfl]
  congr 1
  ext p
  simp

/-- Counting by length. -/
theorem sum_len_ncard {S : Set (Prefix W)} (hf : S.Finite) (hW : W ≤ 128) :
    ((List.range 129).map fun l => Set.ncard {p | p ∈ S ∧ p.len = l}).sum = S.ncard :=
  sum_fiber_ncard hf _ fun p _ => p.le.trans hW

theorem inserted_iff_recOf {h : History M W} {p : Prefix W} {m : Mui} :
    Inserted h p m ↔ (recOf h p m).isSome := by
  induction h with
  | nil => simp [Inserted, recOf]
  | cons op h ih =>
    cases op with
    | insert q r tbi =>
      rw [inserted_insert, recOf, ih]
      split
      · rename_i c; simp [c.1, c.2]
      · rename_i c
        constructor
        · rintro (⟨rfl, rfl⟩ | hx)
          · exact absurd ⟨rfl, rfl⟩ c
          · exact hx
        · exact .inr
    | withdrawFor q k t =>
      rw [inserted_other rfl, recOf, ih]; split <;> simp
    | activateFor q k t =>
      rw [inserted_other rfl, recOf, ih]; split <;> simp
    | _ => rw [inserted_other rfl]; exact ih

/-- An entry of the prefix table is made by the first call about the prefix. -/
theorem tab_none_iff {st : Strategy} (hm : st.inMemory = true) {h : History M W} {p : Prefix W} :
    (tabOf st h p.id).isNone ↔ firstCall h p = none := by
  induction h with
  | nil => simp [tabOf, firstCall]
  | cons op h ih =>
    have hb : ∀ {o : Option Bool}, o = none ∨ ∃ b, o = some b := by intro o; cases o <;> simp
    cases op with
    | insert q r tbi =>
      simp only [tabOf, hm, if_true, put_id, firstCall]
      rcases hb (o := firstCall h p) with hx | ⟨b, hx⟩
      · rw [hx] at ih ⊢
        by_cases c : p = q
        · subst c; simp
        · rw [if_neg c]; simpa only [if_neg (Ne.symm c)] using ih
      · rw [hx] at ih ⊢
        by_cases c : p = q
        · simp [c]
        · rw [if_neg c, ih]
    | withdrawFor q k t =>
      simp only [tabOf, hm, if_true, put_id, firstCall]
      rcases hb (o := firstCall h p) with hx | ⟨b, hx⟩
      · rw [hx] at ih ⊢
        by_cases c : p = q
        · subst c; simp
        · rw [if_neg c]; simpa only [if_neg (Ne.symm c)] using ih
      · rw [hx] at ih ⊢
        by_cases c : p = q
        · simp [c]
        · rw [if_neg c, ih]
    | activateFor q k t =>
      simp only [tabOf, hm, if_true, put_id, firstCall]
      rcases hb (o := firstCall h p) with hx | ⟨b, hx⟩
      · rw [hx] at ih ⊢
        by_cases c : p = q
        · subst c; simp
        · rw [if_neg c]; simpa only [if_neg (Ne.symm c)] using ih
      · rw [hx] at ih ⊢
        by_cases c : p = q
        · simp [c]
        · rw [if_neg c, ih]
    | withdraw k => simp only [tabOf, firstCall, ih]; cases firstCall h p <;> rfl
    | activate k => simp only [tabOf, firstCall, ih]; cases firstCall h p <;> rfl
    | calcBest q tbi =>
      have : firstCall (.calcBest q tbi :: h) p = firstCall h p := by
        simp only [firstCall]; cases firstCall h p <;> rfl
      rw [this]
      simp only [tabOf]
      cases hx : tabOf st h q.id with
      | none => exact ih
      | some x =>
        simp only [put_id]
        by_cases c : p = q
        · subst c; rw [hx] at ih; simpa using ih
        · rw [if_neg c, ih]

theorem firstCall_present {h : History M W} {p : Prefix W} :
    Present h p → firstCall h p ≠ none := by
  intro hp hx
  have : (tabOf (.memoryOnly : Strategy) h p.id).isNone := (tab_none_iff rfl).2 hx
  obtain ⟨m, hm⟩ := hp
  rw [inserted_iff_recOf] at hm
  have h2 := get_recsAt (st := .memoryOnly) rfl h p m
  unfold recsAt at h2
  rw [Option.isNone_iff_eq_none.1 this] at h2
  cases hr : recOf h p m with
  | none => rw [hr] at hm; cases hm
  | some r => rw [hr] at h2; cases h2

theorem firstCall_cons_some {op : Op M W} {h : History M W} {p : Prefix W} :
    firstCall (op :: h) p = some true ↔ firstCall h p = some true ∨
      (firstCall h p = none ∧ ∃ r tbi, op = .insert p r tbi) := by
  simp only [firstCall]
  cases hx : firstCall h p with
  | some b => simp
  | none =>
    cases op <;> simp

theorem first_present {h : History M W} {p : Prefix W} (hf : firstCall h p = some true) :
    Present h p := by
  induction h with
  | nil => simp [firstCall] at hf
  | cons op h ih =>
    rcases firstCall_cons_some.1 hf with hx | ⟨_, r, tbi, rfl⟩
    · obtain ⟨m, hm⟩ := ih hx
      exact ⟨m, inserted_cons.2 (.inr hm)⟩
    · exact ⟨r.mui, inserted_insert.2 (.inl ⟨rfl, rfl⟩)⟩

theorem memPrefixes_spec {st : Strategy} (hm : st.inMemory = true) (h : History M W) (l : Nat) :
    memPrefixesOf st h l = Set.ncard {p : Prefix W | firstCall h p = some true ∧ p.len = l} := by
  induction h with
  | nil => simp [memPrefixesOf, firstCall]
  | cons op h ih =>
    have same : op.isInsert = false → memPrefixesOf st (op :: h) l =
        Set.ncard {p : Prefix W | firstCall (op :: h) p = some true ∧ p.len = l} := by
      intro ho
      have h1 : memPrefixesOf st (op :: h) l = memPrefixesOf st h l := by
        cases op <;> simp_all [memPrefixesOf, Op.isInsert]
      rw [h1, ih]
      congr 1
      ext p
      simp only [Set.mem_ofPred_eq, firstCall_cons_some]
      constructor
      · rintro ⟨a, b⟩; exact ⟨.inl a, b⟩
      · rintro ⟨a | ⟨_, r, tbi, rfl⟩, b⟩
        · exact ⟨a, b⟩
        · simp [Op.isInsert] at ho
    cases op with
    | insert q r tbi =>
      have hfin : {p : Prefix W | firstCall h p = some true ∧ p.len = l}.Finite :=
        (present_finite h).subset fun p hp => first_present hp.1
      simp only [memPrefixesOf, hm, true_and]
      have hti := tab_none_iff hm (h := h) (p := q)
      split
      · rename_i c
        rw [hti] at c
        have : {p : Prefix W | firstCall (.insert q r tbi :: h) p = some true ∧ p.len = l} =
            insert q {p | firstCall h p = some true ∧ p.len = l} := by
          ext p
          simp only [Set.mem_ofPred_eq, firstCall_cons_some, Set.mem_insert_iff]
          constructor
          · rintro ⟨a | ⟨_, r', tbi', he⟩, b⟩
            · exact .inr ⟨a, b⟩
            · cases he; exact .inl rfl
          · rintro (rfl | ⟨a, b⟩)
            · exact ⟨.inr ⟨c.2, r, tbi, rfl⟩, c.1.symm⟩
            · exact ⟨.inl a, b⟩
        rw [this, Set.ncard_insert_of_notMem (fun hx => by rw [Set.mem_ofPred_eq, c.2] at hx; cases hx.1) hfin, ih]
      · rename_i c
        rw [hti] at c
        rw [ih]
        congr 1
        ext p
        simp only [Set.mem_ofPred_eq, firstCall_cons_some]
        constructor
        · rintro ⟨a, b⟩; exact ⟨.inl a, b⟩
        · rintro ⟨a | ⟨h0, r', tbi', he⟩, b⟩
          · exact ⟨a, b⟩
          · cases he; exact absurd ⟨b.symm, h0⟩ c
    | _ => exact same rfl

theorem memPrefixes_persistOnly (h : History M W) (l : Nat) :
    memPrefixesOf .persistOnly h l = 0 := by
  induction h with
  | nil => rfl
  | cons op h ih => cases op <;> simp [memPrefixesOf, Strategy.inMemory, ih]

theorem pairs_insert {p : Prefix W} {r : Record M} {tbi} {h : History M W} :
    pairs (.insert p r tbi :: h) = insert (p, r.mui) (pairs h) := by
  ext ⟨q, m⟩
  simp only [pairs, Set.mem_ofPred_eq, Set.mem_insert_iff, inserted_insert, Prod.mk.injEq]

theorem pairs_other {op : Op M W} (ho : op.isInsert = false) {h : History M W} :
    pairs (op :: h) = pairs h := by
  unfold pairs; rw [inserted_other ho]

theorem pairs_finite (h : History M W) : (pairs h).Finite := by
  induction h with
  | nil =>
    have : pairs ([] : History M W) = ∅ := by ext; simp [pairs, Inserted]
    rw [this]; exact Set.finite_empty
  | cons op h ih =>
    cases op with
    | insert p r tbi => rw [pairs_insert]; exact ih.insert _
    | _ => rw [pairs_other rfl]; exact ih

theorem memRoutes_spec {st : Strategy} (hm : st.inMemory = true) (h : History M W) :
    memRoutesOf st h = (pairs h).ncard := by
  induction h with
  | nil =>
    have : pairs ([] : History M W) = ∅ := by ext; simp [pairs, Inserted]
    rw [this]; simp [memRoutesOf]
  | cons op h ih =>
    cases op with
    | insert p r tbi =>
      simp only [memRoutesOf, hm, true_and]
      have hg : ((tabOf st h p.id).bind fun x => x.1.get r.mui).isNone ↔ (p, r.mui) ∉ pairs h := by
        have h1 := get_recsAt hm h p r.mui
        have h2 : (recsAt st h p).get r.mui = (tabOf st h p.id).bind fun x => x.1.get r.mui := by
          unfold recsAt; cases tabOf st h p.id <;> rfl
        rw [← h2, h1]
        simp only [pairs, Set.mem_ofPred_eq, inserted_iff_recOf]
        cases recOf h p r.mui <;> simp
      rw [pairs_insert]
      split
      · rename_i c; rw [hg] at c; rw [Set.ncard_insert_of_notMem c (pairs_finite h), ih]
      · rename_i c
        rw [hg] at c
        rw [Set.insert_eq_of_mem (not_not.1 c), ih]
    | _ => rw [pairs_other rfl]; simp only [memRoutesOf, ih]

theorem numInserts_ge (h : History M W) : (pairs h).ncard ≤ numInserts h := by
  rw [← memRoutes_spec (st := .memoryOnly) rfl]
  induction h with
  | nil => exact le_refl _
  | cons op h ih =>
    cases op with
    | insert p r tbi => simp only [memRoutesOf, numInserts]; split <;> omega
    | _ => simpa only [memRoutesOf, numInserts] using ih

/-! ## Stride positions -/

/-- The child bit that stands for a stride position. -/
def posPair (x : Prefix W) : NodeId W × Nat :=
  (ancAt x.id (x.len - 4), nib x.bits (x.len - 4) 4)

theorem ptrPairs_positions {h : History M W} {t : Tree W} (hr : Rep (pairsOf h) t) :
    ptrPairs t.slots = posPair '' positions h := by
  ext ⟨n, v⟩
  simp only [Set.mem_image]
  constructor
  · rintro ⟨a, e, he, rfl, hb⟩
    obtain ⟨_, m, ⟨p, rfl, hi⟩, ⟨hlt, hdvd, hbits⟩, hlen, rfl⟩ := hr.just.ptr a e v he hb
    have hle := p.le
    have hlen' : e.id.len + 4 < p.len := hlen
    refine ⟨⟨truncateToLen p.bits (e.id.len + 4), e.id.len + 4, by omega,
      (clean_truncate p.bits (by omega)).2⟩, ⟨?_, by simp, p, ⟨m, hi⟩, hlen', by simp; omega, ?_⟩, ?_⟩
    · show 4 ∣ e.id.len + 4; omega
    · intro i hi'
      show (truncateToLen p.bits (e.id.len + 4)).getMsbD i = _
      rw [getMsbD_truncateToLen _ (by omega)]
      simp [show i < e.id.len + 4 from hi']
    · simp only [posPair, ancAt, Prefix.id, Nat.add_sub_cancel, Prod.mk.injEq]
      constructor
      · have : truncateToLen (truncateToLen p.bits (e.id.len + 4)) e.id.len =
            truncateToLen p.bits e.id.len := by
          apply ext_msb
          intro i _
          rw [getMsbD_truncateToLen _ (by omega), getMsbD_truncateToLen _ (by omega),
            getMsbD_truncateToLen _ (by omega)]
          by_cases c : i < e.id.len
          · simp [c, show i < e.id.len + 4 by omega]
          · simp [c]
        rw [this]
        have hb2 : e.id.bits = truncateToLen p.bits e.id.len := hbits
        rw [← hb2]
      · apply nib_congr (by omega)
        intro i h1 h2
        rw [getMsbD_truncateToLen _ (by omega)]
        simp; omega
  · rintro ⟨x, ⟨h4, h0, p, ⟨m, hi⟩, hlt, hc⟩, hx⟩
    have hle := p.le
    obtain ⟨h1, h2⟩ := Prod.mk.injEq .. ▸ hx
    subst h1; subst h2
    have hfull := (hr.full p.id m ⟨p, rfl, hi⟩ (by show 0 < p.len; omega)).1 (ancAt x.id (x.len - 4))
      ⟨by show x.len - 4 < p.len; omega, by show 4 ∣ x.len - 4; omega, ?_⟩
      (by show x.len - 4 < p.len; omega)
    · have hp := hfull.2 (by show x.len - 4 + 4 < p.len; omega)
      have hn : nib p.id.bits (ancAt x.id (x.len - 4)).len 4 = nib x.bits (x.len - 4) 4 := by
        apply nib_congr (by show x.len - 4 + 4 ≤ W; omega)
        intro i _ h2
        have h2' : i < x.len - 4 + 4 := h2
        exact (hc.2 i (by omega)).symm
      rw [hn] at hp
      exact hp
    · show truncateToLen x.bits (x.len - 4) = truncateToLen p.bits (x.len - 4)
      apply ext_msb
      intro i _
      rw [getMsbD_truncateToLen _ (by omega), getMsbD_truncateToLen _ (by omega)]
      by_cases c : i < x.len - 4
      · rw [hc.2 i (by omega)]
      · simp [c]

theorem posPair_injOn (h : History M W) : Set.InjOn posPair (positions h) := by
  rintro x ⟨h4, h0, p, _, hlt, _⟩ y ⟨h4', h0', p', _, hlt', _⟩ hxy
  have hle := p.le
  have hle' := p'.le
  obtain ⟨h1, h2⟩ := Prod.mk.injEq .. ▸ hxy
  obtain ⟨hb, hl⟩ := PrefixId.mk.injEq .. ▸ h1
  have hlen : x.len = y.len := by
    have : x.len - 4 = y.len - 4 := hl
    omega
  apply Prefix.id_inj
  apply Clean.eq_of_bits x.clean y.clean hlen
  intro i hi
  have hi' : i < x.len := hi
  by_cases c : i < x.len - 4
  · have h3 := congrArg (fun z => z.getMsbD i) hb
    simp only [Prefix.id] at h3
    rw [getMsbD_truncateToLen _ (by omega), getMsbD_truncateToLen _ (by omega)] at h3
    show x.bits.getMsbD i = y.bits.getMsbD i
    have c' : i < y.len - 4 := by omega
    simpa only [c, c', decide_true, Bool.true_and, show i < x.id.len - 4 from c,
      show i < y.id.len - 4 from c'] using h3
  · rw [← hlen] at h2
    exact nib_inj (by omega) h2 i (by omega) (by omega)

theorem nodes_positions {h : History M W} {t : Tree W} (hr : Rep (pairsOf h) t) (hc : PtrCount t) :
    t.nodes = (positions h).ncard + 1 := by
  rw [hc.2, ptrPairs_positions hr, (posPair_injOn h).ncard_image]

theorem positions_finite {h : History M W} {t : Tree W} (hr : Rep (pairsOf h) t) (hc : PtrCount t) :
    (positions h).Finite := by
  have := hc.1
  rw [ptrPairs_positions hr] at this
  exact Set.Finite.of_finite_image this (posPair_injOn h)

end Rotonda
