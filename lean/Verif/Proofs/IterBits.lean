import Verif.Model.TreeIter
import Verif.Proofs.NodeInv
import Mathlib.Data.Finset.Card
import Mathlib.Data.Fintype.Card

/-!
# Bit level facts used by the iterators
-/

namespace Rotonda

variable {W : Nat}

theorem leadingZeros_spec {w : Nat} {x : BitVec w} (h : x ≠ 0#w) :
    leadingZeros x < w ∧ x.getMsbD (leadingZeros x) = true := by
  have hex : ∃ i ∈ List.range w, x.getMsbD i = true := by
    by_contra hn
    apply h
    apply ext_msb
    intro i hi
    have := fun hx => hn ⟨i, List.mem_range.2 hi, hx⟩
    simpa using this
  have hlt : (List.range w).findIdx (fun i => x.getMsbD i) < (List.range w).length :=
    List.findIdx_lt_length.2 hex
  have h2 := List.findIdx_getElem (p := fun i => x.getMsbD i) (xs := List.range w) (w := hlt)
  refine ⟨by simpa [leadingZeros] using hlt, ?_⟩
  simpa [leadingZeros] using h2

theorem leadingZeros_posMask : ∀ i < 32, leadingZeros (posMask i) = i := by decide +kernel

theorem bitPosFromIndex_eq : ∀ i < 32, bitPosFromIndex i = posMask i := by decide +kernel

theorem fromBitPosIndex_spec : ∀ i < 31, ∃ l < 5, ∃ v < 16, v < 2 ^ l ∧ i = 2 ^ l - 1 + v ∧
    BitSpan.fromBitPosIndex i = some ⟨v, l⟩ := by decide +kernel

theorem fromBitPosIndex_ptr : ∀ v < 16, BitSpan.fromBitPosIndex (v + 15) = some ⟨v, 4⟩ := by
  decide +kernel

theorem ptrBitPos_msb : ∀ v < 16, ∀ j < 16,
    (ptrBitPosFromIndex (v + 15)).getMsbD j = decide (j = v) := by decide +kernel

/-- One row of the table of masks is right. -/
def MaskRow (l v : Nat) : Prop := ∀ l' < 5, ∀ v' < 16, (0 < l' ∧ v' < 2 ^ l') →
  ((msPrefixMaskArr ⟨v, l⟩).getD 0).getMsbD (2 ^ l' - 1 + v') =
    decide (l ≤ l' ∧ v' / 2 ^ (l' - l) = v)

instance (l v : Nat) : Decidable (MaskRow l v) := by unfold MaskRow; infer_instance

/-- The table of masks: position `2^l' - 1 + v'` is selected for the span
`(v, l)` exactly when `v'` starts with `v`. -/
theorem msMask_spec : ∀ l < 5, ∀ v < 16, v < 2 ^ l → ∃ mask, msPrefixMaskArr ⟨v, l⟩ = some mask ∧
    ∀ l' < 5, ∀ v' < 16, 0 < l' → v' < 2 ^ l' →
      (mask.getMsbD (2 ^ l' - 1 + v') = true ↔ l ≤ l' ∧ v' / 2 ^ (l' - l) = v) := by
  have h1 : ∀ l < 5, ∀ v < 16, v < 2 ^ l → (msPrefixMaskArr ⟨v, l⟩).isSome = true := by
    decide +kernel
  have h2 : ∀ l < 5, ∀ v < 16, v < 2 ^ l → MaskRow l v := by decide +kernel
  intro l hl v hv hvl
  replace h1 := h1 l hl v hv hvl
  replace h2 := h2 l hl v hv hvl
  obtain ⟨mask, hm⟩ := Option.isSome_iff_exists.1 h1
  refine ⟨mask, hm, ?_⟩
  intro l' hl' v' hv' h0 hvl'
  have := h2 l' hl' v' hv' ⟨h0, hvl'⟩
  rw [hm] at this
  simp only [Option.getD_some] at this
  rw [this, decide_eq_true_iff]

/-- Bit 0 and bit 31 are never selected. -/
theorem msMask_ends : ∀ l < 5, ∀ v < 16, v < 2 ^ l → ∀ mask, msPrefixMaskArr ⟨v, l⟩ = some mask →
    mask.getMsbD 0 = false ∧ mask.getMsbD 31 = false := by
  have h : ∀ l < 5, ∀ v < 16, v < 2 ^ l →
    ((msPrefixMaskArr ⟨v, l⟩).getD 0).getMsbD 0 = false ∧
    ((msPrefixMaskArr ⟨v, l⟩).getD 0).getMsbD 31 = false := by decide +kernel
  intro l hl v hv hvl mask hm
  simpa [hm] using h l hl v hv hvl

theorem ptrMask_spec : ∀ l < 5, ∀ v < 16, v < 2 ^ l → ∀ j < 16,
    (((((1#32 <<< (2 ^ (4 - l))) - 1#32).rotateRight (v * 2 ^ (4 - l) + 2 ^ (4 - l)) >>> 16).setWidth
      16 : BitVec 16)).getMsbD j = decide (j / 2 ^ (4 - l) = v) := by decide +kernel

theorem ptrRange_spec {l v : Nat} (hl : l < 5) (hv : v < 2 ^ l) (ptr : BitVec 16) :
    ∃ r, ptrRange ptr ⟨v, l⟩ = some r ∧
      ∀ j < 16, (r.getMsbD j = true ↔ ptr.getMsbD j = true ∧ j / 2 ^ (4 - l) = v) := by
  have h4 : 2 ^ l ≤ 2 ^ 4 := Nat.pow_le_pow_right (by omega) (by omega)
  have hsplit : 2 ^ l * 2 ^ (4 - l) = 16 := by rw [← Nat.pow_add, Nat.add_sub_cancel' (by omega)]
  have hle : v * 2 ^ (4 - l) + 2 ^ (4 - l) ≤ 16 := by
    calc v * 2 ^ (4 - l) + 2 ^ (4 - l) = (v + 1) * 2 ^ (4 - l) := by rw [Nat.add_mul]; omega
      _ ≤ 2 ^ l * 2 ^ (4 - l) := Nat.mul_le_mul_right _ (by omega)
      _ = 16 := hsplit
  unfold ptrRange
  simp only
  rw [if_pos ⟨by omega, by omega⟩]
  refine ⟨_, rfl, ?_⟩
  intro j hj
  have := ptrMask_spec l hl v (by omega) hv j hj
  rw [Nat.add_sub_cancel_left, BitVec.getMsbD_and, this]
  simp

theorem check_ok : ∀ l < 5, ∀ v < 16, v < 2 ^ l → BitSpan.check ⟨v, l⟩ = true := by decide +kernel

/-- Number of set bits. -/
def pop {w : Nat} (x : BitVec w) : Nat :=
  (Finset.univ.filter (fun i : Fin w => x.getMsbD i = true)).card

theorem pop_le {w : Nat} (x : BitVec w) : pop x ≤ w := by
  unfold pop
  calc _ ≤ (Finset.univ : Finset (Fin w)).card := Finset.card_le_card (Finset.filter_subset _ _)
    _ = w := by simp

theorem pop_lt {w : Nat} {x y : BitVec w} {c : Nat} (hc : c < w) (hx : x.getMsbD c = true)
    (h : ∀ j, j < w → (y.getMsbD j = true ↔ x.getMsbD j = true ∧ j ≠ c)) : pop y < pop x := by
  unfold pop
  apply Finset.card_lt_card
  rw [Finset.ssubset_iff_of_subset]
  · refine ⟨⟨c, hc⟩, by simpa using hx, ?_⟩
    have := h c hc
    simp at this
    simpa using this
  · intro i hi
    simp only [Finset.mem_filter, Finset.mem_univ, true_and] at hi ⊢
    exact ((h i i.2).1 hi).1

theorem pop_pos {w : Nat} {x : BitVec w} {c : Nat} (hc : c < w) (hx : x.getMsbD c = true) :
    0 < pop x := by
  unfold pop
  rw [Finset.card_pos]
  exact ⟨⟨c, hc⟩, by simpa using hx⟩

/-- Extending a node by a bit span. -/
theorem addBitSpan_spec {n : NodeId W} (hn : n.Clean) {l v : Nat} (hl : 1 ≤ l)
    (hlen : n.len + l ≤ W) (hv : v < 2 ^ l) :
    ∃ c : PrefixId W, n.addBitSpan ⟨v, l⟩ = some c ∧ c.Clean ∧ c.len = n.len + l ∧
      truncateToLen c.bits n.len = n.bits ∧ nib c.bits n.len l = v := by
  unfold NodeId.addBitSpan addBitSpanBits
  simp only
  rw [if_pos (by omega)]
  have ht : truncateToLen n.bits n.len = n.bits := (truncate_eq_iff hn).2 (fun _ _ => rfl)
  rw [ht]
  have hvW : v < 2 ^ W := lt_of_lt_of_le hv (Nat.pow_le_pow_right (by omega) (by omega))
  have hbit : ∀ i, i < W → (n.bits ||| (BitVec.ofNat W v <<< (W - n.len - l))).getMsbD i =
      (n.bits.getMsbD i || (decide (i < n.len + l) && v.testBit (n.len + l - 1 - i))) := by
    intro i hi
    rw [BitVec.getMsbD_or]
    congr 1
    rw [BitVec.getMsbD_eq_getLsbD, BitVec.getLsbD_shiftLeft, BitVec.getLsbD_ofNat]
    by_cases c : i < n.len + l
    · have e1 : ¬ (W - 1 - i < W - n.len - l) := by omega
      have e2 : W - 1 - i - (W - n.len - l) = n.len + l - 1 - i := by omega
      have e3 : n.len + l - 1 - i < W := by omega
      have e4 : W - 1 - i < W := by omega
      simp [hi, c, e1, e2, e3, e4]
    · have e1 : W - 1 - i < W - n.len - l := by omega
      simp [c, e1]
  have hhigh : ∀ j, l ≤ j → v.testBit j = false := by
    intro j hj
    exact Nat.testBit_lt_two_pow (lt_of_lt_of_le hv (Nat.pow_le_pow_right (by omega) hj))
  refine ⟨_, rfl, ⟨hlen, ?_⟩, rfl, ?_, ?_⟩
  · intro i hi
    simp only at hi
    by_cases hiW : i < W
    · rw [hbit i hiW, hn.2 i (by omega)]
      have : ¬ i < n.len + l := by omega
      simp [this]
    · exact BitVec.getMsbD_of_ge _ _ (by omega)
  · rw [truncate_eq_iff hn]
    intro i hi
    simp only
    rw [hbit i (by omega), hhigh _ (by omega)]
    simp
  · apply Nat.eq_of_testBit_eq
    intro j
    rw [nib_testBit _ hlen]
    by_cases hj : j < l
    · simp only [hj, decide_true, Bool.true_and]
      rw [hbit _ (by omega), hn.2 _ (by omega)]
      have e1 : n.len + l - 1 - j < n.len + l := by omega
      have e2 : n.len + l - 1 - (n.len + l - 1 - j) = j := by omega
      simp [e1, e2]
    · simp [hj, hhigh j (by omega)]

/-- Splitting a bit group. -/
theorem nib_split (x : BitVec W) {start l k : Nat} (hs : start + l ≤ W) (hk : k ≤ l) :
    nib x start l / 2 ^ (l - k) = nib x start k := by
  apply Nat.eq_of_testBit_eq
  intro j
  rw [← Nat.shiftRight_eq_div_pow, Nat.testBit_shiftRight, nib_testBit x hs, nib_testBit x (by omega)]
  by_cases hj : j < k
  · have e1 : l - k + j < l := by omega
    have e2 : start + l - 1 - (l - k + j) = start + k - 1 - j := by omega
    simp [hj, e1, e2]
  · have e1 : ¬ (l - k + j < l) := by omega
    simp [hj, e1]

/-- Truncations to `a` and the group after it determine the longer truncation. -/
theorem truncate_add {x y : BitVec W} {a l : Nat} (hl : a + l ≤ W) :
    truncateToLen x (a + l) = truncateToLen y (a + l) ↔
      truncateToLen x a = truncateToLen y a ∧ nib x a l = nib y a l := by
  have key : ∀ k, k ≤ W → (truncateToLen x k = truncateToLen y k ↔
      ∀ i < k, x.getMsbD i = y.getMsbD i) := by
    intro k hk
    constructor
    · intro h i hi
      have := congrArg (fun z => z.getMsbD i) h
      simpa [getMsbD_truncateToLen _ hk, hi] using this
    · intro h
      apply ext_msb
      intro i _
      rw [getMsbD_truncateToLen _ hk, getMsbD_truncateToLen _ hk]
      by_cases c : i < k
      · simp [c, h i c]
      · simp [c]
  rw [key _ hl, key _ (by omega)]
  constructor
  · intro h
    exact ⟨fun i hi => h i (by omega), nib_congr hl (fun i _ h2 => h i h2)⟩
  · rintro ⟨h1, h2⟩ i hi
    by_cases c : i < a
    · exact h1 i c
    · exact nib_inj hl h2 i (by omega) hi

end Rotonda
