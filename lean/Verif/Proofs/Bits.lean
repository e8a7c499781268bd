import Verif.Model.Cht
import Mathlib.Tactic.Common
import Mathlib.Data.Nat.Bitwise

/-!
# Bit-level lemmas
-/

namespace Rotonda

variable {W : Nat}

/-- The `len` bits of `x` from bit `start` on (counted from the most significant
bit), as a number. -/
def nib (x : BitVec W) (start len : Nat) : Nat := ((x <<< start) >>> (W - len)).toNat

theorem nib_testBit (x : BitVec W) {start len : Nat} (hs : start + len ≤ W) (j : Nat) :
    (nib x start len).testBit j = (decide (j < len) && x.getMsbD (start + len - 1 - j)) := by
  unfold nib
  rw [BitVec.testBit_toNat]
  rw [BitVec.getLsbD_ushiftRight, BitVec.getLsbD_shiftLeft]
  by_cases h : j < len
  · rw [BitVec.getMsbD_eq_getLsbD]
    have h1 : W - len + j < W := by omega
    have h2 : start + len - 1 - j < W := by omega
    have h4 : W - len + j - start = W - 1 - (start + len - 1 - j) := by omega
    have h3 : ¬ W - len + j < start := by omega
    simp only [h, h1, h2, h3, h4, decide_true, decide_false, Bool.true_and, Bool.not_false]
  · simp only [h, decide_false, Bool.false_and]
    have : ¬ (W - len + j < W) := by omega
    simp [this]

theorem nib_lt (x : BitVec W) {start len : Nat} (hs : start + len ≤ W) : nib x start len < 2 ^ len := by
  apply Nat.lt_pow_two_of_testBit
  intro i hi
  rw [nib_testBit x hs]
  simp; omega

theorem nib_inj {x y : BitVec W} {start len : Nat} (hs : start + len ≤ W)
    (h : nib x start len = nib y start len) :
    ∀ i, start ≤ i → i < start + len → x.getMsbD i = y.getMsbD i := by
  intro i h1 h2
  have := congrArg (fun n => n.testBit (start + len - 1 - i)) h
  simp only [nib_testBit _ hs] at this
  have e : start + len - 1 - (start + len - 1 - i) = i := by omega
  rw [e] at this
  have e2 : start + len - 1 - i < len := by omega
  simpa [e2] using this

theorem nib_congr {x y : BitVec W} {start len : Nat} (hs : start + len ≤ W)
    (h : ∀ i, start ≤ i → i < start + len → x.getMsbD i = y.getMsbD i) :
    nib x start len = nib y start len := by
  apply Nat.eq_of_testBit_eq
  intro j
  rw [nib_testBit _ hs, nib_testBit _ hs]
  by_cases hj : j < len
  · rw [h _ (by omega) (by omega)]
  · simp [hj]

theorem nib_mod (x : BitVec W) {start len : Nat} (hs : start + len ≤ W) (hl : len ≤ 4) :
    nib x start len % 2 ^ 32 = nib x start len := by
  apply Nat.mod_eq_of_lt
  exact lt_of_lt_of_le (nib_lt x hs) (Nat.pow_le_pow_right (by omega) (by omega))

@[simp] theorem nib_zero_len (x : BitVec W) {start : Nat} (hs : start ≤ W) : nib x start 0 = 0 := by
  have := nib_lt x (start := start) (len := 0) (by omega)
  simpa using this

/-- Host part (beyond `len`) is zero and `len` is at most the width. -/
def PrefixId.Clean (p : PrefixId W) : Prop :=
  p.len ≤ W ∧ ∀ i, p.len ≤ i → p.bits.getMsbD i = false

theorem ext_msb {x y : BitVec W} (h : ∀ i, i < W → x.getMsbD i = y.getMsbD i) : x = y :=
  BitVec.eq_of_getMsbD_eq (fun i hi => h i hi)

theorem getMsbD_truncateToLen (x : BitVec W) {len : Nat} (hl : len ≤ W) (i : Nat) :
    (truncateToLen x len).getMsbD i = (decide (i < len) && x.getMsbD i) := by
  by_cases hi : i < W
  swap
  · simp [BitVec.getMsbD_of_ge _ _ (by omega : W ≤ i)]
  have hW : 0 < W := by omega
  unfold truncateToLen
  rw [BitVec.getMsbD_and, BitVec.getMsbD_xor, Bool.and_comm]
  congr 1
  have hall : (BitVec.allOnes W).getMsbD i = true := by simp [hi]
  rw [hall]
  by_cases h0 : len = 0
  · subst h0
    have e : (1#W).rotateRight 0 ^^^ BitVec.ofNat W (1 - 0) = 0#W := by
      have : (1#W).rotateRight 0 = 1#W := by
        apply BitVec.eq_of_getLsbD_eq
        intro j hj
        simp [hj]
      rw [this]; simp
    rw [e]
    have e2 : (0#W - 1#W) = BitVec.allOnes W := by
      simp
      exact BitVec.neg_one_eq_allOnes
    rw [e2, hall]; simp
  · have e : (1#W).rotateRight len ^^^ BitVec.ofNat W (1 - len) = BitVec.twoPow W (W - len) := by
      have : 1 - len = 0 := by omega
      rw [this]
      simp only [BitVec.xor_zero]
      apply BitVec.eq_of_getLsbD_eq
      intro j hj
      rw [BitVec.getLsbD_rotateRight, BitVec.getLsbD_twoPow]
      rcases Nat.lt_or_ge len W with hlt | hge
      · rw [Nat.mod_eq_of_lt hlt]
        by_cases h1 : j < W - len
        · have b : ¬ (W - len = j) := by omega
          simp [h1, b]; omega
        · have h2 : W - len ≤ j := by omega
          simp only [h1, decide_false, cond_false, BitVec.getLsbD_one, hj, hW, decide_true,
            Bool.true_and]
          rw [Bool.eq_iff_iff]
          simp; omega
      · have hlW : len = W := by omega
        subst hlW
        simp only [Nat.mod_self, Nat.sub_zero, hj, decide_true, cond_true, Nat.zero_add,
          Nat.sub_self, BitVec.getLsbD_one, hW, Bool.true_and]
        rw [Bool.eq_iff_iff]; simp [eq_comm]
    rw [e]
    have key : (BitVec.twoPow W (W - len) - 1#W).getMsbD i = decide (len ≤ i) := by
      rw [BitVec.getMsbD_eq_getLsbD]
      simp only [hi, decide_true, Bool.true_and]
      have hk : W - len < W := by omega
      have hn : (BitVec.twoPow W (W - len) - 1#W).toNat = 2 ^ (W - len) - 1 := by
        rw [BitVec.toNat_sub_of_le]
        · rw [BitVec.toNat_twoPow_of_lt hk]
          have : (1#W).toNat = 1 := by
            simp; omega
          rw [this]
        · rw [BitVec.le_def, BitVec.toNat_twoPow_of_lt hk]
          have : (1#W).toNat = 1 := by
            simp; omega
          rw [this]
          exact Nat.one_le_two_pow
      rw [← BitVec.testBit_toNat, hn, Nat.testBit_two_pow_sub_one]
      by_cases c : len ≤ i
      · have : W - 1 - i < W - len := by omega
        simp [c, this]
      · have : ¬ W - 1 - i < W - len := by omega
        simp [c, this]
    rw [key]
    by_cases c : i < len
    · have : ¬ len ≤ i := by omega
      simp [c, this]
    · have : len ≤ i := by omega
      simp [c, this]

theorem clean_truncate (x : BitVec W) {len : Nat} (hl : len ≤ W) :
    PrefixId.Clean (⟨truncateToLen x len, len⟩ : PrefixId W) := by
  refine ⟨hl, fun i hi => ?_⟩
  rw [getMsbD_truncateToLen x hl]
  have : ¬ i < len := by simpa using hi
  simp [this]

theorem truncate_eq_iff {x : BitVec W} {n : PrefixId W} (hn : n.Clean) :
    truncateToLen x n.len = n.bits ↔ ∀ i < n.len, x.getMsbD i = n.bits.getMsbD i := by
  constructor
  · intro h i hi
    rw [← h, getMsbD_truncateToLen x hn.1]; simp [hi]
  · intro h
    apply ext_msb
    intro i _
    rw [getMsbD_truncateToLen x hn.1]
    by_cases c : i < n.len
    · simp [c, h i c]
    · simp [c, hn.2 i (by omega)]

theorem Clean.eq_of_bits {a b : PrefixId W} (ha : a.Clean) (hb : b.Clean) (hl : a.len = b.len)
    (h : ∀ i < a.len, a.bits.getMsbD i = b.bits.getMsbD i) : a = b := by
  cases a with | mk ab al => cases b with | mk bb bl =>
  simp only at hl; subst hl
  congr 1
  apply ext_msb
  intro i _
  by_cases c : i < al
  · exact h i c
  · rw [ha.2 i (by simpa using c), hb.2 i (by simpa using c)]

/-! ## Table arithmetic -/

/-- A level that exists for ids of this length. -/
def ValidLevel (len lvl : Nat) : Prop := lvl = 0 ∨ 4 * lvl < len

theorem nodesetSize_eq {len lvl : Nat} (h : 4 * (lvl + 1) ≤ 255) :
    nodesetSize len lvl = some (4 - (4 * (lvl + 1) - len)) := by
  simp [nodesetSize, h]

theorem prevNodeSize_eq {len lvl : Nat} (h : ValidLevel len lvl) (hb : 4 * lvl ≤ 255) :
    prevNodeSize len lvl = some (4 * lvl) := by
  have h1 : lvl * 4 - len = 0 := by rcases h with rfl | h <;> omega
  have h2 : lvl * 4 ≤ 255 := by omega
  simp [prevNodeSize, h1, h2, Nat.mul_comm]

/-- Number of bits of the id hashed at this level. -/
def lvlBits (len lvl : Nat) : Nat := min 4 (len - 4 * lvl)

theorem hashId_eq [hW : Fam W] {id : PrefixId W} {lvl : Nat} (hc : id.Clean)
    (h : ValidLevel id.len lvl) : hashId id lvl = some (nib id.bits (4 * lvl) (lvlBits id.len lvl)) := by
  have hlen := hc.1
  have hW' := hW.width
  have hb : 4 * (lvl + 1) ≤ 255 := by rcases h with rfl | h <;> omega
  unfold hashId
  rw [prevNodeSize_eq h (by omega), nodesetSize_eq hb]
  simp only [Option.bind_some]
  have e : 4 - (4 * (lvl + 1) - id.len) = lvlBits id.len lvl := by
    unfold lvlBits; rcases h with rfl | h <;> omega
  rw [e]
  have hle : lvlBits id.len lvl ≤ 4 := by unfold lvlBits; omega
  have hsum : 4 * lvl + lvlBits id.len lvl ≤ W := by
    unfold lvlBits; rcases h with rfl | h <;> omega
  have h1 : 4 * lvl < W ∧ lvlBits id.len lvl ≤ W := by
    rcases h with rfl | h <;> omega
  rw [if_pos h1]
  congr 1
  by_cases h0 : lvlBits id.len lvl = 0
  · -- length zero
    have hl0 : id.len = 0 ∧ lvl = 0 := by
      unfold lvlBits at h0; rcases h with rfl | h <;> omega
    obtain ⟨hl, rfl⟩ := hl0
    have hz : id.bits = 0#W := by
      apply ext_msb; intro i _; rw [hc.2 i (by omega)]; simp
    rw [h0, hz]; simp [nib]
  · have : (W - lvlBits id.len lvl) % W = W - lvlBits id.len lvl := Nat.mod_eq_of_lt (by omega)
    rw [this]
    exact nib_mod _ hsum hle

/-- The slot index of an id at a level. -/
def hIdx (id : PrefixId W) (lvl : Nat) : Nat := nib id.bits (4 * lvl) (lvlBits id.len lvl)

theorem lvl_sum [hW : Fam W] {id : PrefixId W} {lvl : Nat} (hc : id.Clean)
    (h : ValidLevel id.len lvl) : 4 * lvl + lvlBits id.len lvl ≤ W := by
  have := hc.1; have := hW.width
  unfold lvlBits; rcases h with rfl | h <;> omega

theorem hIdx_lt [Fam W] {id : PrefixId W} {lvl : Nat} (hc : id.Clean)
    (h : ValidLevel id.len lvl) : hIdx id lvl < 2 ^ lvlBits id.len lvl :=
  nib_lt _ (lvl_sum hc h)

/-- Ids of the same length that agree at every level are equal. -/
theorem eq_of_hIdx [Fam W] {a b : PrefixId W} (ha : a.Clean) (hb : b.Clean) (hl : a.len = b.len)
    (h : ∀ lvl, ValidLevel a.len lvl → hIdx a lvl = hIdx b lvl) : a = b := by
  apply Clean.eq_of_bits ha hb hl
  intro i hi
  have hv : ValidLevel a.len (i / 4) := by unfold ValidLevel; omega
  have hs := lvl_sum ha hv
  have := h (i / 4) hv
  unfold hIdx at this
  rw [← hl] at this
  refine nib_inj hs this i (by omega) ?_
  unfold lvlBits; omega

end Rotonda
