import Verif.Model.Node
import Verif.Proofs.Bits

/-!
# Bit positions inside a node
-/

namespace Rotonda

variable {W : Nat}

/-- Length of the node that hosts a prefix (of length at least 1). -/
def hostLen (len : Nat) : Nat := 4 * ((len - 1) / 4)

/-- The node that hosts a prefix. -/
def hostId (p : PrefixId W) : NodeId W := ⟨truncateToLen p.bits (hostLen p.len), hostLen p.len⟩

/-- Index, from the most significant bit, of the prefix in the bit array of its
host node. -/
def pfxPos (p : PrefixId W) : Nat :=
  2 ^ (p.len - hostLen p.len) - 1 + nib p.bits (hostLen p.len) (p.len - hostLen p.len)

/-- Bit mask for position `i` from the most significant bit. -/
def posMask (i : Nat) : BitVec 32 := 1#32 <<< (31 - i)

theorem intoBitPos_eq {b : BitSpan} (h1 : b.len ≤ 4) (h2 : b.bits < 2 ^ b.len) :
    b.intoBitPos = some (posMask (2 ^ b.len - 1 + b.bits)) := by
  unfold BitSpan.intoBitPos posMask
  have : 2 ^ b.len ≤ 2 ^ 4 := Nat.pow_le_pow_right (by omega) h1
  rw [Nat.mod_eq_of_lt (show b.bits < 256 by omega), if_pos (by omega)]
  congr 2
  omega

theorem posMask_msb {i : Nat} (hi : i < 32) (j : Nat) :
    (posMask i).getMsbD j = decide (j = i) := by
  unfold posMask
  rw [BitVec.getMsbD_eq_getLsbD]
  by_cases hj : j < 32
  · simp only [hj, decide_true, Bool.true_and, BitVec.getLsbD_shiftLeft, BitVec.getLsbD_one]
    rw [Bool.eq_iff_iff]; simp; omega
  · have : ¬ j = i := by omega
    simp [hj, this]

theorem and_posMask_eq_zero {x : BitVec 32} {i : Nat} (hi : i < 32) :
    (x &&& posMask i) = 0#32 ↔ x.getMsbD i = false := by
  constructor
  · intro h
    have := congrArg (fun y => y.getMsbD i) h
    simpa [BitVec.getMsbD_and, posMask_msb hi] using this
  · intro h
    apply ext_msb
    intro j _
    rw [BitVec.getMsbD_and, posMask_msb hi]
    by_cases c : j = i
    · subst c; simp [h]
    · simp [c]

theorem and_posMask_pos {x : BitVec 32} {i : Nat} (hi : i < 32) :
    0 < (x &&& posMask i).toNat ↔ x.getMsbD i = true := by
  have h : (0 < (x &&& posMask i).toNat) ↔ ¬ ((x &&& posMask i) = 0#32) := by
    rw [← BitVec.toNat_inj]; simp; omega
  rw [h, and_posMask_eq_zero hi]; simp

theorem or_posMask_msb {x : BitVec 32} {i : Nat} (hi : i < 32) (j : Nat) :
    (posMask i ||| x).getMsbD j = (decide (j = i) || x.getMsbD j) := by
  rw [BitVec.getMsbD_or, posMask_msb hi]

theorem intoPfx_msb (x : BitVec 16) (j : Nat) :
    (intoPfxBitArr x).getMsbD j = (decide (15 ≤ j) && x.getMsbD (j - 15)) := by
  unfold intoPfxBitArr
  rw [BitVec.getMsbD_eq_getLsbD, BitVec.getMsbD_eq_getLsbD, BitVec.getLsbD_shiftLeft,
    BitVec.getLsbD_setWidth]
  by_cases hj : j < 32
  · by_cases h15 : 15 ≤ j
    · by_cases h31 : j = 31
      · subst h31; simp
      · have e1 : 32 - 1 - j - 1 = 16 - 1 - (j - 15) := by omega
        have e2 : ¬ (32 - 1 - j < 1) := by omega
        have e3 : 32 - 1 - j < 32 := by omega
        have e4 : 32 - 1 - j - 1 < 32 := by omega
        have e5 : j - 15 < 16 := by omega
        simp only [e1, e2, e3, e5, h15, hj, decide_true, decide_false, Bool.true_and, Bool.not_false]
        simp; intro; omega
    · have : x.getLsbD (32 - 1 - j - 1) = false := BitVec.getLsbD_of_ge _ _ (by omega)
      rw [this]; simp [h15]
  · have : ¬ (j - 15 < 16) := by omega
    simp [hj, this]

theorem intoPtr_msb (x : BitVec 32) (j : Nat) :
    (intoPtrBitArr x).getMsbD j = (decide (j < 16) && x.getMsbD (j + 15)) := by
  unfold intoPtrBitArr
  rw [BitVec.getMsbD_eq_getLsbD, BitVec.getMsbD_eq_getLsbD, BitVec.getLsbD_setWidth,
    BitVec.getLsbD_ushiftRight]
  by_cases hj : j < 16
  · have e1 : 16 - 1 - j < 16 := by omega
    have e2 : j + 15 < 32 := by omega
    have e3 : 1 + (16 - 1 - j) = 32 - 1 - (j + 15) := by omega
    simp [hj, e2, e3]; intro; omega
  · simp [hj]

theorem ptr_test {x : BitVec 16} {v : Nat} (hv : v < 16) :
    (intoPfxBitArr x &&& posMask (15 + v)) = 0#32 ↔ x.getMsbD v = false := by
  rw [and_posMask_eq_zero (by omega), intoPfx_msb]
  simp

theorem ptr_set_msb {x : BitVec 16} {v : Nat} (hv : v < 16) (j : Nat) :
    (intoPtrBitArr (posMask (15 + v) ||| intoPfxBitArr x)).getMsbD j =
      (decide (j = v) || x.getMsbD j) := by
  rw [intoPtr_msb, or_posMask_msb (by omega), intoPfx_msb]
  by_cases hj : j < 16
  · simp only [hj, decide_true, Bool.true_and]
    congr 1
    · rw [Bool.eq_iff_iff]; simp; omega
  · have : ¬ j = v := by omega
    simp [hj, this, BitVec.getMsbD_of_ge _ _ (by omega : 16 ≤ j)]

theorem hostLen_lt {len : Nat} (h : 0 < len) : hostLen len < len := by unfold hostLen; omega
theorem hostLen_le4 {len : Nat} : len - hostLen len ≤ 4 := by unfold hostLen; omega
theorem hostLen_dvd (len : Nat) : 4 ∣ hostLen len := ⟨_, rfl⟩

theorem hostLen_le (len : Nat) : hostLen len ≤ len := by unfold hostLen; omega

theorem pfxPos_lt {p : PrefixId W} (hp : p.Clean) : pfxPos p < 31 := by
  unfold pfxPos
  have h1 := hostLen_le p.len
  have h := nib_lt p.bits (start := hostLen p.len) (len := p.len - hostLen p.len)
    (by have := hp.1; omega)
  have h2 : 2 ^ (p.len - hostLen p.len) ≤ 2 ^ 4 :=
    Nat.pow_le_pow_right (by omega) hostLen_le4
  omega

/-- Position and host determine the prefix. -/
theorem pfxPos_inj {p q : PrefixId W} (hp : p.Clean) (hq : q.Clean)
    (hh : hostId p = hostId q) (hpos : pfxPos p = pfxPos q) : p = q := by
  have hb : truncateToLen p.bits (hostLen p.len) = truncateToLen q.bits (hostLen q.len) :=
    congrArg PrefixId.bits hh
  have hl : hostLen p.len = hostLen q.len := congrArg PrefixId.len hh
  have hple := hostLen_le p.len
  have hqle := hostLen_le q.len
  have hpW := hp.1
  have hqW := hq.1
  have np := nib_lt p.bits (start := hostLen p.len) (len := p.len - hostLen p.len) (by omega)
  have nq := nib_lt q.bits (start := hostLen q.len) (len := q.len - hostLen q.len) (by omega)
  unfold pfxPos at hpos
  have hlen : p.len - hostLen p.len = q.len - hostLen q.len := by
    rcases Nat.lt_trichotomy (p.len - hostLen p.len) (q.len - hostLen q.len) with h | h | h
    · have : 2 ^ (p.len - hostLen p.len + 1) ≤ 2 ^ (q.len - hostLen q.len) :=
        Nat.pow_le_pow_right (by omega) h
      rw [Nat.pow_succ] at this
      omega
    · exact h
    · have : 2 ^ (q.len - hostLen q.len + 1) ≤ 2 ^ (p.len - hostLen p.len) :=
        Nat.pow_le_pow_right (by omega) h
      rw [Nat.pow_succ] at this
      omega
  have hlen' : p.len = q.len := by omega
  have hnib : nib p.bits (hostLen p.len) (p.len - hostLen p.len) =
      nib q.bits (hostLen p.len) (p.len - hostLen p.len) := by
    rw [hlen'] at hpos ⊢
    omega
  apply Clean.eq_of_bits hp hq hlen'
  intro i hi
  by_cases c : i < hostLen p.len
  · have := congrArg (fun x => x.getMsbD i) hb
    simp only [getMsbD_truncateToLen _ (by omega : hostLen p.len ≤ W),
      getMsbD_truncateToLen _ (by omega : hostLen q.len ≤ W)] at this
    have c' : i < hostLen q.len := by omega
    simpa [c, c'] using this
  · exact nib_inj (by omega) hnib i (by omega) (by omega)

theorem nodeLenLoop_eq {len : Nat} (hl : len ≤ 128) : ∀ (fuel acc : Nat), 4 ∣ acc →
    len + 4 ≤ acc + 4 * fuel → (acc = 0 ∨ acc < len) → acc ≤ hostLen len →
    nodeLenLoop len fuel acc = some (hostLen len) := by
  intro fuel
  induction fuel with
  | zero => intro acc h h1 h2 h3; omega
  | succ n ih =>
    intro acc h h1 h2 h3
    have hb : acc + 4 ≤ 255 := by omega
    unfold nodeLenLoop
    rw [if_pos hb]
    unfold hostLen at h3 ⊢
    split
    · congr 1; omega
    · exact ih (acc + 4) (by omega) (by omega) (by omega) (by unfold hostLen; omega)

theorem nodeIdForPrefix_eq [hW : Fam W] {p : PrefixId W} (hp : p.Clean) (h0 : 0 < p.len) :
    nodeIdForPrefix p = some (hostId p,
      ⟨nib p.bits (hostLen p.len) (p.len - hostLen p.len), p.len - hostLen p.len⟩) := by
  have hpW := hp.1
  have hw := hW.width
  have h1 := hostLen_lt h0
  have h2 := hostLen_le4 (len := p.len)
  unfold nodeIdForPrefix
  rw [nodeLenLoop_eq (by omega) maxLevels 0 (by omega) (by unfold maxLevels; omega) (.inl rfl) (by omega)]
  simp only [Option.bind_some]
  rw [if_pos (by omega)]
  unfold checkedShrOrZero
  rw [if_neg (by omega), if_pos (by omega)]
  simp only [Option.bind_some]
  rw [← nib_mod p.bits (start := hostLen p.len) (by omega) h2]
  rfl

/-- For the default route: host is the root node, position 0. -/
theorem nodeIdForPrefix_zero [hW : Fam W] {p : PrefixId W} (h0 : p.len = 0) :
    nodeIdForPrefix p = some (NodeId.newCleaned p.bits 0, ⟨0, 0⟩) := by
  have hw := hW.width
  unfold nodeIdForPrefix
  rw [nodeLenLoop_eq (by omega) maxLevels 0 (by omega) (by unfold maxLevels; omega) (.inl rfl) (by omega)]
  simp only [Option.bind_some, hostLen, h0]
  rw [if_pos (by omega)]
  simp [checkedShrOrZero]

end Rotonda
