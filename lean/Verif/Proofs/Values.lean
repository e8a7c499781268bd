import Verif.Model.Values
import Verif.Spec.Values
import Verif.Proofs.LsmBytes
import Verif.Proofs.Disk
import Verif.Proofs.IterBits
import Verif.Proofs.TreeInsert

/-!
# Lemmas about addresses, bytes and spans of bits
-/

namespace Rotonda

variable {W : Nat}

theorem natToLE_get (k n i : Nat) (h : i < k) :
    (natToLE k n)[i]? = some (BitVec.ofNat 8 (n / 256 ^ i)) := by
  induction k generalizing n i with
  | zero => omega
  | succ k ih =>
    cases i with
    | zero => simp [natToLE]
    | succ i =>
      simp only [natToLE, List.getElem?_cons_succ]
      rw [ih _ _ (by omega), Nat.div_div_eq_div_mul, ← Nat.pow_succ']

theorem fam8 [hW : Fam W] : 8 * (W / 8) = W := by rcases hW.width with rfl | rfl <;> rfl

theorem beBytes_length (x : BitVec W) : (beBytes x).length = W / 8 := by
  simp [beBytes]

theorem beBytes_get [Fam W] (x : BitVec W) {i : Nat} (h : i < W / 8) :
    (beBytes x)[i]? = some (BitVec.ofNat 8 (Spec.octet x i)) := by
  have h8 := fam8 (W := W)
  unfold beBytes
  rw [List.getElem?_reverse (by simpa using h), natToLE_length, natToLE_get _ _ _ (by omega)]
  congr 1
  apply BitVec.eq_of_toNat_eq
  simp only [BitVec.toNat_ofNat, Spec.octet, pow256]
  rw [show 8 * (W / 8 - 1 - i) = W - 8 * (i + 1) by omega]
  omega

theorem fromOctets_beBytes [Fam W] (x : BitVec W) : afFromOctets W (beBytes x) = x := by
  unfold afFromOctets beBytes
  rw [List.reverse_reverse, leToNat_natToLE, Nat.mod_eq_of_lt (bits_lt x)]
  simp

theorem beBytes_fromOctets [Fam W] {b : Bytes} (h : b.length = W / 8) :
    beBytes (afFromOctets W b) = b := by
  unfold afFromOctets beBytes
  have hl := leToNat_lt b.reverse
  rw [List.length_reverse, h, pow256, fam8] at hl
  rw [BitVec.toNat_ofNat, Nat.mod_eq_of_lt hl]
  have := natToLE_leToNat b.reverse
  rw [List.length_reverse, h] at this
  rw [this, List.reverse_reverse]

theorem intoBitSpan_span {x : BitVec W} {start len : Nat} (h1 : 1 ≤ len) (h32 : len ≤ 32)
    (h : start + len ≤ W) :
    ∃ v, intoBitSpan x start len = some ⟨v, len⟩ ∧ Spec.IsSpan x start len v := by
  refine ⟨nib x start len, ?_, nib_lt x h, fun i hi => ?_⟩
  · unfold intoBitSpan
    rw [if_pos (by omega), Nat.mod_eq_of_lt (show W - len < W by omega)]
    have : nib x start len % 2 ^ 32 = nib x start len :=
      Nat.mod_eq_of_lt (lt_of_lt_of_le (nib_lt x h) (Nat.pow_le_pow_right (by omega) h32))
    rw [← this]
    rfl
  · rw [nib_testBit x h, show start + len - 1 - (len - 1 - i) = start + i by omega]
    simp; omega

theorem addBitSpan_bits {x : BitVec W} {len : Nat} {bs : BitSpan} (h : len + bs.len ≤ W)
    (h0 : 0 < len + bs.len) (hv : bs.bits < 2 ^ bs.len) (hx : Spec.NoBitsFrom x len) :
    ∃ q : PrefixId W, addBitSpanBits x len bs = some q ∧ q.len = len + bs.len ∧
      Spec.NoBitsFrom q.bits q.len ∧ (∀ i, i < len → q.bits.getMsbD i = x.getMsbD i) ∧
      ∀ i, i < bs.len → q.bits.getMsbD (len + i) = bs.bits.testBit (bs.len - 1 - i) := by
  have key : ∀ i, i < W → (x ||| (BitVec.ofNat W bs.bits <<< (W - len - bs.len))).getMsbD i =
      (x.getMsbD i || (decide (i < len + bs.len) && bs.bits.testBit (len + bs.len - 1 - i))) := by
    intro i hi
    rw [BitVec.getMsbD_or, BitVec.getMsbD_shiftLeft]
    congr 1
    by_cases c : i < len + bs.len
    · rw [BitVec.getMsbD_eq_getLsbD, BitVec.getLsbD_ofNat]
      have e : W - 1 - (W - len - bs.len + i) = len + bs.len - 1 - i := by omega
      have e2 : W - len - bs.len + i < W := by omega
      have e3 : len + bs.len - 1 - i < W := by omega
      simp only [Nat.add_comm i] at *
      simp [e, e2, e3, c]
    · rw [BitVec.getMsbD_of_ge _ _ (by omega)]
      simp [c]
  have hge : ∀ i, bs.len ≤ i → bs.bits.testBit i = false := fun i hi =>
    Nat.testBit_lt_two_pow (lt_of_lt_of_le hv (Nat.pow_le_pow_right (by omega) hi))
  refine ⟨_, by unfold addBitSpanBits; rw [if_pos (by omega)], rfl, ?_, ?_, ?_⟩
  · intro i hi
    simp only at hi
    by_cases c : i < W
    · show BitVec.getMsbD _ i = _
      rw [key i c, hx i (by omega)]
      have : ¬ i < len + bs.len := by omega
      simp [this]
    · exact BitVec.getMsbD_of_ge _ _ (by omega)
  · intro i hi
    show BitVec.getMsbD _ i = _
    rw [key i (by omega), hge _ (by omega)]
    simp
  · intro i hi
    show BitVec.getMsbD _ _ = _
    rw [key _ (by omega), hx _ (by omega)]
    have e : len + bs.len - 1 - (len + i) = bs.len - 1 - i := by omega
    simp [e, hi]

theorem isSpan_inj {x y : BitVec W} {s t l v w : Nat} (hv : Spec.IsSpan x s l v)
    (hw : Spec.IsSpan y t l w) (h : ∀ i, i < l → x.getMsbD (s + i) = y.getMsbD (t + i)) : v = w := by
  apply Nat.eq_of_testBit_eq
  intro j
  by_cases c : j < l
  · have h1 := hv.2 (l - 1 - j) (by omega)
    have h2 := hw.2 (l - 1 - j) (by omega)
    rw [show l - 1 - (l - 1 - j) = j by omega] at h1 h2
    rw [h1, h2, h _ (by omega)]
  · rw [Nat.testBit_lt_two_pow (lt_of_lt_of_le hv.1 (Nat.pow_le_pow_right (by omega) (by omega))),
      Nat.testBit_lt_two_pow (lt_of_lt_of_le hw.1 (Nat.pow_le_pow_right (by omega) (by omega)))]

end Rotonda
