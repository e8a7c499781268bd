import Verif.Model.Basic

/-!
# What addresses and spans of bits are

The bits of an address are counted from the most significant one, the octets from the left.
-/

namespace Rotonda.Spec

/-- Octet `i` of an address. -/
def octet {W : Nat} (x : BitVec W) (i : Nat) : Nat := x.toNat / 2 ^ (W - 8 * (i + 1)) % 256

/-- `v` is the number made of the bits `start`, …, `start + len - 1` of an address. -/
def IsSpan {W : Nat} (x : BitVec W) (start len v : Nat) : Prop :=
  v < 2 ^ len ∧ ∀ i, i < len → v.testBit (len - 1 - i) = x.getMsbD (start + i)

/-- There are no bits from `len` on. -/
def NoBitsFrom {W : Nat} (x : BitVec W) (len : Nat) : Prop := ∀ i, len ≤ i → x.getMsbD i = false

end Rotonda.Spec
