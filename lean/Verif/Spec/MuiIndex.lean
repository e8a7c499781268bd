import Verif.Spec.History

/-!
# Which prefixes share a place in the mui index

The store keeps one set of ids per block of prefixes: the prefixes of lengths 1-4,
5-8, 9-12, … that agree on the bits before the block.
-/

namespace Rotonda.Spec

variable {W : Nat}

/-- The first `n` bits agree. -/
def SameBits (n : Nat) (p q : Prefix W) : Prop := ∀ i, i < n → p.bits.getMsbD i = q.bits.getMsbD i

/-- Number of bits before the block of a prefix: 0 for lengths 1-4, 4 for 5-8, … -/
def blockStart (len : Nat) : Nat := 4 * ((len - 1) / 4)

/-- Inserting `q` marks the block of `p`. -/
def Marks (q p : Prefix W) : Prop := blockStart p.len < q.len ∧ SameBits (blockStart p.len) q p

/-- The blocks that stand between the root of the hash table and the block of `p` can
only be blocks of the same length that agree on the first four bits; `m` must be in
all of them. -/
def Unobstructed {M : Type} [Meta M] (h : History M W) (p : Prefix W) (m : Mui) : Prop :=
  ∀ q m', Inserted h q m' → blockStart p.len < q.len → SameBits 4 q p →
    ∃ q', Inserted h q' m ∧ blockStart p.len < q'.len ∧ SameBits (blockStart p.len) q' q

end Rotonda.Spec
