/-!
# Basic types
-/

namespace Rotonda

/-- The two address families: `src/types/af.rs` 91-93 (`BITS = 32`) and 172-175
(`BITS = 128`).  Everything is generic over the width. -/
class Fam (W : Nat) : Prop where
  width : W = 32 ∨ W = 128

instance : Fam 32 := ⟨.inl rfl⟩
instance : Fam 128 := ⟨.inr rfl⟩

/-- `src/types/prefix_id.rs` 12-30 (`PrefixId { len: u8, bits: AF }`) and
`src/tree_bitmap/tree_bitmap_node.rs` 630-634 (`NodeId { bits, len }`).
Simplification: `len : u8` is a natural number; every place where the `u8`
arithmetic of the code could overflow is an explicit panic in the model. -/
structure PrefixId (W : Nat) where
  bits : BitVec W
  len : Nat
  deriving DecidableEq, Repr

/-- `src/tree_bitmap/tree_bitmap_node.rs` 630-634. -/
abbrev NodeId (W : Nat) := PrefixId W

/-- A multi unique id, `u32` (`src/types/prefix_record.rs` 18-24). -/
abbrev Mui := BitVec 32

/-- A logical time, `u64` (`src/types/prefix_record.rs` 18-24). -/
abbrev LTime := BitVec 64

/-- `src/types/route_status.rs` 20-27. -/
inductive RouteStatus
  | active
  | inActive
  | withdrawn
  deriving DecidableEq, Repr

/-- `src/types/bit_span.rs` 19-22 (`BitSpan { bits: u32, len: u8 }`). -/
structure BitSpan where
  bits : Nat
  len : Nat
  deriving DecidableEq, Repr

/-- `inetnum::addr::Prefix`, the prefix type of the public API, for one family:
an address and a length, at most the width, with all host bits zero (the
constructor of `inetnum` refuses anything else). -/
structure Prefix (W : Nat) where
  bits : BitVec W
  len : Nat
  le : len ≤ W
  host : ∀ i, len ≤ i → bits.getMsbD i = false

/-- `src/types/prefix_id.rs` 59-73, `From<Prefix> for PrefixId`. -/
def Prefix.id {W : Nat} (p : Prefix W) : PrefixId W := ⟨p.bits, p.len⟩

theorem Prefix.id_inj {W : Nat} {p q : Prefix W} (h : p.id = q.id) : p = q := by
  cases p; cases q; simp only [Prefix.id, PrefixId.mk.injEq] at h; simp [h]

instance {W : Nat} : DecidableEq (Prefix W) := fun p q =>
  if h : p.id = q.id then .isTrue (Prefix.id_inj h) else .isFalse (fun e => h (e ▸ rfl))

/-- `src/types/prefix_id.rs` 78-82, `From<PrefixId> for Prefix`:
`Prefix::new(addr, len).unwrap()`, which panics (`none`) when the length is too
large or a host bit is set. -/
def PrefixId.toPrefix {W : Nat} (p : PrefixId W) : Option (Prefix W) :=
  if h : p.len ≤ W ∧ ∀ i, i < W → p.len ≤ i → p.bits.getMsbD i = false then
    some ⟨p.bits, p.len, h.1, fun i hi => by
      by_cases hw : i < W
      · exact h.2 i hw hi
      · exact BitVec.getMsbD_of_ge _ _ (by omega)⟩
  else none

end Rotonda
