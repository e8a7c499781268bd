import Verif.Model.Basic

/-!
# Address arithmetic (`src/types/af.rs`, `src/types/prefix_id.rs`,
# `src/types/bit_span.rs`)

`u32`/`u128` values are `BitVec W`.  A function returns `none` where the Rust
code would panic on overflow in a checked build.
-/

namespace Rotonda

variable {W : Nat}

/-- `src/types/af.rs` 135-140 (IPv4) and 201-206 (IPv6), `truncate_to_len`:
`self & ((1.rotate_right(len) ^ 1.saturating_sub(len)).wrapping_sub(1) ^ MAX)`. -/
def truncateToLen (x : BitVec W) (len : Nat) : BitVec W :=
  x &&& ((((1#W).rotateRight len ^^^ BitVec.ofNat W (1 - len)) - 1#W) ^^^ BitVec.allOnes W)

/-- `src/types/af.rs` 112-119 (IPv4), 186-194 (IPv6), `into_bit_span`:
`(net << start) >> ((BITS - len) % BITS)`, truncated to `u32`.
Panics if the left shift is not smaller than the width or `len > BITS`. -/
def intoBitSpan (net : BitVec W) (start len : Nat) : Option BitSpan :=
  if start < W ∧ len ≤ W then
    some ⟨((net <<< start) >>> ((W - len) % W)).toNat % 2 ^ 32, len⟩
  else none

/-- `src/types/af.rs` 121-124 (IPv4), 196-199 (IPv6), `add_bit_span`:
`self | (bs.bits << (BITS - len - bs.len))`, new length `len + bs.len`.
Panics if `BITS - len - bs.len` underflows or the shift equals the width. -/
def addBitSpanBits (x : BitVec W) (len : Nat) (bs : BitSpan) : Option (PrefixId W) :=
  if len + bs.len ≤ W ∧ W - len - bs.len < W then
    some ⟨x ||| (BitVec.ofNat W bs.bits <<< (W - len - bs.len)), len + bs.len⟩
  else none

/-- `src/types/af.rs` 142-148 (IPv4), 217-223 (IPv6), `checked_shr_or_zero`:
note that a shift by 0 gives 0 as well.  Panics for larger shifts. -/
def checkedShrOrZero (x : BitVec W) (rhs : Nat) : Option (BitVec W) :=
  if rhs = 0 ∨ rhs = W then some 0#W
  else if rhs < W then some (x >>> rhs) else none

/-- `src/types/prefix_id.rs` 48-53, `PrefixId::truncate_to_len`. -/
def PrefixId.truncateTo (p : PrefixId W) (len : Nat) : PrefixId W :=
  ⟨truncateToLen p.bits len, len⟩

/-- `src/tree_bitmap/tree_bitmap_node.rs` 647-652, `NodeId::new_with_cleaned_id`. -/
def NodeId.newCleaned (bits : BitVec W) (len : Nat) : NodeId W :=
  ⟨truncateToLen bits len, len⟩

/-- `src/tree_bitmap/tree_bitmap_node.rs` 662-677, `add_to_len(STRIDE_SIZE)`
followed by `truncate_to_len()`. -/
def NodeId.nextStride (n : NodeId W) : NodeId W :=
  ⟨truncateToLen n.bits (n.len + 4), n.len + 4⟩

/-- `src/tree_bitmap/tree_bitmap_node.rs` 679-683, `NodeId::add_bit_span`
(cleans the bits first). -/
def NodeId.addBitSpan (n : NodeId W) (bs : BitSpan) : Option (PrefixId W) :=
  addBitSpanBits (truncateToLen n.bits n.len) n.len bs

/-- Number of one bits of a byte, as used by `count_ones` in
`src/types/bit_span.rs` 38. -/
def popCount8 (i : BitVec 8) : Nat :=
  (List.range 8).countP (fun k => i.getLsbD k)

/-- `src/types/bit_span.rs` 32-43, `BitSpan::from_bit_pos_index`.
`none` when `i += 1` or the final subtraction overflows. -/
def BitSpan.fromBitPosIndex (i : Nat) : Option BitSpan :=
  if i + 1 < 256 then
    let i1 : BitVec 8 := BitVec.ofNat 8 (i + 1)
    let i2 := i1 ||| (i1 >>> 1)
    let i3 := i2 ||| (i2 >>> 2)
    let i4 := i3 ||| (i3 >>> 3)
    let l := popCount8 (i4 >>> 1)
    if 2 ^ l - 1 ≤ i then some ⟨i - (2 ^ l - 1), l⟩ else none
  else none

/-- `src/types/bit_span.rs` 45-52, `BitSpan::check` (used in `debug_assert!`s).
The shift `self.bits << (32 - self.len)` is a `u32` shift; for `len = 0` and bits from 1 to 15 it
overflows, which is the same as a failed assertion. -/
def BitSpan.check (b : BitSpan) : Bool :=
  if b.len = 0 ∧ b.bits = 0 then true
  else decide (b.len < 5) && decide (b.bits < 16) && decide (0 < b.len) &&
    decide (((BitVec.ofNat 32 b.bits <<< (32 - b.len)) >>> (32 - b.len)) = BitVec.ofNat 32 b.bits)

/-- `src/types/bit_span.rs` 54-59, `BitSpan::into_bit_pos`:
`1 << (32 - ((1 << len) - 1) - bits - 1)`; `none` when a `u8` subtraction
underflows.  `bits` is cut to a byte; so is `(1 << len) - 1`, which changes nothing: from 8 bits
on the byte is 255 (or the shift overflows) and the subtraction underflows either way. -/
def BitSpan.intoBitPos (b : BitSpan) : Option (BitVec 32) :=
  if (2 ^ b.len - 1) + b.bits % 256 + 1 ≤ 32 then
    some (1#32 <<< (32 - (2 ^ b.len - 1) - b.bits % 256 - 1))
  else none

end Rotonda
