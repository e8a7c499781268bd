import Verif.Model.Af

/-!
# Chained hash table arithmetic (`src/cht/mod.rs`) and slot addresses
-/

namespace Rotonda

variable {W : Nat}

/-- `src/cht/mod.rs` 95-105, `nodeset_size`:
`4.saturating_sub((4 * (lvl + 1)).saturating_sub(len))`; `none` when the `u8`
product overflows (the `debug_assert!`). -/
def nodesetSize (len lvl : Nat) : Option Nat :=
  if 4 * (lvl + 1) ≤ 255 then some (4 - (4 * (lvl + 1) - len)) else none

/-- `src/cht/mod.rs` 159-169, `prev_node_size`:
`(lvl * 4) - lvl.saturating_sub(len >> 2) * ((lvl * 4).saturating_sub(len))`;
`none` when a `u8` operation overflows. -/
def prevNodeSize (len lvl : Nat) : Option Nat :=
  if lvl * 4 ≤ 255 ∧ (lvl - len / 4) * (lvl * 4 - len) ≤ lvl * 4 then
    some (lvl * 4 - (lvl - len / 4) * (lvl * 4 - len))
  else none

/-- `src/tree_bitmap/mod.rs` 1045-1063, `hash_node_id`, and
`src/prefix_cht/cht.rs` 831-851, `hash_prefix_id` (same text):
`((bits << last_level) >> ((BITS - size) % BITS))` truncated to `u32`.
`none` when a shift is not smaller than the width (the `debug_assert!`s). -/
def hashId (id : PrefixId W) (lvl : Nat) : Option Nat :=
  (prevNodeSize id.len lvl).bind fun last =>
    (nodesetSize id.len lvl).bind fun size =>
      if last < W ∧ size ≤ W then
        some (((id.bits <<< last) >>> ((W - size) % W)).toNat % 2 ^ 32)
      else none

/-- `init_with_p2_children` (`src/tree_bitmap/node_cht.rs` 83-95,
`src/prefix_cht/cht.rs` 510-513): number of slots of a bucket. -/
def slotsForP2 (p2 : Nat) : Nat := if p2 = 0 then 0 else 2 ^ p2

/-- Address of a slot: index into the root array and the slot indices followed
from there.  This names the `OnceBox` reached by that pointer path. -/
structure Addr where
  root : Nat
  path : List Nat
  deriving DecidableEq, Repr

/-- A bucket (`NodeSet`/`PrefixSet`, `OnceBoxSlice`): where it hangs and how
many slots it has. -/
structure Bucket where
  root : Nat
  path : List Nat
  size : Nat

/-- Slot `idx` of a bucket. -/
def Bucket.slot (b : Bucket) (idx : Nat) : Addr := ⟨b.root, b.path ++ [idx]⟩

/-- The bucket hanging off the entry stored in slot `idx`. -/
def Bucket.child (b : Bucket) (idx : Nat) (size : Nat) : Bucket := ⟨b.root, b.path ++ [idx], size⟩

/-- Number of levels after which the `u8` level counter arithmetic overflows
(`4 * (lvl + 1)` in `nodeset_size`); the chain walks below panic there. -/
def maxLevels : Nat := 64

end Rotonda
