import Verif.Model.Lsm
import Verif.Model.RecordSet
import Verif.Model.TreeIter

/-!
# Addresses, prefixes, bytes and spans of bits (`src/types/af.rs`, `prefix_id.rs`, `bit_span.rs`)

`AddressFamily`, `IPv4`, `IPv6` and `IntoIpAddr` are public.  An address is a `BitVec W`; its
bytes are big endian (`NetworkEndian`, `src/types/af.rs` 89, 170).
-/

namespace Rotonda

/-- `std::net::IpAddr`. -/
inductive IpAddr
  | v4 (x : BitVec 32)
  | v6 (x : BitVec 128)
  deriving DecidableEq

/-- The bytes of a number of `W` bits, most significant first. -/
def beBytes {W : Nat} (x : BitVec W) : Bytes := (natToLE (W / 8) x.toNat).reverse

/-- `Ipv4Addr::octets`, `Ipv6Addr::octets`. -/
def IpAddr.octets : IpAddr → Bytes
  | v4 x => beBytes x
  | v6 x => beBytes x

/-- `AF::ref_from_bytes`, `AF::try_ref_from_bytes`: the size has to be right. -/
def afFromBytes (W : Nat) (b : Bytes) : Option (BitVec W) :=
  if b.length = W / 8 then some (BitVec.ofNat W (leToNat b.reverse)) else none

/-- `src/types/af.rs` 108-110, 182-184, `from_ipaddr`, given the octets. -/
def afFromOctets (W : Nat) (b : Bytes) : BitVec W := BitVec.ofNat W (leToNat b.reverse)

/-- `src/types/af.rs` 126-128, 254-258, `into_ipaddr` of IPv4. -/
def intoIpaddr4 (x : BitVec 32) : IpAddr := .v4 x
/-- `src/types/af.rs` 208-210, 260-264, `into_ipaddr` of IPv6. -/
def intoIpaddr6 (x : BitVec 128) : IpAddr := .v6 x

/-- `src/types/af.rs` 130-133, 212-215, `dangerously_truncate_to_u32`. -/
def truncU32 {W : Nat} (x : BitVec W) : BitVec 32 := BitVec.ofNat 32 x.toNat

/-- `src/types/af.rs` 104-106, 245-247, `from_u32`. -/
def afFromU32 (W : Nat) (v : BitVec 32) : BitVec W := BitVec.ofNat W v.toNat

/-- `src/types/af.rs` 100-102, 241-243, `from_u8`: the value is the last byte. -/
def afFromU8 (W : Nat) (v : Byte) : BitVec W :=
  afFromOctets W (List.replicate (W / 8 - 1) 0#8 ++ [v])

/-- `src/types/af.rs` 150-156, `checked_shl_or_zero` of IPv4: zero for a shift by 0. -/
def checkedShlOrZero4 (x : BitVec 32) (rhs : Nat) : BitVec 32 :=
  if rhs = 0 ∨ 32 ≤ rhs then 0#32 else x <<< rhs

/-- `src/types/af.rs` 225-231, `checked_shl_or_zero` of IPv6. -/
def checkedShlOrZero6 (x : BitVec 128) (rhs : Nat) : BitVec 128 :=
  if 128 ≤ rhs then 0#128 else x <<< rhs

/-- `src/types/af.rs` 158-160, 233-235, `checked_shr`. -/
def checkedShr {W : Nat} (x : BitVec W) (rhs : Nat) : Option (BitVec W) :=
  if rhs < W then some (x >>> rhs) else none

/-- `src/types/af.rs` 162-164, 237-239, `checked_shl`. -/
def checkedShl {W : Nat} (x : BitVec W) (rhs : Nat) : Option (BitVec W) :=
  if rhs < W then some (x <<< rhs) else none

/-- `inetnum::addr::Prefix::addr`. -/
def AnyPrefix.addr : AnyPrefix → IpAddr
  | v4 p => .v4 p.bits
  | v6 p => .v6 p.bits

/-- `inetnum::addr::Prefix::len`. -/
def AnyPrefix.length : AnyPrefix → Nat
  | v4 p => p.len
  | v6 p => p.len

/-- `src/types/prefix_id.rs` 59-73, `From<Prefix> for PrefixId`, through the octets of the
address; panics for a prefix of the other family.  (`Prefix.id` is the same for a prefix whose
family is known, `PrefixId.toPrefix` the way back.) -/
def PrefixId.ofPrefix (W : Nat) (p : AnyPrefix) : Option (PrefixId W) :=
  (afFromBytes W p.addr.octets).map fun x => ⟨x, p.length⟩

/-- `src/types/prefix_id.rs` 84-95, `From<[u8; PREFIX_SIZE]> for PrefixId`, and 97-106 for
references; panics when the size is wrong. -/
def PrefixId.ofBytes (W : Nat) : Bytes → Option (PrefixId W)
  | [] => none
  | l :: b => (afFromBytes W b).map fun x => ⟨x, l.toNat⟩

/-- `src/types/bit_span.rs` 61-63, `cursor_from_bit_span`. -/
def BitSpan.cursor (b : BitSpan) : Option Nat := b.intoBitPos.map leadingZeros

end Rotonda
