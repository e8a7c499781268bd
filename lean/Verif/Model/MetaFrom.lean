import Verif.Model.Rib
import Mathlib.Data.Nat.Basic
import Mathlib.Order.Basic

/-!
# Metadata types

The conversion `From<Vec<u8>>` of a metadata type is code of the user and may panic on bytes
it does not expect; the other modules take it to be total.  Here is the query that rebuilds
metadata, with a conversion that may panic, and the metadata types of
`src/types/test_types.rs`.
-/

namespace Rotonda

variable {M : Type} {W : Nat}

/-- `src/rib/starcast_af_query.rs` 53-71: decode one entry; the outer `none` is a panic of
the conversion. -/
def decodeEntryP (W : Nat) (conv : Bytes → Option M) (b : FatalResult Bytes) :
    Option (FatalResult (Record M)) :=
  match b with
  | .ok b => match decodeRecord W b with
    | some z => (conv z.md).map fun m => .ok ⟨z.mui, z.ltime, z.status, m⟩
    | none => some (.error ())
  | .error _ => some (.error ())

/-- `src/rib/starcast_af_query.rs` 49-72: `collect` stops at the first error. -/
def decodeAllP (W : Nat) (conv : Bytes → Option M) :
    List (FatalResult Bytes) → Option (FatalResult (List (Record M)))
  | [] => some (.ok [])
  | b :: bs =>
    match decodeEntryP W conv b with
    | none => none
    | some (.error e) => some (.error e)
    | some (.ok r) => (decodeAllP W conv bs).map fun x => x.map (r :: ·)

/-- `src/rib/starcast_af_query.rs` 32-84, `get_value`, with `PersistOnly`. -/
def getValueP (conv : Bytes → Option M) (p : PrefixId W) (mui : Option Mui) (iw : Bool) :
    Prog (Rib M W) (FatalResult (Option (List (Record M)))) := do
  let bmin ← withdrawnMuis.zoom Rib.treeL
  let res ← Prog.read fun r : Rib M W => recordsForPrefix r.lsm p mui iw bmin
  match ← Prog.ofOption res with
  | none => return .ok none
  | some l =>
    match ← Prog.ofOption (decodeAllP W conv l) with
    | .ok rs => return .ok (some rs)
    | .error e => return .error e

/-! ## `src/types/test_types.rs` -/

/-- `[u8; 4]` -/
structure Bytes4 where
  a : Byte
  b : Byte
  c : Byte
  d : Byte
  deriving DecidableEq

/-- `as_ref()` of an array. -/
def Bytes4.bytes (x : Bytes4) : Bytes := [x.a, x.b, x.c, x.d]

/-- `first_chunk::<4>()` -/
def firstChunk4 : Bytes → Option Bytes4
  | a :: b :: c :: d :: _ => some ⟨a, b, c, d⟩
  | _ => none

/-- `u32::from_le_bytes` -/
def Bytes4.le (x : Bytes4) : BitVec 32 := x.d ++ x.c ++ x.b ++ x.a

/-- `u32::from_be_bytes` -/
def Bytes4.be (x : Bytes4) : BitVec 32 := x.a ++ x.b ++ x.c ++ x.d

/-- `u32::to_le_bytes` -/
def Bytes4.ofLe (n : BitVec 32) : Bytes4 :=
  ⟨n.extractLsb' 0 8, n.extractLsb' 8 8, n.extractLsb' 16 8, n.extractLsb' 24 8⟩

/-- `u32::to_be_bytes`; also `Asn::to_raw`. -/
def Bytes4.ofBe (n : BitVec 32) : Bytes4 :=
  ⟨n.extractLsb' 24 8, n.extractLsb' 16 8, n.extractLsb' 8 8, n.extractLsb' 0 8⟩

/-- `src/types/test_types.rs` 5-8, `NoMeta`. -/
inductive NoMeta
  | empty
  deriving DecidableEq

/-- `src/types/test_types.rs` 22-38. -/
instance : Meta NoMeta where
  TBI := Unit
  Orderable := Unit
  ord := inferInstance
  asOrderable _ _ := ()
  toBytes _ := []
  ofBytes _ := .empty

/-- `src/types/test_types.rs` 42-43, `BeBytesAsn`. -/
structure BeBytesAsn where
  raw : Bytes4
  deriving DecidableEq

/-- `src/types/test_types.rs` 45-68. -/
instance : Meta BeBytesAsn where
  TBI := Unit
  Orderable := Nat
  ord := inferInstance
  asOrderable m _ := m.raw.be.toNat
  toBytes m := m.raw.bytes
  ofBytes b := match firstChunk4 b with
    | some x => ⟨x⟩
    | none => ⟨⟨0, 0, 0, 0⟩⟩

/-- `src/types/test_types.rs` 82-86, `From<u32>`. -/
def BeBytesAsn.ofU32 (n : BitVec 32) : BeBytesAsn := ⟨Bytes4.ofLe n⟩

/-- `src/types/test_types.rs` 76-80, `From<Asn>`. -/
def BeBytesAsn.ofAsn (n : BitVec 32) : BeBytesAsn := ⟨Bytes4.ofLe (Bytes4.ofBe n).be⟩

/-- `src/types/test_types.rs` 70-74: the number that `Display` shows. -/
def BeBytesAsn.shown (x : BeBytesAsn) : BitVec 32 := x.raw.le

/-- `src/types/test_types.rs` 90-91, `PrefixAs`. -/
structure PrefixAs where
  raw : Bytes4
  deriving DecidableEq

/-- `src/types/test_types.rs` 123-127, `From<Vec<u8>>`; `none` is a panic. -/
def PrefixAs.conv (b : Bytes) : Option PrefixAs := (firstChunk4 b).map .mk

/-- `src/types/test_types.rs` 107-127.  The total conversion of the other modules gives some
value where `conv` panics. -/
instance : Meta PrefixAs where
  TBI := Unit
  Orderable := Nat
  ord := inferInstance
  asOrderable m _ := m.raw.le.toNat
  toBytes m := m.raw.bytes
  ofBytes b := (PrefixAs.conv b).getD ⟨⟨0, 0, 0, 0⟩⟩

/-- `src/types/test_types.rs` 94-96, `new`. -/
def PrefixAs.new (asn : BitVec 32) : PrefixAs := ⟨Bytes4.ofLe (Bytes4.ofBe asn).be⟩

/-- `src/types/test_types.rs` 98-100, `new_from_u32`. -/
def PrefixAs.ofU32 (n : BitVec 32) : PrefixAs := ⟨Bytes4.ofLe n⟩

/-- `src/types/test_types.rs` 102-104, `asn`. -/
def PrefixAs.asn (x : PrefixAs) : BitVec 32 := x.raw.le

end Rotonda
