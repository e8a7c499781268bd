import Verif.Model.PrefixCht

/-!
# The persistence store (`src/lsm_tree/mod.rs`)

The external `lsm_tree::Tree` is modelled by its contract: a byte-keyed map,
iterated in lexicographic key order, where an insert overwrites (all inserts of
this crate use sequence number 0).  Disk errors are not modelled.
Structures marked `zerocopy` are read and written as bytes: `NativeEndian`
integers are little endian, the address family types are big endian
(`src/types/af.rs` 89, 170).
-/

namespace Rotonda

abbrev Bytes := List Byte

/-- `FatalResult` (`src/types/errors.rs`). -/
abbrev FatalResult (α : Type) := Except Unit α

/-- `k` bytes of `n`, least significant first. -/
def natToLE : Nat → Nat → Bytes
  | 0, _ => []
  | k + 1, n => BitVec.ofNat 8 n :: natToLE k (n / 256)

/-- Value of bytes, least significant first. -/
def leToNat : Bytes → Nat
  | [] => 0
  | b :: bs => b.toNat + 256 * leToNat bs

/-- `src/types/route_status.rs` 19-23, 36-42: the byte of a status. -/
def RouteStatus.toByte : RouteStatus → Byte
  | .active => 1#8
  | .inActive => 2#8
  | .withdrawn => 3#8

/-- `src/types/route_status.rs` 45-56 (`TryFrom<u8>`), and the validity check of
the derived `TryFromBytes`. -/
def RouteStatus.ofByte (b : Byte) : Option RouteStatus :=
  if b = 1#8 then some .active
  else if b = 2#8 then some .inActive
  else if b = 3#8 then some .withdrawn
  else none

/-- `src/types/prefix_id.rs` 25-33: one byte length, then the address, big endian. -/
def prefixBytes {W : Nat} (p : PrefixId W) : Bytes :=
  BitVec.ofNat 8 p.len :: (natToLE (W / 8) p.bits.toNat).reverse

/-- `src/lsm_tree/mod.rs` 48-53, `ShortKey`. -/
def shortKeyBytes {W : Nat} (p : PrefixId W) (m : Mui) : Bytes :=
  prefixBytes p ++ natToLE 4 m.toNat

/-- `src/types/prefix_record.rs` 100-105, `ValueHeader` as bytes. -/
def headerBytes (t : LTime) (st : RouteStatus) : Bytes := natToLE 8 t.toNat ++ [st.toByte]

/-- `src/lsm_tree/mod.rs` 65-71, `LongKey` as bytes. -/
def longKeyBytes {W : Nat} (p : PrefixId W) (m : Mui) (t : LTime) (st : RouteStatus) : Bytes :=
  shortKeyBytes p m ++ headerBytes t st

/-- `KEY_SIZE` of `src/rib/starcast.rs` 58-62: 18 for IPv4, 30 for IPv6. -/
def keySize (W : Nat) : Nat := W / 8 + 14

/-- The fields of `LongKey` (`src/lsm_tree/mod.rs` 65-71) or of `ZeroCopyRecord`
(`src/types/prefix_record.rs` 70-79) followed by the remaining bytes. -/
structure ZRec (W : Nat) where
  pfx : PrefixId W
  mui : Mui
  ltime : LTime
  status : RouteStatus
  md : Bytes
  deriving DecidableEq

/-- `ZeroCopyRecord::try_ref_from_bytes` (`src/types/prefix_record.rs` 68-84): the
fixed part and whatever follows. `none` when too short or the status byte is
not a status. -/
def decodeRecord (W : Nat) (b : Bytes) : Option (ZRec W) :=
  if keySize W ≤ b.length then
    (RouteStatus.ofByte (b.getD (W / 8 + 13) 0#8)).map fun st =>
      ⟨⟨BitVec.ofNat W (leToNat ((b.drop 1).take (W / 8)).reverse), (b.getD 0 0#8).toNat⟩,
       BitVec.ofNat 32 (leToNat ((b.drop (W / 8 + 1)).take 4)),
       BitVec.ofNat 64 (leToNat ((b.drop (W / 8 + 5)).take 8)), st, b.drop (keySize W)⟩
  else none

/-- `src/lsm_tree/mod.rs` 33-45, `header` and `header_mut`: `LongKey` from bytes of
*exactly* that size. -/
def decodeHeader (W : Nat) (b : Bytes) : Option (ZRec W) :=
  if b.length = keySize W then decodeRecord W b else none

/-- The content of the tree, sorted by key. -/
abbrev Lsm := List (Bytes × Bytes)

/-- Lexicographic order on keys. -/
def bytesLt : Bytes → Bytes → Bool
  | [], [] => false
  | [], _ :: _ => true
  | _ :: _, [] => false
  | a :: as, b :: bs => if a = b then bytesLt as bs else decide (a < b)

/-- `src/lsm_tree/mod.rs` 143-145, `insert`. -/
def Lsm.insert (k v : Bytes) : Lsm → Lsm
  | [] => [(k, v)]
  | (k', v') :: t =>
    if k' = k then (k, v) :: t
    else if bytesLt k k' then (k, v) :: (k', v') :: t
    else (k', v') :: Lsm.insert k v t

/-- `lsm_tree::AbstractTree::prefix` (external): all pairs whose key starts with
the bytes. -/
def Lsm.scan (t : Lsm) (pre : Bytes) : Lsm := t.filter fun kv => pre.isPrefixOf kv.1

variable {M : Type} {W : Nat}

/-- `src/lsm_tree/mod.rs` 174-187 and 208-227: an entry when withdrawn routes are
included.  The outer `none` is a panic of the slice index. -/
def includeEntry (W : Nat) (bmin : Mui → Bool) (kv : Bytes × Bytes) : Option (FatalResult Bytes) :=
  let bytes := kv.1 ++ kv.2
  if bytes.length < keySize W then none
  else some <|
    match decodeHeader W (bytes.take (keySize W)) with
    | none => .error ()
    | some k => .ok (if bmin k.mui then bytes.set (keySize W - 1) RouteStatus.withdrawn.toByte
        else bytes)

/-- `src/lsm_tree/mod.rs` 248-284 and 310-328: an entry when withdrawn routes are
excluded; the inner `none` is a skipped record. -/
def excludeEntry (W : Nat) (bmin : Mui → Bool) (kv : Bytes × Bytes) :
    Option (Option (FatalResult Bytes)) :=
  let bytes := kv.1 ++ kv.2
  if bytes.length < keySize W then none
  else some <|
    match decodeHeader W (bytes.take (keySize W)) with
    | none => some (.error ())
    | some k => if k.status = .withdrawn ∨ bmin k.mui = true then none else some (.ok bytes)

/-- `src/lsm_tree/mod.rs` 160-342, `records_for_prefix`.  The outer `none` is a
panic. -/
def recordsForPrefix (t : Lsm) (p : PrefixId W) (mui : Option Mui) (includeWithdrawn : Bool)
    (bmin : Mui → Bool) : Option (Option (List (FatalResult Bytes))) :=
  let key := match mui with
    | some m => shortKeyBytes p m
    | none => prefixBytes p
  match includeWithdrawn with
  | true => ((t.scan key).mapM (includeEntry W bmin)).map noneIfEmpty
  | false => ((t.scan key).mapM (excludeEntry W bmin)).map fun l => noneIfEmpty (l.filterMap id)

/-- One round of the loop of `src/lsm_tree/mod.rs` 353-372.  The outer `none` is
the early `return Err(FatalError)`; the accumulator is `None` for
`Err(FatalError)`. -/
def mostRecentStep (W : Nat) (res : Option Bytes) (kv : Bytes × Bytes) : Option (Option Bytes) :=
  let b := kv.1 ++ kv.2
  match decodeHeader W b with
  | none => none
  | some h =>
    match res with
    | none => some (some b)
    | some r =>
      match decodeHeader W r with
      | some hr => if hr.ltime < h.ltime then some (some b) else some res
      | none => some res

/-- `src/lsm_tree/mod.rs` 344-375, `most_recent_record_for_prefix_mui`; `none` for
`Err(FatalError)` (the result is never `Ok(None)`). -/
def mostRecentRecord (t : Lsm) (p : PrefixId W) (m : Mui) : Option Bytes :=
  ((t.scan (shortKeyBytes p m)).foldlM (mostRecentStep W) none).bind id

/-- `src/lsm_tree/mod.rs` 377-394, `records_with_keys_for_prefix_mui`. -/
def recordsWithKeys (t : Lsm) (p : PrefixId W) (m : Mui) : List Bytes :=
  (t.scan (shortKeyBytes p m)).map fun kv => kv.1 ++ kv.2

/-- `src/lsm_tree/mod.rs` 438-453, `persist_record_w_long_key`. -/
def persistLong [Meta M] (t : Lsm) (p : PrefixId W) (r : Record M) : Lsm :=
  t.insert (longKeyBytes p r.mui r.ltime r.status) (Meta.toBytes r.md)

/-- `src/lsm_tree/mod.rs` 455-478, `persist_record_w_short_key`. -/
def persistShort [Meta M] (t : Lsm) (p : PrefixId W) (r : Record M) : Lsm :=
  t.insert (shortKeyBytes p r.mui) (headerBytes r.ltime r.status ++ Meta.toBytes r.md)

/-- `src/lsm_tree/mod.rs` 480-499, `rewrite_header_for_record`: the extended copy
of the header is dropped, only the header itself is inserted.  `none` for
`Err(FatalError)`. -/
def rewriteHeader (W : Nat) (t : Lsm) (ltime : LTime) (st : RouteStatus) (b : Bytes) : Option Lsm :=
  (decodeRecord W b).map fun z => t.insert (shortKeyBytes z.pfx z.mui) (headerBytes ltime st)

/-- `src/lsm_tree/mod.rs` 501-512, `insert_empty_record`. -/
def insertEmptyRecord (t : Lsm) (p : PrefixId W) (m : Mui) (ltime : LTime) : Lsm :=
  t.insert (longKeyBytes p m ltime .withdrawn) []

/-- The inner loop of `src/lsm_tree/mod.rs` 594-607: entries of the same prefix
are added to the group; the first entry of another prefix is kept for the next
round.  Returns the group, the kept entry and the remaining entries. -/
def persistGroup (W : Nat) (outer : PrefixId W) :
    Lsm → List (FatalResult Bytes) × Option Bytes × Lsm
  | [] => ([], none, [])
  | kv :: rest =>
    match decodeHeader W kv.1 with
    | some h =>
      if h.pfx = outer then
        let r := persistGroup W outer rest
        (.ok (kv.1 ++ kv.2) :: r.1, r.2)
      else ([], some (kv.1 ++ kv.2), rest)
    | none =>
      let r := persistGroup W outer rest
      (.error () :: r.1, r.2)

/-- `src/lsm_tree/mod.rs` 557-613, `PersistedPrefixIter::next`; the state is the
kept entry and the entries still to come. -/
def persistIterNext (W : Nat) (cur : Option Bytes) (rest : Lsm) :
    Option (List (FatalResult Bytes) × Option Bytes × Lsm) :=
  let start := match cur with
    | some b => some (b, rest)
    | none => match rest with
      | [] => none
      | kv :: rest' => some (kv.1 ++ kv.2, rest')
  start.map fun (b, rest) =>
    match decodeHeader W b with
    | none => ([.error ()], none, rest)
    | some h =>
      let r := persistGroup W h.pfx rest
      (.ok b :: r.1, r.2)

/-- All groups of `PersistedPrefixIter`, with bounded rounds; `none` when the
bound is used up. -/
def persistIterCollect (W : Nat) : Nat → Option Bytes → Lsm →
    Option (List (List (FatalResult Bytes)))
  | 0, _, _ => none
  | fuel + 1, cur, rest =>
    match persistIterNext W cur rest with
    | none => some []
    | some (g, cur', rest') => (persistIterCollect W fuel cur' rest').map (g :: ·)

/-- `src/lsm_tree/mod.rs` 514-523, `prefixes_iter`, collected. -/
def lsmPrefixesIter (W : Nat) (t : Lsm) : Option (List (List (FatalResult Bytes))) :=
  persistIterCollect W (t.length + 1) none t

end Rotonda
