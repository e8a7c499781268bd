import Verif.Model.Tree
import Mathlib.Order.Defs.LinearOrder

/-!
# Records and the prefix table (`src/prefix_cht/cht.rs`)
-/

namespace Rotonda

/-- A byte. -/
abbrev Byte := BitVec 8

/-- `src/types/prefix_record.rs` 15-32, trait `Meta`: bytes of the metadata
(`AsRef<[u8]>`, `From<Vec<u8>>`) and the ordering used for path selection.
`Ord` is a total order (contract of the Rust trait). -/
class Meta (M : Type) where
  TBI : Type
  Orderable : Type
  ord : LinearOrder Orderable
  asOrderable : M → TBI → Orderable
  toBytes : M → List Byte
  ofBytes : List Byte → M

instance {M : Type} [Meta M] : LinearOrder (Meta.Orderable M) := Meta.ord

/-- `src/types/prefix_record.rs` 36-42, `Record`. -/
structure Record (M : Type) where
  mui : Mui
  ltime : LTime
  status : RouteStatus
  md : M
  deriving DecidableEq, Repr

/-- `src/prefix_cht/cht.rs` 279-284, `MultiMapValue`. -/
structure MMV (M : Type) where
  md : M
  ltime : LTime
  status : RouteStatus
  deriving DecidableEq, Repr

variable {M : Type} {W : Nat}

/-- `src/prefix_cht/cht.rs` 321-329, `From<Record> for MultiMapValue`. -/
def Record.toMMV (r : Record M) : MMV M := ⟨r.md, r.ltime, r.status⟩

/-- `src/prefix_cht/cht.rs` 331-340, `From<(u32, &MultiMapValue)> for Record`. -/
def MMV.toRecord (m : Mui) (v : MMV M) : Record M := ⟨m, v.ltime, v.status, v.md⟩

/-- The `HashMap<u32, MultiMapValue>` of `src/prefix_cht/cht.rs` 35-37: an
association list without repeated keys, in the (unspecified) iteration order. -/
abbrev Recs (M : Type) := List (Mui × MMV M)

/-- `HashMap::get`. -/
def Recs.get (rs : Recs M) (m : Mui) : Option (MMV M) := List.lookup m rs

/-- `HashMap::insert`: replace the value of an existing key, or add the pair. -/
def Recs.insert : Recs M → Mui → MMV M → Recs M
  | [], m, v => [(m, v)]
  | (k, x) :: rs, m, v => if k = m then (k, v) :: rs else (k, x) :: Recs.insert rs m v

/-- `HashMap::get_mut` followed by an update of the value. -/
def Recs.modify (rs : Recs M) (m : Mui) (f : MMV M → MMV M) : Recs M :=
  rs.map (fun kv => if kv.1 = m then (kv.1, f kv.2) else kv)

/-- `src/prefix_cht/cht.rs` 80-99, `get_record_for_mui`. -/
def getRecordForMui (rs : Recs M) (m : Mui) (includeWithdrawn : Bool) : Option (Record M) :=
  (rs.get m).bind fun v =>
    if includeWithdrawn = true ∨ v.status = .active then some (v.toRecord m) else none

/-- Set the status to `Withdrawn` when the mui is in the set. -/
def rewriteStatus (bmin : Mui → Bool) (m : Mui) (v : MMV M) : MMV M :=
  if bmin m then { v with status := .withdrawn } else v

/-- `src/prefix_cht/cht.rs` 111-128, `get_record_for_mui_with_rewritten_status`
(always called with `Withdrawn`). -/
def getRecordForMuiRewritten (rs : Recs M) (m : Mui) (bmin : Mui → Bool) : Option (Record M) :=
  (rs.get m).map fun v => (rewriteStatus bmin m v).toRecord m

/-- `src/prefix_cht/cht.rs` 130-144, `get_filtered_record_for_mui`. -/
def getFilteredRecordForMui (rs : Recs M) (m : Mui) (includeWithdrawn : Bool) (bmin : Mui → Bool) :
    Option (Record M) :=
  match includeWithdrawn with
  | false => getRecordForMui rs m false
  | true => getRecordForMuiRewritten rs m bmin

/-- `src/prefix_cht/cht.rs` 185-201, `as_records_with_rewritten_status`. -/
def asRecordsRewritten (rs : Recs M) (bmin : Mui → Bool) : List (Record M) :=
  rs.map fun kv => (rewriteStatus bmin kv.1 kv.2).toRecord kv.1

/-- `src/prefix_cht/cht.rs` 214-231, `as_active_records_not_in_bmin`. -/
def asActiveRecordsNotIn (rs : Recs M) (bmin : Mui → Bool) : List (Record M) :=
  rs.filterMap fun kv =>
    if kv.2.status = .active ∧ bmin kv.1 = false then some (kv.2.toRecord kv.1) else none

/-- An empty list of records becomes `None`. -/
def noneIfEmpty {α : Type} : List α → Option (List α)
  | [] => none
  | l => some l

/-- `src/prefix_cht/cht.rs` 148-179, `get_filtered_records`. -/
def getFilteredRecords (rs : Recs M) (mui : Option Mui) (includeWithdrawn : Bool)
    (bmin : Mui → Bool) : Option (List (Record M)) :=
  match mui with
  | some m => (getFilteredRecordForMui rs m includeWithdrawn bmin).map fun r => [r]
  | none =>
    match includeWithdrawn with
    | false => noneIfEmpty (asActiveRecordsNotIn rs bmin)
    | true => noneIfEmpty (asRecordsRewritten rs bmin)

/-- `src/prefix_cht/cht.rs` 234-240 and 243-249, `mark_as_withdrawn_for_mui`,
`mark_as_active_for_mui`. -/
def markStatus (rs : Recs M) (m : Mui) (ltime : LTime) (st : RouteStatus) : Recs M :=
  rs.modify m fun v => { v with status := st, ltime := ltime }

/-- `src/prefix_cht/cht.rs` 256-277, `upsert_record`: the old value with the
number of entries when the key existed. -/
def upsertRecord (rs : Recs M) (r : Record M) : Option (MMV M × Nat) × Recs M :=
  ((rs.get r.mui).map fun old => (old, (rs.insert r.mui r.toMMV).length), rs.insert r.mui r.toMMV)

/-- Lexicographic order on (orderable, mui) pairs, as derived for Rust tuples. -/
def pairLt {O : Type} [LinearOrder O] (a b : O × Mui) : Bool :=
  decide (a.1 < b.1 ∨ (a.1 = b.1 ∧ a.2 < b.2))

/-- `routecore::bgp::path_selection::best_backup_generic` (external): one round
of its loop. -/
def bestBackupStep {T : Type} (lt : T → T → Bool) (acc : Option T × Option T) (c : T) :
    Option T × Option T :=
  match acc with
  | (none, _) => (some c, none)
  | (some b, bk) =>
    if lt c b then (some c, some b)
    else match bk with
      | none => (some b, some c)
      | some k => (some b, some (if lt c k then c else k))

/-- `src/prefix_cht/cht.rs` 101-109, `best_backup`. -/
def bestBackup [Meta M] (rs : Recs M) (tbi : Meta.TBI M) : Option Mui × Option Mui :=
  let r := (rs.map fun kv => (Meta.asOrderable kv.2.md tbi, kv.1)).foldl
    (bestBackupStep pairLt) (none, none)
  (r.1.map Prod.snd, r.2.map Prod.snd)

/-- The pointer `path_selections : Atomic<PathSelections>`: `ver` is the identity
of the pointee, `tag` the pointer tag (1 = outdated). -/
structure PsCell where
  ver : Nat
  tag : Bool
  val : Option Mui × Option Mui
  deriving DecidableEq, Repr

/-- `src/prefix_cht/cht.rs` 369-379, `StoredPrefix`. -/
structure StoredPrefix (M : Type) (W : Nat) where
  id : PrefixId W
  recs : Recs M
  ps : PsCell
  next : Nat

instance : Entry (StoredPrefix M W) W where
  id := StoredPrefix.id
  next := StoredPrefix.next

/-- Memory of the prefix table. -/
abbrev PSlots (M : Type) (W : Nat) := Slots (StoredPrefix M W)

/-- `src/prefix_cht/cht.rs` 381-417, `StoredPrefix::new`, with the size of the
next bucket (`nodeset_size(len, level + 1)`) computed by the caller. -/
def StoredPrefix.new (id : PrefixId W) (nextLevel : Nat) : StoredPrefix M W :=
  ⟨id, [], ⟨0, false, (none, none)⟩, slotsForP2 nextLevel⟩

/-- `src/prefix_cht/cht.rs` 522-529, `PrefixCht { bush, counters }`; of the
counters the node counter is never incremented. -/
structure PCht (M : Type) (W : Nat) where
  slots : PSlots M W
  prefixes : Nat → Nat
  routes : Nat
  nodes : Nat

/-- The table inside `PCht`. -/
def PCht.slotsL : Lens (PCht M W) (PSlots M W) where
  get := PCht.slots
  set t s := { t with slots := s }

/-- Number of root buckets: `P_ROOT_SIZE` = 33 (IPv4), 129 (IPv6)
(`src/rib/starcast.rs` 58-62). -/
def prefixRoots (W : Nat) : Nat := W + 1

/-- `src/cht/mod.rs` 31-33, `root_for_len` with `STRIDES_PER_BUCKET = 1`; every
root bucket has 16 slots (`src/cht/mod.rs` 21-25). -/
def prefixRoot (W : Nat) (len : Nat) : Option Bucket :=
  if len / 1 < prefixRoots W then some ⟨len / 1, [], slotsForP2 4⟩ else none

/-- The loop of `src/prefix_cht/cht.rs` 541-587 (`get_records_for_prefix`) and
770-821 (`non_recursive_retrieve_prefix`): find the stored prefix.  `lim` is the
number of levels available: 32 for `non_recursive_retrieve_prefix`, whose
`parents` array is indexed by the level when the walk ends. -/
def findPrefixLoop (id : PrefixId W) (lim : Nat) :
    Nat → Nat → Bucket → Prog (PSlots M W) (Option (Ref W))
  | 0, _, _ => Prog.panic
  | fuel + 1, level, set => do
    let index ← Prog.ofOption (hashId id level)
    match ← sliceGet (E := StoredPrefix M W) set index with
    | some sp =>
      if id = sp.id then
        if level < lim then return some sp else Prog.panic
      else findPrefixLoop id lim fuel (level + 1) (set.child index sp.next)
    | none => if level < lim then return none else Prog.panic

/-- `src/prefix_cht/cht.rs` 770-821, `non_recursive_retrieve_prefix` (only its
first result is used anywhere). -/
def retrievePrefix (id : PrefixId W) : Prog (PSlots M W) (Option (Ref W)) := do
  let root ← Prog.ofOption (prefixRoot W id.len)
  findPrefixLoop id 32 maxLevels 0 root

/-- `src/prefix_cht/cht.rs` 541-587, `get_records_for_prefix`. -/
def getRecordsForPrefix (id : PrefixId W) (mui : Option Mui) (includeWithdrawn : Bool)
    (bmin : Mui → Bool) : Prog (PSlots M W) (Option (List (Record M))) := do
  let root ← Prog.ofOption (prefixRoot W id.len)
  match ← findPrefixLoop id maxLevels maxLevels 0 root with
  | some sp => readAt sp.addr fun e : StoredPrefix M W =>
      getFilteredRecords e.recs mui includeWithdrawn bmin
  | none => return none

/-- The loop of `src/prefix_cht/cht.rs` 693-762.  The flag is `false` only when
the slot was empty when probed. -/
def retrievePrefixMutLoop (id : PrefixId W) :
    Nat → Nat → Bucket → Prog (PSlots M W) (Ref W × Bool)
  | 0, _, _ => Prog.panic
  | fuel + 1, level, set => do
    let index ← Prog.ofOption (hashId id level)
    let (sp, found) ← do
      match ← sliceGet (E := StoredPrefix M W) set index with
      | some sp => pure (sp, true)
      | none =>
        let nextLevel ← Prog.ofOption (nodesetSize id.len (level + 1))
        let (sp, _) ← sliceGetOrInit set index (StoredPrefix.new (M := M) id nextLevel)
        pure (sp, false)
    if id = sp.id then return (sp, found)
    else retrievePrefixMutLoop id fuel (level + 1) (set.child index sp.next)

/-- `src/prefix_cht/cht.rs` 693-762, `non_recursive_retrieve_prefix_mut`. -/
def retrievePrefixMut (id : PrefixId W) : Prog (PSlots M W) (Ref W × Bool) := do
  let root ← Prog.ofOption (prefixRoot W id.len)
  retrievePrefixMutLoop id maxLevels 0 root

/-- `src/prefix_cht/cht.rs` 435-458, `set_path_selections`: a load and, when the
value differs, one compare-and-swap on pointer and tag. -/
def setPathSelections (a : Addr) (ps : Option Mui × Option Mui) :
    Prog (PSlots M W) (Except StoreError Unit) := do
  let cur ← readAt a fun e : StoredPrefix M W => e.ps
  if cur.val = ps then return .ok ()
  else
    accessAt a fun e : StoredPrefix M W =>
      if e.ps.ver = cur.ver ∧ e.ps.tag = cur.tag then
        (.ok (), { e with ps := ⟨e.ps.ver + 1, false, ps⟩ })
      else (.error .pathSelectionOutdated, e)

/-- `src/prefix_cht/cht.rs` 460-470, `set_ps_outdated`.  Simplification: the
`fetch_update` loop (its closure never gives up) is one atomic action; see
`Model/Lock.lean` for the loop. -/
def setPsOutdated (a : Addr) : Prog (PSlots M W) Unit :=
  accessAt a fun e : StoredPrefix M W => ((), { e with ps := { e.ps with tag := true } })

/-- `src/prefix_cht/cht.rs` 472-474, `is_ps_outdated`. -/
def isPsOutdatedAt (a : Addr) : Prog (PSlots M W) Bool :=
  readAt a fun e : StoredPrefix M W => e.ps.tag

/-- `src/prefix_cht/cht.rs` 476-491, `calculate_and_store_best_backup`. -/
def calculateAndStore [Meta M] (a : Addr) (tbi : Meta.TBI M) :
    Prog (PSlots M W) (Except StoreError (Option Mui × Option Mui)) := do
  let ps ← readAt a fun e : StoredPrefix M W => bestBackup e.recs tbi
  match ← setPathSelections a ps with
  | .ok () => return .ok ps
  | .error e => return .error e

/-- One critical section of `upsert_record` on the record map at `a`. -/
def upsertRecordAt (a : Addr) (r : Record M) : Prog (PSlots M W) (Option (MMV M × Nat)) :=
  accessAt a fun e : StoredPrefix M W =>
    ((upsertRecord e.recs r).1, { e with recs := (upsertRecord e.recs r).2 })

/-- One critical section of `mark_as_withdrawn_for_mui`/`mark_as_active_for_mui`. -/
def markStatusAt (a : Addr) (m : Mui) (ltime : LTime) (st : RouteStatus) :
    Prog (PSlots M W) Unit :=
  accessAt a fun e : StoredPrefix M W => ((), { e with recs := markStatus e.recs m ltime st })

/-- `src/types/stats.rs` 265-279, `UpsertReport`; `cas_count` (a retry count) is
added in `Model/Retries`. -/
structure UpsertReport where
  prefixNew : Bool
  muiNew : Bool
  muiCount : Nat
  deriving DecidableEq, Repr

/-- `inc_routes_count` / `inc_prefixes_count` (`src/types/stats.rs` 142-146,
176-178) on the counters of the prefix table. -/
def PCht.incRoutes : Prog (PCht M W) Unit :=
  Prog.atomic fun t => ((), { t with routes := t.routes + 1 })

@[inherit_doc PCht.incRoutes]
def PCht.incPrefixes (len : Nat) : Prog (PCht M W) Unit :=
  Prog.atomic fun t => ((), { t with prefixes := fun l =>
    if l = len ∧ len ≤ 128 then t.prefixes l + 1 else t.prefixes l })

/-- `src/prefix_cht/cht.rs` 589-683, `upsert_prefix`. -/
def pchtUpsert [Meta M] (p : PrefixId W) (r : Record M) (upd : Option (Meta.TBI M)) :
    Prog (PCht M W) (Except StoreError (UpsertReport × Option (MMV M))) := do
  let (sp, found) ← (retrievePrefixMut p).zoom PCht.slotsL
  if found = false then
    let old ← (upsertRecordAt sp.addr r).zoom PCht.slotsL
    match old with
    | some (v, n) => return .ok (⟨false, false, n⟩, some v)
    | none =>
      PCht.incRoutes
      PCht.incPrefixes sp.id.len
      return .ok (⟨true, true, 1⟩, none)
  else
    (setPsOutdated sp.addr).zoom PCht.slotsL
    let old ← (upsertRecordAt sp.addr r).zoom PCht.slotsL
    match old with
    | none => PCht.incRoutes
    | some _ => pure ()
    let sel ← match upd with
      | some tbi => (calculateAndStore sp.addr tbi).zoom PCht.slotsL
      | none => pure (.ok (none, none))
    match sel with
    | .error e => return .error e
    | .ok _ => return .ok (⟨false, true, (old.map Prod.snd).getD 1⟩, old.map Prod.fst)

/-- `src/prefix_cht/cht.rs` 823-825, `prefixes_count`: sum over the 129 lengths. -/
def PCht.prefixesCount (t : PCht M W) : Nat := ((List.range 129).map t.prefixes).sum

/-- `src/prefix_cht/cht.rs` 827-829, `routes_count`: returns the *node* counter. -/
def PCht.routesCount (t : PCht M W) : Nat := t.nodes

/-- `src/prefix_cht/cht.rs` 534-539, `PrefixCht::init`. -/
def PCht.empty : PCht M W := ⟨fun _ => none, fun _ => 0, 0, 0⟩

end Rotonda
