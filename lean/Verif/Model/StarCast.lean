import Verif.Model.History
import Verif.Model.RecordSet

/-!
# `StarCastRib`: the public interface over both address families

`src/rib/starcast.rs`.  The store is a pair of per-family stores; every call is
dispatched on the family of its prefix.  `new_with_config`'s choice of directories
(86-102), `stats`, `flush_to_disk`, `approx_persisted_items` and `disk_space` (903-908,
956-976) are in `Model/Setup.lean`.  Not modelled: printing.
-/

namespace Rotonda

variable {M : Type}

/-- `src/rib/starcast.rs` 58-62, `StarCastRib`. -/
structure Star (M : Type) where
  v4 : Rib M 32
  v6 : Rib M 128

namespace Star

def v4L : Lens (Star M) (Rib M 32) := ⟨Star.v4, fun s t => { s with v4 := t }⟩
def v6L : Lens (Star M) (Rib M 128) := ⟨Star.v6, fun s t => { s with v6 := t }⟩

/-- Dispatch on the family. -/
def on {α : Type} (p : AnyPrefix) (f4 : PrefixId 32 → Prog (Rib M 32) α)
    (f6 : PrefixId 128 → Prog (Rib M 128) α) : Prog (Star M) α :=
  match p with
  | .v4 p => (f4 p.id).zoom v4L
  | .v6 p => (f6 p.id).zoom v6L

/-- `PrefixRecord::from` of one item of a per-family iterator
(`src/types/prefix_record.rs` 132-143, 155-159). -/
def pub4 (x : PrefixRecord M 32) : PubRecord M := ⟨.v4 x.1, x.2⟩
def pub6 (x : PrefixRecord M 128) : PubRecord M := ⟨.v6 x.1, x.2⟩

def pubs4 (l : List (FatalResult (PrefixRecord M 32))) : List (FatalResult (PubRecord M)) :=
  l.map fun r => r.map pub4
def pubs6 (l : List (FatalResult (PrefixRecord M 128))) : List (FatalResult (PubRecord M)) :=
  l.map fun r => r.map pub6

/-- `src/types/match_options.rs` 96-110, `QueryResult`, for both families. -/
structure Result (M : Type) where
  matchType : MatchType
  prefix_ : Option AnyPrefix
  records : List (Record M)
  lessSpecifics : Option (RecordSet M)
  moreSpecifics : Option (RecordSet M)

def result4 (r : QueryResult M 32) : Result M :=
  ⟨r.matchType, r.prefix_.map .v4, r.records,
    r.lessSpecifics.map fun l => RecordSet.fromIter (l.map pub4),
    r.moreSpecifics.map fun l => RecordSet.fromIter (l.map pub4)⟩

def result6 (r : QueryResult M 128) : Result M :=
  ⟨r.matchType, r.prefix_.map .v6, r.records,
    r.lessSpecifics.map fun l => RecordSet.fromIter (l.map pub6),
    r.moreSpecifics.map fun l => RecordSet.fromIter (l.map pub6)⟩

variable [Meta M]

/-- `src/rib/starcast.rs` 120-144, `match_prefix`. -/
def matchPrefix (st : Strategy) (fuel : Nat) (p : AnyPrefix) (o : MatchOptions) :
    Prog (Star M) (FatalResult (Result M)) :=
  on p (fun p => do let r ← ribMatchPrefix st fuel p o; return r.map result4)
    (fun p => do let r ← ribMatchPrefix st fuel p o; return r.map result6)

/-- `src/rib/starcast.rs` 149-158, `contains`. -/
def contains (p : AnyPrefix) (mui : Option Mui) : Prog (Star M) Bool :=
  on p (fun p => ribContains p mui) (fun p => ribContains p mui)

/-- `src/rib/starcast.rs` 168-189, `best_path`. -/
def bestPath (p : AnyPrefix) : Prog (Star M) (Option (Except StoreError (Record M))) :=
  on p (fun p => ribBestPath p) (fun p => ribBestPath p)

/-- `src/rib/starcast.rs` 202-230, `calculate_and_store_best_and_backup_path`. -/
def calcBest (p : AnyPrefix) (tbi : Meta.TBI M) :
    Prog (Star M) (Except StoreError (Option Mui × Option Mui)) :=
  on p (fun p => ribCalcBest p tbi) (fun p => ribCalcBest p tbi)

/-- `src/rib/starcast.rs` 238-259, `is_ps_outdated`. -/
def isPsOutdated (p : AnyPrefix) : Prog (Star M) (Except StoreError Bool) :=
  on p (fun p => ribIsPsOutdated p) (fun p => ribIsPsOutdated p)

/-- `src/rib/starcast.rs` 272-299, `more_specifics_from`. -/
def moreFrom (st : Strategy) (fuel : Nat) (p : AnyPrefix) (mui : Option Mui) (iw : Bool) :
    Prog (Star M) (FatalResult (Result M)) :=
  on p (fun p => do let r ← ribMoreSpecificsFrom st fuel p mui iw; return r.map result4)
    (fun p => do let r ← ribMoreSpecificsFrom st fuel p mui iw; return r.map result6)

/-- `src/rib/starcast.rs` 312-339, `less_specifics_from`. -/
def lessFrom (st : Strategy) (p : AnyPrefix) (mui : Option Mui) (iw : Bool) :
    Prog (Star M) (FatalResult (Result M)) :=
  on p (fun p => do let r ← ribLessSpecificsFrom st p mui iw; return r.map result4)
    (fun p => do let r ← ribLessSpecificsFrom st p mui iw; return r.map result6)

/-- `src/rib/starcast.rs` 352-397, `less_specifics_iter_from`: the chain of the
iterator of the family and an empty one. -/
def lessIter (st : Strategy) (p : AnyPrefix) (mui : Option Mui) (iw : Bool) :
    Prog (Star M) (List (FatalResult (PubRecord M))) :=
  on p (fun p => do let l ← ribLessSpecificsIter st p mui iw; return pubs4 l)
    (fun p => do let l ← ribLessSpecificsIter st p mui iw; return pubs6 l)

/-- `src/rib/starcast.rs` 410-455, `more_specifics_iter_from`. -/
def moreIter (st : Strategy) (fuel : Nat) (p : AnyPrefix) (mui : Option Mui) (iw : Bool) :
    Prog (Star M) (List (FatalResult (PubRecord M))) :=
  on p (fun p => do let l ← ribMoreSpecificsIter st fuel p mui iw; return pubs4 l)
    (fun p => do let l ← ribMoreSpecificsIter st fuel p mui iw; return pubs6 l)

/-- `src/rib/starcast.rs` 464-489 and 498-523, `iter_records_for_mui_v4/v6`. -/
def recordsForMui4 (st : Strategy) (fuel : Nat) (m : Mui) (iw : Bool) :
    Prog (Star M) (List (FatalResult (PubRecord M))) :=
  (do let l ← ribIterRecordsForMui st fuel m iw; return pubs4 l : Prog (Rib M 32) _).zoom v4L
def recordsForMui6 (st : Strategy) (fuel : Nat) (m : Mui) (iw : Bool) :
    Prog (Star M) (List (FatalResult (PubRecord M))) :=
  (do let l ← ribIterRecordsForMui st fuel m iw; return pubs6 l : Prog (Rib M 128) _).zoom v6L

/-- `src/rib/starcast.rs` 532-550, `insert`. -/
def insert (st : Strategy) (F : Nat) (p : AnyPrefix) (r : Record M) (upd : Option (Meta.TBI M)) :
    Prog (Star M) (Except StoreError UpsertReport) :=
  on p (fun p => ribInsert st F p r upd) (fun p => ribInsert st F p r upd)

/-- `src/rib/starcast.rs` 572-591, `prefixes_iter_v4/v6`. -/
def prefixesIter4 (st : Strategy) (fuel : Nat) : Prog (Star M) (List (FatalResult (PubRecord M))) :=
  (do let l ← ribPrefixesIter st fuel; return pubs4 l : Prog (Rib M 32) _).zoom v4L
def prefixesIter6 (st : Strategy) (fuel : Nat) : Prog (Star M) (List (FatalResult (PubRecord M))) :=
  (do let l ← ribPrefixesIter st fuel; return pubs6 l : Prog (Rib M 128) _).zoom v6L

/-- What is left of `TreeBitMap::prefixes_iter().map(body).collect()` once the iterator has
been made (`src/tree_bitmap/tree_bitmap_iterators.rs` 256-312). -/
def consume {W : Nat} {β : Type} (fuel : Nat) (body : PrefixId W → Prog (Rib M W) β) :
    Option (MsIter W) → Prog (Rib M W) (List β)
  | none => return []
  | some it => lazily msNext body fuel it

/-- `src/rib/starcast.rs` 555-567, `prefixes_iter`: the arguments of `chain` are evaluated
first, so both iterators are made, and the root node of either tree read, before the
first prefix is asked for. -/
def prefixesIter (st : Strategy) (fuel : Nat) : Prog (Star M) (List (FatalResult (PubRecord M))) := do
  let i ← (onNodes (moreSpecificStart ⟨0#32, 0⟩) : Prog (Rib M 32) _).zoom v4L
  let j ← (onNodes (moreSpecificStart ⟨0#128, 0⟩) : Prog (Rib M 128) _).zoom v6L
  let a ← (consume fuel (pfxItem st) i).zoom v4L
  let b ← (consume fuel (pfxItem st) j).zoom v6L
  return pubs4 a ++ pubs6 b

/-- `src/rib/starcast.rs` 613-630, `persist_prefixes_iter_v4/v6`. -/
def persistPrefixesIter4 (st : Strategy) : Prog (Star M) (List (FatalResult (PubRecord M))) :=
  (do let l ← ribPersistPrefixesIter st; return pubs4 l : Prog (Rib M 32) _).zoom v4L
def persistPrefixesIter6 (st : Strategy) : Prog (Star M) (List (FatalResult (PubRecord M))) :=
  (do let l ← ribPersistPrefixesIter st; return pubs6 l : Prog (Rib M 128) _).zoom v6L

/-- `src/rib/starcast.rs` 596-607, `persist_prefixes_iter`. -/
def persistPrefixesIter (st : Strategy) : Prog (Star M) (List (FatalResult (PubRecord M))) := do
  let a ← persistPrefixesIter4 st
  let b ← persistPrefixesIter6 st
  return a ++ b

/-- `src/rib/starcast.rs` 641-651, `is_mui_active_v4/v6`. -/
def isMuiActive4 (m : Mui) : Prog (Star M) Bool := (ribIsMuiActive m).zoom v4L
def isMuiActive6 (m : Mui) : Prog (Star M) Bool := (ribIsMuiActive m).zoom v6L

/-- `src/rib/starcast.rs` 634-637, `is_mui_active`; `||` does not look at IPv6 when the
first answer is true. -/
def isMuiActive (m : Mui) : Prog (Star M) Bool := do
  let a ← isMuiActive4 m
  if a then return true else isMuiActive6 m

/-- `src/rib/starcast.rs` 657-679, `mark_mui_as_withdrawn_for_prefix`. -/
def withdrawFor (st : Strategy) (p : AnyPrefix) (m : Mui) (t : LTime) :
    Prog (Star M) (Except StoreError Unit) :=
  on p (fun p => ribMarkWithdrawnForPrefix st p m t) (fun p => ribMarkWithdrawnForPrefix st p m t)

/-- `src/rib/starcast.rs` 685-707, `mark_mui_as_active_for_prefix`. -/
def activateFor (st : Strategy) (p : AnyPrefix) (m : Mui) (t : LTime) :
    Prog (Star M) (Except StoreError Unit) :=
  on p (fun p => ribMarkActiveForPrefix st p m t) (fun p => ribMarkActiveForPrefix st p m t)

/-- `src/rib/starcast.rs` 713-720, 728-735, 742-749 and 758-765. -/
def activate4 (F : Nat) (m : Mui) : Prog (Star M) Unit := (ribMarkActive F m).zoom v4L
def withdraw4 (F : Nat) (m : Mui) : Prog (Star M) Unit := (ribMarkWithdrawn F m).zoom v4L
def activate6 (F : Nat) (m : Mui) : Prog (Star M) Unit := (ribMarkActive F m).zoom v6L
def withdraw6 (F : Nat) (m : Mui) : Prog (Star M) Unit := (ribMarkWithdrawn F m).zoom v6L

/-- `src/rib/starcast.rs` 774-784, `mark_mui_as_withdrawn` (the per-family calls always
return `Ok`). -/
def withdraw (F : Nat) (m : Mui) : Prog (Star M) Unit := do
  withdraw4 F m
  withdraw6 F m

/-- `src/rib/starcast.rs` 788-800, `mui_is_withdrawn_v4/v6`. -/
def muiIsWithdrawn4 (m : Mui) : Prog (Star M) Bool := (ribMuiIsWithdrawn m).zoom v4L
def muiIsWithdrawn6 (m : Mui) : Prog (Star M) Bool := (ribMuiIsWithdrawn m).zoom v6L

/-- `src/types/stats.rs` 243-253, `Add for UpsertCounters`. -/
def addCounters (a b : UpsertCounters) : UpsertCounters :=
  ⟨a.inMemory + b.inMemory, a.persisted + b.persisted, a.total + b.total⟩

/-- `src/rib/starcast.rs` 812-814, 834-836, `prefixes_v4_count`, `prefixes_v6_count`. -/
def prefixesCount4 : Prog (Star M) UpsertCounters := ribPrefixesCount.zoom v4L
def prefixesCount6 : Prog (Star M) UpsertCounters := ribPrefixesCount.zoom v6L

/-- `src/rib/starcast.rs` 822-827, 844-849. -/
def prefixesCountForLen4 (len : Nat) : Prog (Star M) (Except StoreError UpsertCounters) :=
  (ribPrefixesCountForLen len).zoom v4L
def prefixesCountForLen6 (len : Nat) : Prog (Star M) (Except StoreError UpsertCounters) :=
  (ribPrefixesCountForLen len).zoom v6L

/-- `src/rib/starcast.rs` 803-805, `prefixes_count`. -/
def prefixesCount : Prog (Star M) UpsertCounters := do
  let a ← prefixesCount4
  let b ← prefixesCount6
  return addCounters a b

/-- `src/rib/starcast.rs` 857-864, `routes_count_v4/v6`. -/
def routesCount4 : Prog (Star M) UpsertCounters := ribRoutesCount.zoom v4L
def routesCount6 : Prog (Star M) UpsertCounters := ribRoutesCount.zoom v6L

/-- `src/rib/starcast.rs` 852-854, `routes_count`. -/
def routesCount : Prog (Star M) UpsertCounters := do
  let a ← routesCount4
  let b ← routesCount6
  return addCounters a b

/-- `src/rib/starcast.rs` 880-891, `nodes_v4_count`, `nodes_v6_count`. -/
def nodesCount4 : Prog (Star M) Nat := ribNodesCount.zoom v4L
def nodesCount6 : Prog (Star M) Nat := ribNodesCount.zoom v6L

/-- `src/rib/starcast.rs` 871-873, `nodes_count`. -/
def nodesCount : Prog (Star M) Nat := do
  let a ← nodesCount4
  let b ← nodesCount6
  return a + b

/-- `src/rib/starcast.rs` 925-947, `get_records_for_prefix`. -/
def getRecords (st : Strategy) (p : AnyPrefix) (mui : Option Mui) (iw : Bool) :
    Prog (Star M) (FatalResult (Option (List (Record M)))) :=
  on p (fun p => ribGetValue st p mui iw) (fun p => ribGetValue st p mui iw)

/-- `src/rib/starcast.rs` 83-109, `new_with_config`. -/
def new (F : Nat) : Prog (Star M) Unit := do
  let _ ← (ribNew F : Prog (Rib M 32) Bool).zoom v4L
  let _ ← (ribNew F : Prog (Rib M 128) Bool).zoom v6L

def empty : Star M := ⟨Rib.empty, Rib.empty⟩

end Star

/-- The calls of the public interface that change the store. -/
inductive StarOp (M : Type) [Meta M]
  | insert (p : AnyPrefix) (r : Record M) (tbi : Option (Meta.TBI M))
  | withdrawFor (p : AnyPrefix) (m : Mui) (t : LTime)
  | activateFor (p : AnyPrefix) (m : Mui) (t : LTime)
  | withdraw4 (m : Mui)
  | withdraw6 (m : Mui)
  | activate4 (m : Mui)
  | activate6 (m : Mui)
  | withdraw (m : Mui)
  | calcBest (p : AnyPrefix) (tbi : Meta.TBI M)

variable [Meta M]

/-- The program of a call, its result dropped. -/
def StarOp.prog (st : Strategy) (F : Nat) : StarOp M → Prog (Star M) Unit
  | .insert p r tbi => do let _ ← Star.insert st F p r tbi
  | .withdrawFor p m t => do let _ ← Star.withdrawFor st p m t
  | .activateFor p m t => do let _ ← Star.activateFor st p m t
  | .withdraw4 m => Star.withdraw4 F m
  | .withdraw6 m => Star.withdraw6 F m
  | .activate4 m => Star.activate4 F m
  | .activate6 m => Star.activate6 F m
  | .withdraw m => Star.withdraw F m
  | .calcBest p tbi => do let _ ← Star.calcBest p tbi

/-- Outcome of a new store that executed the calls of a history, most recent first. -/
def starExec (st : Strategy) (F : Nat) : List (StarOp M) → Outcome Unit (Star M)
  | [] => (Star.new F).run Star.empty
  | op :: h => (starExec st F h).andThen fun _ s => (op.prog st F).run s

end Rotonda
