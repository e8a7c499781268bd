import Verif.Model.Lsm
import Verif.Model.TreeIter

/-!
# The store for one address family
(`src/rib/starcast_af.rs`, `src/rib/starcast_af_query.rs`)
-/

namespace Rotonda

/-- `src/rib/config.rs` 23-36, `PersistStrategy`. -/
inductive Strategy
  | writeAhead
  | persistHistory
  | memoryOnly
  | persistOnly
  deriving DecidableEq, Repr

/-- The strategies that keep current records in memory. -/
def Strategy.inMemory : Strategy → Bool
  | .persistOnly => false
  | _ => true

/-- `src/rib/starcast_af.rs` 32-56, `StarCastAfRib`.  `persist_tree` is `None`
exactly for `MemoryOnly` (`init`, 78-112); the model keeps a tree in every case
and never touches it for `MemoryOnly`. -/
structure Rib (M : Type) (W : Nat) where
  tree : Tree W
  cht : PCht M W
  lsm : Lsm
  prefixes : Nat → Nat
  routes : Nat

variable {M : Type} {W : Nat}

def Rib.treeL : Lens (Rib M W) (Tree W) where
  get := Rib.tree
  set r t := { r with tree := t }

def Rib.chtL : Lens (Rib M W) (PCht M W) where
  get := Rib.cht
  set r t := { r with cht := t }

/-- A walk of the node table, run in the whole store. -/
def onNodes {α : Type} (p : Prog (NSlots W) α) : Prog (Rib M W) α :=
  (p.zoom Tree.slotsL).zoom Rib.treeL

/-- A walk of the prefix table, run in the whole store. -/
def onRecs {α : Type} (p : Prog (PSlots M W) α) : Prog (Rib M W) α :=
  (p.zoom PCht.slotsL).zoom Rib.chtL

/-- One update of the persistence tree. -/
def onLsm (f : Lsm → Lsm) : Prog (Rib M W) Unit :=
  Prog.atomic fun r => ((), { r with lsm := f r.lsm })

/-- `src/types/stats.rs` 176-178 on the counters of the store. -/
def Rib.incRoutes : Prog (Rib M W) Unit :=
  Prog.atomic fun t => ((), { t with routes := t.routes + 1 })

/-- `src/types/stats.rs` 142-146 on the counters of the store. -/
def Rib.incPrefixes (len : Nat) : Prog (Rib M W) Unit :=
  Prog.atomic fun t => ((), { t with prefixes := fun l =>
    if l = len ∧ len ≤ 128 then t.prefixes l + 1 else t.prefixes l })

/-- `src/rib/starcast_af.rs` 146-206, `upsert_prefix`. -/
def ribUpsert [Meta M] (st : Strategy) (F : Nat) (p : PrefixId W) (r : Record M)
    (upd : Option (Meta.TBI M)) : Prog (Rib M W) (Except StoreError UpsertReport) :=
  match st with
  | .writeAhead => do
    onLsm fun t => persistLong t p r
    match ← (pchtUpsert p r upd).zoom Rib.chtL with
    | .ok (rep, _) => return .ok rep
    | .error e => return .error e
  | .persistHistory => do
    match ← (pchtUpsert p r upd).zoom Rib.chtL with
    | .ok (rep, some old) =>
      onLsm fun t => persistLong t p (old.toRecord r.mui)
      return .ok rep
    | .ok (rep, none) => return .ok rep
    | .error e => return .error e
  | .memoryOnly => do
    match ← (pchtUpsert p r upd).zoom Rib.chtL with
    | .ok (rep, _) => return .ok rep
    | .error e => return .error e
  | .persistOnly => do
    match ← (setPrefixExists F p r.mui).zoom Rib.treeL with
    | .error e => return .error e
    | .ok ex =>
      onLsm fun t => persistShort t p r
      return .ok ⟨ex, true, 0⟩

/-- `src/rib/starcast_af.rs` 114-144, `insert`. -/
def ribInsert [Meta M] (st : Strategy) (F : Nat) (p : PrefixId W) (r : Record M)
    (upd : Option (Meta.TBI M)) : Prog (Rib M W) (Except StoreError UpsertReport) := do
  match ← (setPrefixExists F p r.mui).zoom Rib.treeL with
  | .error e => return .error e
  | .ok ex =>
    match ← ribUpsert st F p r upd with
    | .error e => return .error e
    | .ok rep =>
      if rep.muiNew then Rib.incRoutes
      if ex = false then
        Rib.incPrefixes p.len
        return .ok { rep with prefixNew := true }
      else return .ok rep

/-- `src/rib/starcast_af.rs` 208-214, `contains`. -/
def ribContains (p : PrefixId W) (mui : Option Mui) : Prog (Rib M W) Bool :=
  match mui with
  | some m => (prefixExistsForMui p m).zoom Rib.treeL
  | none => (prefixExists p).zoom Rib.treeL

/-- The in-memory part of `src/rib/starcast_af.rs` 229-239, 270-281 and 308-316,
335-345: mark the record; `none` when the prefix was not found.  A missing
`StoredPrefix` is created all the same. -/
def ribMarkMem (p : PrefixId W) (m : Mui) (ltime : LTime) (rs : RouteStatus) :
    Prog (Rib M W) (Option (Ref W)) := do
  let (sp, found) ← onRecs (retrievePrefixMut (M := M) p)
  if found = false then return none
  else
    onRecs (markStatusAt (M := M) sp.addr m ltime rs)
    return some sp

/-- `src/rib/starcast_af.rs` 283-294 and 347-360: an empty record is persisted
when the mui has a record. -/
def ribPersistMarker (sp : Ref W) (p : PrefixId W) (m : Mui) (ltime : LTime) :
    Prog (Rib M W) Unit := do
  match ← onRecs (readAt sp.addr fun e : StoredPrefix M W => getRecordForMui e.recs m true) with
  | some _ => onLsm fun t => insertEmptyRecord t p m ltime
  | none => return ()

/-- The loop of `src/rib/starcast_af.rs` 250-266: rewrite the header of every
record found; `false` for `Err(StoreNotReadyError)`. -/
def rewriteAll (W : Nat) (ltime : LTime) (rs : RouteStatus) :
    List Bytes → Prog (Rib M W) Bool
  | [] => return true
  | b :: bs => do
    let ok ← Prog.atomic fun r : Rib M W =>
      match rewriteHeader W r.lsm ltime rs b with
      | some t => (true, { r with lsm := t })
      | none => (false, r)
    if ok then rewriteAll W ltime rs bs else return false

/-- `src/rib/starcast_af.rs` 222-297, `mark_mui_as_withdrawn_for_prefix`. -/
def ribMarkWithdrawnForPrefix (st : Strategy) (p : PrefixId W) (m : Mui) (ltime : LTime) :
    Prog (Rib M W) (Except StoreError Unit) :=
  match st with
  | .writeAhead | .memoryOnly => do
    match ← ribMarkMem p m ltime .withdrawn with
    | some _ => return .ok ()
    | none => return .error .prefixNotFound
  | .persistOnly => do
    let recs ← Prog.read fun r : Rib M W => recordsWithKeys r.lsm p m
    if ← rewriteAll W ltime .withdrawn recs then return .ok () else return .error .storeNotReady
  | .persistHistory => do
    match ← ribMarkMem p m ltime .withdrawn with
    | some sp =>
      ribPersistMarker sp p m ltime
      return .ok ()
    | none => return .error .storeNotReady

/-- `src/rib/starcast_af.rs` 301-364, `mark_mui_as_active_for_prefix`
(`FatalResult`; the error is `fatal`). -/
def ribMarkActiveForPrefix (st : Strategy) (p : PrefixId W) (m : Mui) (ltime : LTime) :
    Prog (Rib M W) (Except StoreError Unit) :=
  match st with
  | .writeAhead | .memoryOnly => do
    match ← ribMarkMem p m ltime .active with
    | some _ => return .ok ()
    | none => return .error .fatal
  | .persistOnly => do
    match ← Prog.read fun r : Rib M W => mostRecentRecord r.lsm p m with
    | some b =>
      if ← rewriteAll W ltime .active [b] then return .ok () else return .error .fatal
    | none => return .ok ()
  | .persistHistory => do
    match ← ribMarkMem p m ltime .active with
    | some sp =>
      ribPersistMarker sp p m ltime
      return .ok ()
    | none => return .error .fatal

/-- `src/rib/starcast_af.rs` 368-374, `mark_mui_as_withdrawn`. -/
def ribMarkWithdrawn (F : Nat) (m : Mui) : Prog (Rib M W) Unit :=
  (treeMarkWithdrawn F m).zoom Rib.treeL

/-- `src/rib/starcast_af.rs` 378-384, `mark_mui_as_active`. -/
def ribMarkActive (F : Nat) (m : Mui) : Prog (Rib M W) Unit :=
  (treeMarkActive F m).zoom Rib.treeL

/-- `src/rib/starcast_af.rs` 389-392, `mui_is_withdrawn`. -/
def ribMuiIsWithdrawn (m : Mui) : Prog (Rib M W) Bool := do
  let s ← withdrawnMuis.zoom Rib.treeL
  return s m

/-- `src/rib/starcast_af.rs` 397-400, `is_mui_active`. -/
def ribIsMuiActive (m : Mui) : Prog (Rib M W) Bool := do
  let s ← withdrawnMuis.zoom Rib.treeL
  return !s m

/-- `src/types/stats.rs` 203-212, `UpsertCounters`. -/
structure UpsertCounters where
  inMemory : Nat
  persisted : Nat
  total : Nat
  deriving DecidableEq, Repr

/-- `src/types/stats.rs` 135-140, `prefixes_count` on the counters `get`, summed up by the
callers: one load for each of the lengths. -/
def sumCounters (get : Rib M W → Nat → Nat) : List Nat → Prog (Rib M W) Nat
  | [] => return 0
  | l :: ls => do
    let n ← Prog.read fun r => get r l
    let rest ← sumCounters get ls
    return n + rest

/-- `src/rib/starcast_af.rs` 402-411, `prefixes_count` (`src/prefix_cht/cht.rs` 823-825 for
the in-memory count).  The counters of the `LsmTree` are never incremented anywhere
(`src/lsm_tree/mod.rs`), so the persisted count is the constant 0. -/
def ribPrefixesCount : Prog (Rib M W) UpsertCounters := do
  let mem ← sumCounters (fun r => r.cht.prefixes) (List.range 129)
  let total ← sumCounters (fun r => r.prefixes) (List.range 129)
  return ⟨mem, 0, total⟩

/-- `src/rib/starcast_af.rs` 413-422, `routes_count`. -/
def ribRoutesCount : Prog (Rib M W) UpsertCounters := do
  let mem ← Prog.read fun r : Rib M W => r.cht.routesCount
  let total ← Prog.read fun r : Rib M W => r.routes
  return ⟨mem, 0, total⟩

/-- `src/rib/starcast_af.rs` 426-444, `prefixes_count_for_len`.  The in-memory
count is read from the tree bitmap (`src/tree_bitmap/mod.rs` 948-957), whose
prefix counters are never incremented: the constant 0.  Simplification: the counters of
the other lengths, whose values are not used, are not loaded. -/
def ribPrefixesCountForLen (len : Nat) : Prog (Rib M W) (Except StoreError UpsertCounters) :=
  if len ≤ W then Prog.read fun r => .ok ⟨0, 0, r.prefixes len⟩
  else return .error .prefixLengthInvalid

/-- `src/rib/starcast_af.rs` 216-218 and `src/tree_bitmap/mod.rs` 937-939,
`get_nodes_count`. -/
def ribNodesCount : Prog (Rib M W) Nat := Prog.read fun r => r.tree.nodes

/-- The record of a persisted entry: `src/rib/starcast_af_query.rs` 52-69 and
`src/rib/starcast_af.rs` 483-490. -/
def ZRec.toRecord [Meta M] (z : ZRec W) : Record M := ⟨z.mui, z.ltime, z.status, Meta.ofBytes z.md⟩

/-- `src/rib/starcast_af_query.rs` 53-71: decode one entry. -/
def decodeEntry [Meta M] (W : Nat) (b : FatalResult Bytes) : FatalResult (Record M) :=
  match b with
  | .ok b => match decodeRecord W b with
    | some z => .ok z.toRecord
    | none => .error ()
  | .error _ => .error ()

/-- `src/rib/starcast_af_query.rs` 32-84, `get_value`. -/
def ribGetValue [Meta M] (st : Strategy) (p : PrefixId W) (mui : Option Mui)
    (includeWithdrawn : Bool) : Prog (Rib M W) (FatalResult (Option (List (Record M)))) := do
  let bmin ← withdrawnMuis.zoom Rib.treeL
  match st with
  | .persistOnly =>
    let res ← Prog.read fun r : Rib M W => recordsForPrefix r.lsm p mui includeWithdrawn bmin
    match ← Prog.ofOption res with
    | none => return .ok none
    | some l =>
      match l.mapM (decodeEntry W) with
      | .ok rs => return .ok (some rs)
      | .error e => return .error e
  | _ =>
    let rs ← onRecs (getRecordsForPrefix p mui includeWithdrawn bmin)
    return .ok rs

/-- A prefix with its records (`src/types/prefix_record.rs` 116-120). -/
abbrev PrefixRecord (M : Type) (W : Nat) := Prefix W × List (Record M)

/-- Running `body` on every prefix an iterator over the tree yields, before the
iterator is advanced to the next one; `fuel` bounds the number of calls of `next`. -/
def lazily {σ β : Type} (next : Nat → σ → Prog (NSlots W) (Option (PrefixId W × σ)))
    (body : PrefixId W → Prog (Rib M W) β) : Nat → σ → Prog (Rib M W) (List β)
  | 0, _ => Prog.diverge
  | fuel + 1, st => do
    match ← onNodes (next (fuel + 1) st) with
    | none => return []
    | some (p, st') =>
      let b ← body p
      let rest ← lazily next body fuel st'
      return b :: rest

/-- `more_specific_prefix_iter_from(p).map(body).collect()`. -/
def eachMore {β : Type} (fuel : Nat) (p : PrefixId W) (body : PrefixId W → Prog (Rib M W) β) :
    Prog (Rib M W) (List β) := do
  match ← onNodes (moreSpecificStart p) with
  | none => return []
  | some st => lazily msNext body fuel st

/-- `less_specific_prefix_iter(p).map(body).collect()`. -/
def eachLess {β : Type} (p : PrefixId W) (body : PrefixId W → Prog (Rib M W) β) :
    Prog (Rib M W) (List β) :=
  lazily (fun _ => lsNext p) body 256 p.len

/-- `|p| get_value(p).map(|res| res.map(|v| (p, v))).transpose()`
(`src/rib/starcast_af_query.rs` 173-177, 195-199), with the conversion to
`Prefix` of the callers (`src/rib/starcast.rs` 352-397, 410-455). -/
def filterItem [Meta M] (st : Strategy) (mui : Option Mui) (iw : Bool) (p : PrefixId W) :
    Prog (Rib M W) (Option (FatalResult (PrefixRecord M W))) := do
  let v ← ribGetValue st p mui iw
  let pfx ← Prog.ofOption p.toPrefix
  match v with
  | .ok (some rs) => return some (.ok (pfx, rs))
  | .ok none => return none
  | .error e => return some (.error e)

/-- `filterItem` for each prefix of a collected list. -/
def filterValues [Meta M] (st : Strategy) (mui : Option Mui) (iw : Bool) :
    List (PrefixId W) → Prog (Rib M W) (List (FatalResult (PrefixRecord M W)))
  | [] => return []
  | p :: ps => do
    let v ← ribGetValue st p mui iw
    let pfx ← Prog.ofOption p.toPrefix
    let rest ← filterValues st mui iw ps
    match v with
    | .ok (some rs) => return .ok (pfx, rs) :: rest
    | .ok none => return rest
    | .error e => return .error e :: rest

/-- `src/rib/starcast_af.rs` 451-457, the closure of `prefixes_iter`. -/
def pfxItem [Meta M] (st : Strategy) (p : PrefixId W) :
    Prog (Rib M W) (FatalResult (PrefixRecord M W)) := do
  let pfx ← Prog.ofOption p.toPrefix
  let v ← ribGetValue st p none true
  match v with
  | .ok r => return .ok (pfx, r.getD [])
  | .error e => return .error e

/-- `src/rib/starcast_af.rs` 446-458, `prefixes_iter`, over `TreeBitMap::prefixes_iter`
(`src/tree_bitmap/tree_bitmap_iterators.rs` 353-360). -/
def ribPrefixesIter [Meta M] (st : Strategy) (fuel : Nat) :
    Prog (Rib M W) (List (FatalResult (PrefixRecord M W))) :=
  eachMore fuel ⟨0#W, 0⟩ (pfxItem st)

/-- `src/rib/starcast_af_query.rs` 155-183, `more_specifics_iter_from`. -/
def ribMoreSpecificsIter [Meta M] (st : Strategy) (fuel : Nat) (p : PrefixId W) (mui : Option Mui)
    (iw : Bool) : Prog (Rib M W) (List (FatalResult (PrefixRecord M W))) := do
  let stop ← match mui with
    | some m => if iw = false then ribMuiIsWithdrawn m else pure false
    | none => pure false
  if stop then return []
  else
    let l ← eachMore fuel p (filterItem st mui iw)
    return l.filterMap id

/-- `src/rib/starcast_af_query.rs` 185-200, `less_specifics_iter_from`. -/
def ribLessSpecificsIter [Meta M] (st : Strategy) (p : PrefixId W) (mui : Option Mui) (iw : Bool) :
    Prog (Rib M W) (List (FatalResult (PrefixRecord M W))) := do
  let l ← eachLess p (filterItem st mui iw)
  return l.filterMap id

/-- `src/rib/starcast.rs` 464-523, `iter_records_for_mui_v4/v6`. -/
def ribIterRecordsForMui [Meta M] (st : Strategy) (fuel : Nat) (m : Mui) (iw : Bool) :
    Prog (Rib M W) (List (FatalResult (PrefixRecord M W))) := do
  let wd ← ribMuiIsWithdrawn m
  if wd = true ∧ iw = false then return []
  else ribMoreSpecificsIter st fuel ⟨0#W, 0⟩ (some m) iw

/-- `src/types/match_options.rs` 96-110, `QueryResult`.  Simplification: the
`RecordSet`s of a query only ever hold records of one family; they are lists. -/
structure QueryResult (M : Type) (W : Nat) where
  matchType : MatchType
  prefix_ : Option (Prefix W)
  records : List (Record M)
  lessSpecifics : Option (List (PrefixRecord M W))
  moreSpecifics : Option (List (PrefixRecord M W))

/-- `src/types/match_options.rs` 19-39, `MatchOptions` (`include_history` is not
used by the code). -/
structure MatchOptions where
  matchType : MatchType
  includeWithdrawn : Bool
  includeLessSpecifics : Bool
  includeMoreSpecifics : Bool
  mui : Option Mui

/-- `collect::<FatalResult<_>>` of the items. -/
def collectFatal {α : Type} : List (FatalResult α) → FatalResult (List α)
  | [] => .ok []
  | .error e :: _ => .error e
  | .ok a :: rest =>
    match collectFatal rest with
    | .ok as => .ok (a :: as)
    | .error e => .error e

/-- `src/rib/starcast_af_query.rs` 231-256 and 258-282: fill in the records of the
less and more specifics, dropping those without. -/
def fillRecords [Meta M] (st : Strategy) (mui : Option Mui) (iw : Bool) :
    Option (List (PrefixId W)) → Prog (Rib M W) (FatalResult (Option (List (PrefixRecord M W))))
  | none => return .ok none
  | some ps => do
    let l ← filterValues st mui iw ps
    match collectFatal l with
    | .ok rs => return .ok (some rs)
    | .error e => return .error e

/-- `src/rib/starcast_af_query.rs` 202-229: the matched prefix with its records. -/
def ribMatchFound [Meta M] (st : Strategy) (mui : Option Mui) (iw : Bool) (ty : MatchType) :
    Option (PrefixId W) → Prog (Rib M W) (MatchType × Option (Prefix W) × List (Record M))
  | none => return (.emptyMatch, none, [])
  | some q => do
    let qp ← Prog.ofOption q.toPrefix
    match ← ribGetValue st q mui iw with
    | .ok (some (r :: rs)) => return (ty, some qp, r :: rs)
    | _ => return (.emptyMatch, none, [])

/-- `src/rib/starcast_af_query.rs` 202-285, `match_prefix`.  Simplification: the
conversion of the less and more specifics to `Prefix` happens together with
their record lookup. -/
def ribMatchPrefix [Meta M] (st : Strategy) (fuel : Nat) (p : PrefixId W) (o : MatchOptions) :
    Prog (Rib M W) (FatalResult (QueryResult M W)) := do
  let res ← onNodes (treeMatchPrefix fuel p o.matchType o.includeLessSpecifics
    o.includeMoreSpecifics)
  let found ← ribMatchFound st o.mui o.includeWithdrawn res.matchType res.prefix_
  match ← fillRecords st o.mui o.includeWithdrawn res.moreSpecifics with
  | .error e => return .error e
  | .ok ms =>
    match ← fillRecords st o.mui o.includeWithdrawn res.lessSpecifics with
    | .error e => return .error e
    | .ok ls => return .ok ⟨found.1, found.2.1, found.2.2, ls, ms⟩

/-- `collect::<FatalResult<Option<_>>>`: stops at the first error or `None`. -/
def collectFatalOption {α : Type} : List (FatalResult (Option α)) → FatalResult (Option (List α))
  | [] => .ok (some [])
  | .error e :: _ => .error e
  | .ok none :: _ => .ok none
  | .ok (some a) :: rest =>
    match collectFatalOption rest with
    | .ok (some as) => .ok (some (a :: as))
    | r => r

/-- `src/rib/starcast_af_query.rs` 103-109 and 137-143: for every prefix `q` the
records of the *searched* prefix `p` are looked up. -/
def sameItem [Meta M] (st : Strategy) (p : PrefixId W) (mui : Option Mui) (iw : Bool)
    (q : PrefixId W) : Prog (Rib M W) (FatalResult (Option (PrefixRecord M W))) := do
  let v ← ribGetValue st p mui iw
  let qp ← Prog.ofOption q.toPrefix
  match v with
  | .ok r => return .ok (r.map fun v => (qp, v))
  | .error e => return .error e

/-- The common part of `src/rib/starcast_af_query.rs` 86-119 and 121-153: the
prefix is reported when it is *not* contained.  Simplification: the walk runs to
its end even when the result is known to be an error or `None` already. -/
def ribFromCommon [Meta M] (st : Strategy) (p : PrefixId W) (mui : Option Mui) (iw : Bool)
    (walk : Prog (Rib M W) (List (FatalResult (Option (PrefixRecord M W))))) :
    Prog (Rib M W) (FatalResult (Option (Prefix W) × List (Record M) ×
      Option (List (PrefixRecord M W)))) := do
  let c ← ribContains p mui
  let pfx ← if c = false then (do let q ← Prog.ofOption p.toPrefix; pure (some q)) else pure none
  match ← ribGetValue st p mui iw with
  | .error e => return .error e
  | .ok r =>
    let l ← walk
    match collectFatalOption l with
    | .error e => return .error e
    | .ok set => return .ok (pfx, r.getD [], set)

/-- `src/rib/starcast_af_query.rs` 86-119, `more_specifics_from`. -/
def ribMoreSpecificsFrom [Meta M] (st : Strategy) (fuel : Nat) (p : PrefixId W) (mui : Option Mui)
    (iw : Bool) : Prog (Rib M W) (FatalResult (QueryResult M W)) := do
  match ← ribFromCommon st p mui iw (eachMore fuel p (sameItem st p mui iw)) with
  | .error e => return .error e
  | .ok (pfx, recs, set) => return .ok ⟨.emptyMatch, pfx, recs, none, set⟩

/-- `src/rib/starcast_af_query.rs` 121-153, `less_specifics_from`. -/
def ribLessSpecificsFrom [Meta M] (st : Strategy) (p : PrefixId W) (mui : Option Mui)
    (iw : Bool) : Prog (Rib M W) (FatalResult (QueryResult M W)) := do
  match ← ribFromCommon st p mui iw (eachLess p (sameItem st p mui iw)) with
  | .error e => return .error e
  | .ok (pfx, recs, set) => return .ok ⟨.emptyMatch, pfx, recs, set, none⟩

/-- `src/rib/starcast_af_query.rs` 287-306, `best_path`. -/
def ribBestPath (p : PrefixId W) : Prog (Rib M W) (Option (Except StoreError (Record M))) := do
  match ← onRecs (retrievePrefix (M := M) p) with
  | none => return none
  | some sp =>
    let ps ← onRecs (readAt sp.addr fun e : StoredPrefix M W => e.ps.val)
    match ps.1 with
    | none => return some (.error .bestPathNotFound)
    | some m =>
      match ← onRecs (readAt sp.addr fun e : StoredPrefix M W => getRecordForMui e.recs m false) with
      | some r => return some (.ok r)
      | none => return some (.error .storeNotReady)

/-- `src/rib/starcast_af_query.rs` 308-320, `calculate_and_store_best_and_backup_path`. -/
def ribCalcBest [Meta M] (p : PrefixId W) (tbi : Meta.TBI M) :
    Prog (Rib M W) (Except StoreError (Option Mui × Option Mui)) := do
  match ← onRecs (retrievePrefix (M := M) p) with
  | none => return .error .storeNotReady
  | some sp => onRecs (calculateAndStore sp.addr tbi)

/-- `src/rib/starcast_af_query.rs` 322-333, `is_ps_outdated`. -/
def ribIsPsOutdated (p : PrefixId W) : Prog (Rib M W) (Except StoreError Bool) := do
  match ← onRecs (retrievePrefix (M := M) p) with
  | none => return .error .storeNotReady
  | some sp =>
    let b ← onRecs (isPsOutdatedAt (M := M) sp.addr)
    return .ok b

/-- `src/rib/starcast_af.rs` 478-497: one group of persisted entries. -/
def persistGroupRecord [Meta M] (W : Nat) (g : List (FatalResult Bytes)) :
    FatalResult (PrefixId W × List (Record M)) :=
  match g with
  | .ok first :: _ =>
    match decodeRecord W first with
    | none => .error ()
    | some z =>
      if g.any (fun r => match r with | .ok _ => false | .error _ => true) then .error ()
      else .ok (z.pfx, g.filterMap fun r => match r with
        | .ok b => (decodeRecord W b).map ZRec.toRecord
        | .error _ => none)
  | _ => .error ()

/-- The conversion of the prefixes of `persist_prefixes_iter`. -/
def groupsToPrefix : List (FatalResult (PrefixId W × List (Record M))) →
    Option (List (FatalResult (PrefixRecord M W)))
  | [] => some []
  | .error e :: rest => (groupsToPrefix rest).map (.error e :: ·)
  | .ok (p, rs) :: rest =>
    p.toPrefix.bind fun q => (groupsToPrefix rest).map (.ok (q, rs) :: ·)

/-- `src/rib/starcast_af.rs` 466-506, `persist_prefixes_iter`; nothing without a
persistence tree. -/
def ribPersistPrefixesIter [Meta M] (st : Strategy) :
    Prog (Rib M W) (List (FatalResult (PrefixRecord M W))) :=
  match st with
  | .memoryOnly => return []
  | _ => do
    let gs ← Prog.read fun r : Rib M W => lsmPrefixesIter W r.lsm
    match gs with
    | none => Prog.diverge
    | some gs => Prog.ofOption (groupsToPrefix (gs.map (persistGroupRecord W)))

/-- `src/rib/starcast_af.rs` 78-112, `init`, before `TreeBitMap::new` has stored
the root node. -/
def Rib.empty : Rib M W := ⟨Tree.empty, PCht.empty, [], fun _ => 0, 0⟩

/-- `src/rib/starcast_af.rs` 78-112, `init`; the result is whether the root node
could be stored. -/
def ribNew (F : Nat) : Prog (Rib M W) Bool := (treeNew F).zoom Rib.treeL

end Rotonda
