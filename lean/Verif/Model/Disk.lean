import Verif.Model.Rib

/-!
# Reading from a faulty disk

The calls that read persisted records, with a disk that may fail: the `lsm_tree` crate
yields entries or errors (`lsm_tree::Result<KvPair>`), and entries may hold any bytes.
Writes go to the memory table of the `lsm_tree` crate and cannot fail.
-/

namespace Rotonda

/-- `lsm_tree::Result<KvPair>`. -/
abbrev DiskItem := Except Unit (Bytes × Bytes)

/-- What the disk yields for a scan (`lsm_tree::AbstractTree::prefix`) of the keys that begin
with the given bytes; a scan of everything (`AbstractTree::iter`) is that for no bytes. -/
abbrev Disk := Bytes → List DiskItem

/-- A disk without faults. -/
def Lsm.disk (t : Lsm) : Disk := fun k => (t.scan k).map .ok

variable {M : Type} {W : Nat}

/-- `.map(|kv| kv.map(f)).collect::<Vec<_>>()` (`src/lsm_tree/mod.rs` 174-189, 211-227);
`none` if `f` panics. -/
def eachEntry {β : Type} (f : Bytes × Bytes → Option β) (l : List DiskItem) :
    Option (List (Except Unit β)) :=
  l.mapM fun it => match it with
    | .error e => some (.error e)
    | .ok kv => (f kv).map .ok

/-- `Result<Option<T>, E>::transpose` -/
def transposed {β : Type} : Except Unit (Option β) → Option (Except Unit β)
  | .error e => some (.error e)
  | .ok none => none
  | .ok (some b) => some (.ok b)

/-- `.into_iter().collect::<lsm_tree::Result<Vec<_>>>().ok()` (`src/lsm_tree/mod.rs`
190-192, 228-230, 287-289, 328-330). -/
def allOk {β : Type} : List (Except Unit β) → Option (List β)
  | [] => some []
  | .error _ :: _ => none
  | .ok b :: l => (allOk l).map (b :: ·)

/-- `src/lsm_tree/mod.rs` 160-342, `records_for_prefix`.  The outer `none` is a
panic. -/
def diskRecordsForPrefix (D : Disk) (p : PrefixId W) (mui : Option Mui) (includeWithdrawn : Bool)
    (bmin : Mui → Bool) : Option (Option (List (FatalResult Bytes))) :=
  let key := match mui with
    | some m => shortKeyBytes p m
    | none => prefixBytes p
  match includeWithdrawn with
  | true => (eachEntry (includeEntry W bmin) (D key)).map fun l => (allOk l).bind noneIfEmpty
  | false => (eachEntry (excludeEntry W bmin) (D key)).map fun l =>
      (allOk (l.filterMap transposed)).bind noneIfEmpty

/-- `src/rib/starcast_af_query.rs` 32-84, `get_value` with `PersistOnly`. -/
def diskGetValue [Meta M] (D : Disk) (mui : Option Mui) (includeWithdrawn : Bool) (p : PrefixId W) :
    Prog (Rib M W) (FatalResult (Option (List (Record M)))) := do
  let bmin ← withdrawnMuis.zoom Rib.treeL
  match ← Prog.ofOption (diskRecordsForPrefix D p mui includeWithdrawn bmin) with
  | none => return .ok none
  | some l =>
    match l.mapM (decodeEntry W) with
    | .ok rs => return .ok (some rs)
    | .error e => return .error e

/-! ## Queries, with any way to look up the records of a prefix -/

/-- A way to look up the records of a prefix. -/
abbrev GetValue (M : Type) (W : Nat) :=
  PrefixId W → Prog (Rib M W) (FatalResult (Option (List (Record M))))

/-- `src/rib/starcast_af_query.rs` 173-177, 195-199, the closure of the iterators. -/
def gvItem (gv : GetValue M W) (p : PrefixId W) :
    Prog (Rib M W) (Option (FatalResult (PrefixRecord M W))) := do
  let v ← gv p
  let pfx ← Prog.ofOption p.toPrefix
  match v with
  | .ok (some rs) => return some (.ok (pfx, rs))
  | .ok none => return none
  | .error e => return some (.error e)

/-- `src/rib/starcast_af_query.rs` 236-252, 262-278, for each prefix of a collected list. -/
def gvValues (gv : GetValue M W) :
    List (PrefixId W) → Prog (Rib M W) (List (FatalResult (PrefixRecord M W)))
  | [] => return []
  | p :: ps => do
    let v ← gv p
    let pfx ← Prog.ofOption p.toPrefix
    let rest ← gvValues gv ps
    match v with
    | .ok (some rs) => return .ok (pfx, rs) :: rest
    | .ok none => return rest
    | .error e => return .error e :: rest

/-- `src/rib/starcast_af.rs` 451-457, the closure of `prefixes_iter`. -/
def gvPfxItem (gv : GetValue M W) (p : PrefixId W) :
    Prog (Rib M W) (FatalResult (PrefixRecord M W)) := do
  let pfx ← Prog.ofOption p.toPrefix
  let v ← gv p
  match v with
  | .ok r => return .ok (pfx, r.getD [])
  | .error e => return .error e

/-- `src/rib/starcast_af.rs` 446-458, `prefixes_iter`. -/
def gvPrefixesIter (gv : GetValue M W) (fuel : Nat) :
    Prog (Rib M W) (List (FatalResult (PrefixRecord M W))) :=
  eachMore fuel ⟨0#W, 0⟩ (gvPfxItem gv)

/-- `src/rib/starcast_af_query.rs` 155-183, `more_specifics_iter_from`, after the check of the
global status of the mui. -/
def gvMoreIter (gv : GetValue M W) (fuel : Nat) (p : PrefixId W) :
    Prog (Rib M W) (List (FatalResult (PrefixRecord M W))) := do
  let l ← eachMore fuel p (gvItem gv)
  return l.filterMap id

/-- `src/rib/starcast_af_query.rs` 185-200, `less_specifics_iter_from`. -/
def gvLessIter (gv : GetValue M W) (p : PrefixId W) :
    Prog (Rib M W) (List (FatalResult (PrefixRecord M W))) := do
  let l ← eachLess p (gvItem gv)
  return l.filterMap id

/-- `src/rib/starcast_af_query.rs` 231-256 and 258-282: fill in the records of the
less and more specifics. -/
def gvFill (gv : GetValue M W) :
    Option (List (PrefixId W)) → Prog (Rib M W) (FatalResult (Option (List (PrefixRecord M W))))
  | none => return .ok none
  | some ps => do
    let l ← gvValues gv ps
    match collectFatal l with
    | .ok rs => return .ok (some rs)
    | .error e => return .error e

/-- `src/rib/starcast_af_query.rs` 202-229: the matched prefix with its records. -/
def gvFound (gv : GetValue M W) (ty : MatchType) :
    Option (PrefixId W) → Prog (Rib M W) (MatchType × Option (Prefix W) × List (Record M))
  | none => return (.emptyMatch, none, [])
  | some q => do
    let qp ← Prog.ofOption q.toPrefix
    match ← gv q with
    | .ok (some (r :: rs)) => return (ty, some qp, r :: rs)
    | _ => return (.emptyMatch, none, [])

/-- `src/rib/starcast_af_query.rs` 202-285, `match_prefix`. -/
def gvMatchPrefix (gv : GetValue M W) (fuel : Nat) (p : PrefixId W) (o : MatchOptions) :
    Prog (Rib M W) (FatalResult (QueryResult M W)) := do
  let res ← onNodes (treeMatchPrefix fuel p o.matchType o.includeLessSpecifics
    o.includeMoreSpecifics)
  let found ← gvFound gv res.matchType res.prefix_
  match ← gvFill gv res.moreSpecifics with
  | .error e => return .error e
  | .ok ms =>
    match ← gvFill gv res.lessSpecifics with
    | .error e => return .error e
    | .ok ls => return .ok ⟨found.1, found.2.1, found.2.2, ls, ms⟩

/-- `src/rib/starcast_af_query.rs` 155-183, `more_specifics_iter_from`. -/
def gvMoreChecked (gv : GetValue M W) (fuel : Nat) (p : PrefixId W) (mui : Option Mui) (iw : Bool) :
    Prog (Rib M W) (List (FatalResult (PrefixRecord M W))) := do
  let stop ← match mui with
    | some m => if iw = false then ribMuiIsWithdrawn m else pure false
    | none => pure false
  if stop then return [] else gvMoreIter gv fuel p

/-- `src/rib/starcast.rs` 464-523, `iter_records_for_mui_v4/v6`. -/
def gvForMui (gv : GetValue M W) (fuel : Nat) (m : Mui) (iw : Bool) :
    Prog (Rib M W) (List (FatalResult (PrefixRecord M W))) := do
  let wd ← ribMuiIsWithdrawn m
  if wd = true ∧ iw = false then return []
  else gvMoreChecked gv fuel ⟨0#W, 0⟩ (some m) iw

/-- `src/rib/starcast_af_query.rs` 103-109 and 137-143. -/
def gvSameItem (gv : GetValue M W) (p q : PrefixId W) :
    Prog (Rib M W) (FatalResult (Option (PrefixRecord M W))) := do
  let v ← gv p
  let qp ← Prog.ofOption q.toPrefix
  match v with
  | .ok r => return .ok (r.map fun v => (qp, v))
  | .error e => return .error e

/-- The common part of `src/rib/starcast_af_query.rs` 86-119 and 121-153, simplified as
`ribFromCommon`. -/
def gvFromCommon (gv : GetValue M W) (p : PrefixId W) (mui : Option Mui)
    (walk : Prog (Rib M W) (List (FatalResult (Option (PrefixRecord M W))))) :
    Prog (Rib M W) (FatalResult (Option (Prefix W) × List (Record M) ×
      Option (List (PrefixRecord M W)))) := do
  let c ← ribContains p mui
  let pfx ← if c = false then (do let q ← Prog.ofOption p.toPrefix; pure (some q)) else pure none
  match ← gv p with
  | .error e => return .error e
  | .ok r =>
    let l ← walk
    match collectFatalOption l with
    | .error e => return .error e
    | .ok set => return .ok (pfx, r.getD [], set)

/-- `src/rib/starcast_af_query.rs` 86-119, `more_specifics_from`. -/
def gvMoreFrom (gv : GetValue M W) (fuel : Nat) (p : PrefixId W) (mui : Option Mui) :
    Prog (Rib M W) (FatalResult (QueryResult M W)) := do
  match ← gvFromCommon gv p mui (eachMore fuel p (gvSameItem gv p)) with
  | .error e => return .error e
  | .ok (pfx, recs, set) => return .ok ⟨.emptyMatch, pfx, recs, none, set⟩

/-- `src/rib/starcast_af_query.rs` 121-153, `less_specifics_from`. -/
def gvLessFrom (gv : GetValue M W) (p : PrefixId W) (mui : Option Mui) :
    Prog (Rib M W) (FatalResult (QueryResult M W)) := do
  match ← gvFromCommon gv p mui (eachLess p (gvSameItem gv p)) with
  | .error e => return .error e
  | .ok (pfx, recs, set) => return .ok ⟨.emptyMatch, pfx, recs, set, none⟩

/-! ## The queries with `PersistOnly` and a faulty disk -/

/-- `src/rib/starcast_af_query.rs` 202-285, `match_prefix`. -/
def diskMatchPrefix [Meta M] (D : Disk) (fuel : Nat) (p : PrefixId W) (o : MatchOptions) :
    Prog (Rib M W) (FatalResult (QueryResult M W)) :=
  gvMatchPrefix (diskGetValue D o.mui o.includeWithdrawn) fuel p o

/-- `src/rib/starcast_af_query.rs` 155-183, `more_specifics_iter_from`. -/
def diskMoreIter [Meta M] (D : Disk) (fuel : Nat) (p : PrefixId W) (mui : Option Mui) (iw : Bool) :
    Prog (Rib M W) (List (FatalResult (PrefixRecord M W))) := do
  let stop ← match mui with
    | some m => if iw = false then ribMuiIsWithdrawn m else pure false
    | none => pure false
  if stop then return [] else gvMoreIter (diskGetValue D mui iw) fuel p

/-- `src/rib/starcast_af_query.rs` 185-200, `less_specifics_iter_from`. -/
def diskLessIter [Meta M] (D : Disk) (p : PrefixId W) (mui : Option Mui) (iw : Bool) :
    Prog (Rib M W) (List (FatalResult (PrefixRecord M W))) :=
  gvLessIter (diskGetValue D mui iw) p

/-- `src/rib/starcast_af.rs` 446-458, `prefixes_iter`. -/
def diskPrefixesIter [Meta M] (D : Disk) (fuel : Nat) :
    Prog (Rib M W) (List (FatalResult (PrefixRecord M W))) :=
  gvPrefixesIter (diskGetValue D none true) fuel

/-! ## Status changes -/

/-- `src/lsm_tree/mod.rs` 377-394, `records_with_keys_for_prefix_mui`. -/
def diskRecordsWithKeys (D : Disk) (p : PrefixId W) (m : Mui) : List (FatalResult Bytes) :=
  (D (shortKeyBytes p m)).map fun it => match it with
    | .ok kv => .ok (kv.1 ++ kv.2)
    | .error e => .error e

/-- The loop of `src/rib/starcast_af.rs` 250-266; `false` for `Err(StoreNotReadyError)`. -/
def diskRewriteAll (W : Nat) (ltime : LTime) (rs : RouteStatus) :
    List (FatalResult Bytes) → Prog (Rib M W) Bool
  | [] => return true
  | .error _ :: _ => return false
  | .ok b :: bs => do
    let ok ← Prog.atomic fun r : Rib M W =>
      match rewriteHeader W r.lsm ltime rs b with
      | some t => (true, { r with lsm := t })
      | none => (false, r)
    if ok then diskRewriteAll W ltime rs bs else return false

/-- `src/rib/starcast_af.rs` 222-297, `mark_mui_as_withdrawn_for_prefix` with
`PersistOnly`. -/
def diskMarkWithdrawn (D : Disk) (p : PrefixId W) (m : Mui) (ltime : LTime) :
    Prog (Rib M W) (Except StoreError Unit) := do
  if ← diskRewriteAll W ltime .withdrawn (diskRecordsWithKeys D p m) then return .ok ()
  else return .error .storeNotReady

/-- `src/lsm_tree/mod.rs` 344-375, `most_recent_record_for_prefix_mui`; `none` for
`Err(FatalError)` (the result is never `Ok(None)`). -/
def diskMostRecent (D : Disk) (p : PrefixId W) (m : Mui) : Option Bytes :=
  ((D (shortKeyBytes p m)).foldlM (fun res (it : DiskItem) => match it with
    | .ok kv => mostRecentStep W res kv
    | .error _ => none) none).bind id

/-- `src/rib/starcast_af.rs` 301-364, `mark_mui_as_active_for_prefix` with
`PersistOnly`. -/
def diskMarkActive (D : Disk) (p : PrefixId W) (m : Mui) (ltime : LTime) :
    Prog (Rib M W) (Except StoreError Unit) :=
  match diskMostRecent D p m with
  | some b => do
    if ← rewriteAll W ltime .active [b] then return .ok () else return .error .fatal
  | none => return .ok ()

/-! ## The iteration over all persisted entries -/

/-- The inner loop of `src/lsm_tree/mod.rs` 594-607: `flatten` leaves out the errors. -/
def diskGroup (W : Nat) (outer : PrefixId W) :
    List DiskItem → List (FatalResult Bytes) × Option Bytes × List DiskItem
  | [] => ([], none, [])
  | .error _ :: rest => diskGroup W outer rest
  | .ok kv :: rest =>
    match decodeHeader W kv.1 with
    | some h =>
      if h.pfx = outer then
        let r := diskGroup W outer rest
        (.ok (kv.1 ++ kv.2) :: r.1, r.2)
      else ([], some (kv.1 ++ kv.2), rest)
    | none =>
      let r := diskGroup W outer rest
      (.error () :: r.1, r.2)

/-- `src/lsm_tree/mod.rs` 557-613, `PersistedPrefixIter::next`; the state is the
kept entry and the items still to come. -/
def diskIterNext (W : Nat) (cur : Option Bytes) (rest : List DiskItem) :
    Option (List (FatalResult Bytes) × Option Bytes × List DiskItem) :=
  let start := match cur with
    | some b => some (b, rest)
    | none => match rest with
      | [] => none
      | .ok kv :: rest' => some (kv.1 ++ kv.2, rest')
      | .error _ :: _ => none
  start.map fun (b, rest) =>
    match decodeHeader W b with
    | none => ([.error ()], none, rest)
    | some h =>
      let r := diskGroup W h.pfx rest
      (.ok b :: r.1, r.2)

/-- All groups of `PersistedPrefixIter`, with bounded rounds; `none` when the
bound is used up. -/
def diskIterCollect (W : Nat) : Nat → Option Bytes → List DiskItem →
    Option (List (List (FatalResult Bytes)))
  | 0, _, _ => none
  | fuel + 1, cur, rest =>
    match diskIterNext W cur rest with
    | none => some []
    | some (g, cur', rest') => (diskIterCollect W fuel cur' rest').map (g :: ·)

/-- `src/rib/starcast_af.rs` 467-505, `persist_prefixes_iter`; `none` is a panic of
`Prefix::from`. -/
def diskPersistIter [Meta M] (W : Nat) (D : Disk) :
    Option (List (FatalResult (PrefixRecord M W))) :=
  match diskIterCollect W ((D []).length + 1) none (D []) with
  | none => none
  | some gs => groupsToPrefix (gs.map (persistGroupRecord (M := M) W))

end Rotonda
