import Verif.Model.Conc
import Verif.Model.Disk

/-!
# Persisted records read one after another

`Model/Rib.lean` reads all persisted records of a range in one action.  The iterators of
`lsm_tree` give them one by one, so other calls can write in between.  Here each entry is
read in an action of its own: the first entry of the range behind the one given before, as
the tree is at that moment.
Simplification: an iterator that came to the end of the range stays there.
-/

namespace Rotonda

variable {M : Type} {W : Nat}

/-- `next` of the iterators of `lsm_tree::AbstractTree::prefix` and `iter` (external): the
first entry whose key starts with `pre` and is greater than `last`. -/
def Lsm.next (t : Lsm) (pre : Bytes) (last : Option Bytes) : Option (Bytes × Bytes) :=
  t.find? fun kv => pre.isPrefixOf kv.1 && match last with
    | none => true
    | some k => bytesLt k kv.1

/-- All entries of a range, `collect`ed (`src/lsm_tree/mod.rs` 174-188, 208-228, 248-285,
310-329); `fuel` bounds the calls of `next`. -/
def scanSteps (pre : Bytes) : Nat → Option Bytes → Prog (Rib M W) Lsm
  | 0, _ => Prog.diverge
  | fuel + 1, last => do
    match ← Prog.read fun r : Rib M W => r.lsm.next pre last with
    | none => return []
    | some kv =>
      let rest ← scanSteps pre fuel (some kv.1)
      return kv :: rest

/-- `src/lsm_tree/mod.rs` 160-342, `records_for_prefix`, on the entries of the range. -/
def recordsOf (W : Nat) (es : Lsm) (includeWithdrawn : Bool) (bmin : Mui → Bool) :
    Option (Option (List (FatalResult Bytes))) :=
  match includeWithdrawn with
  | true => (es.mapM (includeEntry W bmin)).map noneIfEmpty
  | false => (es.mapM (excludeEntry W bmin)).map fun l => noneIfEmpty (l.filterMap id)

/-- `src/rib/starcast_af_query.rs` 32-84, `get_value`, with the strategy `PersistOnly`. -/
def ribGetValueSteps [Meta M] (fuel : Nat) (p : PrefixId W) (mui : Option Mui)
    (includeWithdrawn : Bool) : Prog (Rib M W) (FatalResult (Option (List (Record M)))) := do
  let bmin ← withdrawnMuis.zoom Rib.treeL
  let es ← scanSteps (match mui with
    | some m => shortKeyBytes p m
    | none => prefixBytes p) fuel none
  match ← Prog.ofOption (recordsOf W es includeWithdrawn bmin) with
  | none => return .ok none
  | some l =>
    match l.mapM (decodeEntry W) with
    | .ok rs => return .ok (some rs)
    | .error e => return .error e

/-- Where an iterator over the whole tree is: `none` at the end, `some last` behind the key
`last`. -/
abbrev LsmPos := Option (Option Bytes)

/-- `self.tree_iter.next()`. -/
def treeNext : LsmPos → Prog (Rib M W) (Option (Bytes × Bytes) × LsmPos)
  | none => return (none, none)
  | some last => do
    match ← Prog.read fun r : Rib M W => r.lsm.next [] last with
    | none => return (none, none)
    | some kv => return (some kv, some (some kv.1))

/-- The inner loop of `src/lsm_tree/mod.rs` 594-607: the group, the kept entry and the
position. -/
def groupSteps (outer : PrefixId W) : Nat → LsmPos →
    Prog (Rib M W) (List (FatalResult Bytes) × Option Bytes × LsmPos)
  | 0, _ => Prog.diverge
  | fuel + 1, pos => do
    match ← treeNext pos with
    | (none, pos) => return ([], none, pos)
    | (some kv, pos) =>
      match decodeHeader W kv.1 with
      | some h =>
        if h.pfx = outer then
          let r ← groupSteps outer fuel pos
          return (.ok (kv.1 ++ kv.2) :: r.1, r.2)
        else return ([], some (kv.1 ++ kv.2), pos)
      | none =>
        let r ← groupSteps outer fuel pos
        return (.error () :: r.1, r.2)

/-- `src/lsm_tree/mod.rs` 585-609: the group that begins with the entry `b`. -/
def groupFrom (fuel : Nat) (b : Bytes) (pos : LsmPos) :
    Prog (Rib M W) (List (FatalResult Bytes) × Option Bytes × LsmPos) :=
  match decodeHeader W b with
  | none => return ([.error ()], none, pos)
  | some h => do
    let r ← groupSteps h.pfx fuel pos
    return (.ok b :: r.1, r.2)

/-- `src/lsm_tree/mod.rs` 557-613, `PersistedPrefixIter::next`; the state is the kept entry
and the position. -/
def persistNextSteps (fuel : Nat) (cur : Option Bytes) (pos : LsmPos) :
    Prog (Rib M W) (Option (List (FatalResult Bytes) × Option Bytes × LsmPos)) :=
  match cur with
  | some b => do
    let r ← groupFrom fuel b pos
    return some r
  | none => do
    match ← treeNext pos with
    | (none, _) => return none
    | (some kv, pos) =>
      let r ← groupFrom fuel (kv.1 ++ kv.2) pos
      return some r

/-- One item of `persist_prefixes_iter` (`src/rib/starcast_af.rs` 478-503, with
the conversion of the prefix); a panic when the prefix is not valid. -/
def persistItem [Meta M] (g : List (FatalResult Bytes)) :
    Prog (Rib M W) (FatalResult (PrefixRecord M W)) :=
  match persistGroupRecord W g with
  | .error e => return .error e
  | .ok (p, rs) => do
    let q ← Prog.ofOption p.toPrefix
    return .ok (q, rs)

/-- The items asked for: at most `n`, all for `none`.  `fuel` bounds the calls of `next` and
the entries of a group. -/
def persistItems [Meta M] (fuel0 : Nat) : Nat → Option Nat → Option Bytes → LsmPos →
    Prog (Rib M W) (List (FatalResult (PrefixRecord M W)))
  | _, some 0, _, _ => return []
  | 0, _, _, _ => Prog.diverge
  | fuel + 1, n, cur, pos => do
    match ← persistNextSteps fuel0 cur pos with
    | none => return []
    | some (g, cur', pos') =>
      let x ← persistItem g
      let rest ← persistItems fuel0 fuel (n.map (· - 1)) cur' pos'
      return x :: rest

/-- `src/rib/starcast_af.rs` 466-506, `persist_prefixes_iter`: all items, or the first `n`,
after which the iterator is dropped. -/
def ribPersistIterSteps [Meta M] (st : Strategy) (fuel : Nat) (n : Option Nat) :
    Prog (Rib M W) (List (FatalResult (PrefixRecord M W))) :=
  match st with
  | .memoryOnly => return []
  | _ => persistItems fuel fuel n none (some none)

/-! ## Together with other calls -/

/-- A query that reads persisted records one after another. -/
inductive ScanCall (W : Nat)
  | records (p : Prefix W) (mui : Option Mui) (iw : Bool)
  | persisted (n : Option Nat)
  | less (p : Prefix W) (mui : Option Mui) (iw : Bool)
  | more (p : Prefix W) (mui : Option Mui) (iw : Bool)
  | all
  | forMui (m : Mui) (iw : Bool)
  | matching (p : Prefix W) (o : MatchOptions)
  | moreFrom (p : Prefix W) (mui : Option Mui) (iw : Bool)
  | lessFrom (p : Prefix W) (mui : Option Mui) (iw : Bool)

variable [Meta M]

/-- The type of the answer. -/
def ScanCall.Ans (M : Type) : ScanCall W → Type
  | .records .. => FatalResult (Option (List (Record M)))
  | .persisted _ | .less .. | .more .. | .all | .forMui .. => List (FatalResult (PrefixRecord M W))
  | .matching .. | .moreFrom .. | .lessFrom .. => FatalResult (QueryResult M W)

/-- `src/rib/starcast_af_query.rs` 32-84, `get_value`.  Only `PersistOnly` reads the records
of a prefix from the persistence tree; `fuel'` bounds the entries read. -/
def scanValue (st : Strategy) (fuel' : Nat) (mui : Option Mui) (iw : Bool) : GetValue M W := fun p =>
  match st with
  | .persistOnly => ribGetValueSteps fuel' p mui iw
  | _ => ribGetValue st p mui iw

/-- The program of a query; `fuel` bounds the steps in the tree of prefixes, `fuel'` the
entries read. -/
def ScanCall.prog (st : Strategy) (fuel fuel' : Nat) : (q : ScanCall W) → Prog (Rib M W) (q.Ans M)
  | .records p mui iw => scanValue st fuel' mui iw p.id
  | .persisted n => ribPersistIterSteps st fuel' n
  | .less p mui iw => gvLessIter (scanValue st fuel' mui iw) p.id
  | .more p mui iw => gvMoreChecked (scanValue st fuel' mui iw) fuel p.id mui iw
  | .all => gvPrefixesIter (scanValue st fuel' none true) fuel
  | .forMui m iw => gvForMui (scanValue st fuel' (some m) iw) fuel m iw
  | .matching p o => gvMatchPrefix (scanValue st fuel' o.mui o.includeWithdrawn) fuel p.id o
  | .moreFrom p mui iw => gvMoreFrom (scanValue st fuel' mui iw) fuel p.id mui
  | .lessFrom p mui iw => gvLessFrom (scanValue st fuel' mui iw) p.id mui

/-- The types of the answers of calls and scans. -/
def MixedAns {ι κ : Type} (calls : ι → Call M W) (scans : κ → ScanCall W) : ι ⊕ κ → Type
  | .inl i => (calls i).Ans
  | .inr q => (scans q).Ans M

/-- All calls and scans about to start on the store `s`; `fuel'` is the bound of the
scans. -/
def scanStart {ι κ : Type} (st : Strategy) (F fuel fuel' : Nat) (s : Rib M W)
    (calls : ι → Call M W) (scans : κ → ScanCall W) :
    Conf (Rib M W) (ι ⊕ κ) (MixedAns calls scans) where
  st := s
  pool
    | .inl i => (calls i).prog st F fuel
    | .inr q => (scans q).prog st fuel fuel'

end Rotonda
