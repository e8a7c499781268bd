import Verif.Model.History
import Mathlib.Logic.Function.Basic

/-!
# Concurrent executions

Any number of calls run at the same time.  The atomic actions of the programs
are interleaved in the order given by a *schedule*, a list of call names; the
atomic accesses of the Rust code are taken to be sequentially consistent.

One name per call: a thread that makes several calls one after another is the
restriction that a call of it is not scheduled before the previous one returned.
-/

namespace Rotonda

/-- The shared state and what is left of each call. -/
structure Conf (σ ι : Type) (A : ι → Type) where
  st : σ
  pool : ∀ i, Prog σ (A i)

namespace Conf
variable {σ ι : Type} [DecidableEq ι] {A : ι → Type}

/-- Call `i` does its next atomic action (nothing when it has returned). -/
def step (c : Conf σ ι A) (i : ι) : Conf σ ι A :=
  match c.pool i with
  | .act f k => ⟨(f c.st).2, Function.update c.pool i (k (f c.st).1)⟩
  | _ => c

/-- Follow a schedule. -/
def exec (c : Conf σ ι A) (t : List ι) : Conf σ ι A := t.foldl step c

end Conf

/-- One call of the API of the store of one address family: the changing calls
(`Op`) and the queries (`src/rib/starcast.rs`). -/
inductive Call (M : Type) [Meta M] (W : Nat)
  | insert (p : Prefix W) (r : Record M) (tbi : Option (Meta.TBI M))
  | withdrawFor (p : Prefix W) (m : Mui) (t : LTime)
  | activateFor (p : Prefix W) (m : Mui) (t : LTime)
  | withdraw (m : Mui)
  | activate (m : Mui)
  | calcBest (p : Prefix W) (tbi : Meta.TBI M)
  | contains (p : Prefix W) (mui : Option Mui)
  | getRecords (p : Prefix W) (mui : Option Mui) (iw : Bool)
  | matchPrefix (p : Prefix W) (o : MatchOptions)
  | moreFrom (p : Prefix W) (mui : Option Mui) (iw : Bool)
  | lessFrom (p : Prefix W) (mui : Option Mui) (iw : Bool)
  | moreIter (p : Prefix W) (mui : Option Mui) (iw : Bool)
  | lessIter (p : Prefix W) (mui : Option Mui) (iw : Bool)
  | prefixesIter
  | persistPrefixesIter
  | recordsForMui (m : Mui) (iw : Bool)
  | bestPath (p : Prefix W)
  | isPsOutdated (p : Prefix W)
  | muiIsWithdrawn (m : Mui)
  | isMuiActive (m : Mui)
  | prefixesCount
  | routesCount
  | prefixesCountForLen (len : Nat)
  | nodesCount

variable {M : Type} [Meta M] {W : Nat}

/-- The type of the answer of a call. -/
def Call.Ans : Call M W → Type
  | .insert .. => Except StoreError UpsertReport
  | .withdrawFor .. | .activateFor .. => Except StoreError Unit
  | .withdraw _ | .activate _ => Unit
  | .calcBest .. => Except StoreError (Option Mui × Option Mui)
  | .contains .. | .muiIsWithdrawn _ | .isMuiActive _ => Bool
  | .getRecords .. => FatalResult (Option (List (Record M)))
  | .matchPrefix .. | .moreFrom .. | .lessFrom .. => FatalResult (QueryResult M W)
  | .moreIter .. | .lessIter .. | .prefixesIter | .persistPrefixesIter | .recordsForMui .. =>
    List (FatalResult (PrefixRecord M W))
  | .bestPath _ => Option (Except StoreError (Record M))
  | .isPsOutdated _ => Except StoreError Bool
  | .prefixesCount | .routesCount => UpsertCounters
  | .prefixesCountForLen _ => Except StoreError UpsertCounters
  | .nodesCount => Nat

/-- The program of a call.  `F` bounds the compare-and-swap loops, `fuel` the
rounds of the iterators. -/
def Call.prog (st : Strategy) (F fuel : Nat) : (c : Call M W) → Prog (Rib M W) c.Ans
  | .insert p r tbi => ribInsert st F p.id r tbi
  | .withdrawFor p m t => ribMarkWithdrawnForPrefix st p.id m t
  | .activateFor p m t => ribMarkActiveForPrefix st p.id m t
  | .withdraw m => ribMarkWithdrawn F m
  | .activate m => ribMarkActive F m
  | .calcBest p tbi => ribCalcBest p.id tbi
  | .contains p mui => ribContains p.id mui
  | .getRecords p mui iw => ribGetValue st p.id mui iw
  | .matchPrefix p o => ribMatchPrefix st fuel p.id o
  | .moreFrom p mui iw => ribMoreSpecificsFrom st fuel p.id mui iw
  | .lessFrom p mui iw => ribLessSpecificsFrom st p.id mui iw
  | .moreIter p mui iw => ribMoreSpecificsIter st fuel p.id mui iw
  | .lessIter p mui iw => ribLessSpecificsIter st p.id mui iw
  | .prefixesIter => ribPrefixesIter st fuel
  | .persistPrefixesIter => ribPersistPrefixesIter st
  | .recordsForMui m iw => ribIterRecordsForMui st fuel m iw
  | .bestPath p => ribBestPath p.id
  | .isPsOutdated p => ribIsPsOutdated p.id
  | .muiIsWithdrawn m => ribMuiIsWithdrawn m
  | .isMuiActive m => ribIsMuiActive m
  | .prefixesCount => ribPrefixesCount
  | .routesCount => ribRoutesCount
  | .prefixesCountForLen l => ribPrefixesCountForLen l
  | .nodesCount => ribNodesCount

/-- All calls about to start on the store `s`. -/
def start {ι : Type} (st : Strategy) (F fuel : Nat) (s : Rib M W) (calls : ι → Call M W) :
    Conf (Rib M W) ι (fun i => (calls i).Ans) :=
  ⟨s, fun i => (calls i).prog st F fuel⟩

end Rotonda
