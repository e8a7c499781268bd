import Verif.Model.StarCast
import Verif.Model.Conc

/-!
# Concurrent executions of the public interface

As `Model/Conc.lean`, for the calls of `StarCastRib` (`src/rib/starcast.rs` 83-976)
on the store of both address families.
-/

namespace Rotonda

/-- One call of the public interface. -/
inductive StarCall (M : Type) [Meta M]
  | insert (p : AnyPrefix) (r : Record M) (tbi : Option (Meta.TBI M))
  | withdrawFor (p : AnyPrefix) (m : Mui) (t : LTime)
  | activateFor (p : AnyPrefix) (m : Mui) (t : LTime)
  | withdraw4 (m : Mui)
  | withdraw6 (m : Mui)
  | activate4 (m : Mui)
  | activate6 (m : Mui)
  | withdraw (m : Mui)
  | calcBest (p : AnyPrefix) (tbi : Meta.TBI M)
  | contains (p : AnyPrefix) (mui : Option Mui)
  | getRecords (p : AnyPrefix) (mui : Option Mui) (iw : Bool)
  | matchPrefix (p : AnyPrefix) (o : MatchOptions)
  | moreFrom (p : AnyPrefix) (mui : Option Mui) (iw : Bool)
  | lessFrom (p : AnyPrefix) (mui : Option Mui) (iw : Bool)
  | moreIter (p : AnyPrefix) (mui : Option Mui) (iw : Bool)
  | lessIter (p : AnyPrefix) (mui : Option Mui) (iw : Bool)
  | prefixesIter
  | prefixesIter4
  | prefixesIter6
  | persistPrefixesIter
  | persistPrefixesIter4
  | persistPrefixesIter6
  | recordsForMui4 (m : Mui) (iw : Bool)
  | recordsForMui6 (m : Mui) (iw : Bool)
  | bestPath (p : AnyPrefix)
  | isPsOutdated (p : AnyPrefix)
  | muiIsWithdrawn4 (m : Mui)
  | muiIsWithdrawn6 (m : Mui)
  | isMuiActive (m : Mui)
  | isMuiActive4 (m : Mui)
  | isMuiActive6 (m : Mui)
  | prefixesCount
  | prefixesCount4
  | prefixesCount6
  | prefixesCountForLen4 (len : Nat)
  | prefixesCountForLen6 (len : Nat)
  | routesCount
  | routesCount4
  | routesCount6
  | nodesCount
  | nodesCount4
  | nodesCount6

variable {M : Type} [Meta M]

/-- The type of the answer of a call. -/
def StarCall.Ans : StarCall M → Type
  | .insert .. => Except StoreError UpsertReport
  | .withdrawFor .. | .activateFor .. => Except StoreError Unit
  | .withdraw4 _ | .withdraw6 _ | .activate4 _ | .activate6 _ | .withdraw _ => Unit
  | .calcBest .. => Except StoreError (Option Mui × Option Mui)
  | .contains .. | .muiIsWithdrawn4 _ | .muiIsWithdrawn6 _ | .isMuiActive _ | .isMuiActive4 _
  | .isMuiActive6 _ => Bool
  | .getRecords .. => FatalResult (Option (List (Record M)))
  | .matchPrefix .. | .moreFrom .. | .lessFrom .. => FatalResult (Star.Result M)
  | .moreIter .. | .lessIter .. | .prefixesIter | .prefixesIter4 | .prefixesIter6
  | .persistPrefixesIter | .persistPrefixesIter4 | .persistPrefixesIter6 | .recordsForMui4 ..
  | .recordsForMui6 .. => List (FatalResult (PubRecord M))
  | .bestPath _ => Option (Except StoreError (Record M))
  | .isPsOutdated _ => Except StoreError Bool
  | .prefixesCount | .prefixesCount4 | .prefixesCount6 | .routesCount | .routesCount4
  | .routesCount6 => UpsertCounters
  | .prefixesCountForLen4 _ | .prefixesCountForLen6 _ => Except StoreError UpsertCounters
  | .nodesCount | .nodesCount4 | .nodesCount6 => Nat

/-- The program of a call. -/
def StarCall.prog (st : Strategy) (F fuel : Nat) : (c : StarCall M) → Prog (Star M) c.Ans
  | .insert p r tbi => Star.insert st F p r tbi
  | .withdrawFor p m t => Star.withdrawFor st p m t
  | .activateFor p m t => Star.activateFor st p m t
  | .withdraw4 m => Star.withdraw4 F m
  | .withdraw6 m => Star.withdraw6 F m
  | .activate4 m => Star.activate4 F m
  | .activate6 m => Star.activate6 F m
  | .withdraw m => Star.withdraw F m
  | .calcBest p tbi => Star.calcBest p tbi
  | .contains p mui => Star.contains p mui
  | .getRecords p mui iw => Star.getRecords st p mui iw
  | .matchPrefix p o => Star.matchPrefix st fuel p o
  | .moreFrom p mui iw => Star.moreFrom st fuel p mui iw
  | .lessFrom p mui iw => Star.lessFrom st p mui iw
  | .moreIter p mui iw => Star.moreIter st fuel p mui iw
  | .lessIter p mui iw => Star.lessIter st p mui iw
  | .prefixesIter => Star.prefixesIter st fuel
  | .prefixesIter4 => Star.prefixesIter4 st fuel
  | .prefixesIter6 => Star.prefixesIter6 st fuel
  | .persistPrefixesIter => Star.persistPrefixesIter st
  | .persistPrefixesIter4 => Star.persistPrefixesIter4 st
  | .persistPrefixesIter6 => Star.persistPrefixesIter6 st
  | .recordsForMui4 m iw => Star.recordsForMui4 st fuel m iw
  | .recordsForMui6 m iw => Star.recordsForMui6 st fuel m iw
  | .bestPath p => Star.bestPath p
  | .isPsOutdated p => Star.isPsOutdated p
  | .muiIsWithdrawn4 m => Star.muiIsWithdrawn4 m
  | .muiIsWithdrawn6 m => Star.muiIsWithdrawn6 m
  | .isMuiActive m => Star.isMuiActive m
  | .isMuiActive4 m => Star.isMuiActive4 m
  | .isMuiActive6 m => Star.isMuiActive6 m
  | .prefixesCount => Star.prefixesCount
  | .prefixesCount4 => Star.prefixesCount4
  | .prefixesCount6 => Star.prefixesCount6
  | .prefixesCountForLen4 l => Star.prefixesCountForLen4 l
  | .prefixesCountForLen6 l => Star.prefixesCountForLen6 l
  | .routesCount => Star.routesCount
  | .routesCount4 => Star.routesCount4
  | .routesCount6 => Star.routesCount6
  | .nodesCount => Star.nodesCount
  | .nodesCount4 => Star.nodesCount4
  | .nodesCount6 => Star.nodesCount6

/-- All calls about to start on the store `s`. -/
def starStart {ι : Type} (st : Strategy) (F fuel : Nat) (s : Star M) (calls : ι → StarCall M) :
    Conf (Star M) ι (fun i => (calls i).Ans) :=
  ⟨s, fun i => (calls i).prog st F fuel⟩

end Rotonda
