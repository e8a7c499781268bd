import Verif.Model.StarCast

/-!
# What a history over both families means for one family
-/

namespace Rotonda.Spec

variable {M : Type} [Meta M]

/-- What a call of the public interface is to the IPv4 store. -/
def op4 : StarOp M → Option (Op M 32)
  | .insert (.v4 p) r tbi => some (.insert p r tbi)
  | .withdrawFor (.v4 p) m t => some (.withdrawFor p m t)
  | .activateFor (.v4 p) m t => some (.activateFor p m t)
  | .withdraw4 m => some (.withdraw m)
  | .activate4 m => some (.activate m)
  | .withdraw m => some (.withdraw m)
  | .calcBest (.v4 p) tbi => some (.calcBest p tbi)
  | _ => none

/-- What a call of the public interface is to the IPv6 store. -/
def op6 : StarOp M → Option (Op M 128)
  | .insert (.v6 p) r tbi => some (.insert p r tbi)
  | .withdrawFor (.v6 p) m t => some (.withdrawFor p m t)
  | .activateFor (.v6 p) m t => some (.activateFor p m t)
  | .withdraw6 m => some (.withdraw m)
  | .activate6 m => some (.activate m)
  | .withdraw m => some (.withdraw m)
  | .calcBest (.v6 p) tbi => some (.calcBest p tbi)
  | _ => none

/-- The calls of a history one family sees. -/
def hist4 (h : List (StarOp M)) : History M 32 := h.filterMap op4
def hist6 (h : List (StarOp M)) : History M 128 := h.filterMap op6

/-- Was the last status change of `m` that concerns IPv4 a withdrawal. -/
def withdrawnIn4 (m : Mui) : List (StarOp M) → Bool
  | [] => false
  | .withdraw4 k :: h => m = k || withdrawnIn4 m h
  | .withdraw k :: h => m = k || withdrawnIn4 m h
  | .activate4 k :: h => m ≠ k && withdrawnIn4 m h
  | _ :: h => withdrawnIn4 m h

/-- Was the last status change of `m` that concerns IPv6 a withdrawal. -/
def withdrawnIn6 (m : Mui) : List (StarOp M) → Bool
  | [] => false
  | .withdraw6 k :: h => m = k || withdrawnIn6 m h
  | .withdraw k :: h => m = k || withdrawnIn6 m h
  | .activate6 k :: h => m ≠ k && withdrawnIn6 m h
  | _ :: h => withdrawnIn6 m h

/-- The queries about IPv4 prefixes. -/
inductive Query4 (st : Strategy) (fuel : Nat) : {α : Type} → Prog (Star M) α → Prop
  | matchPrefix (p o) : Query4 st fuel (Star.matchPrefix st fuel (.v4 p) o)
  | contains (p mui) : Query4 st fuel (Star.contains (.v4 p) mui)
  | bestPath (p) : Query4 st fuel (Star.bestPath (.v4 p))
  | isPsOutdated (p) : Query4 st fuel (Star.isPsOutdated (.v4 p))
  | moreFrom (p mui iw) : Query4 st fuel (Star.moreFrom st fuel (.v4 p) mui iw)
  | lessFrom (p mui iw) : Query4 st fuel (Star.lessFrom st (.v4 p) mui iw)
  | lessIter (p mui iw) : Query4 st fuel (Star.lessIter st (.v4 p) mui iw)
  | moreIter (p mui iw) : Query4 st fuel (Star.moreIter st fuel (.v4 p) mui iw)
  | recordsForMui (m iw) : Query4 st fuel (Star.recordsForMui4 st fuel m iw)
  | prefixesIter : Query4 st fuel (Star.prefixesIter4 st fuel)
  | persistPrefixesIter : Query4 st fuel (Star.persistPrefixesIter4 st)
  | isMuiActive (m) : Query4 st fuel (Star.isMuiActive4 m)
  | muiIsWithdrawn (m) : Query4 st fuel (Star.muiIsWithdrawn4 m)
  | prefixesCount : Query4 st fuel Star.prefixesCount4
  | prefixesCountForLen (l) : Query4 st fuel (Star.prefixesCountForLen4 l)
  | routesCount : Query4 st fuel Star.routesCount4
  | nodesCount : Query4 st fuel Star.nodesCount4
  | getRecords (p mui iw) : Query4 st fuel (Star.getRecords st (.v4 p) mui iw)

/-- The queries about IPv6 prefixes. -/
inductive Query6 (st : Strategy) (fuel : Nat) : {α : Type} → Prog (Star M) α → Prop
  | matchPrefix (p o) : Query6 st fuel (Star.matchPrefix st fuel (.v6 p) o)
  | contains (p mui) : Query6 st fuel (Star.contains (.v6 p) mui)
  | bestPath (p) : Query6 st fuel (Star.bestPath (.v6 p))
  | isPsOutdated (p) : Query6 st fuel (Star.isPsOutdated (.v6 p))
  | moreFrom (p mui iw) : Query6 st fuel (Star.moreFrom st fuel (.v6 p) mui iw)
  | lessFrom (p mui iw) : Query6 st fuel (Star.lessFrom st (.v6 p) mui iw)
  | lessIter (p mui iw) : Query6 st fuel (Star.lessIter st (.v6 p) mui iw)
  | moreIter (p mui iw) : Query6 st fuel (Star.moreIter st fuel (.v6 p) mui iw)
  | recordsForMui (m iw) : Query6 st fuel (Star.recordsForMui6 st fuel m iw)
  | prefixesIter : Query6 st fuel (Star.prefixesIter6 st fuel)
  | persistPrefixesIter : Query6 st fuel (Star.persistPrefixesIter6 st)
  | isMuiActive (m) : Query6 st fuel (Star.isMuiActive6 m)
  | muiIsWithdrawn (m) : Query6 st fuel (Star.muiIsWithdrawn6 m)
  | prefixesCount : Query6 st fuel Star.prefixesCount6
  | prefixesCountForLen (l) : Query6 st fuel (Star.prefixesCountForLen6 l)
  | routesCount : Query6 st fuel Star.routesCount6
  | nodesCount : Query6 st fuel Star.nodesCount6
  | getRecords (p mui iw) : Query6 st fuel (Star.getRecords st (.v6 p) mui iw)

/-- What a call returned, if it returned. -/
def answer {α σ : Type} : Outcome α σ → Option α
  | .ok a _ => some a
  | _ => none

end Rotonda.Spec
