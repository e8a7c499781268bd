import Verif.Model.Retries
import Verif.Model.Conc

/-!
# What the retry counts of inserts should be, and what they are
-/

namespace Rotonda.Spec

/-- How often an insert had to retry: all the failed swaps of all strides of all walks. -/
def retries (failed : List (List Nat)) : Nat := (failed.map List.sum).sum

/-- What one walk of the tree reports for its failed swaps, stride by stride: those of the last two
strides are counted once, those of the stride before twice, of the one before four times, … -/
def weighted : List Nat → Nat
  | [] => 0
  | x :: l => x * 2 ^ (l.length - 1) + weighted l

/-- The number of strides on the way to a prefix of this length. -/
def strides (len : Nat) : Nat := (len + 3) / 4

/-- The number of walks of the tree made by an insert. -/
def walks : Strategy → Nat
  | .persistOnly => 2
  | _ => 1

end Rotonda.Spec

namespace Rotonda

variable {M : Type} [Meta M] {W : Nat}

/-- The answer of a call, for inserts with the retry count. -/
def Call.CountedAns : Call M W → Type
  | .insert .. => Except StoreError CountedReport
  | c => c.Ans

/-- The calls with counted inserts; `ck` tells whether additions on `u32` are checked. -/
def Call.countedProg (ck : Bool) (st : Strategy) (F fuel : Nat) :
    (c : Call M W) → Prog (Rib M W) c.CountedAns
  | .insert p r tbi => ribInsertR ck st F p.id r tbi
  | .withdrawFor p m t => (Call.withdrawFor p m t).prog st F fuel
  | .activateFor p m t => (Call.activateFor p m t).prog st F fuel
  | .withdraw m => (Call.withdraw m).prog st F fuel
  | .activate m => (Call.activate m).prog st F fuel
  | .calcBest p tbi => (Call.calcBest p tbi).prog st F fuel
  | .contains p mui => (Call.contains p mui).prog st F fuel
  | .getRecords p mui iw => (Call.getRecords p mui iw).prog st F fuel
  | .matchPrefix p o => (Call.matchPrefix p o).prog st F fuel
  | .moreFrom p mui iw => (Call.moreFrom p mui iw).prog st F fuel
  | .lessFrom p mui iw => (Call.lessFrom p mui iw).prog st F fuel
  | .moreIter p mui iw => (Call.moreIter p mui iw).prog st F fuel
  | .lessIter p mui iw => (Call.lessIter p mui iw).prog st F fuel
  | .prefixesIter => (Call.prefixesIter).prog st F fuel
  | .persistPrefixesIter => (Call.persistPrefixesIter).prog st F fuel
  | .recordsForMui m iw => (Call.recordsForMui m iw).prog st F fuel
  | .bestPath p => (Call.bestPath p).prog st F fuel
  | .isPsOutdated p => (Call.isPsOutdated p).prog st F fuel
  | .muiIsWithdrawn m => (Call.muiIsWithdrawn m).prog st F fuel
  | .isMuiActive m => (Call.isMuiActive m).prog st F fuel
  | .prefixesCount => (Call.prefixesCount).prog st F fuel
  | .routesCount => (Call.routesCount).prog st F fuel
  | .prefixesCountForLen l => (Call.prefixesCountForLen l).prog st F fuel
  | .nodesCount => (Call.nodesCount).prog st F fuel

/-- All calls about to start on the store `s`, inserts with the retry count. -/
def countedStart {ι : Type} (ck : Bool) (st : Strategy) (F fuel : Nat) (s : Rib M W)
    (calls : ι → Call M W) : Conf (Rib M W) ι (fun i => (calls i).CountedAns) :=
  ⟨s, fun i => (calls i).countedProg ck st F fuel⟩

/-- The answer without the retry count. -/
def Call.uncount : (c : Call M W) → c.CountedAns → c.Ans
  | .insert .., a => Except.map CountedReport.report a
  | .withdrawFor .., a | .activateFor .., a | .withdraw _, a | .activate _, a | .calcBest .., a
  | .contains .., a | .getRecords .., a | .matchPrefix .., a | .moreFrom .., a | .lessFrom .., a
  | .moreIter .., a | .lessIter .., a | .prefixesIter, a | .persistPrefixesIter, a
  | .recordsForMui .., a | .bestPath _, a | .isPsOutdated _, a | .muiIsWithdrawn _, a
  | .isMuiActive _, a | .prefixesCount, a | .routesCount, a | .prefixesCountForLen _, a
  | .nodesCount, a => a

/-- The program without the retry count in its answer. -/
def Prog.mapAns {σ α β : Type} (g : α → β) : Prog σ α → Prog σ β
  | .ret a => .ret (g a)
  | .act f k => .act f (fun r => (k r).mapAns g)
  | .panic => .panic
  | .diverge => .diverge

/-- The configuration without the retry counts. -/
def uncounted {ι : Type} {calls : ι → Call M W}
    (c : Conf (Rib M W) ι (fun i => (calls i).CountedAns)) :
    Conf (Rib M W) ι (fun i => (calls i).Ans) :=
  ⟨c.st, fun i => (c.pool i).mapAns (calls i).uncount⟩

namespace Spec

/-- Call `i` inserts `p` and has returned this report with its retry count. -/
def ReturnedCounted {ι : Type} {calls : ι → Call M W}
    (c : Conf (Rib M W) ι (fun i => (calls i).CountedAns)) (i : ι) (p : Prefix W) (x : CountedReport) :
    Prop :=
  ∃ r tbi, ∃ h : calls i = .insert p r tbi, c.pool i = .ret (h ▸ (.ok x : Except StoreError CountedReport))

end Spec

end Rotonda
