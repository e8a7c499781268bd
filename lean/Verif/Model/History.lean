import Verif.Model.Rib

/-!
# Sequential histories of API calls

The calls of the public API that change the store of one address family, and
the state after a sequence of them.
-/

namespace Rotonda

variable {M : Type} {W : Nat}

/-- The mutating calls of `src/rib/starcast.rs`: `insert` (532-550),
`mark_mui_as_withdrawn_for_prefix` (657-679), `mark_mui_as_active_for_prefix`
(685-707), `mark_mui_as_withdrawn_v4/v6` (728-735, 758-765),
`mark_mui_as_active_v4/v6` (713-720, 742-749) and
`calculate_and_store_best_and_backup_path` (202-230). -/
inductive Op (M : Type) [Meta M] (W : Nat)
  | insert (p : Prefix W) (r : Record M) (tbi : Option (Meta.TBI M))
  | withdrawFor (p : Prefix W) (m : Mui) (t : LTime)
  | activateFor (p : Prefix W) (m : Mui) (t : LTime)
  | withdraw (m : Mui)
  | activate (m : Mui)
  | calcBest (p : Prefix W) (tbi : Meta.TBI M)

/-- A history, the most recent call first. -/
abbrev History (M : Type) [Meta M] (W : Nat) := List (Op M W)

/-- The program of a call, its result dropped.  `F` is the fuel of the
compare-and-swap loops. -/
def Op.prog [Meta M] (st : Strategy) (F : Nat) : Op M W → Prog (Rib M W) Unit
  | .insert p r tbi => do let _ ← ribInsert st F p.id r tbi
  | .withdrawFor p m t => do let _ ← ribMarkWithdrawnForPrefix st p.id m t
  | .activateFor p m t => do let _ ← ribMarkActiveForPrefix st p.id m t
  | .withdraw m => ribMarkWithdrawn F m
  | .activate m => ribMarkActive F m
  | .calcBest p tbi => do let _ ← ribCalcBest p.id tbi

/-- Outcome of a new store that executed the calls of the history. -/
def exec [Meta M] (st : Strategy) (F : Nat) : History M W → Outcome Unit (Rib M W)
  | [] => ((do let _ ← ribNew F : Prog (Rib M W) Unit)).run Rib.empty
  | op :: h => (exec st F h).andThen fun _ s => (op.prog st F).run s

end Rotonda
