import Verif.Spec.Retries
import Verif.Spec.Conc
import Mathlib.Data.Set.Card
import Mathlib.Algebra.BigOperators.Group.Finset.Basic

/-!
# How much room calls take

The slots of the two tables a list of calls may fill.  Slots are never emptied, so this is
also what the store holds on to until it is dropped.
-/

namespace Rotonda

open Spec

variable {M : Type} [Meta M] {W : Nat} {ι : Type}

/-- The prefix a call may make an entry for in the prefix table. -/
def Call.entry (st : Strategy) : Call M W → Option (Prefix W)
  | .insert p _ _ | .withdrawFor p _ _ | .activateFor p _ _ =>
    if st = .persistOnly then none else some p
  | _ => none

@[inherit_doc Call.entry]
def Op.entry (st : Strategy) : Op M W → Option (Prefix W)
  | .insert p _ _ | .withdrawFor p _ _ | .activateFor p _ _ =>
    if st = .persistOnly then none else some p
  | _ => none

/-- The prefix a call may make nodes for. -/
def Call.inserts : Call M W → Option (Prefix W)
  | .insert p _ _ => some p
  | _ => none

@[inherit_doc Call.inserts]
def Op.inserts : Op M W → Option (Prefix W)
  | .insert p _ _ => some p
  | _ => none

namespace Spec

/-- The distinct prefixes entries may be there for, after the calls of `h` and the calls among
`calls` that were given a turn in `t`. -/
def entries (st : Strategy) (h : History M W) (calls : ι → Call M W) (t : List ι) :
    Finset (Prefix W) :=
  (h.filterMap (Op.entry st) ++ t.filterMap fun i => (calls i).entry st).toFinset

/-- The distinct prefixes nodes may be there for. -/
def inserts (h : History M W) (calls : ι → Call M W) (t : List ι) : Finset (Prefix W) :=
  (h.filterMap Op.inserts ++ t.filterMap fun i => (calls i).inserts).toFinset

/-- The slots of a table that are filled. -/
def filled {E : Type} (s : Addr → Option E) : Set Addr := {a | (s a).isSome}

end Spec
end Rotonda
