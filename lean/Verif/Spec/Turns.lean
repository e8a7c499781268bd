import Verif.Spec.Retries
import Verif.Spec.StarConc

/-!
# How much work a call is

Bounds on the number of atomic actions (loads, swaps, sections under a lock, calls of the
persistence tree) of a call that depend on nothing but the length of its prefix.
-/

namespace Rotonda.Spec

/-- The levels of the chain of an id of this length. -/
def levels (len : Nat) : Nat := max 1 (strides len)

/-- The length of the id of the node that has the bit of a prefix of this length. -/
def nodeLen (len : Nat) : Nat := 4 * ((len - 1) / 4)

/-- Is a prefix there? -/
def existsTurns (len : Nat) : Nat := levels (nodeLen len) + 1

/-- The records of a prefix. -/
def recordsTurns : Strategy → Nat → Nat
  | .persistOnly, _ => 2
  | _, len => levels len + 2

/-- Setting the bit of a prefix, with at most `F` failed swaps for one bit.  On each stride a node
is searched for, its bits are read and swapped, and the next node is made if it is missing. -/
def walkTurns (F len : Nat) : Nat :=
  if len = 0 then 6 else strides len * (6 * levels (nodeLen len) + F + 7)

/-- Putting a record into the prefix table. -/
def upsertTurns : Strategy → Nat → Nat
  | .persistOnly, _ => 3
  | _, len => 3 * levels len + 9

end Rotonda.Spec

namespace Rotonda

open Spec

variable {M : Type} [Meta M] {W : Nat}

/-- The bound for a call; none for calls whose work depends on what is stored. -/
def Call.turns (st : Strategy) (F : Nat) : Call M W → Option Nat
  | .insert p _ _ => some (walks st * walkTurns F p.len + upsertTurns st p.len)
  | .withdrawFor p _ _ => match st with
    | .persistOnly => none
    | _ => some (3 * levels p.len + 3)
  | .activateFor p _ _ => match st with
    | .persistOnly => some 2
    | _ => some (3 * levels p.len + 3)
  | .calcBest p _ => some (levels p.len + 3)
  | .contains p none => some (existsTurns p.len)
  | .contains p (some _) => some (2 * levels (nodeLen p.len) + 1)
  | .getRecords p _ _ => some (recordsTurns st p.len)
  | .matchPrefix p o => if o.includeMoreSpecifics then none else
    some (p.len * existsTurns p.len + recordsTurns st p.len +
      if o.includeLessSpecifics then (p.len - 1) * (existsTurns p.len + recordsTurns st p.len) else 0)
  | .lessFrom p mui _ => some ((if mui = none then existsTurns p.len
      else 2 * levels (nodeLen p.len) + 1) + recordsTurns st p.len +
      (p.len - 1) * (existsTurns p.len + recordsTurns st p.len))
  | .lessIter p _ _ => some ((p.len - 1) * (existsTurns p.len + recordsTurns st p.len))
  | .bestPath p => some (levels p.len + 2)
  | .isPsOutdated p => some (levels p.len + 1)
  | .muiIsWithdrawn _ | .isMuiActive _ | .prefixesCountForLen _ | .nodesCount => some 1
  | .routesCount => some 2
  | .prefixesCount => some 258
  | _ => none

/-- The bound for a call of the public interface: that of its part, or the sum of those of its parts. -/
def Parts.turns (st : Strategy) (F : Nat) {α : Type} : Parts M α → Option Nat
  | .v4 x _ => x.turns st F
  | .v6 y _ => y.turns st F
  | .both x y _ _ => (x.turns st F).bind fun n => (y.turns st F).map fun m => n + m
  | .mixed .. => none

end Rotonda
