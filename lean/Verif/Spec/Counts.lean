import Verif.Spec.History

/-!
# What there is to count after a history of calls
-/

namespace Rotonda.Spec

variable {M : Type} {W : Nat} [Meta M]

/-- The inserted pairs. -/
def pairs (h : History M W) : Set (Prefix W × Mui) := {x | Inserted h x.1 x.2}

/-- The inserted prefixes. -/
def prefixes (h : History M W) : Set (Prefix W) := {p | Present h p}

/-- What the first call about `p` was: `some true` an insert, `some false` a
status change for the prefix. -/
def firstCall : History M W → Prefix W → Option Bool
  | [], _ => none
  | op :: h, p =>
    match firstCall h p with
    | some b => some b
    | none =>
      match op with
      | .insert q _ _ => if q = p then some true else none
      | .withdrawFor q _ _ => if q = p then some false else none
      | .activateFor q _ _ => if q = p then some false else none
      | _ => none

/-- The stride positions below the root needed to reach the inserted prefixes: the
prefixes whose length is a positive multiple of four that lie strictly above an
inserted prefix. -/
def positions (h : History M W) : Set (Prefix W) :=
  {x | 4 ∣ x.len ∧ 0 < x.len ∧ ∃ p, Present h p ∧ x.len < p.len ∧ Covers x p}

end Rotonda.Spec
