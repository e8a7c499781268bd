import Verif.Spec.History

/-!
# What should be persisted
-/

namespace Rotonda.Spec

variable {M : Type} {W : Nat}

/-- What identifies a persisted record of the strategies `WriteAhead` and
`PersistHistory`. -/
structure Tag (W : Nat) where
  pfx : Prefix W
  mui : Mui
  ltime : LTime
  status : RouteStatus
  deriving DecidableEq

/-- The tag of a record. -/
def tagOf (p : Prefix W) (r : Record M) : Tag W := ⟨p, r.mui, r.ltime, r.status⟩

variable [Meta M]

/-- `WriteAhead`: the metadata of the last insert with that tag. -/
def writtenAhead : History M W → Tag W → Option Bytes
  | [], _ => none
  | .insert p r _ :: h, k => if k = tagOf p r then some (Meta.toBytes r.md) else writtenAhead h k
  | _ :: h, k => writtenAhead h k

/-- `PersistHistory`, as it should be: an insert that replaces a record persists the
replaced record; a withdrawal of a pair with a record persists an empty withdrawn
record. -/
def superseded : History M W → Tag W → Option Bytes
  | [], _ => none
  | .insert p r _ :: h, k =>
    match recOf h p r.mui with
    | some old => if k = tagOf p old then some (Meta.toBytes old.md) else superseded h k
    | none => superseded h k
  | .withdrawFor p m t :: h, k =>
    if k = ⟨p, m, t, .withdrawn⟩ ∧ recOf h p m ≠ none then some [] else superseded h k
  | _ :: h, k => superseded h k

/-- `PersistHistory`, as it is: activations do the same as withdrawals. -/
def supersededCode : History M W → Tag W → Option Bytes
  | [], _ => none
  | .insert p r _ :: h, k =>
    match recOf h p r.mui with
    | some old => if k = tagOf p old then some (Meta.toBytes old.md) else supersededCode h k
    | none => supersededCode h k
  | .withdrawFor p m t :: h, k =>
    if k = ⟨p, m, t, .withdrawn⟩ ∧ recOf h p m ≠ none then some [] else supersededCode h k
  | .activateFor p m t :: h, k =>
    if k = ⟨p, m, t, .withdrawn⟩ ∧ recOf h p m ≠ none then some [] else supersededCode h k
  | _ :: h, k => supersededCode h k

/-- No activation of a pair that has a record. -/
def NoActivation : History M W → Prop
  | [] => True
  | .activateFor p m _ :: h => recOf h p m = none ∧ NoActivation h
  | _ :: h => NoActivation h

/-- No per-prefix status changes. -/
def NoStatusChange : History M W → Prop
  | [] => True
  | .activateFor _ _ _ :: _ => False
  | .withdrawFor _ _ _ :: _ => False
  | _ :: h => NoStatusChange h

/-- The bytes of the key of a tag. -/
def Tag.key (k : Tag W) : Bytes := longKeyBytes k.pfx.id k.mui k.ltime k.status

/-- Something is persisted under the tag. -/
def Persisted (l : Lsm) (k : Tag W) : Prop := ∃ b, (k.key, b) ∈ l

/-- The persisted record of a tag with metadata bytes. -/
def Tag.record (k : Tag W) (b : Bytes) : Record M := ⟨k.mui, k.ltime, k.status, Meta.ofBytes b⟩

end Rotonda.Spec
