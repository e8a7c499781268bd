import Verif.Model.WeakCount
import Mathlib.Data.Set.Card

/-!
# What a thread can know of
-/

namespace Rotonda.Spec

open WeakCount

variable {ι : Type}

/-- Who made an event. -/
def byThread : Event ι → ι
  | .inc i _ | .load i _ _ | .send i _ | .recv i _ => i

/-- Thread `i` has, before the event number `n` of `t`, been told of the event number `k`: it
made it itself, or it synchronised with a thread that had been told. -/
inductive Told (t : List (Event ι)) : ι → Nat → Nat → Prop
  | own {n k : Nat} (e : Event ι) : t[k]? = some e → k < n → Told t (byThread e) n k
  | sync {i j : ι} {s n a b k : Nat} : t[a]? = some (.recv i s) → a < n → t[b]? = some (.send j s) →
      b < a → Told t j b k → Told t i n k

/-- The increments of counters in `C` among the first `n` events. -/
def incs (t : List (Event ι)) (C : Set Counter) (n : Nat) : Set Nat :=
  {k | k < n ∧ ∃ i c, t[k]? = some (.inc i c) ∧ c ∈ C}

/-- Those that `i` was told of. -/
def toldIncs (t : List (Event ι)) (C : Set Counter) (i : ι) (n : Nat) : Set Nat :=
  {k | k ∈ incs t C n ∧ Told t i n k}

end Rotonda.Spec
