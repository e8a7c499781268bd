import Verif.Model.Conc
import Verif.Model.OnceBox

/-!
# Concurrent use of one slice of write-once boxes

Any number of calls on the same `OnceBoxSlice`, interleaved by a schedule.
-/

namespace Rotonda

/-- One call on the slice: look up an index, or look it up and put `v` there when it
is empty. -/
inductive BoxCall (T : Type)
  | get (idx : Nat)
  | init (idx : Nat) (v : T)

/-- The answer of a call: the pointer found and whether the call put its own value. -/
abbrev BoxAns := Option Nat × Bool

variable {T ι : Type}

def BoxCall.prog (A : Alloc T) (size : Nat) : BoxCall T → Prog (BoxHeap T) BoxAns
  | .get idx => do
    let b ← obsGet size idx
    return (b, false)
  | .init idx v => do
    let (b, us) ← obsGetOrInit A size idx v
    return (some b, us)

/-- All calls about to start on a new slice. -/
def boxStart (A : Alloc T) (size : Nat) (calls : ι → BoxCall T) :
    Conf (BoxHeap T) ι (fun _ => BoxAns) :=
  ⟨BoxHeap.empty, fun i => (calls i).prog A size⟩

/-- Indexes are in range. -/
def InRange (size : Nat) (calls : ι → BoxCall T) : Prop :=
  ∀ i idx v, calls i = .init idx v → idx < size

end Rotonda
