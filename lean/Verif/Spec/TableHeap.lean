import Verif.Model.Conc
import Verif.Model.TableHeap

/-!
# Concurrent use of one chained hash table
-/

namespace Rotonda

variable {T ι : Type}

/-- All calls about to start on a new table. -/
def tabStart (A : TabAlloc T) (Z : TabShape T) (levels : Nat) (calls : ι → Walk T) :
    Conf (TabHeap T) ι (fun _ => Option Nat) :=
  ⟨TabHeap.empty, fun i => (calls i).prog A Z levels⟩

/-- No slice and no entry is allocated. -/
def TabHeap.Clean (h : TabHeap T) : Prop := (∀ x, h.slices x = none) ∧ ∀ b, h.boxes b = none

/-- The entry that the pointers lead to from a root, `n` levels down. -/
def TabHeap.entryAt (h : TabHeap T) (r : Nat) (idx : Nat → Nat) : Nat → Option Nat
  | 0 => (h.roots r).bind fun x => (h.slices x).bind fun cells => cells (idx 0)
  | n + 1 => (h.entryAt r idx n).bind fun b => (h.boxes b).bind fun e => e.2.bind fun x =>
      (h.slices x).bind fun cells => cells (idx (n + 1))

/-- What does not change of the entry at an address. -/
def TabHeap.valueAt (h : TabHeap T) (b : Nat) : Option T := (h.boxes b).map Prod.fst

end Rotonda
