import Verif.Model.Prog
import Verif.Model.Cht

/-!
# Write-once slots (`src/cht/oncebox.rs`)

The memory of a chained hash table: every slot address is empty or holds an
entry.  An entry has two immutable fields, its id and the size of the bucket
hanging off it, and further fields that change atomically.
-/

namespace Rotonda

/-- Immutable part of an entry stored in a slot. -/
class Entry (E : Type) (W : outParam Nat) where
  id : E → PrefixId W
  next : E → Nat

/-- The slots of a chained hash table (`Cht`, all its `OnceBoxSlice`s).
Simplification: a bucket whose slice pointer is still null is the same as a
bucket with only empty slots (`OnceBoxSlice::get` returns `None` for both);
see `Verif.Model.OnceBox` for the lazily created slice. -/
abbrev Slots (E : Type) := Addr → Option E

/-- What a thread holds after following a slot pointer: the address and the
immutable fields of the entry there. -/
structure Ref (W : Nat) where
  addr : Addr
  id : PrefixId W
  next : Nat

variable {W : Nat} {E : Type} [Entry E W]

/-- The reference obtained from the entry `e` stored at `a`. -/
def refOf (a : Addr) (e : E) : Ref W := ⟨a, Entry.id e, Entry.next e⟩

/-- Replace the content of one slot. -/
def Slots.set (s : Slots E) (a : Addr) (e : E) : Slots E :=
  fun b => if b = a then some e else s b

/-- `src/cht/oncebox.rs` 92-100, `OnceBoxSlice::get`: `None` when the index is
out of range or the slot is empty.  One atomic load. -/
def sliceGet (b : Bucket) (idx : Nat) : Prog (Slots E) (Option (Ref W)) :=
  if idx < b.size then
    Prog.read (fun s => (s (b.slot idx)).map (refOf (b.slot idx)))
  else Prog.ret none

/-- `src/cht/oncebox.rs` 38-58, the compare-and-swap in `OnceBox::get_or_init`. -/
def casInit (a : Addr) (e : E) : Prog (Slots E) (Ref W × Bool) :=
  Prog.atomic (fun s =>
    match s a with
    | none => ((refOf a e, true), s.set a e)
    | some e' => ((refOf a e', false), s))

/-- `src/cht/oncebox.rs` 106-114 (`OnceBoxSlice::get_or_init`) and 32-58
(`OnceBox::get_or_init`): indexing out of range panics; first a load, then a
compare-and-swap from null.  Returns the entry now in the slot and whether it
is ours. -/
def sliceGetOrInit (b : Bucket) (idx : Nat) (e : E) : Prog (Slots E) (Ref W × Bool) :=
  if idx < b.size then do
    match ← Prog.read (fun s : Slots E => (s (b.slot idx)).map (refOf (b.slot idx))) with
    | some r => return (r, false)
    | none => casInit (b.slot idx) e
  else Prog.panic

/-- One atomic access to the mutable part of an entry through a reference; a
dangling reference panics (never happens, but must be shown). -/
def accessAt {ρ : Type} (a : Addr) (f : E → ρ × E) : Prog (Slots E) ρ := do
  let r ← Prog.atomic (fun s : Slots E =>
    match s a with
    | none => (none, s)
    | some e => (some (f e).1, s.set a (f e).2))
  Prog.ofOption r

/-- One atomic read of the mutable part of an entry. -/
def readAt {ρ : Type} (a : Addr) (f : E → ρ) : Prog (Slots E) ρ := do
  let r ← Prog.read (fun s : Slots E => (s a).map f)
  Prog.ofOption r

end Rotonda
