import Verif.Model.Prog

/-!
# One lazily created slice of write-once boxes, pointer by pointer (`src/cht/oncebox.rs`)

`Verif.Model.Slots` takes a slot to be empty or to hold an entry.  Here the same
code is modelled with its heap: a `OnceBoxSlice` is an atomic pointer to a heap
block of `OnceBox`es, created by the first thread that needs it; a `OnceBox` is an
atomic pointer to a heap block holding the value.  Blocks are allocated before and,
by the losers of a race, freed after the compare-and-swap.  Using a block that is not
allocated is a panic here.
-/

namespace Rotonda

/-- The heap as far as one `OnceBoxSlice` is concerned.  A block is named by its
address; `none` is the null pointer, or a block that is not allocated. -/
structure BoxHeap (T : Type) where
  /-- `OnceBoxSlice::ptr` (`src/cht/oncebox.rs` 76) -/
  ptr : Option Nat
  /-- allocated slices: index of a box ↦ `OnceBox::ptr` (`src/cht/oncebox.rs` 13) -/
  slices : Nat → Option (Nat → Option Nat)
  /-- allocated values -/
  boxes : Nat → Option T
  /-- addresses from here on were never used -/
  top : Nat

/-- The allocator proposes an address from the state of the heap; it is taken if it is
free, so freed addresses may be handed out again. -/
structure Alloc (T : Type) where
  slice : BoxHeap T → Nat
  box : BoxHeap T → Nat

namespace BoxHeap
variable {T : Type}

/-- `OnceBoxSlice::new` (`src/cht/oncebox.rs` 81-86): nothing allocated. -/
def empty : BoxHeap T := ⟨none, fun _ => none, fun _ => none, 0⟩

/-- The address of the next slice. -/
def sliceAddr (A : Alloc T) (h : BoxHeap T) : Nat :=
  if (h.slices (A.slice h)).isNone then A.slice h else h.top

/-- The address of the next value. -/
def boxAddr (A : Alloc T) (h : BoxHeap T) : Nat :=
  if (h.boxes (A.box h)).isNone then A.box h else h.top

def setSlice (h : BoxHeap T) (x : Nat) (c : Option (Nat → Option Nat)) : BoxHeap T :=
  { h with slices := fun y => if y = x then c else h.slices y }

def setBox (h : BoxHeap T) (b : Nat) (v : Option T) : BoxHeap T :=
  { h with boxes := fun y => if y = b then v else h.boxes y }

/-- Write one pointer in a slice. -/
def setCell (cells : Nat → Option Nat) (idx b : Nat) : Nat → Option Nat :=
  fun j => if j = idx then some b else cells j

end BoxHeap

open Prog BoxHeap

variable {T : Type} (A : Alloc T) (size : Nat)

/-- Allocate a slice of empty boxes (`src/cht/oncebox.rs` 122-129). -/
def newSlice : Prog (BoxHeap T) Nat :=
  Prog.atomic fun h => (h.sliceAddr A,
    { h.setSlice (h.sliceAddr A) (some fun _ => none) with top := max h.top (h.sliceAddr A + 1) })

/-- Allocate a value (`Box::leak(Box::new(create()))`, `src/cht/oncebox.rs` 37). -/
def newBox (v : T) : Prog (BoxHeap T) Nat :=
  Prog.atomic fun h => (h.boxAddr A,
    { h.setBox (h.boxAddr A) (some v) with top := max h.top (h.boxAddr A + 1) })

/-- Free a value (`drop(Box::from_raw(ptr))`); a double free panics. -/
def freeBox (b : Nat) : Prog (BoxHeap T) Unit := do
  let r ← Prog.atomic fun h : BoxHeap T =>
    match h.boxes b with
    | none => (none, h)
    | some _ => (some (), h.setBox b none)
  Prog.ofOption r

/-- Free a slice with only empty boxes; a double free panics. -/
def freeSlice (x : Nat) : Prog (BoxHeap T) Unit := do
  let r ← Prog.atomic fun h : BoxHeap T =>
    match h.slices x with
    | none => (none, h)
    | some _ => (some (), h.setSlice x none)
  Prog.ofOption r

/-- Compare-and-swap of the slice pointer from null. -/
def ptrCas (x : Nat) : Prog (BoxHeap T) (Except (Option Nat) (Option Nat)) :=
  Prog.atomic fun h : BoxHeap T =>
    match h.ptr with
    | none => (.ok h.ptr, { h with ptr := some x })
    | some _ => (.error h.ptr, h)

/-- Load of a box pointer in the slice `x`. -/
def cellLoad (x idx : Nat) : Prog (BoxHeap T) (Option Nat) := do
  let r ← Prog.read fun h : BoxHeap T => (h.slices x).map fun cells => cells idx
  Prog.ofOption r

/-- Compare-and-swap of a box pointer in the slice `x` from null. -/
def cellCas (x idx b : Nat) : Prog (BoxHeap T) (Except (Option Nat) (Option Nat)) := do
  let r ← Prog.atomic fun h : BoxHeap T =>
    match h.slices x with
    | none => (none, h)
    | some cells =>
      match cells idx with
      | none => (some (.ok (cells idx)), h.setSlice x (some (setCell cells idx b)))
      | some _ => (some (.error (cells idx)), h)
  Prog.ofOption r

/-- `src/cht/oncebox.rs` 32-58, `OnceBox::get_or_init`, for the box at `idx` of the
slice `x`.  Returns the pointer and `its_us`. -/
def boxGetOrInit (x idx : Nat) (v : T) : Prog (BoxHeap T) (Nat × Bool) := do
  match ← cellLoad x idx with
  | some b => return (b, false)
  | none =>
    let b ← newBox A v
    match ← cellCas x idx b with
    | .ok current => if current.isNone then return (b, true) else Prog.panic
    | .error none => Prog.panic
    | .error (some c) => do
      freeBox b
      return (c, false)

/-- `src/cht/oncebox.rs` 116-153, `OnceBoxSlice::get_or_make_slice`. -/
def getOrMakeSlice : Prog (BoxHeap T) Nat := do
  match ← Prog.read fun h : BoxHeap T => h.ptr with
  | some x => return x
  | none =>
    let x ← newSlice A
    match ← ptrCas x with
    | .ok current => if current.isNone then return x else Prog.panic
    | .error none => Prog.panic
    | .error (some y) => do
      freeSlice x
      return y

/-- `src/cht/oncebox.rs` 106-114, `OnceBoxSlice::get_or_init`; indexing out of range
panics. -/
def obsGetOrInit (idx : Nat) (v : T) : Prog (BoxHeap T) (Nat × Bool) := do
  let x ← getOrMakeSlice A
  if idx < size then boxGetOrInit A x idx v else Prog.panic

/-- `src/cht/oncebox.rs` 92-100, `OnceBoxSlice::get` with 23-30, `OnceBox::get`. -/
def obsGet (idx : Nat) : Prog (BoxHeap T) (Option Nat) := do
  match ← Prog.read fun h : BoxHeap T => h.ptr with
  | none => return none
  | some x => if idx < size then cellLoad x idx else return none

/-- Use of a returned reference. -/
def deref (b : Nat) : Prog (BoxHeap T) T := do
  let r ← Prog.read fun h : BoxHeap T => h.boxes b
  Prog.ofOption r

/-- The boxes of a slice are dropped one after the other (`Drop for OnceBox`,
`src/cht/oncebox.rs` 61-68). -/
def dropCells (x : Nat) : Nat → Prog (BoxHeap T) Unit
  | 0 => return ()
  | n + 1 => do
    match ← cellLoad x n with
    | none => dropCells x n
    | some b => do
      freeBox b
      dropCells x n

/-- `Drop for OnceBoxSlice` (`src/cht/oncebox.rs` 156-165).  Simplification: the boxes
are visited from the last to the first. -/
def dropSlice : Prog (BoxHeap T) Unit := do
  match ← Prog.atomic fun h : BoxHeap T => (h.ptr, { h with ptr := none }) with
  | none => return ()
  | some x => do
    dropCells x size
    freeSlice x

end Rotonda
