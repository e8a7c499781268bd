import Verif.Model.Prog

/-!
# A chained hash table, pointer by pointer (`src/cht/mod.rs`, `src/cht/oncebox.rs`)

`Verif.Model.OnceBox` has the heap of one `OnceBoxSlice`.  Here is that of a whole table: the
roots are `OnceBoxSlice`s, and every entry (`StoredNode`, `StoredPrefix`) holds the
`OnceBoxSlice` of its next bucket.  Calls walk down the chain, creating slices and entries
where there are none; in the end the table is dropped.  Using a block that is not allocated
is a panic here.
-/

namespace Rotonda

/-- Where a slice pointer is: in the root array (`Cht`, `src/cht/mod.rs` 13-17), or in the
entry at an address (`node_set`, `src/tree_bitmap/node_cht.rs` 29; `next_bucket`,
`src/prefix_cht/cht.rs` 377). -/
inductive Loc
  | root (r : Nat)
  | child (b : Nat)
  deriving DecidableEq

/-- The heap as far as one table is concerned.  `T` is what does not change of an entry. -/
structure TabHeap (T : Type) where
  /-- `OnceBoxSlice::ptr` of the roots -/
  roots : Nat → Option Nat
  /-- allocated slices: index of a box ↦ `OnceBox::ptr` -/
  slices : Nat → Option (Nat → Option Nat)
  /-- allocated entries, and `OnceBoxSlice::ptr` of the next bucket -/
  boxes : Nat → Option (T × Option Nat)
  /-- addresses from here on were never used -/
  top : Nat
  /-- the number of allocated epoch-managed blocks (`Atomic::init`, `src/prefix_cht/cht.rs`
  410-413) -/
  atoms : Nat

/-- The sizes of the slices (`OnceBoxSlice::size`), and the number of epoch-managed blocks
that making an entry allocates: one for a `StoredPrefix`, none for a `StoredNode`. -/
structure TabShape (T : Type) where
  rootSize : Nat → Nat
  next : T → Nat
  atoms : Nat

/-- The allocator proposes addresses, see `Alloc`. -/
structure TabAlloc (T : Type) where
  slice : TabHeap T → Nat
  box : TabHeap T → Nat

namespace TabHeap
variable {T : Type}

/-- `Cht::init` (`src/cht/mod.rs` 22-26): nothing allocated. -/
def empty : TabHeap T := ⟨fun _ => none, fun _ => none, fun _ => none, 0, 0⟩

def sliceAddr (A : TabAlloc T) (h : TabHeap T) : Nat :=
  if (h.slices (A.slice h)).isNone then A.slice h else h.top

def boxAddr (A : TabAlloc T) (h : TabHeap T) : Nat :=
  if (h.boxes (A.box h)).isNone then A.box h else h.top

def setSlice (h : TabHeap T) (x : Nat) (c : Option (Nat → Option Nat)) : TabHeap T :=
  { h with slices := fun y => if y = x then c else h.slices y }

def setBox (h : TabHeap T) (b : Nat) (v : Option (T × Option Nat)) : TabHeap T :=
  { h with boxes := fun y => if y = b then v else h.boxes y }

/-- The slice pointer at a place; `none` if the entry is not allocated. -/
def ptr (h : TabHeap T) : Loc → Option (Option Nat)
  | .root r => some (h.roots r)
  | .child b => (h.boxes b).map Prod.snd

/-- Write the slice pointer at a place. -/
def setPtr (h : TabHeap T) (l : Loc) (p : Option Nat) : TabHeap T :=
  match l with
  | .root r => { h with roots := fun y => if y = r then p else h.roots y }
  | .child b => { h with boxes := fun y => if y = b then (h.boxes b).map fun e => (e.1, p) else h.boxes y }

/-- Write one pointer in a slice. -/
def setCell (cells : Nat → Option Nat) (idx : Nat) (p : Option Nat) : Nat → Option Nat :=
  fun j => if j = idx then p else cells j

end TabHeap

open Prog TabHeap

variable {T : Type} (A : TabAlloc T) (Z : TabShape T)

/-- Load of a slice pointer. -/
def locLoad (l : Loc) : Prog (TabHeap T) (Option Nat) := do
  let r ← Prog.read fun h : TabHeap T => h.ptr l
  Prog.ofOption r

/-- Compare-and-swap of a slice pointer from null. -/
def locCas (l : Loc) (x : Nat) : Prog (TabHeap T) (Except Nat Unit) := do
  let r ← Prog.atomic fun h : TabHeap T =>
    match h.ptr l with
    | none => (none, h)
    | some none => (some (.ok ()), h.setPtr l (some x))
    | some (some y) => (some (.error y), h)
  Prog.ofOption r

/-- Allocate a slice of empty boxes (`src/cht/oncebox.rs` 122-129). -/
def tabNewSlice : Prog (TabHeap T) Nat :=
  Prog.atomic fun h => (h.sliceAddr A,
    { h.setSlice (h.sliceAddr A) (some fun _ => none) with top := max h.top (h.sliceAddr A + 1) })

/-- Make an entry (`Box::leak(Box::new(create()))`, `src/cht/oncebox.rs` 37): its next bucket
has no slice yet; a `StoredPrefix` allocates its path selections (`src/prefix_cht/cht.rs`
407-416). -/
def tabNewBox (v : T) : Prog (TabHeap T) Nat :=
  Prog.atomic fun h => (h.boxAddr A,
    { h.setBox (h.boxAddr A) (some (v, none)) with
      top := max h.top (h.boxAddr A + 1), atoms := h.atoms + Z.atoms })

/-- Free an entry; a double free panics.  `Atomic` of `crossbeam_epoch` has no `Drop`: the
path selections are not freed. -/
def tabFreeBox (b : Nat) : Prog (TabHeap T) Unit := do
  let r ← Prog.atomic fun h : TabHeap T =>
    match h.boxes b with
    | none => (none, h)
    | some _ => (some (), h.setBox b none)
  Prog.ofOption r

/-- Free a slice; a double free panics. -/
def tabFreeSlice (x : Nat) : Prog (TabHeap T) Unit := do
  let r ← Prog.atomic fun h : TabHeap T =>
    match h.slices x with
    | none => (none, h)
    | some _ => (some (), h.setSlice x none)
  Prog.ofOption r

/-- Load of a box pointer in the slice `x`. -/
def tabCellLoad (x idx : Nat) : Prog (TabHeap T) (Option Nat) := do
  let r ← Prog.read fun h : TabHeap T => (h.slices x).map fun cells => cells idx
  Prog.ofOption r

/-- Compare-and-swap of a box pointer in the slice `x` from null. -/
def tabCellCas (x idx b : Nat) : Prog (TabHeap T) (Except Nat Unit) := do
  let r ← Prog.atomic fun h : TabHeap T =>
    match h.slices x with
    | none => (none, h)
    | some cells =>
      match cells idx with
      | none => (some (.ok ()), h.setSlice x (some (setCell cells idx (some b))))
      | some c => (some (.error c), h)
  Prog.ofOption r

/-- Use of a reference to an entry. -/
def tabDeref (b : Nat) : Prog (TabHeap T) T := do
  let r ← Prog.read fun h : TabHeap T => (h.boxes b).map Prod.fst
  Prog.ofOption r

/-- `src/cht/oncebox.rs` 32-58, `OnceBox::get_or_init`.  A loser of the race drops its entry,
whose next bucket has no slice. -/
def tabBoxGetOrInit (x idx : Nat) (v : T) : Prog (TabHeap T) Nat := do
  match ← tabCellLoad x idx with
  | some b => return b
  | none =>
    let b ← tabNewBox A Z v
    match ← tabCellCas x idx b with
    | .ok () => return b
    | .error c => do
      tabFreeBox b
      return c

/-- `src/cht/oncebox.rs` 116-153, `OnceBoxSlice::get_or_make_slice`. -/
def tabGetOrMakeSlice (l : Loc) : Prog (TabHeap T) Nat := do
  match ← locLoad l with
  | some x => return x
  | none =>
    let x ← tabNewSlice A
    match ← locCas l x with
    | .ok () => return x
    | .error y => do
      tabFreeSlice x
      return y

/-- `src/cht/oncebox.rs` 106-114, `OnceBoxSlice::get_or_init`; `none` where indexing out of
range panics. -/
def tabGetOrInit (l : Loc) (size idx : Nat) (v : T) : Prog (TabHeap T) (Option Nat) := do
  let x ← tabGetOrMakeSlice A l
  if idx < size then do
    let b ← tabBoxGetOrInit A Z x idx v
    return some b
  else return none

/-- `src/cht/oncebox.rs` 92-100, `OnceBoxSlice::get`. -/
def tabGet (l : Loc) (size idx : Nat) : Prog (TabHeap T) (Option Nat) := do
  match ← locLoad l with
  | none => return none
  | some x => if idx < size then tabCellLoad x idx else return none

/-- What a call that walks down a chain does: the root it starts at, the index at each level,
the entry it makes at each level if it makes any, and whether an entry is the last it wants
(the flag tells that `get_or_init` gave it). -/
structure Walk (T : Type) where
  root : Nat
  idx : Nat → Nat
  create : Bool
  val : Nat → T
  stop : Bool → T → Bool

/-- The loops of `retrieve_node`, `retrieve_node_for_mui` (`src/tree_bitmap/mod.rs` 825-928),
`retrieve_node_mut` (743-823), `store_node` (583-741), `non_recursive_retrieve_prefix`,
`non_recursive_retrieve_prefix_mut`, `get_records_for_prefix` (`src/prefix_cht/cht.rs`
770-821, 693-762, 541-587).  `none` when nothing is found, and where the code panics for an
index out of range or too many levels.  Simplification: what the calls do with the mutable
part of the entries is left out. -/
def walk (c : Walk T) : Nat → Loc → Nat → Nat → Prog (TabHeap T) (Option Nat)
  | 0, _, _, _ => return none
  | n + 1, l, size, lvl => do
    match ← tabGet l size (c.idx lvl) with
    | some b => do
      let e ← tabDeref b
      if c.stop false e = true then return some b
      else walk c n (.child b) (Z.next e) (lvl + 1)
    | none =>
      if c.create = true then do
        match ← tabGetOrInit A Z l size (c.idx lvl) (c.val lvl) with
        | none => return none
        | some b => do
          let e ← tabDeref b
          if c.stop true e = true then return some b
          else walk c n (.child b) (Z.next e) (lvl + 1)
      else return none

/-- A call on the table. -/
def Walk.prog (levels : Nat) (c : Walk T) : Prog (TabHeap T) (Option Nat) :=
  walk A Z c levels (.root c.root) (Z.rootSize c.root) 0

/-! ## Dropping the table -/

/-- Take a slice pointer away (`ptr.swap(null_mut())`, `src/cht/oncebox.rs` 158). -/
def locSwap (l : Loc) : Prog (TabHeap T) (Option Nat) := do
  let r ← Prog.atomic fun h : TabHeap T => (h.ptr l, h.setPtr l none)
  Prog.ofOption r

/-- Take a box pointer away (`src/cht/oncebox.rs` 63). -/
def tabCellSwap (x idx : Nat) : Prog (TabHeap T) (Option Nat) := do
  let r ← Prog.atomic fun h : TabHeap T =>
    match h.slices x with
    | none => (none, h)
    | some cells => (some (cells idx), h.setSlice x (some (setCell cells idx none)))
  Prog.ofOption r

/-- The boxes of a slice are dropped one after the other, with `drop` for each entry
(`src/cht/oncebox.rs` 61-68).  Simplification: from the last to the first. -/
def tabDropCells (drop : Nat → Prog (TabHeap T) Unit) (x : Nat) : Nat → Prog (TabHeap T) Unit
  | 0 => return ()
  | k + 1 => do
    match ← tabCellSwap x k with
    | none => tabDropCells drop x k
    | some b => do
      drop b
      tabDropCells drop x k

/-- `Drop for OnceBoxSlice` (`src/cht/oncebox.rs` 156-165): the boxes are dropped, each drops
its entry, which drops its next bucket before it is freed; then the slice is freed. -/
def tabDropLoc : Nat → Loc → Nat → Prog (TabHeap T) Unit
  | 0, _, _ => Prog.diverge
  | n + 1, l, size => do
    match ← locSwap l with
    | none => return ()
    | some x => do
      tabDropCells (fun b => do
        let e ← tabDeref b
        tabDropLoc n (.child b) (Z.next e)
        tabFreeBox b) x size
      tabFreeSlice x

/-- The table is dropped, one root after the other. -/
def tabDrop (fuel : Nat) : Nat → Prog (TabHeap T) Unit
  | 0 => return ()
  | k + 1 => do
    tabDropLoc Z fuel (.root k) (Z.rootSize k)
    tabDrop fuel k

end Rotonda
