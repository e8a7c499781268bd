import Verif.Model.PrefixCht
import Verif.Model.Tree

/-!
# One epoch-managed pointer, with its heap

`TreeBitMap::withdrawn_muis_bmin` (`src/tree_bitmap/mod.rs` 249-259) and
`StoredPrefix::path_selections` (`src/prefix_cht/cht.rs` 369-379) are pointers of
`crossbeam_epoch` type `Atomic<T>`: a pointer with a tag, to a block on the heap.  A new
value is put into a new block and the pointer swapped; what a failing swap was given is
dropped, hence freed.  `Verif.Model.Tree` and `Verif.Model.PrefixCht` keep a version
number instead of the pointer.  Here the same code is modelled with its heap; using a
block that is not allocated is a panic.

The pointer tag is of any type `τ` (`Unit` for the bitmap, which uses no tags), the
content of a block of any type `V`.  Simplifications: the pointer is never null (both
are created with a value and only ever swapped to a new block), so the error branches
for null pointers are left out; `fetch_update` is one action (see `Model/Lock.lean`).
Nothing in `/repo` calls `defer_destroy`, `defer` or `into_owned`, and an `Atomic` that
is dropped does not free its block, so no program below frees a block that was swapped
out; pinning an epoch (`Guard`) therefore has no effect and is left out.
-/

namespace Rotonda

/-- The heap as far as one pointer is concerned.  A block is named by its address. -/
structure EpochHeap (τ V : Type) where
  /-- address in the pointer -/
  ptr : Nat
  /-- tag of the pointer -/
  tag : τ
  /-- allocated blocks -/
  blocks : Nat → Option V
  /-- addresses from here on were never used -/
  top : Nat

/-- The allocator proposes an address; it is taken if it is free, so freed addresses may
be handed out again. -/
abbrev EpochAlloc (τ V : Type) := EpochHeap τ V → Nat

namespace EpochHeap
variable {τ V : Type}

/-- `Atomic::init(v)`: one block, no tag (`src/tree_bitmap/mod.rs` 265,
`src/prefix_cht/cht.rs` 411-413). -/
def init (t0 : τ) (v : V) : EpochHeap τ V := ⟨0, t0, fun x => if x = 0 then some v else none, 1⟩

/-- The address of the next block. -/
def addr (A : EpochAlloc τ V) (h : EpochHeap τ V) : Nat :=
  if (h.blocks (A h)).isNone then A h else h.top

def setBlock (h : EpochHeap τ V) (x : Nat) (v : Option V) : EpochHeap τ V :=
  { h with blocks := fun y => if y = x then v else h.blocks y }

end EpochHeap

open Prog EpochHeap

variable {τ V : Type}

/-- The answer of a call. -/
inductive CellAns (τ V : Type)
  | val (v : V)
  | tag (t : τ)
  | ok
  | refused

/-! ## With the heap -/

section heap
variable (A : EpochAlloc τ V)

/-- `Atomic::load`. -/
def ptrLoad : Prog (EpochHeap τ V) (Nat × τ) := Prog.read fun h => (h.ptr, h.tag)

/-- `Shared::deref`, `Shared::as_ref`. -/
def blockGet (x : Nat) : Prog (EpochHeap τ V) V := do
  let r ← Prog.read fun h : EpochHeap τ V => h.blocks x
  Prog.ofOption r

/-- `Owned::new`. -/
def blockNew (v : V) : Prog (EpochHeap τ V) Nat :=
  Prog.atomic fun h => (h.addr A,
    { h.setBlock (h.addr A) (some v) with top := max h.top (h.addr A + 1) })

/-- Dropping an `Owned`; a double free panics. -/
def blockFree (x : Nat) : Prog (EpochHeap τ V) Unit := do
  let r ← Prog.atomic fun h : EpochHeap τ V =>
    match h.blocks x with
    | none => (none, h)
    | some _ => (some (), h.setBlock x none)
  Prog.ofOption r

variable [DecidableEq τ]

/-- `Atomic::compare_exchange` of address and tag; on failure the address found
(`CompareExchangeError::current`). -/
def ptrSwap (cur : Nat × τ) (x : Nat) (t0 : τ) : Prog (EpochHeap τ V) (Option Nat) :=
  Prog.atomic fun h =>
    if h.ptr = cur.1 ∧ h.tag = cur.2 then (none, { h with ptr := x, tag := t0 })
    else (some h.ptr, h)

/-- `src/tree_bitmap/mod.rs` 557-579, `update_withdrawn_muis_bmin`: `current` is never
refreshed; the value found is copied before the block that was not taken is dropped. -/
def heapLoop (t0 : τ) (cur : Nat × τ) : Nat → V → Prog (EpochHeap τ V) Unit
  | 0, _ => Prog.diverge
  | fuel + 1, new => do
    let x ← blockNew A new
    match ← ptrSwap cur x t0 with
    | none => return ()
    | some q => do
      let found ← blockGet q
      blockFree x
      heapLoop t0 cur fuel found

/-- `src/tree_bitmap/mod.rs` 526-555, `mark_mui_as_active` (`f` removes the mui) and
`mark_mui_as_withdrawn` (`f` adds it). -/
def heapModify (t0 : τ) (F : Nat) (f : V → V) : Prog (EpochHeap τ V) (CellAns τ V) := do
  let cur ← ptrLoad
  let v ← blockGet cur.1
  heapLoop A t0 cur (F + 1) (f v)
  return .ok

/-- `src/prefix_cht/cht.rs` 435-458, `set_path_selections`; `same` tells whether the
value found is the one to be set. -/
def heapSet (t0 : τ) (same : V → Bool) (w : V) : Prog (EpochHeap τ V) (CellAns τ V) := do
  let cur ← ptrLoad
  let v ← blockGet cur.1
  if same v then return .ok
  else do
    let x ← blockNew A w
    match ← ptrSwap cur x t0 with
    | none => return .ok
    | some _ => do
      blockFree x
      return .refused

end heap

/-- `src/tree_bitmap/mod.rs` 515-524, `withdrawn_muis_bmin`; `src/prefix_cht/cht.rs`
423-433, `get_path_selections`. -/
def heapRead : Prog (EpochHeap τ V) (CellAns τ V) := do
  let cur ← ptrLoad
  let v ← blockGet cur.1
  return .val v

/-- `src/prefix_cht/cht.rs` 472-474, `is_ps_outdated`. -/
def heapTag : Prog (EpochHeap τ V) (CellAns τ V) := do
  let cur ← ptrLoad
  return .tag cur.2

/-- `src/prefix_cht/cht.rs` 460-470, `set_ps_outdated`. -/
def heapMark (t : τ) : Prog (EpochHeap τ V) (CellAns τ V) := do
  Prog.atomic fun h : EpochHeap τ V => ((), { h with tag := t })
  return .ok

/-! ## With version numbers -/

/-- A pointer as the rest of the model has it (`WdCell`, `PsCell`). -/
structure VerCell (τ V : Type) where
  ver : Nat
  tag : τ
  val : V

section ver
variable [DecidableEq τ]

/-- `updateWithdrawnLoop` (`Verif.Model.Tree`) for any cell. -/
def verLoop (t0 : τ) (cur : Nat × τ) : Nat → V → Prog (VerCell τ V) Unit
  | 0, _ => Prog.diverge
  | fuel + 1, new => do
    let r ← Prog.atomic fun c : VerCell τ V =>
      if c.ver = cur.1 ∧ c.tag = cur.2 then (none, ⟨c.ver + 1, t0, new⟩) else (some c.val, c)
    match r with
    | none => return ()
    | some found => verLoop t0 cur fuel found

/-- `treeMarkActive`, `treeMarkWithdrawn` (`Verif.Model.Tree`) for any cell. -/
def verModify (t0 : τ) (F : Nat) (f : V → V) : Prog (VerCell τ V) (CellAns τ V) := do
  let cur ← Prog.read fun c : VerCell τ V => c
  verLoop t0 (cur.ver, cur.tag) (F + 1) (f cur.val)
  return .ok

/-- `setPathSelections` (`Verif.Model.PrefixCht`) for any cell. -/
def verSet (t0 : τ) (same : V → Bool) (w : V) : Prog (VerCell τ V) (CellAns τ V) := do
  let cur ← Prog.read fun c : VerCell τ V => c
  if same cur.val then return .ok
  else
    Prog.atomic fun c : VerCell τ V =>
      if c.ver = cur.ver ∧ c.tag = cur.tag then (.ok, ⟨c.ver + 1, t0, w⟩) else (.refused, c)

end ver

/-- `withdrawnMuis` (`Verif.Model.Tree`) for any cell. -/
def verRead : Prog (VerCell τ V) (CellAns τ V) := Prog.read fun c => .val c.val

/-- `isPsOutdatedAt` (`Verif.Model.PrefixCht`) for any cell. -/
def verTag : Prog (VerCell τ V) (CellAns τ V) := Prog.read fun c => .tag c.tag

/-- `setPsOutdated` (`Verif.Model.PrefixCht`) for any cell. -/
def verMark (t : τ) : Prog (VerCell τ V) (CellAns τ V) :=
  Prog.atomic fun c => (.ok, { c with tag := t })

end Rotonda
