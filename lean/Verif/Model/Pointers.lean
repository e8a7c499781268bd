import Verif.Model.TableHeap
import Verif.Model.Conc

/-!
# The store with both hash tables pointer by pointer

`Verif.Model.Slots` has a hash table as a map from addresses to entries.  Here the same calls
run on the heap of `Verif.Model.TableHeap`: slices are made when they are needed, entries are
allocated, put in place with a compare-and-swap and freed when the race is lost, and every
access to an entry goes through a pointer that the call has found before.  A call is a
`PtrProg`: it says which operations on the tables it does, not how they are done.
-/

namespace Rotonda

open Prog TabHeap

/-! ## The operations on one table -/

/-- An operation of a call on a table, with the type of its result. -/
inductive TabOp (E : Type) (W : Nat) : Type → Type 1
  /-- `OnceBoxSlice::get` (`src/cht/oncebox.rs` 92-100) -/
  | get (b : Bucket) (idx : Nat) : TabOp E W (Option (Ref W))
  /-- `OnceBoxSlice::get_or_init` (`src/cht/oncebox.rs` 106-114) -/
  | init (b : Bucket) (idx : Nat) (e : E) : TabOp E W (Ref W × Bool)
  /-- one access to the mutable part of an entry -/
  | access {ρ : Type} (a : Addr) (f : E → ρ × E) : TabOp E W ρ

variable {E : Type} {W : Nat} [Entry E W]

/-- What an operation does on a table that is a map. -/
def TabOp.onSlots {ρ : Type} : TabOp E W ρ → Prog (Slots E) ρ
  | .get b idx => sliceGet b idx
  | .init b idx e => sliceGetOrInit b idx e
  | .access a f => accessAt a f

/-- The shape of a table of entries: all roots have 16 boxes (`src/cht/mod.rs` 21-25), the next
bucket of an entry has the size given when it was made. -/
def entryShape (E : Type) {W : Nat} [Entry E W] (atoms : Nat) : TabShape E :=
  ⟨fun _ => slotsForP2 4, Entry.next, atoms⟩

/-- The slice pointer of a bucket: in the root array, or in the entry before it, to which the
call must have the pointer. -/
def Bucket.loc (env : Addr → Option Nat) (b : Bucket) : Option Loc :=
  match b.path with
  | [] => some (.root b.root)
  | _ => (env ⟨b.root, b.path⟩).map .child

/-- The fields of an entry that do not change, read through a pointer. -/
def tabRef (a : Addr) (n : Nat) : Prog (TabHeap E) (Ref W) := do
  let e ← tabDeref n
  return refOf a e

/-- `src/cht/oncebox.rs` 92-100, `OnceBoxSlice::get`, and the pointer found. -/
def ptrGet (l : Loc) (b : Bucket) (idx : Nat) :
    Prog (TabHeap E) (Option (Ref W) × Option (Addr × Nat)) := do
  match ← tabGet l b.size idx with
  | none => return (none, none)
  | some n => do
    let r ← tabRef (b.slot idx) n
    return (some r, some (b.slot idx, n))

/-- `src/cht/oncebox.rs` 32-58, `OnceBox::get_or_init`, with its flag `its_us`. -/
def tabBoxInit (A : TabAlloc E) (Z : TabShape E) (x idx : Nat) (e : E) :
    Prog (TabHeap E) (Nat × Bool) := do
  match ← tabCellLoad x idx with
  | some n => return (n, false)
  | none =>
    let n ← tabNewBox A Z e
    match ← tabCellCas x idx n with
    | .ok () => return (n, true)
    | .error d => do
      tabFreeBox n
      return (d, false)

/-- `src/cht/oncebox.rs` 106-114, `OnceBoxSlice::get_or_init`, and the pointer found.  The slice
is made before the index is checked. -/
def ptrInit (A : TabAlloc E) (Z : TabShape E) (l : Loc) (b : Bucket) (idx : Nat) (e : E) :
    Prog (TabHeap E) ((Ref W × Bool) × Option (Addr × Nat)) := do
  let x ← tabGetOrMakeSlice A l
  if idx < b.size then do
    let (n, us) ← tabBoxInit A Z x idx e
    let r ← tabRef (b.slot idx) n
    return ((r, us), some (b.slot idx, n))
  else Prog.panic

/-- One access to the mutable part of an entry through a pointer. -/
def tabAccess {ρ : Type} (n : Nat) (f : E → ρ × E) : Prog (TabHeap E) ρ := do
  let r ← Prog.atomic fun h : TabHeap E =>
    match h.boxes n with
    | none => (none, h)
    | some e => (some (f e.1).1, h.setBox n (some ((f e.1).2, e.2)))
  Prog.ofOption r

/-- What an operation does on the heap; `env` has the pointers the call has found so far.  The
second result is the pointer found. -/
def TabOp.onHeap {ρ : Type} (A : TabAlloc E) (Z : TabShape E) (env : Addr → Option Nat) :
    TabOp E W ρ → Prog (TabHeap E) (ρ × Option (Addr × Nat))
  | .get b idx =>
    match b.loc env with
    | none => Prog.panic
    | some l => ptrGet l b idx
  | .init b idx e =>
    match b.loc env with
    | none => Prog.panic
    | some l => ptrInit A Z l b idx e
  | .access a f =>
    match env a with
    | none => Prog.panic
    | some n => do
      let r ← tabAccess n f
      return (r, none)

/-- A call keeps the pointer it has found. -/
def learn (env : Addr → Option Nat) : Option (Addr × Nat) → Addr → Option Nat
  | none, a => env a
  | some (a', n), a => if a = a' then some n else env a

/-! ## Calls -/

/-- The store: the heaps of the node table (`src/tree_bitmap/node_cht.rs` 17-37) and of the
prefix table (`src/prefix_cht/cht.rs` 369-379), and everything else. -/
structure PtrRib (M : Type) (W : Nat) where
  nodes : TabHeap (StoredNode W)
  recs : TabHeap (StoredPrefix M W)
  rest : Rib M W

namespace PtrRib
variable {M : Type}

def nodesL : Lens (PtrRib M W) (TabHeap (StoredNode W)) where
  get := nodes
  set s h := { s with nodes := h }

def recsL : Lens (PtrRib M W) (TabHeap (StoredPrefix M W)) where
  get := recs
  set s h := { s with recs := h }

def restL : Lens (PtrRib M W) (Rib M W) where
  get := rest
  set s r := { s with rest := r }

/-- Nothing is allocated (`src/rib/starcast_af.rs` 78-112, before the root node is stored). -/
def empty : PtrRib M W := ⟨TabHeap.empty, TabHeap.empty, Rib.empty⟩

end PtrRib

/-- The allocators of both tables. -/
structure PtrAlloc (M : Type) (W : Nat) where
  nodes : TabAlloc (StoredNode W)
  recs : TabAlloc (StoredPrefix M W)

/-- A call: operations on the node table and on the prefix table, and actions on the rest of
the store.  `raw` is anything else; it has no meaning on the heap. -/
inductive PtrProg (M : Type) (W : Nat) (α : Type) : Type 1
  | ret (a : α)
  | panic
  | diverge
  | raw (p : Prog (Rib M W) α)
  | nodes {ρ : Type} (op : TabOp (StoredNode W) W ρ) (k : ρ → PtrProg M W α)
  | recs {ρ : Type} (op : TabOp (StoredPrefix M W) W ρ) (k : ρ → PtrProg M W α)
  | frame {ρ : Type} (f : Rib M W → ρ × Rib M W) (k : ρ → PtrProg M W α)

namespace PtrProg
variable {M α : Type}

/-- The call on tables that are maps. -/
def onSlots : PtrProg M W α → Prog (Rib M W) α
  | ret a => .ret a
  | panic => .panic
  | diverge => .diverge
  | raw p => p
  | nodes op k => (onNodes op.onSlots).bind fun r => (k r).onSlots
  | recs op k => (onRecs op.onSlots).bind fun r => (k r).onSlots
  | frame f k => .act f fun r => (k r).onSlots

/-- The call on the heap; `env` and `env'` have the pointers found so far in the two tables. -/
def onHeap (A : PtrAlloc M W) (env env' : Addr → Option Nat) : PtrProg M W α → Prog (PtrRib M W) α
  | ret a => .ret a
  | panic => .panic
  | diverge => .diverge
  | raw _ => .panic
  | nodes op k => ((op.onHeap A.nodes (entryShape _ 0) env).zoom PtrRib.nodesL).bind
      fun r => (k r.1).onHeap A (learn env r.2) env'
  | recs op k => ((op.onHeap A.recs (entryShape _ 1) env').zoom PtrRib.recsL).bind
      fun r => (k r.1).onHeap A env (learn env' r.2)
  | frame f k => (Prog.act f Prog.ret : Prog (Rib M W) _).zoom PtrRib.restL |>.bind
      fun r => (k r).onHeap A env env'

/-- A call starts without any pointer. -/
def start (A : PtrAlloc M W) (t : PtrProg M W α) : Prog (PtrRib M W) α :=
  t.onHeap A (fun _ => none) fun _ => none

end PtrProg

/-- Dropping the store drops both tables, one root after another (`src/cht/mod.rs` 10-15,
`src/cht/oncebox.rs` 60-68, 156-165). -/
def ptrDrop {M : Type} (fuel : Nat) : Prog (PtrRib M W) Unit := do
  (tabDrop (entryShape (StoredNode W) 0) fuel (nodeRoots W)).zoom PtrRib.nodesL
  (tabDrop (entryShape (StoredPrefix M W) 1) fuel (prefixRoots W)).zoom PtrRib.recsL

end Rotonda
