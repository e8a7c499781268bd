import Verif.Model.Weak

/-!
# The bit arrays of the nodes, with their memory orderings

`src/tree_bitmap/atomic_bitmap.rs`: the bit arrays are read and changed with orderings of
their own, which are weaker than those that the pointers of the table need.  Here clients
also talk to each other outside of the store (locks, channels, joined threads).
-/

namespace Rotonda.Weak

/-- The two bit arrays of a node, `ptrbitarr` and `pfxbitarr`
(`src/tree_bitmap/tree_bitmap_node.rs` 31-39). -/
inductive Arr
  | ptr
  | pfx
  deriving DecidableEq

/-- The words of an entry (`newEntry`) that hold them. -/
def Arr.word : Arr → Nat
  | .ptr => 2
  | .pfx => 3

/-- The orderings written in the code: `src/tree_bitmap/atomic_bitmap.rs` 86 and 122
(`load`), 80 and 117 (success), 81 and 118 (failure). -/
def codeBitOrders : Orders := ⟨.relaxed, .acquire, .relaxed⟩

section
variable (o : Orders)

/-- The loops of `src/tree_bitmap/tree_bitmap_node.rs` 178-201 and 217-238: set bit `b` of
the array at `a`, with `cur` as the content that was read.  Answers 0: the bit is new
(`NewNode`, `NewPrefix`).  Simplification: gives up after `fuel` attempts (never reached
with 33: every failure brings another bit). -/
def casBits (a b : Nat) : Nat → Nat → WProg Word
  | 0, _ => .panic
  | fuel + 1, cur => do
    match ← WProg.cas a (some cur) (some (cur ||| 2 ^ b)) o.ok o.err .ret with
    | .ok _ => return some 0
    | .error none => .panic
    | .error (some newer) => casBits a b fuel newer

/-- `src/tree_bitmap/tree_bitmap_node.rs` 126-251, `eval_node_or_prefix_at`, for the node at
`p`: set a bit of an array unless it is set.  For `ptrbitarr` the array is read twice, and
the first content is the one that is compared (147, 163, 180).  Answers 1: the bit was set
already (`ExistingNode`, `ExistingPrefix`).  Simplification: without the read of the array
that is not changed (148 or 147), whose result is not used. -/
def setBit (arr : Arr) (p b : Nat) : WProg Word := do
  match ← WProg.load (p + arr.word) o.load .ret with
  | none => .panic
  | some cur =>
    match arr with
    | .pfx => if cur.testBit b then return some 1 else casBits o (p + arr.word) b 33 cur
    | .ptr =>
      match ← WProg.load (p + arr.word) o.load .ret with
      | none => .panic
      | some again => if again.testBit b then return some 1 else casBits o (p + arr.word) b 33 cur

/-- `src/tree_bitmap/mod.rs` 451-454 (in `prefix_exists`) and `as_stride_size`
(`src/tree_bitmap/atomic_bitmap.rs` 61-63), for the node at `p`: is the bit set? -/
def testBit (arr : Arr) (p b : Nat) : WProg Word := do
  match ← WProg.load (p + arr.word) o.load .ret with
  | none => .panic
  | some v => return some (if v.testBit b then 1 else 0)

end

/-- A use of the nodes of one length. -/
inductive TreeCall
  | table (c : TableCall)
  | set (arr : Arr) (x b : Nat)
  | test (arr : Arr) (x b : Nat)
  deriving DecidableEq

def TreeCall.id : TreeCall → Nat
  | .table c => c.id
  | .set _ x _ | .test _ x _ => x

/-- The orderings of the table are `ot`, those of the bit arrays `ob`.  `set`: find the node
or make it (`retrieve_node_mut`), and set the bit, as in a step of `set_prefix_exists`
(`src/tree_bitmap/mod.rs` 294-445, there 332-345).  `test`: `prefix_exists`, `src/tree_bitmap/mod.rs`
446-458. -/
def TreeCall.prog (ot ob : Orders) (T : Table) (levels : Nat) : TreeCall → WProg Word
  | .table c => c.prog ot T levels
  | .set arr x b => do
    match ← findOrInit ot T x levels 0 rootLoc with
    | none => .panic
    | some p => setBit ob arr p b
  | .test arr x b => do
    match ← find ot T x levels 0 rootLoc with
    | none => return some 0
    | some p => testBit ob arr p b

/-- The store and the rest of the process: threads with the last call and its answer, and
what can be learned at the places where threads synchronise outside of the store. -/
structure Sys (ι : Type) where
  mach : Mach ι (Option (TreeCall × Word))
  mail : Nat → Know

/-- What happens: an idle thread makes a call, a thread makes a step (`n` chooses what it
reads), a thread leaves what it knows at `s` (unlocks a mutex, sends a message, ends, or
stores with release ordering), a thread learns what was left at `s` (locks, receives,
joins, or loads with acquire ordering). -/
inductive Event (ι : Type)
  | begin (i : ι) (c : TreeCall)
  | step (i : ι) (n : Nat)
  | send (i : ι) (s : Nat)
  | recv (i : ι) (s : Nat)

section
variable {ι : Type} [DecidableEq ι] (ot ob : Orders) (T : Table) (levels : Nat)

/-- One call, for its answer. -/
def TreeCall.run (c : TreeCall) : WProg (Option (TreeCall × Word)) := do
  let a ← c.prog ot ob T levels
  return some (c, a)

def Sys.act (S : Sys ι) : Event ι → Sys ι
  | .begin i c =>
    match S.mach.pool i with
    | .ret _ => { S with mach := { S.mach with pool := Function.update S.mach.pool i (c.run ot ob T levels) } }
    | _ => S
  | .step i n => { S with mach := S.mach.step i n }
  | .send i s => { S with mail := Function.update S.mail s ((S.mail s).join (S.mach.know i)) }
  | .recv i s =>
    { S with mach := { S.mach with know := Function.update S.mach.know i ((S.mach.know i).join (S.mail s)) } }

def Sys.run (S : Sys ι) (t : List (Event ι)) : Sys ι := t.foldl (Sys.act ot ob T levels) S

end

/-- A new table, handed to all threads. -/
def treeStart (ι : Type) : Sys ι where
  mach := {
    mem a := if a = rootLoc then [⟨none, false, .none⟩] else []
    top := 1
    know _ := Know.none.add (rootLoc, 0)
    pool _ := .ret none
    races := [] }
  mail _ := .none

end Rotonda.Weak
