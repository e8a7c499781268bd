import Verif.Model.Cht
import Mathlib.Logic.Function.Basic

/-!
# The chained hash table with its memory orderings (`src/cht/oncebox.rs`)

`Verif.Model.Slots` and `Verif.Model.OnceBox` take every atomic operation to be
sequentially consistent.  Here the table is modelled with the orderings that are
written in the code, on a machine in the manner of the C11/Rust memory model: a read
may return an older write unless a newer one is known, an ordering says what is learned
by reading, and two accesses to one location that are not both atomic, one of them a
write, must be ordered by happens-before (else: a data race, undefined behaviour).
-/

namespace Rotonda.Weak

/-- `std::sync::atomic::Ordering`.  Simplification: `seqCst` gives no more than
`acqRel` (no total order of the `seqCst` operations). -/
inductive MemOrd
  | relaxed
  | acquire
  | release
  | acqRel
  | seqCst
  deriving DecidableEq

/-- The ordering acquires. -/
def MemOrd.acquires : MemOrd → Bool
  | .acquire | .acqRel | .seqCst => true
  | _ => false

/-- The ordering releases. -/
def MemOrd.releases : MemOrd → Bool
  | .release | .acqRel | .seqCst => true
  | _ => false

/-- An address of one word. -/
abbrev Loc := Nat

/-- A word: null, or a pointer or number. -/
abbrev Word := Option Nat

/-- Writes, each named by its location and its position in the modification order of
the location. -/
abbrev Writes := List (Loc × Nat)

/-- What is known at a point of a thread: the writes that happen before it, and those
that may not be overtaken by older ones any more (besides, the ones that were read). -/
structure Know where
  before : Writes
  seen : Writes

def Know.none : Know := ⟨[], []⟩

def Know.join (a b : Know) : Know := ⟨a.before ++ b.before, a.seen ++ b.seen⟩

def Know.add (a : Know) (w : Loc × Nat) : Know := ⟨w :: a.before, w :: a.seen⟩

/-- One write: the word, whether it was written by an atomic operation, and what an
acquiring read of it learns. -/
structure Msg where
  val : Word
  atomic : Bool
  know : Know

/-- Programs over words.  `alloc` allocates a block and initialises it by plain writes,
`free` frees words, `plain` is a plain read; `panic` is a Rust panic. -/
inductive WProg (α : Type) : Type
  | ret (a : α)
  | alloc (ws : List Word) (k : Loc → WProg α)
  | free (a n : Nat) (k : WProg α)
  | plain (a : Loc) (k : Word → WProg α)
  | load (a : Loc) (o : MemOrd) (k : Word → WProg α)
  | cas (a : Loc) (old new : Word) (ok err : MemOrd) (k : Except Word Word → WProg α)
  | panic

namespace WProg
variable {α β : Type}

protected def bind : WProg α → (α → WProg β) → WProg β
  | ret a, f => f a
  | alloc ws k, f => alloc ws fun a => (k a).bind f
  | free a n k, f => free a n (k.bind f)
  | plain a k, f => plain a fun v => (k v).bind f
  | load a o k, f => load a o fun v => (k v).bind f
  | cas a old new ok err k, f => cas a old new ok err fun v => (k v).bind f
  | panic, _ => panic

instance : Monad WProg where
  pure := WProg.ret
  bind := WProg.bind

end WProg

/-- The machine: the writes to every word in modification order (none: not allocated),
the first address never used, what every thread knows and has left to do, and the data
races so far, by thread and location. -/
structure Mach (ι α : Type) where
  mem : Loc → List Msg
  top : Nat
  know : ι → Know
  pool : ι → WProg α
  races : List (ι × Loc)

section
variable {ι α : Type} [DecidableEq ι]

/-- Every write to `a` that is not atomic (with `all`: every write) is known to happen
before, and `a` is allocated. -/
def ordered (all : Bool) (k : Know) (a : Loc) (l : List Msg) : Bool :=
  !l.isEmpty && (List.range l.length).all fun n =>
    (!all && (l.getD n ⟨none, false, .none⟩).atomic) || (a, n) ∈ k.before

/-- Write `n` of `a` may be read: no later one has been seen. -/
def readable (k : Know) (a : Loc) (l : List Msg) (n : Nat) : Bool :=
  n < l.length && k.seen.all fun w => w.1 ≠ a || w.2 ≤ n

/-- The write that a read returns: the chosen one if it may be read, else the last. -/
def choose (k : Know) (a : Loc) (l : List Msg) (n : Nat) : Nat :=
  if readable k a l n then n else l.length - 1

/-- Reading write `n` of `a`. -/
def learn (k : Know) (o : MemOrd) (a : Loc) (n : Nat) (m : Msg) : Know :=
  let k := { k with seen := (a, n) :: k.seen }
  if o.acquires then k.join m.know else k

/-- An access; a race is recorded when it is not ordered. -/
def Mach.access (c : Mach ι α) (i : ι) (all : Bool) (a : Loc) : Mach ι α :=
  if ordered all (c.know i) a (c.mem a) then c else { c with races := (i, a) :: c.races }

/-- Initialise the words from `a` on. -/
def initBlock (mem : Loc → List Msg) (a : Loc) (ws : List Word) : Loc → List Msg := fun b =>
  if a ≤ b ∧ b < a + ws.length then [⟨ws.getD (b - a) none, false, .none⟩] else mem b

/-- The writes of an initialisation. -/
def blockWrites (a n : Nat) : Writes := (List.range n).map fun j => (a + j, 0)

/-- One step of thread `i`; `n` chooses the write that is read.

A compare-and-swap reads a write other than `old` and fails, or the last write of all
and, if this is `old`, succeeds; the new write continues the release sequence of the one
that it replaces. -/
def Mach.step (c : Mach ι α) (i : ι) (n : Nat) : Mach ι α :=
  match c.pool i with
  | .ret _ => c
  | .panic => c
  | .alloc ws k =>
    { c with
      mem := initBlock c.mem c.top ws
      top := c.top + ws.length + 1
      know := Function.update c.know i
        ⟨blockWrites c.top ws.length ++ (c.know i).before, blockWrites c.top ws.length ++ (c.know i).seen⟩
      pool := Function.update c.pool i (k c.top) }
  | .free a len k =>
    let c' := (List.range len).foldl (fun c j => c.access i true (a + j)) c
    { c' with
      mem := fun b => if a ≤ b ∧ b < a + len then [] else c.mem b
      pool := Function.update c.pool i k }
  | .plain a k =>
    let m := (c.mem a).getD (choose (c.know i) a (c.mem a) n) ⟨none, false, .none⟩
    { c.access i true a with pool := Function.update c.pool i (k m.val) }
  | .load a o k =>
    let n := choose (c.know i) a (c.mem a) n
    let m := (c.mem a).getD n ⟨none, false, .none⟩
    { c.access i false a with
      know := Function.update c.know i (learn (c.know i) o a n m)
      pool := Function.update c.pool i (k m.val) }
  | .cas a old new ok err k =>
    let n1 := choose (c.know i) a (c.mem a) n
    let n := if ((c.mem a).getD n1 ⟨none, false, .none⟩).val = old then (c.mem a).length - 1 else n1
    let m := (c.mem a).getD n ⟨none, false, .none⟩
    if m.val = old then
      let k1 := (learn (c.know i) ok a n m).add (a, (c.mem a).length)
      { c.access i false a with
        mem := Function.update c.mem a
          (c.mem a ++ [⟨new, true, if ok.releases then m.know.join k1 else m.know⟩])
        know := Function.update c.know i k1
        pool := Function.update c.pool i (k (.ok m.val)) }
    else
      { c.access i false a with
        know := Function.update c.know i (learn (c.know i) err a n m)
        pool := Function.update c.pool i (k (.error m.val)) }

/-- Follow a schedule: threads with the choice of what they read. -/
def Mach.exec (c : Mach ι α) (t : List (ι × Nat)) : Mach ι α :=
  t.foldl (fun c x => c.step x.1 x.2) c

end

/-- The orderings of the loads, of a successful and of a failing compare-and-swap. -/
structure Orders where
  load : MemOrd
  ok : MemOrd
  err : MemOrd

/-- The orderings written in the code: `src/cht/oncebox.rs` 24, 93 and 117 (`load`), 41
and 133 (success), 42 and 134 (failure). -/
def codeOrders : Orders := ⟨.relaxed, .acquire, .relaxed⟩

section
variable (o : Orders)

/-- `src/cht/oncebox.rs` 23-30, `OnceBox::get`. -/
def boxGet (b : Loc) : WProg Word := .load b o.load .ret

/-- `src/cht/oncebox.rs` 32-58, `OnceBox::get_or_init`, and 116-153,
`OnceBoxSlice::get_or_make_slice`, which have the same structure: load the pointer; if it
is null make a block, compare and swap, and free the block when another one was there. -/
def ptrGetOrInit (b : Loc) (ws : List Word) : WProg Loc := do
  match ← WProg.load b o.load .ret with
  | some p => return p
  | none =>
    let p ← WProg.alloc ws .ret
    match ← WProg.cas b none (some p) o.ok o.err .ret with
    | .ok current => if current.isNone then return p else .panic
    | .error none => .panic
    | .error (some q) => do
      WProg.free p ws.length (.ret ())
      return q

/-- `src/cht/oncebox.rs` 92-100, `OnceBoxSlice::get`: the slice at `s` has `size`
boxes. -/
def sliceGet (s size idx : Nat) : WProg Word := do
  match ← WProg.load s o.load .ret with
  | none => return none
  | some x => if idx < size then boxGet o (x + idx) else return none

/-- `src/cht/oncebox.rs` 106-114, `OnceBoxSlice::get_or_init`. -/
def sliceGetOrInit (s size idx : Nat) (ws : List Word) : WProg Loc := do
  let x ← ptrGetOrInit o s (List.replicate size none)
  if idx < size then ptrGetOrInit o (x + idx) ws else .panic

/-- A table: the number of slots of the buckets and the hash function of every level, and,
for the proofs, the ids that it holds and the bits (by id, word of the entry and position)
that are set in its entries (see `lenTable` below for the tables of the code). -/
structure Table where
  size : Nat → Nat
  hash : Nat → Nat → Nat
  ids : Nat → Prop
  bits : Nat → Nat → Nat → Prop := fun _ _ _ => True

/-- An entry as it is created (`StoredPrefix`, `src/prefix_cht/cht.rs` 381-417;
`StoredNode`, `src/tree_bitmap/mod.rs` 643-648 and 770-775): a word for the fields that are plainly
read, in particular the id, the pointer of its bucket, null, and two words for the bit
arrays of a node, empty (`src/tree_bitmap/tree_bitmap_node.rs` 31-39; of no use in the table
of the prefixes). -/
def newEntry (x : Nat) : List Word := [some x, none, some 0, some 0]

/-- The loop of `src/prefix_cht/cht.rs` 552-586 (`get_records_for_prefix`), 788-822
(`non_recursive_retrieve_prefix`) and `src/tree_bitmap/mod.rs` 834-864 (`retrieve_node`):
find the entry of `x` from the bucket at `s`.  Panics after the last level (there the loop
for nodes returns `None`; never reached). -/
def find (T : Table) (x : Nat) : Nat → Nat → Loc → WProg Word
  | 0, _, _ => .panic
  | fuel + 1, lvl, s => do
    match ← sliceGet o s (T.size lvl) (T.hash x lvl) with
    | none => return none
    | some p =>
      let y ← WProg.plain p .ret
      if y = some x then return some p else find T x fuel (lvl + 1) (p + 1)

/-- The loop of `src/prefix_cht/cht.rs` 702-762 (`non_recursive_retrieve_prefix_mut`) and
`src/tree_bitmap/mod.rs` 753-822 (`retrieve_node_mut`; `store_node` 583-741 is alike): find
the entry of `x`, or make it. -/
def findOrInit (T : Table) (x : Nat) : Nat → Nat → Loc → WProg Word
  | 0, _, _ => .panic
  | fuel + 1, lvl, s => do
    let p ← do
      match ← sliceGet o s (T.size lvl) (T.hash x lvl) with
      | some p => pure p
      | none => sliceGetOrInit o s (T.size lvl) (T.hash x lvl) (newEntry x)
    let y ← WProg.plain p .ret
    if y = some x then return some p else findOrInit T x fuel (lvl + 1) (p + 1)

end

/-- A use of the table. -/
inductive TableCall
  | find (x : Nat)
  | findOrInit (x : Nat)
  deriving DecidableEq

def TableCall.id : TableCall → Nat
  | .find x | .findOrInit x => x

/-- The pointer of the root bucket. -/
def rootLoc : Loc := 0

def TableCall.prog (o : Orders) (T : Table) (levels : Nat) : TableCall → WProg Word
  | .find x => Weak.find o T x levels 0 rootLoc
  | .findOrInit x => Weak.findOrInit o T x levels 0 rootLoc

/-- A thread makes calls one after the other. -/
def threadProg (o : Orders) (T : Table) (levels : Nat) : List TableCall → WProg (List Word)
  | [] => return []
  | c :: cs => do
    let a ← c.prog o T levels
    let as ← threadProg o T levels cs
    return a :: as

/-- A new table is handed to all threads: `Cht::init` (`src/cht/mod.rs` 21-25) happens
before everything that they do. -/
def tableStart {ι : Type} (o : Orders) (T : Table) (levels : Nat) (calls : ι → List TableCall) :
    Mach ι (List Word) where
  mem a := if a = rootLoc then [⟨none, false, .none⟩] else []
  top := 1
  know _ := Know.none.add (rootLoc, 0)
  pool i := threadProg o T levels (calls i)
  races := []

/-- The table of the prefixes of length `len`, or of the nodes of length `len`:
`src/cht/mod.rs` 21-25 (`Cht::init`, 16 slots in a root bucket), 95-105 (`nodeset_size`),
`src/prefix_cht/cht.rs` 831-851 and `src/tree_bitmap/mod.rs` 1045-1063 (the hash
functions).  Every length has its own root bucket; its ids are the addresses without
bits beyond `len`. -/
def lenTable (W len : Nat) : Table where
  size l := if l = 0 then slotsForP2 4 else slotsForP2 ((nodesetSize len l).getD 0)
  hash x l := (hashId ⟨BitVec.ofNat W x, len⟩ l).getD 0
  ids x := ∃ b : BitVec W, b.toNat = x ∧ len ≤ W ∧ ∀ i, len ≤ i → b.getMsbD i = false

/-- Its number of levels. -/
def lenLevels (len : Nat) : Nat := max 1 ((len + 3) / 4)

end Rotonda.Weak
