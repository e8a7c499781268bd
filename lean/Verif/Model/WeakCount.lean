import Mathlib.Logic.Function.Basic

/-!
# The counters, with their memory orderings

`src/types/stats.rs` 118-181: all counters are read and incremented with relaxed ordering.
A relaxed load may return any value that was written, but none older than what the thread
knows of; an increment reads the newest value, and makes the thread know its own.  Threads
learn of other increments only by synchronising outside of the store.
-/

namespace Rotonda.WeakCount

/-- The counters of a store (`src/types/stats.rs` 118-125). -/
inductive Counter
  | nodes
  | prefixes (len : Fin 129)
  | routes
  deriving DecidableEq

/-- The values each counter had, the newest last; which of them each thread knows of; and
what can be learned at the places where threads synchronise outside of the store.
Simplification: a counter does not wrap around. -/
structure Mem (ι : Type) where
  hist : Counter → List Nat
  view : ι → Counter → Nat
  mail : Nat → Counter → Nat

/-- `src/types/stats.rs` 182-196, `default`, handed to all threads. -/
def Mem.start (ι : Type) : Mem ι := ⟨fun _ => [0], fun _ _ => 0, fun _ _ => 0⟩

/-- What happens: a thread increments a counter (`inc_nodes_count` 131-133,
`inc_prefixes_count` 142-146, `inc_routes_count` 176-178); it loads one (`nodes_count` 127-129,
`prefixes_count` 135-140, `prefix_stats` 154-170, `routes_count` 172-174), where `n` chooses
what it reads; it leaves what it knows at `s` (unlocks, sends, ends), or learns what was left
there (locks, receives, joins). -/
inductive Event (ι : Type)
  | inc (i : ι) (c : Counter)
  | load (i : ι) (c : Counter) (n : Nat)
  | send (i : ι) (s : Nat)
  | recv (i : ι) (s : Nat)

variable {ι : Type} [DecidableEq ι]

/-- The place of the value that a load gets: not before what the thread knows of. -/
def Mem.place (m : Mem ι) (i : ι) (c : Counter) (n : Nat) : Nat :=
  min (m.view i c + n) ((m.hist c).length - 1)

/-- The answer of a load. -/
def Mem.answer (m : Mem ι) (i : ι) (c : Counter) (n : Nat) : Nat :=
  (m.hist c).getD (m.place i c n) 0

/-- Thread `i` knows of the value at the place `n` of `c`. -/
def Mem.know (m : Mem ι) (i : ι) (c : Counter) (n : Nat) : Mem ι :=
  { m with view := Function.update m.view i (Function.update (m.view i) c n) }

def Mem.act (m : Mem ι) : Event ι → Mem ι
  | .inc i c =>
    { m with hist := Function.update m.hist c (m.hist c ++ [(m.hist c).getLastD 0 + 1]) }.know i c
      (m.hist c).length
  | .load i c n => m.know i c (m.place i c n)
  | .send i s => { m with mail := Function.update m.mail s fun c => max (m.mail s c) (m.view i c) }
  | .recv i s => { m with view := Function.update m.view i fun c => max (m.view i c) (m.mail s c) }

def Mem.run (m : Mem ι) (t : List (Event ι)) : Mem ι := t.foldl Mem.act m

end Rotonda.WeakCount
