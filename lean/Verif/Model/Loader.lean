import Verif.Model.Client

/-!
# The loader of MRT files (`src/bin/load_mrt.rs`)

The routes to load are given as a list: reading and parsing the files is left out.  So are the
messages and the measuring of time.
-/

namespace Rotonda

/-- `src/bin/load_mrt.rs` 67-73, `UpsertCounters`. -/
structure LoadCounters where
  uniquePrefixes : Nat
  uniqueRoutes : Nat
  persistedRoutes : Nat
  totalRoutes : Nat
  deriving DecidableEq, Repr

namespace LoadCounters

/-- `src/bin/load_mrt.rs` 67, the derived `default`. -/
def zero : LoadCounters := ⟨0, 0, 0, 0⟩

/-- `src/bin/load_mrt.rs` 75-82, `add_assign`, and 84-95, `add`.  Overflow of a `usize` is left
out. -/
def add (a b : LoadCounters) : LoadCounters :=
  ⟨a.uniquePrefixes + b.uniquePrefixes, a.uniqueRoutes + b.uniqueRoutes,
    a.persistedRoutes + b.persistedRoutes, a.totalRoutes + b.totalRoutes⟩

/-- `src/bin/load_mrt.rs` 97-109, `fmt`: the calculated number of persisted routes; `none` when the
subtraction underflows, a panic in a debug build. -/
def calculated (c : LoadCounters) : Option Nat :=
  if c.uniqueRoutes ≤ c.totalRoutes then some (c.totalRoutes - c.uniqueRoutes) else none

end LoadCounters

/-- `src/bin/load_mrt.rs` 111-138, `counter_update`; `none` is the panic in 135. -/
def counterUpdate (c : LoadCounters) (r : UpsertReport) : Option LoadCounters :=
  match r.prefixNew, r.muiNew with
  | true, true => some { c with
      uniquePrefixes := c.uniquePrefixes + 1
      uniqueRoutes := c.uniqueRoutes + 1
      totalRoutes := c.totalRoutes + 1 }
  | false, true => some { c with
      uniqueRoutes := c.uniqueRoutes + 1
      totalRoutes := c.totalRoutes + 1 }
  | false, false => some { c with totalRoutes := c.totalRoutes + 1 }
  | true, false => none

/-- `src/bin/load_mrt.rs` 258-312, the closure in `mt_parse_and_insert_table`: the counters of one
insert, and whether the prefix is put on the list of persisted prefixes.  `none` is the panic
in 310. -/
def reportCounters (st : Strategy) (r : UpsertReport) : Option (LoadCounters × Bool) :=
  match r.prefixNew, r.muiNew with
  | true, true => match st with
    | .writeAhead | .persistOnly => some (⟨1, 1, 1, 1⟩, true)
    | _ => some (⟨1, 1, 0, 1⟩, false)
  | false, true => match st with
    | .writeAhead | .persistOnly => some (⟨0, 1, 1, 1⟩, true)
    | _ => some (⟨0, 1, 0, 1⟩, false)
  | false, false =>
    if st ≠ .memoryOnly then some (⟨0, 0, 1, 1⟩, true) else some (⟨0, 0, 0, 1⟩, false)
  | true, false => none

/-- A route of a file: prefix, index of the peer and path attributes. -/
structure Route (M : Type) where
  p : AnyPrefix
  mui : Mui
  md : M

variable {M : Type} [Meta M]

/-- `src/bin/load_mrt.rs` 182-195, `insert`. -/
def loadCall (ltime : LTime) (rs : RouteStatus) (x : Route M) : StarCall M :=
  .insert x.p ⟨x.mui, ltime, rs, x.md⟩ none

/-- The loop of all loaders: every route is inserted, and the report of the insert updates what is
counted.  An error of an insert is unwrapped, a panic, and so is `none`. -/
def loadLoop {S : Type} (ltime : LTime) (rs : RouteStatus)
    (upd : S → Route M → UpsertReport → Option S) :
    List (Route M) → S → Client (StarCall.Ans (M := M)) S
  | [], c => .done c
  | x :: xs, c => .call (loadCall ltime rs x) fun (res : Except StoreError UpsertReport) =>
    match res with
    | .error _ => .panic
    | .ok rep => match upd c x rep with
      | none => .panic
      | some c' => loadLoop ltime rs upd xs c'

/-- `src/bin/load_mrt.rs` 340-369, `st_parse_and_insert_table` with a store (`rs` is `Active`), and
404-424, `st_prime_store` (`rs` is `InActive`, the time is 0 and the attributes are empty); also
what one task of 371-402, `mt_prime_store`, does with its part of the prefixes. -/
def stLoad (ltime : LTime) (rs : RouteStatus) (R : List (Route M)) :
    Client (StarCall.Ans (M := M)) LoadCounters :=
  loadLoop ltime rs (fun c _ rep => counterUpdate c rep) R .zero

/-- What a task of `mt_parse_and_insert_table` does with a report. -/
def mtUpdate (st : Strategy) (c : LoadCounters × List AnyPrefix) (x : Route M) (rep : UpsertReport) :
    Option (LoadCounters × List AnyPrefix) :=
  (reportCounters st rep).map fun d => (c.1.add d.1, if d.2 then c.2 ++ [x.p] else c.2)

/-- `src/bin/load_mrt.rs` 237-319, what one task of `mt_parse_and_insert_table` does with its
table: the counters and the prefixes that are to be found persisted. -/
def mtLoad (st : Strategy) (ltime : LTime) (R : List (Route M)) :
    Client (StarCall.Ans (M := M)) (LoadCounters × List AnyPrefix) :=
  loadLoop ltime .active (mtUpdate st) R (.zero, [])

/-- `src/bin/load_mrt.rs` 320-333, `fold` and `reduce`, and 391, `reduce`: the counters of the tasks
are added up. -/
def reduceCounters (cs : List LoadCounters) : LoadCounters := cs.foldl .add .zero

end Rotonda
