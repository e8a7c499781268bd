import Verif.Model.Loader

/-!
# The loader of MRT files over all its files

`src/bin/load_mrt.rs`, `exec_for_store` up to the printing of the counters, with `--single-store`
and without `--mt`: one thread loads the files one after another into one store.
-/

namespace Rotonda

/-- A thread that goes on as another one. -/
def Client.bind {C α β : Type} {Ans : C → Type} : Client Ans α → (α → Client Ans β) → Client Ans β
  | .done a, f => f a
  | .call c k, f => .call c fun a => (k a).bind f
  | .panic, _ => .panic

/-- A file: its routes, and what `par_load_prefixes` (`src/bin/load_mrt.rs` 196-226) makes of them with
`--prime`: the prefixes and peers in any order (they are collected by several tasks and maybe
shuffled), with empty attributes.  Without `--prime` that list is empty. -/
structure LoadFile (M : Type) where
  primed : List (Route M)
  routes : List (Route M)

variable {M : Type} [Meta M]

/-- `src/bin/load_mrt.rs` 486-537, the loop over the files: the store is maybe primed, what that
counts is dropped (511); then the routes are inserted with the number of the file as time, and
the counters are added to the global ones. -/
def loadFiles : Nat → List (LoadFile M) → LoadCounters → Client (StarCall.Ans (M := M)) LoadCounters
  | _, [], c => .done c
  | n, f :: fs, c =>
    (stLoad 0#64 .inActive f.primed).bind fun _ =>
    (stLoad (BitVec.ofNat 64 n) .active f.routes).bind fun d =>
    loadFiles (n + 1) fs (c.add d)

end Rotonda
