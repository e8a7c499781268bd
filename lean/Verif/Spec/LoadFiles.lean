import Verif.Model.LoadFiles
import Verif.Spec.Loader

/-!
# What the loader does over all its files
-/

namespace Rotonda.Spec

variable {M : Type} [Meta M]

/-- The inserts of all files, the last one first; `n` is the number of the first file. -/
def filesHistory : Nat → List (LoadFile M) → List (StarOp M) → List (StarOp M)
  | _, [], h => h
  | n, f :: fs, h =>
    filesHistory (n + 1) fs
      (loadHistory (BitVec.ofNat 64 n) .active f.routes (loadHistory 0#64 .inActive f.primed h))

/-- All routes of the files, in order. -/
def allRoutes (fs : List (LoadFile M)) : List (Route M) := fs.flatMap (·.routes)

/-- The route is for another prefix or of another peer. -/
def OtherRoute (x y : Route M) : Prop := ¬ (y.p = x.p ∧ y.mui = x.mui)

/-- What the store is to hold for a route of file number `n`. -/
def loadedRecord (st : Strategy) (n : Nat) (x : Route M) : Record M :=
  ⟨x.mui, BitVec.ofNat 64 n, .active,
    match st with
    | .persistOnly => Meta.ofBytes (Meta.toBytes x.md)
    | _ => x.md⟩

end Rotonda.Spec
