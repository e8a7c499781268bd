import Verif.Model.Loader
import Verif.Spec.Public

/-!
# The routes given to the tasks of a loader
-/

namespace Rotonda.Spec

variable {M : Type} [Meta M]

/-- The routes of the tasks are all of different peers or for different prefixes, and none was
inserted before. -/
structure NoneTwice {ι : Type} (h : List (StarOp M)) (R : ι → List (Route M)) : Prop where
  apart : ∀ i i' (n n' : Nat) (x x' : Route M), (R i)[n]? = some x → (R i')[n']? = some x' → x.p = x'.p →
    x.mui = x'.mui → i = i' ∧ n = n'
  fresh : ∀ i, ∀ x ∈ R i, ∀ r tbi, .insert x.p r tbi ∈ h → r.mui ≠ x.mui

/-- The inserts of a list of routes, the last one first. -/
def loadHistory (ltime : LTime) (rs : RouteStatus) (R : List (Route M)) (h : List (StarOp M)) :
    List (StarOp M) :=
  R.foldl (fun h x => .insert x.p ⟨x.mui, ltime, rs, x.md⟩ none :: h) h

/-- The prefixes of the routes that are new after `h`. -/
def newPrefixes (h : List (StarOp M)) (R : List (Route M)) : Set AnyPrefix :=
  {p | (∃ x ∈ R, x.p = p) ∧ ¬ Pub.Present h p}

end Rotonda.Spec
