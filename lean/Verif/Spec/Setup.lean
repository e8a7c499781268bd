import Mathlib.Data.Set.Card
import Verif.Model.Setup

/-!
# What creating a store should do

Independent of how `new_with_config` does it.
-/

namespace Rotonda.Spec

/-- The pieces of a path between slashes. -/
def splitSlash : Path → List Path
  | [] => [[]]
  | c :: s =>
    if c = '/' then [] :: splitSlash s
    else match splitSlash s with
      | [] => [[c]]
      | x :: xs => (c :: x) :: xs

/-- The names of the directories that lead to a path: empty names and `.` lead nowhere. -/
def components (p : Path) : List Path := (splitSlash p).filter fun c => c ≠ [] && c ≠ ['.']

/-- `d` is `e` or in it. -/
def Within (d e : Path) : Prop := components e <+: components d

/-- What 12 draws of `rand::distr::Alphanumeric` give. -/
def Drawn (u : Path) : Prop := u.length = 12 ∧ ∀ c ∈ u, c.isAlphanum = true

/-- What is expected of a configuration: its path can be set if it has one, and that does
not change its strategy. -/
def Settable (C : Type) [Config C] : Prop :=
  ∀ (c : C) (p q : Path), Config.path c = some p →
    ∃ c', Config.setPath c q = some c' ∧ Config.path c' = some q ∧
      Config.strategy c' = Config.strategy c

/-- The directory of IPv4 of a store. -/
def dir4 (p u : Path) : Path := p ++ "/".toList ++ u ++ "/ipv4/".toList

/-- The directory of IPv6 of a store. -/
def dir6 (p u : Path) : Path := p ++ "/".toList ++ u ++ "/ipv6/".toList

/-- The content of a tree reached its segments on disk when it was flushed: the memory
table was written, and a segment that came out of that was registered. -/
def Reached (b : Backend) : Prop :=
  b.write = .ok false ∨ (b.write = .ok true ∧ b.register = .ok ())

end Rotonda.Spec
