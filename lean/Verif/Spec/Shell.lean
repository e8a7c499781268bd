import Verif.Model.Shell
import Verif.Spec.Public

/-!
# What the shell is to list
-/

namespace Rotonda.Spec

/-- The number in the last line for a prefix. -/
def lastLine (L : List (AnyPrefix × BitVec 32)) (q : AnyPrefix) : Option (BitVec 32) :=
  (L.reverse.find? fun x => x.1 = q).map Prod.snd

/-- The prefixes of the file with the given property, but no default routes, each once and with the
number of its last line. -/
structure FromFile (L : List (AnyPrefix × BitVec 32)) (P : AnyPrefix → Prop)
    (l : List (PubRecord PrefixAs)) : Prop where
  nodup : (l.map PubRecord.pfx).Nodup
  mem : ∀ q, (∃ rs, ⟨q, rs⟩ ∈ l) ↔ P q ∧ 0 < Pub.len q ∧ ∃ a, lastLine L q = some a
  recs : ∀ q rs a, ⟨q, rs⟩ ∈ l → lastLine L q = some a → rs.map shellLine = [(0#32, 0#64, .active, a)]

end Rotonda.Spec
