import Verif.Spec.History

/-!
# What a path selection means
-/

namespace Rotonda.Spec

variable {M : Type} {W : Nat} [Meta M]

/-- Record `a` goes before record `b`: smaller in the order of the metadata, and for
equal metadata the smaller id. -/
def Before (tbi : Meta.TBI M) (a b : Record M) : Prop :=
  Meta.asOrderable a.md tbi < Meta.asOrderable b.md tbi ∨
    (Meta.asOrderable a.md tbi = Meta.asOrderable b.md tbi ∧ a.mui < b.mui)

/-- The id of the first of all records, `none` if there are no records.  `R` gives the
record of an id. -/
def IsFirst (tbi : Meta.TBI M) (R : Mui → Option (Record M)) : Option Mui → Prop
  | none => ∀ m, R m = none
  | some m => ∃ r, R m = some r ∧ ∀ m' r', R m' = some r' → m' ≠ m → Before tbi r r'

/-- The records without the one of an id. -/
def without (R : Mui → Option (Record M)) (o : Option Mui) : Mui → Option (Record M) :=
  fun m => if some m = o then none else R m

/-- Best and backup path: the first of all records and the first of the others. -/
def IsSelection (tbi : Meta.TBI M) (R : Mui → Option (Record M)) (sel : Option Mui × Option Mui) :
    Prop :=
  IsFirst tbi R sel.1 ∧ IsFirst tbi (without R sel.1) sel.2

/-- Calls that can store a path selection for `p` or mark it outdated. -/
def Selects (p : Prefix W) : Op M W → Prop
  | .insert q _ _ => q = p
  | .calcBest q _ => q = p
  | _ => False

/-- The call `op`, made after the calls `h`, stores a selection for `p`: it is an
explicit calculation, or an insert for a known prefix with tie breaker information. -/
def Stores (h : History M W) (p : Prefix W) (tbi : Meta.TBI M) (op : Op M W) : Prop :=
  Present h p ∧ (op = .calcBest p tbi ∨ ∃ r, op = .insert p r (some tbi))

/-- Calls that store a selection for `p`. -/
def StoresSel (p : Prefix W) : Op M W → Prop
  | .insert q _ tbi => q = p ∧ tbi ≠ none
  | .calcBest q _ => q = p
  | _ => False

end Rotonda.Spec
