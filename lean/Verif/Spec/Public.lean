import Verif.Spec.Families
import Verif.Spec.History

/-!
# What a history of calls of the public interface means

The content of the store over both address families, as functions of the history of
public calls alone.  Nothing here goes by way of the histories of the two per-family
stores.
-/

namespace Rotonda

deriving instance DecidableEq for AnyPrefix

namespace Spec.Pub

variable {M : Type}

/-- The length of a prefix. -/
def len : AnyPrefix → Nat
  | .v4 p => p.len
  | .v6 p => p.len

/-- `p` covers `q`: they are of one family, and `q` starts with all the bits of `p`. -/
def Covers : AnyPrefix → AnyPrefix → Prop
  | .v4 p, .v4 q => Spec.Covers p q
  | .v6 p, .v6 q => Spec.Covers p q
  | _, _ => False

/-- The length of an address of the family. -/
def width : AnyPrefix → Nat
  | .v4 _ => 32
  | .v6 _ => 128

variable [Meta M]

/-- Some record for prefix `p` was inserted. -/
def Present (h : List (StarOp M)) (p : AnyPrefix) : Prop :=
  ∃ r tbi, StarOp.insert p r tbi ∈ h

/-- Present, and not a default route. -/
def Proper (h : List (StarOp M)) (p : AnyPrefix) : Prop := Present h p ∧ 0 < len p

/-- Is `m` globally withdrawn for the family of `p`. -/
def withdrawn (h : List (StarOp M)) (p : AnyPrefix) (m : Mui) : Bool :=
  match p with
  | .v4 _ => withdrawnIn4 m h
  | .v6 _ => withdrawnIn6 m h

/-- The record of `(p, m)`: the last insert for the pair, with the status and time of
the last status change for the pair if that came later. -/
def recOf : List (StarOp M) → AnyPrefix → Mui → Option (Record M)
  | [], _, _ => none
  | .insert p r _ :: h, q, k => if p = q ∧ r.mui = k then some r else recOf h q k
  | .withdrawFor p m t :: h, q, k =>
    if p = q ∧ m = k then (recOf h q k).map fun r => { r with status := .withdrawn, ltime := t }
    else recOf h q k
  | .activateFor p m t :: h, q, k =>
    if p = q ∧ m = k then (recOf h q k).map fun r => { r with status := .active, ltime := t }
    else recOf h q k
  | _ :: h, q, k => recOf h q k

/-- What `PersistOnly` keeps for `(p, m)`, see `Spec.keptOf`. -/
def keptOf : List (StarOp M) → AnyPrefix → Mui → Option Kept
  | [], _, _ => none
  | .insert p r _ :: h, q, k =>
    if p = q ∧ r.mui = k then some ⟨r.ltime, r.status, Meta.toBytes r.md⟩ else keptOf h q k
  | .withdrawFor p m t :: h, q, k =>
    if p = q ∧ m = k then (keptOf h q k).map fun _ => ⟨t, .withdrawn, []⟩ else keptOf h q k
  | .activateFor p m t :: h, q, k =>
    if p = q ∧ m = k then
      (keptOf h q k).map fun x => if x.bytes = [] then ⟨t, .active, []⟩ else x
    else keptOf h q k
  | _ :: h, q, k => keptOf h q k

/-- The record the store holds for `(p, m)`. -/
def storedRec (st : Strategy) (h : List (StarOp M)) (p : AnyPrefix) (m : Mui) :
    Option (Record M) :=
  match st with
  | .persistOnly => (keptOf h p m).map fun x => x.toRecord m
  | _ => recOf h p m

/-- The record of `p` with the status a query shows. -/
def effective (h : List (StarOp M)) (p : AnyPrefix) (r : Record M) : Record M :=
  if withdrawn h p r.mui then { r with status := .withdrawn } else r

/-- What a query with option `mui` and `includeWithdrawn` should show for `p`. -/
def Visible (st : Strategy) (h : List (StarOp M)) (mui : Option Mui) (iw : Bool) (p : AnyPrefix)
    (r : Record M) : Prop :=
  ∃ r0, storedRec st h p r.mui = some r0 ∧ (∀ m, mui = some m → r.mui = m) ∧
    match iw with
    | true => r = effective h p r0
    | false => r = r0 ∧ passes st r0.status ∧ withdrawn h p r.mui = false

/-- What the code shows, see `Spec.Shown`. -/
def Shown (st : Strategy) (h : List (StarOp M)) (mui : Option Mui) (iw : Bool) (p : AnyPrefix)
    (r : Record M) : Prop :=
  ∃ r0, storedRec st h p r.mui = some r0 ∧ (∀ m, mui = some m → r.mui = m) ∧
    match iw with
    | true => r = effective h p r0
    | false => r = r0 ∧ passes st r0.status ∧
      (withdrawn h p r.mui = false ∨ (st.inMemory = true ∧ mui.isSome = true))

/-! ## Shapes of answers -/

omit [Meta M]

/-- A faithful listing of prefixes with records: every prefix of the set that has a
record to show, once, with exactly its records. -/
structure Listing (P : AnyPrefix → Prop) (V : AnyPrefix → Record M → Prop)
    (l : List (PubRecord M)) : Prop where
  nodup : (l.map PubRecord.pfx).Nodup
  mem : ∀ q, (∃ rs, ⟨q, rs⟩ ∈ l) ↔ P q ∧ ∃ r, V q r
  recs : ∀ q rs, ⟨q, rs⟩ ∈ l → Lists rs (V q)

/-- From longest to shortest. -/
def Descending (l : List (PubRecord M)) : Prop := l.Pairwise fun a b => len b.pfx < len a.pfx

/-- `q` is the longest prefix of the set that covers `p`. -/
def IsLongest (P : AnyPrefix → Prop) (p q : AnyPrefix) : Prop :=
  P q ∧ Covers q p ∧ ∀ q', P q' → Covers q' p → len q' ≤ len q

/-- What a record set holds, in the order in which it is iterated. -/
def items (s : RecordSet M) : List (PubRecord M) := s.v4 ++ s.v6

/-- The prefix part of an answer of `match_prefix`. -/
def HasMatch (res : Star.Result M) (ty : MatchType) (found : AnyPrefix → Prop)
    (V : AnyPrefix → Record M → Prop) : Prop :=
  (∀ q, res.prefix_ = some q ↔ found q ∧ ∃ r, V q r) ∧
  (∀ q, res.prefix_ = some q → res.matchType = ty ∧ Lists res.records (V q)) ∧
  (res.prefix_ = none → res.matchType = .emptyMatch ∧ res.records = [])

/-- The set of an answer of `less_specifics_from` or `more_specifics_from` as the code
computes it: the prefixes asked for, once each, all with the records to show for the
searched prefix; nothing when that has none. -/
def SetOf (V : Record M → Prop) (P : AnyPrefix → Prop) (set : Option (RecordSet M)) : Prop :=
  (set = none ↔ (∃ q, P q) ∧ ¬ ∃ r, V r) ∧
  ∀ s, set = some s → ((items s).map PubRecord.pfx).Nodup ∧
    (∀ q, (∃ rs, ⟨q, rs⟩ ∈ items s) ↔ P q) ∧ ∀ q rs, ⟨q, rs⟩ ∈ items s → Lists rs V

/-! ## Path selections -/

section

variable [Meta M]

/-- Calls that can store a path selection for `p` or mark it outdated. -/
def Selects (p : AnyPrefix) : StarOp M → Prop
  | .insert q _ _ => q = p
  | .calcBest q _ => q = p
  | _ => False

/-- The call `op`, made after the calls `h`, stores a selection for `p`: it is an
explicit calculation, or an insert for a known prefix with tie breaker information. -/
def Stores (h : List (StarOp M)) (p : AnyPrefix) (tbi : Meta.TBI M) (op : StarOp M) : Prop :=
  Present h p ∧ (op = .calcBest p tbi ∨ ∃ r, op = .insert p r (some tbi))

end

end Spec.Pub

end Rotonda
