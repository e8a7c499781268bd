import Verif.Spec.StarConc
import Verif.Spec.Public

/-!
# What can be said about concurrent calls of the public interface

As `Spec/Conc.lean` and `Spec/Walks.lean`, over both families.
-/

namespace Rotonda.Spec

variable {M : Type} [Meta M] {ι : Type} {calls : ι → StarCall M}

/-- The pair was inserted before the calls started, or an insert for it is among the calls
`t`. -/
def StarBegun (h : List (StarOp M)) (calls : ι → StarCall M) (t : List ι) (p : AnyPrefix)
    (m : Mui) : Prop :=
  (∃ r tbi, .insert p r tbi ∈ h ∧ r.mui = m) ∨
    ∃ i ∈ t, ∃ r tbi, calls i = .insert p r tbi ∧ r.mui = m

/-- An insert for the pair has returned. -/
def StarCompleted (h : List (StarOp M)) (c : Conf (Star M) ι (fun i => (calls i).Ans))
    (p : AnyPrefix) (m : Mui) : Prop :=
  (∃ r tbi, .insert p r tbi ∈ h ∧ r.mui = m) ∨
    ∃ i r tbi a, StarReturned c i (.insert p r tbi) a ∧ r.mui = m

/-- The bits of a prefix, the first one first. -/
def Pub.bit : AnyPrefix → ℕ → Bool
  | .v4 p, i => p.bits.getMsbD i
  | .v6 p, i => p.bits.getMsbD i

/-- All nodes on the way to `q` in a tree of stride 4 are also on the way to `q'`. -/
def Pub.OnTheWay (q q' : AnyPrefix) : Prop :=
  Pub.width q = Pub.width q' ∧ 4 * ((Pub.len q - 1) / 4) < Pub.len q' ∧
    ∀ i, i < 4 * ((Pub.len q - 1) / 4) → Pub.bit q i = Pub.bit q' i

/-- No insert of one of the prefixes `R` that was given a turn in `t` needs a tree node that
no completed insert needed. -/
def StarNoNewNodes (h : List (StarOp M)) (c : Conf (Star M) ι (fun i => (calls i).Ans))
    (t : List ι) (R : AnyPrefix → Prop) : Prop :=
  ∀ i ∈ t, ∀ q r tbi, calls i = .insert q r tbi → R q → 0 < Pub.len q →
    ∃ q' m, StarCompleted h c q' m ∧ Pub.OnTheWay q q'

/-- The call gives the route `(p, m)` the status `rs` at the time `tm`. -/
def StarMarksRoute (x : StarCall M) (p : AnyPrefix) (m : Mui) (tm : LTime) (rs : RouteStatus) : Prop :=
  x = .withdrawFor p m tm ∧ rs = .withdrawn ∨ x = .activateFor p m tm ∧ rs = .active

/-- With `PersistOnly` no call marks a single route active. -/
def StarTracked (st : Strategy) (calls : ι → StarCall M) : Prop :=
  st = .persistOnly → ∀ i q m t, calls i ≠ .activateFor q m t

/-- The call changes the route `(p, m)` or the global status of `m` for the family of `p`. -/
def StarTouches (x : StarCall M) (p : AnyPrefix) (m : Mui) : Prop :=
  (∃ r tbi, x = .insert p r tbi ∧ r.mui = m) ∨ (∃ tm rs, StarMarksRoute x p m tm rs) ∨
    x = .withdraw m ∨ (Pub.width p = 32 ∧ (x = .withdraw4 m ∨ x = .activate4 m)) ∨
    (Pub.width p = 128 ∧ (x = .withdraw6 m ∨ x = .activate6 m))

/-! ## The answers of queries over several prefixes, seen alike -/

/-- The option `mui` and `includeWithdrawn` of such a query. -/
def starAsks : StarCall M → Option (Option Mui × Bool)
  | .lessIter _ mui iw | .moreIter _ mui iw => some (mui, iw)
  | .prefixesIter | .prefixesIter4 | .prefixesIter6 => some (none, true)
  | .recordsForMui4 m iw | .recordsForMui6 m iw => some (some m, iw)
  | .matchPrefix _ o => some (o.mui, o.includeWithdrawn)
  | _ => none

/-- The items of a list that are not errors. -/
def starOks {α : Type} (l : List (FatalResult α)) : List α := l.filterMap fun
  | .ok a => some a
  | .error _ => none

/-- The prefixes in the answer of a query, with the records given for them. -/
def starReports : (x : StarCall M) → x.Ans → List (PubRecord M)
  | .lessIter .., a => starOks a
  | .moreIter .., a => starOks a
  | .prefixesIter, a => starOks a
  | .prefixesIter4, a => starOks a
  | .prefixesIter6, a => starOks a
  | .recordsForMui4 .., a => starOks a
  | .recordsForMui6 .., a => starOks a
  | .matchPrefix .., a =>
    match a with
    | .ok x => x.prefix_.toList.map (fun q => ⟨q, x.records⟩) ++
        (x.lessSpecifics.map Pub.items).getD [] ++ (x.moreSpecifics.map Pub.items).getD []
    | .error _ => []
  | _, _ => []

/-- The prefix is one that the query is to report if it has records to show.  For more
specifics: while no insert below the searched prefix makes a new tree node. -/
def StarDue (h : List (StarOp M)) (c : Conf (Star M) ι (fun i => (calls i).Ans)) (t : List ι) :
    StarCall M → AnyPrefix → Prop
  | .lessIter p _ _, q => Pub.Covers q p ∧ q ≠ p
  | .moreIter p _ _, q =>
    Pub.Covers p q ∧ Pub.len p < Pub.width p ∧ StarNoNewNodes h c t (Pub.Covers p)
  | .prefixesIter, q => StarNoNewNodes h c t (fun q' => Pub.width q' = Pub.width q)
  | .prefixesIter4, q | .recordsForMui4 _ _, q =>
    Pub.width q = 32 ∧ StarNoNewNodes h c t (fun q' => Pub.width q' = 32)
  | .prefixesIter6, q | .recordsForMui6 _ _, q =>
    Pub.width q = 128 ∧ StarNoNewNodes h c t (fun q' => Pub.width q' = 128)
  | .matchPrefix p o, q => q = p ∨ (o.includeLessSpecifics = true ∧ Pub.Covers q p ∧ q ≠ p) ∨
      (o.includeMoreSpecifics = true ∧ Pub.Covers p q ∧ q ≠ p ∧ Pub.len p < Pub.width p ∧
        StarNoNewNodes h c t (Pub.Covers p))
  | _, _ => False

end Rotonda.Spec
