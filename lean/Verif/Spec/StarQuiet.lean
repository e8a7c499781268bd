import Verif.Spec.Quiet
import Verif.Spec.StarConc

/-!
# A store of both families at rest
-/

namespace Rotonda.Spec

variable {M : Type} [Meta M] {ι : Type} {calls : ι → StarCall M}

/-- Every insert that was given a turn in `t` has returned, whatever it returned. -/
def StarInsertsDone (c : Conf (Star M) ι (fun i => (calls i).Ans)) (t : List ι) : Prop :=
  ∀ i ∈ t, ∀ p r tbi, calls i = .insert p r tbi → ∃ a, StarReturned c i (.insert p r tbi) a

/-- What a call does to the IPv4 store. -/
def change4 : StarCall M → Option (StarOp M)
  | .insert (.v4 p) r tbi => some (.insert (.v4 p) r tbi)
  | .withdrawFor (.v4 p) m t => some (.withdrawFor (.v4 p) m t)
  | .activateFor (.v4 p) m t => some (.activateFor (.v4 p) m t)
  | .withdraw m | .withdraw4 m => some (.withdraw4 m)
  | .activate4 m => some (.activate4 m)
  | _ => none

/-- What a call does to the IPv6 store. -/
def change6 : StarCall M → Option (StarOp M)
  | .insert (.v6 p) r tbi => some (.insert (.v6 p) r tbi)
  | .withdrawFor (.v6 p) m t => some (.withdrawFor (.v6 p) m t)
  | .activateFor (.v6 p) m t => some (.activateFor (.v6 p) m t)
  | .withdraw m | .withdraw6 m => some (.withdraw6 m)
  | .activate6 m => some (.activate6 m)
  | _ => none

section
variable [DecidableEq ι]

/-- `order` lists the calls of the run `t` that changed the store of one family (`e` its
prefixes, `wd` and `ac` its status changes, `ch` what a call does to it), the most recent
first, as in `OneByOne`. -/
structure StarOneByOne {W : Nat} (e : Prefix W → AnyPrefix) (wd ac : Mui → StarCall M)
    (ch : StarCall M → Option (StarOp M)) (c : Conf (Star M) ι (fun i => (calls i).Ans))
    (t : List ι) (order : List ι) : Prop where
  once : order.Nodup
  begun : ∀ i ∈ order, i ∈ t
  inserts : ∀ i p r tbi a, StarReturned (c.exec t) i (.insert (e p) r tbi) a → i ∈ order
  withdrawn : ∀ i m a, StarReturned (c.exec t) i (.withdraw m) a → i ∈ order
  withdrawnHere : ∀ i m a, StarReturned (c.exec t) i (wd m) a → i ∈ order
  activated : ∀ i m a, StarReturned (c.exec t) i (ac m) a → i ∈ order
  withdrawnFor : ∀ i p m tm (a : Except StoreError Unit),
    StarReturned (c.exec t) i (.withdrawFor (e p) m tm) a → (i ∈ order ↔ a = .ok ())
  activatedFor : ∀ i p m tm (a : Except StoreError Unit),
    StarReturned (c.exec t) i (.activateFor (e p) m tm) a → (i ∈ order ↔ a = .ok ())
  realTime : ∀ l1 j l2 i, order = l1 ++ j :: l2 → i ∈ l2 → ch (calls j) ≠ none →
    StarNotBefore c t j i

end

/-- The history `h` followed by the changes of the calls in `l4` to the IPv4 store and
those of the calls in `l6` to the IPv6 store. -/
def starHistAfter (h : List (StarOp M)) (calls : ι → StarCall M) (l4 l6 : List ι) : List (StarOp M) :=
  l6.filterMap (fun i => change6 (calls i)) ++ (l4.filterMap (fun i => change4 (calls i)) ++ h)

end Rotonda.Spec
