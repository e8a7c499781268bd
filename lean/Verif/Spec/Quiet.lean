import Verif.Spec.Conc

/-!
# A store at rest

What it means that a store that was changed by several threads is, for all who look at
it, a store that was changed by one.
-/

namespace Rotonda.Spec

variable {M : Type} [Meta M] {W : Nat} {ι : Type} {calls : ι → Call M W}

/-- Every insert that was given a turn in `t` has returned, whatever it returned. -/
def InsertsDone (c : Conf (Rib M W) ι (fun i => (calls i).Ans)) (t : List ι) : Prop :=
  ∀ i ∈ t, ∀ p r tbi, calls i = .insert p r tbi → ∃ a, Returned c i (.insert p r tbi) a

section
variable [DecidableEq ι]

/-- `order` lists the calls of the run `t` that changed something, the most recent first.
Calls that returned are in it, status changes of single routes if they succeeded; calls
that had returned before another one started come before that one. -/
structure OneByOne (c : Conf (Rib M W) ι (fun i => (calls i).Ans)) (t : List ι) (order : List ι) :
    Prop where
  once : order.Nodup
  begun : ∀ i ∈ order, i ∈ t
  inserts : ∀ i p r tbi a, Returned (c.exec t) i (.insert p r tbi) a → i ∈ order
  withdrawn : ∀ i m a, Returned (c.exec t) i (.withdraw m) a → i ∈ order
  activated : ∀ i m a, Returned (c.exec t) i (.activate m) a → i ∈ order
  withdrawnFor : ∀ i p m tm (a : Except StoreError Unit),
    Returned (c.exec t) i (.withdrawFor p m tm) a → (i ∈ order ↔ a = .ok ())
  activatedFor : ∀ i p m tm (a : Except StoreError Unit),
    Returned (c.exec t) i (.activateFor p m tm) a → (i ∈ order ↔ a = .ok ())
  realTime : ∀ l1 j l2 i, order = l1 ++ j :: l2 → i ∈ l2 → changeOf (calls j) ≠ none →
    NotBefore c t j i

end

/-- The same answer of `match_prefix`, the more specifics in any order. -/
structure SameMatch (a b : QueryResult M W) : Prop where
  prefix_ : a.prefix_ = b.prefix_
  type : a.matchType = b.matchType
  records : a.records = b.records
  less : a.lessSpecifics = b.lessSpecifics
  more : a.moreSpecifics.isSome = b.moreSpecifics.isSome ∧
    (a.moreSpecifics.getD []).Perm (b.moreSpecifics.getD [])

/-- Two stores that no query can tell apart.  The queries end, leave the stores as they
are, and give the same answers; where the order of an answer is that of the tables it may
differ. -/
structure SameAnswers (st : Strategy) (s s' : Rib M W) : Prop where
  records : ∀ (p : Prefix W) mui iw, ∃ v, (ribGetValue st p.id mui iw).run s = .ok (.ok v) s ∧
    (ribGetValue st p.id mui iw).run s' = .ok (.ok v) s'
  contains : ∀ p : Prefix W, ∃ b, (ribContains p.id none).run s = .ok b s ∧
    (ribContains p.id none).run s' = .ok b s'
  status : ∀ m, ∃ b, (ribMuiIsWithdrawn m).run s = .ok b s ∧ (ribMuiIsWithdrawn m).run s' = .ok b s'
  matched : ∀ (p : Prefix W) (o : MatchOptions), ∃ (N : Nat) (a b : QueryResult M W),
    (∀ fuel, N ≤ fuel → (ribMatchPrefix st fuel p.id o).run s = .ok (.ok a) s ∧
      (ribMatchPrefix st fuel p.id o).run s' = .ok (.ok b) s') ∧ SameMatch a b
  less : ∀ (p : Prefix W) mui iw, ∃ l, (ribLessSpecificsIter st p.id mui iw).run s = .ok l s ∧
    (ribLessSpecificsIter st p.id mui iw).run s' = .ok l s'
  more : ∀ (p : Prefix W) mui iw, ∃ (N : Nat) (l l' : List (FatalResult (PrefixRecord M W))),
    (∀ fuel, N ≤ fuel → (ribMoreSpecificsIter st fuel p.id mui iw).run s = .ok l s ∧
      (ribMoreSpecificsIter st fuel p.id mui iw).run s' = .ok l' s') ∧ l.Perm l'
  all : ∃ (N : Nat) (l l' : List (FatalResult (PrefixRecord M W))),
    (∀ fuel, N ≤ fuel → (ribPrefixesIter st fuel).run s = .ok l s ∧
      (ribPrefixesIter st fuel).run s' = .ok l' s') ∧ l.Perm l'
  forMui : ∀ m iw, ∃ (N : Nat) (l l' : List (FatalResult (PrefixRecord M W))),
    (∀ fuel, N ≤ fuel → (ribIterRecordsForMui st fuel m iw).run s = .ok l s ∧
      (ribIterRecordsForMui st fuel m iw).run s' = .ok l' s') ∧ l.Perm l'

end Rotonda.Spec
