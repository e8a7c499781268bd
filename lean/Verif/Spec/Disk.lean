import Verif.Model.Disk
import Verif.Spec.Conc

/-!
# What calls may answer when the disk is faulty
-/

namespace Rotonda.Spec

variable {M : Type} [Meta M] {W : Nat}

/-- The bytes of the entry are those of a record: prefix, mui, time, status, metadata. -/
def HoldsRecord (W : Nat) (kv : Bytes × Bytes) (r : Record M) : Prop :=
  ∃ (p : PrefixId W) (md : Bytes), p.len < 256 ∧ r.md = Meta.ofBytes md ∧
    kv.1 ++ kv.2 = longKeyBytes p r.mui r.ltime r.status ++ md

/-- The bytes of the entry are those of some record. -/
def Sound (W : Nat) (kv : Bytes × Bytes) : Prop :=
  ∃ (p : PrefixId W) (m : Mui) (t : LTime) (st : RouteStatus) (md : Bytes), p.len < 256 ∧
    kv.1 ++ kv.2 = longKeyBytes p m t st ++ md

/-- The entry has less bytes than a record has at least; the slice index of the code panics. -/
def Short (W : Nat) (kv : Bytes × Bytes) : Prop := (kv.1 ++ kv.2).length < W / 8 + 14

/-- The bytes with which the keys of the records of `p`, or of `p` and one mui, begin. -/
def keyOf (p : PrefixId W) : Option Mui → Bytes
  | some m => shortKeyBytes p m
  | none => prefixBytes p

/-- The records shown, when `wd` are the muis that are globally withdrawn. -/
def shownOf (wd : Mui → Bool) (iw : Bool) (l : List (Record M)) : List (Record M) :=
  if iw then l.map fun r => shownAs (wd r.mui) r
  else l.filter fun r => !(decide (r.status = .withdrawn) || wd r.mui)

/-- The answer `a` for the records of a prefix, when the disk yields `items`. -/
structure DiskAnswer (W : Nat) (items : List DiskItem) (wd : Mui → Bool) (iw : Bool)
    (a : FatalResult (Option (List (Record M)))) : Prop where
  /-- An error of the disk hides all records of the prefix. -/
  failed : .error () ∈ items → a = .ok none
  /-- A damaged entry is reported. -/
  damaged : .error () ∉ items → (∃ kv, .ok kv ∈ items ∧ ¬ Sound W kv) → a = .error ()
  /-- Without faults the records are shown, in the order of the disk. -/
  sound : ∀ l : List (Record M),
    List.Forall₂ (fun it r => ∃ kv, it = .ok kv ∧ HoldsRecord W kv r) items l →
    (shownOf wd iw l = [] → a = .ok none) ∧ (shownOf wd iw l ≠ [] → a = .ok (some (shownOf wd iw l)))

/-- How the records of every prefix are answered. -/
abbrev Values (M : Type) (W : Nat) := Prefix W → FatalResult (Option (List (Record M)))

/-- The prefix that `match_prefix` looks for. -/
def Matches (h : History M W) (p : Prefix W) (o : MatchOptions) (q : Prefix W) : Prop :=
  IsLongest (Proper h) p q ∧ (o.matchType = .exactMatch → q = p)

/-- The more specific prefixes. -/
def Below (h : History M W) (p q : Prefix W) : Prop := Proper h q ∧ Covers p q ∧ q ≠ p

/-- The less specific prefixes. -/
def Above (h : History M W) (p q : Prefix W) : Prop := Proper h q ∧ Covers q p ∧ q ≠ p

/-- The list has the prefixes with records, with their records. -/
def ListsValues (v : Values M W) (P : Prefix W → Prop) (l : List (PrefixRecord M W)) : Prop :=
  (l.map Prod.fst).Nodup ∧ ∀ q rs, (q, rs) ∈ l ↔ P q ∧ v q = .ok (some rs)

/-- The answer of `match_prefix`, when the records are answered as `v` says. -/
structure MatchAnswer (h : History M W) (p : Prefix W) (o : MatchOptions) (v : Values M W)
    (a : FatalResult (QueryResult M W)) : Prop where
  error : a = .error () ↔ (o.includeMoreSpecifics = true ∧ ∃ q, Below h p q ∧ v q = .error ()) ∨
    (o.includeLessSpecifics = true ∧ ∃ q, Above h p q ∧ v q = .error ())
  found : ∀ res q, a = .ok res → Matches h p o q → ∀ rs, rs ≠ [] → v q = .ok (some rs) →
    res.prefix_ = some q ∧ res.records = rs ∧ res.matchType ≠ .emptyMatch
  only : ∀ res q, a = .ok res → res.prefix_ = some q →
    Matches h p o q ∧ v q = .ok (some res.records) ∧ res.records ≠ []
  empty : ∀ res, a = .ok res → res.prefix_ = none → res.matchType = .emptyMatch ∧ res.records = []
  more : ∀ res, a = .ok res → if o.includeMoreSpecifics then
    ∃ l, res.moreSpecifics = some l ∧ ListsValues v (Below h p) l else res.moreSpecifics = none
  less : ∀ res, a = .ok res → if o.includeLessSpecifics then
    ∃ l, res.lessSpecifics = some l ∧ ListsValues v (Above h p) l else res.lessSpecifics = none

/-- The item of an iterator for one prefix. -/
def itemOf (v : Values M W) (q : Prefix W) : Option (FatalResult (PrefixRecord M W)) :=
  match v q with
  | .ok (some rs) => some (.ok (q, rs))
  | .ok none => none
  | .error e => some (.error e)

/-- The items are those of each prefix once. -/
def IterAnswer (v : Values M W) (P : Prefix W → Prop) (l : List (FatalResult (PrefixRecord M W))) :
    Prop :=
  ∃ qs : List (Prefix W), qs.Nodup ∧ (∀ q, q ∈ qs ↔ P q) ∧ l = qs.filterMap (itemOf v)

end Rotonda.Spec
