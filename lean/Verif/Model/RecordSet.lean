import Verif.Model.Rib

/-!
# `RecordSet`: the set of prefix records in a query result

`src/types/prefix_record.rs` 161-342.  A `Vec` is a list; `push` appends at the end.
-/

namespace Rotonda

/-- `inetnum::addr::Prefix`: a prefix of one of the two families (`addr()` tells
which). -/
inductive AnyPrefix
  | v4 (p : Prefix 32)
  | v6 (p : Prefix 128)

/-- `src/types/prefix_record.rs` 116-120, `PrefixRecord`. -/
structure PubRecord (M : Type) where
  pfx : AnyPrefix
  recs : List (Record M)

variable {M : Type}

/-- `src/types/prefix_record.rs` 127-129, `get_record_for_mui`. -/
def PubRecord.recordForMui (r : PubRecord M) (m : Mui) : Option (Record M) :=
  r.recs.find? fun x => x.mui == m

/-- `src/types/prefix_record.rs` 163-167, `RecordSet`. -/
structure RecordSet (M : Type) where
  v4 : List (PubRecord M)
  v6 : List (PubRecord M)

namespace RecordSet

/-- `src/types/prefix_record.rs` 170-175, `new`. -/
def new : RecordSet M := ⟨[], []⟩

/-- `src/types/prefix_record.rs` 177-183, `push`. -/
def push (s : RecordSet M) (p : AnyPrefix) (rs : List (Record M)) : RecordSet M :=
  match p with
  | .v4 _ => { s with v4 := s.v4 ++ [⟨p, rs⟩] }
  | .v6 _ => { s with v6 := s.v6 ++ [⟨p, rs⟩] }

/-- `src/types/prefix_record.rs` 185-187, `is_empty`. -/
def isEmpty (s : RecordSet M) : Bool := s.v4.isEmpty && s.v6.isEmpty

/-- `src/types/prefix_record.rs` 201-205, `reverse`. -/
def reverse (s : RecordSet M) : RecordSet M := ⟨s.v4.reverse, s.v6.reverse⟩

/-- `src/types/prefix_record.rs` 207-209, `len`. -/
def len (s : RecordSet M) : Nat := s.v4.length + s.v6.length

/-- `src/types/prefix_record.rs` 241-258, 260-281 and 283-304: the loop of the three
`from_iter`s, on the two vectors built so far. -/
def fromIterGo : List (PubRecord M) → List (PubRecord M) → List (PubRecord M) → RecordSet M
  | [], v4, v6 => ⟨v4, v6⟩
  | r :: rest, v4, v6 =>
    match r.pfx with
    | .v4 _ => fromIterGo rest (v4 ++ [⟨r.pfx, r.recs⟩]) v6
    | .v6 _ => fromIterGo rest v4 (v6 ++ [⟨r.pfx, r.recs⟩])

def fromIter (l : List (PubRecord M)) : RecordSet M := fromIterGo l [] []

/-- `src/types/prefix_record.rs` 306-318, `index`; `none` is the panic of an index out
of bounds. -/
def index (s : RecordSet M) (i : Nat) : Option (PubRecord M) :=
  if i < s.v4.length then s.v4[i]? else s.v6[i - s.v4.length]?

/-- `src/types/prefix_record.rs` 322-326, `RecordSetIter`: what the two slice iterators
have still to yield. -/
structure Iter (M : Type) where
  v4 : Option (List (PubRecord M))
  v6 : List (PubRecord M)

/-- `src/types/prefix_record.rs` 189-199, `iter`. -/
def iter (s : RecordSet M) : Iter M := ⟨if s.v4.isEmpty then none else some s.v4, s.v6⟩

/-- `next` of the iterator over the IPv6 records. -/
def Iter.next6 (it : Iter M) : Option (PubRecord M) × Iter M :=
  match it.v6 with
  | [] => (none, it)
  | r :: rest => (some r, { it with v6 := rest })

/-- `src/types/prefix_record.rs` 328-342, `next`.  The recursive call happens at most
once, with `v4 = None`. -/
def Iter.next (it : Iter M) : Option (PubRecord M) × Iter M :=
  match it.v4 with
  | none => it.next6
  | some (r :: rest) => (some r, { it with v4 := some rest })
  | some [] => Iter.next6 { it with v4 := none }

/-- The first `n` calls of `next`. -/
def Iter.take (it : Iter M) : Nat → List (Option (PubRecord M))
  | 0 => []
  | n + 1 => it.next.1 :: it.next.2.take n

end RecordSet
end Rotonda
