import Verif.Model.StarConc

/-!
# Iterators of which only the first items are asked for

The iterators of the public interface are lazy: `iter.take(n).collect()` asks for at most
`n` items and then drops the iterator.  The programs below are those of `Model/Rib.lean`
and `Model/StarCast.lean`, which ask for all items, stopped after the `n`-th.
Simplification: `persist_prefixes_iter`, modelled as one scan, is not among them.
-/

namespace Rotonda

variable {M : Type} {W : Nat}

/-- `next` and `filter_map` (`src/rib/starcast_af_query.rs` 168-182, 190-199;
`src/rib/starcast_af.rs` 451-457) until `n` items were given; no further item is asked for
then.  `fuel` bounds the calls of `next`. -/
def lazilyTake {σ β : Type} (next : Nat → σ → Prog (NSlots W) (Option (PrefixId W × σ)))
    (body : PrefixId W → Prog (Rib M W) (Option β)) : Nat → Nat → σ → Prog (Rib M W) (List β)
  | _, 0, _ => return []
  | 0, _ + 1, _ => Prog.diverge
  | fuel + 1, n + 1, st => do
    match ← onNodes (next (fuel + 1) st) with
    | none => return []
    | some (p, st') =>
      match ← body p with
      | none => lazilyTake next body fuel (n + 1) st'
      | some b =>
        let rest ← lazilyTake next body fuel n st'
        return b :: rest

/-- `more_specific_prefix_iter_from(p).filter_map(body).take(n).collect()`: the iterator
is made, which reads the node of `p`, even if no item is asked for
(`src/tree_bitmap/tree_bitmap_iterators.rs` 256-312). -/
def takeMore {β : Type} (fuel n : Nat) (p : PrefixId W) (body : PrefixId W → Prog (Rib M W) (Option β)) :
    Prog (Rib M W) (List β) := do
  match ← onNodes (moreSpecificStart p) with
  | none => return []
  | some st => lazilyTake msNext body fuel n st

/-- `less_specific_prefix_iter(p).filter_map(body).take(n).collect()`. -/
def takeLess {β : Type} (n : Nat) (p : PrefixId W) (body : PrefixId W → Prog (Rib M W) (Option β)) :
    Prog (Rib M W) (List β) :=
  lazilyTake (fun _ => lsNext p) body 256 n p.len

section
variable [Meta M]

/-- The items of `prefixes_iter` (`src/rib/starcast_af.rs` 451-457): `map` drops none. -/
def pfxItem' (st : Strategy) (p : PrefixId W) :
    Prog (Rib M W) (Option (FatalResult (PrefixRecord M W))) := do
  let x ← pfxItem st p
  return some x

/-- `src/rib/starcast_af.rs` 446-458, `prefixes_iter`, the first `n` items. -/
def ribPrefixesTake (st : Strategy) (fuel n : Nat) :
    Prog (Rib M W) (List (FatalResult (PrefixRecord M W))) :=
  takeMore fuel n ⟨0#W, 0⟩ (pfxItem' st)

/-- `src/rib/starcast_af_query.rs` 155-183, `more_specifics_iter_from`, likewise. -/
def ribMoreSpecificsTake (st : Strategy) (fuel n : Nat) (p : PrefixId W) (mui : Option Mui)
    (iw : Bool) : Prog (Rib M W) (List (FatalResult (PrefixRecord M W))) := do
  let stop ← match mui with
    | some m => if iw = false then ribMuiIsWithdrawn m else pure false
    | none => pure false
  if stop then return [] else takeMore fuel n p (filterItem st mui iw)

/-- `src/rib/starcast_af_query.rs` 185-200, `less_specifics_iter_from`, likewise. -/
def ribLessSpecificsTake (st : Strategy) (n : Nat) (p : PrefixId W) (mui : Option Mui) (iw : Bool) :
    Prog (Rib M W) (List (FatalResult (PrefixRecord M W))) :=
  takeLess n p (filterItem st mui iw)

/-- `src/rib/starcast.rs` 464-523, `iter_records_for_mui_v4/v6`, likewise. -/
def ribRecordsForMuiTake (st : Strategy) (fuel n : Nat) (m : Mui) (iw : Bool) :
    Prog (Rib M W) (List (FatalResult (PrefixRecord M W))) := do
  let wd ← ribMuiIsWithdrawn m
  if wd = true ∧ iw = false then return []
  else ribMoreSpecificsTake st fuel n ⟨0#W, 0⟩ (some m) iw

namespace Star

/-- What is left of an iteration over all prefixes once the iterator has been made. -/
def consumeTake (st : Strategy) (fuel n : Nat) :
    Option (MsIter W) → Prog (Rib M W) (List (FatalResult (PrefixRecord M W)))
  | none => return []
  | some it => lazilyTake msNext (pfxItem' st) fuel n it

/-- `src/rib/starcast.rs` 555-567, `prefixes_iter`, the first `n` items: both iterators
are made, the second is asked only when the first has ended. -/
def prefixesTake (st : Strategy) (fuel n : Nat) :
    Prog (Star M) (List (FatalResult (PubRecord M))) := do
  let i ← (onNodes (moreSpecificStart ⟨0#32, 0⟩) : Prog (Rib M 32) _).zoom v4L
  let j ← (onNodes (moreSpecificStart ⟨0#128, 0⟩) : Prog (Rib M 128) _).zoom v6L
  let a ← (consumeTake st fuel n i).zoom v4L
  let b ← (consumeTake st fuel (n - a.length) j).zoom v6L
  return pubs4 a ++ pubs6 b

end Star

/-- The program of a call whose answer, if it is an iterator over the tree, is only asked
for its first `n` items; `none`: for all of them. -/
def StarCall.takeProg (st : Strategy) (F fuel : Nat) : Option Nat → (c : StarCall M) → Prog (Star M) c.Ans
  | some n, .moreIter p mui iw => Star.on p
      (fun p => do let l ← ribMoreSpecificsTake st fuel n p mui iw; return Star.pubs4 l)
      (fun p => do let l ← ribMoreSpecificsTake st fuel n p mui iw; return Star.pubs6 l)
  | some n, .lessIter p mui iw => Star.on p
      (fun p => do let l ← ribLessSpecificsTake st n p mui iw; return Star.pubs4 l)
      (fun p => do let l ← ribLessSpecificsTake st n p mui iw; return Star.pubs6 l)
  | some n, .prefixesIter => Star.prefixesTake st fuel n
  | some n, .prefixesIter4 =>
    (do let l ← ribPrefixesTake st fuel n; return Star.pubs4 l : Prog (Rib M 32) _).zoom Star.v4L
  | some n, .prefixesIter6 =>
    (do let l ← ribPrefixesTake st fuel n; return Star.pubs6 l : Prog (Rib M 128) _).zoom Star.v6L
  | some n, .recordsForMui4 m iw =>
    (do let l ← ribRecordsForMuiTake st fuel n m iw; return Star.pubs4 l : Prog (Rib M 32) _).zoom Star.v4L
  | some n, .recordsForMui6 m iw =>
    (do let l ← ribRecordsForMuiTake st fuel n m iw; return Star.pubs6 l : Prog (Rib M 128) _).zoom Star.v6L
  | _, c => c.prog st F fuel

/-- All calls about to start; of the iterators only the first items are asked for. -/
def takeStart {ι : Type} (st : Strategy) (F fuel : Nat) (s : Star M) (calls : ι → StarCall M)
    (n : ι → Option Nat) : Conf (Star M) ι (fun i => (calls i).Ans) :=
  ⟨s, fun i => (calls i).takeProg st F fuel (n i)⟩

end

end Rotonda
