import Verif.Model.Tree

/-!
# Iterators over the tree (`src/tree_bitmap/tree_bitmap_iterators.rs`,
# iterators of `src/tree_bitmap/tree_bitmap_node.rs`) and `match_prefix`
-/

namespace Rotonda

variable {W : Nat}

/-- `leading_zeros` of an unsigned integer. -/
def leadingZeros {w : Nat} (x : BitVec w) : Nat := (List.range w).findIdx (fun i => x.getMsbD i)

/-- `src/tree_bitmap/tree_bitmap_node.rs` 443-479, the table `ms_prefix_mask_arr`. -/
def msPrefixMaskTable : List (BitVec 32) := [
  0b01111111111111111111111111111110#32,
  0b01011001111000011111111000000000#32,
  0b00100110000111100000000111111110#32,
  0b00010001100000011110000000000000#32,
  0b00001000011000000001111000000000#32,
  0b00000100000110000000000111100000#32,
  0b00000010000001100000000000011110#32,
  0b00000001000000011000000000000000#32,
  0b00000000100000000110000000000000#32,
  0b00000000010000000001100000000000#32,
  0b00000000001000000000011000000000#32,
  0b00000000000100000000000110000000#32,
  0b00000000000010000000000001100000#32,
  0b00000000000001000000000000011000#32,
  0b00000000000000100000000000000110#32,
  0b00000000000000010000000000000000#32,
  0b00000000000000001000000000000000#32,
  0b00000000000000000100000000000000#32,
  0b00000000000000000010000000000000#32,
  0b00000000000000000001000000000000#32,
  0b00000000000000000000100000000000#32,
  0b00000000000000000000010000000000#32,
  0b00000000000000000000001000000000#32,
  0b00000000000000000000000100000000#32,
  0b00000000000000000000000010000000#32,
  0b00000000000000000000000001000000#32,
  0b00000000000000000000000000100000#32,
  0b00000000000000000000000000010000#32,
  0b00000000000000000000000000001000#32,
  0b00000000000000000000000000000100#32,
  0b00000000000000000000000000000010#32,
  0b00000000000000000000000000000000#32]

/-- `src/tree_bitmap/tree_bitmap_node.rs` 443-479, `ms_prefix_mask_arr`;
indexing out of range panics. -/
def msPrefixMaskArr (bs : BitSpan) : Option (BitVec 32) :=
  msPrefixMaskTable[2 ^ bs.len - 1 + bs.bits]?

/-- `src/tree_bitmap/tree_bitmap_node.rs` 490-492, `bit_pos_from_index`. -/
def bitPosFromIndex (i : Nat) : BitVec 32 := (1#32).rotateRight 1 >>> i

/-- `src/tree_bitmap/tree_bitmap_node.rs` 494-499, `ptr_bit_pos_from_index`. -/
def ptrBitPosFromIndex (i : Nat) : BitVec 16 := (1#16).rotateRight (i + 2)

/-- `src/tree_bitmap/tree_bitmap_node.rs` 501-514, `ptr_range`, the masked bit
array.  `none` when a shift or addition overflows.  The second component of the
result is only used in trace output. -/
def ptrRange (ptr : BitVec 16) (bs : BitSpan) : Option (BitVec 16) :=
  if bs.len ≤ 4 ∧ bs.bits * 2 ^ (4 - bs.len) + 2 ^ (4 - bs.len) ≤ 255 then
    let start := bs.bits * 2 ^ (4 - bs.len)
    let stop := start + 2 ^ (4 - bs.len)
    let mask : BitVec 16 :=
      (((1#32 <<< (stop - start)) - 1#32).rotateRight stop >>> 16).setWidth 16
    some (ptr &&& mask)
  else none

/-- `src/tree_bitmap/tree_bitmap_node.rs` 565-568, `NodeMoreSpecificsPrefixIter`. -/
structure PfxIter (W : Nat) where
  base : NodeId W
  arr : BitVec 32

/-- `src/tree_bitmap/tree_bitmap_node.rs` 333-339, `NodeMoreSpecificChildIter`.
Simplification: `start_bs` and `start_cursor` only serve trace output. -/
structure ChildIter (W : Nat) where
  base : NodeId W
  range : BitVec 16

/-- `src/tree_bitmap/tree_bitmap_node.rs` 571-600, `NodeMoreSpecificsPrefixIter::next`.
Outer `none`: panic.  Inner `none`: end of the iteration. -/
def PfxIter.next (it : PfxIter W) : Option (Option (PrefixId W × PfxIter W)) :=
  if it.arr = 0#32 then some none
  else
    let cursor := leadingZeros it.arr
    (BitSpan.fromBitPosIndex cursor).bind fun bs =>
      bs.intoBitPos.bind fun bitPos =>
        (BitSpan.fromBitPosIndex (leadingZeros bitPos)).bind fun bs' =>
          (it.base.addBitSpan bs').bind fun p =>
            some (some (p, { it with arr := it.arr ^^^ bitPosFromIndex cursor }))

/-- `src/tree_bitmap/tree_bitmap_node.rs` 345-405, `NodeMoreSpecificChildIter::next`. -/
def ChildIter.next (it : ChildIter W) : Option (Option (NodeId W × ChildIter W)) :=
  if it.range = 0#16 then some none
  else
    let cursor := leadingZeros it.range + 15
    (BitSpan.fromBitPosIndex cursor).bind fun bs =>
      (it.base.addBitSpan ⟨bs.bits, 4⟩).bind fun n =>
        some (some (n, { it with range := it.range ^^^ ptrBitPosFromIndex cursor }))

/-- `src/tree_bitmap/tree_bitmap_node.rs` 80-90, `more_specific_pfx_iter`, with
`ms_pfx_mask` (`src/tree_bitmap/atomic_bitmap.rs` 97-100). -/
def moreSpecificPfxIter (a : Addr) (base : NodeId W) (bs : BitSpan) :
    Prog (NSlots W) (PfxIter W) := do
  if bs.check = false then Prog.panic
  else
    let pfx ← loadPfx a
    let mask ← Prog.ofOption (msPrefixMaskArr bs)
    return ⟨base, mask &&& pfx⟩

/-- `src/tree_bitmap/tree_bitmap_node.rs` 94-109, `more_specific_ptr_iter`, with
`AtomicPtrBitArr::ptr_range` (`src/tree_bitmap/atomic_bitmap.rs` 56-59). -/
def moreSpecificPtrIter (a : Addr) (base : NodeId W) (bs : BitSpan) :
    Prog (NSlots W) (ChildIter W) := do
  if bs.check = false then Prog.panic
  else
    let ptr ← loadPtr a
    let r ← Prog.ofOption (ptrRange ptr bs)
    return ⟨base, r⟩

/-- `src/tree_bitmap/tree_bitmap_iterators.rs` 52-61, `MoreSpecificPrefixIter`. -/
structure MsIter (W : Nat) where
  pfx : PfxIter W
  ptr : ChildIter W
  parents : List (ChildIter W)

/-- Result of one round of the loop in `MoreSpecificPrefixIter::next`. -/
inductive MsStep (W : Nat)
  | emit (p : PrefixId W) (st : MsIter W)
  | cont (st : MsIter W)
  | done

/-- Descend into the child node `n` (`src/tree_bitmap/tree_bitmap_iterators.rs`
99-168); when the node is missing the iterator ends (163-166). -/
def msDescend (ptr : ChildIter W) (parents : List (ChildIter W)) (n : NodeId W) :
    Prog (NSlots W) (MsStep W) := do
  match ← retrieveNode n with
  | some node =>
    let ptrIter ← moreSpecificPtrIter node.addr n ⟨0, 0⟩
    let pfxIter ← moreSpecificPfxIter node.addr n ⟨0, 0⟩
    return .cont ⟨pfxIter, ptrIter, ptr :: parents⟩
  | none => return .done

/-- One round of the loop of `src/tree_bitmap/tree_bitmap_iterators.rs` 71-171. -/
def msStep (st : MsIter W) : Prog (NSlots W) (MsStep W) := do
  match ← Prog.ofOption st.pfx.next with
  | some (p, it) => return .emit p { st with pfx := it }
  | none =>
    match ← Prog.ofOption st.ptr.next with
    | some (n, it) => msDescend it st.parents n
    | none =>
      match st.parents with
      | [] => return .done
      | par :: rest =>
        match ← Prog.ofOption par.next with
        | some (n, it) => msDescend it rest n
        | none => return .cont ⟨st.pfx, par, rest⟩

/-- `src/tree_bitmap/tree_bitmap_iterators.rs` 67-173,
`MoreSpecificPrefixIter::next`; `fuel` bounds the rounds of the loop. -/
def msNext : Nat → MsIter W → Prog (NSlots W) (Option (PrefixId W × MsIter W))
  | 0, _ => Prog.diverge
  | fuel + 1, st => do
    match ← msStep st with
    | .emit p st' => return some (p, st')
    | .cont st' => msNext fuel st'
    | .done => return none

/-- Collecting the iterator; `fuel` bounds the number of calls of `next`. -/
def msCollect : Nat → MsIter W → Prog (NSlots W) (List (PrefixId W))
  | 0, _ => Prog.diverge
  | fuel + 1, st => do
    match ← msNext (fuel + 1) st with
    | none => return []
    | some (p, st') =>
      let rest ← msCollect fuel st'
      return p :: rest

/-- `src/tree_bitmap/tree_bitmap_iterators.rs` 257-322,
`more_specific_prefix_iter_from`: the start state of the iterator, `none` when
there is nothing to iterate. -/
def moreSpecificStart (p : PrefixId W) : Prog (NSlots W) (Option (MsIter W)) := do
  if W ≤ p.len then return none
  else
    let (nodeId, bs) ← Prog.ofOption (nodeIdForPrefix p)
    match ← retrieveNode nodeId with
    | some node =>
      let pfxIter ← moreSpecificPfxIter node.addr nodeId bs
      let ptrIter ← moreSpecificPtrIter node.addr nodeId bs
      return some ⟨pfxIter, ptrIter, []⟩
    | none => return none

/-- `more_specific_prefix_iter_from(p).collect()`. -/
def moreSpecifics (fuel : Nat) (p : PrefixId W) : Prog (NSlots W) (List (PrefixId W)) := do
  match ← moreSpecificStart p with
  | none => return []
  | some st => msCollect fuel st

/-- `src/tree_bitmap/tree_bitmap_iterators.rs` 186-200, `LMPrefixIter::next`.
`fuel` counts down with the length, which is a `u8`. -/
def lmLoop : Nat → PrefixId W → Prog (NSlots W) (Option (PrefixId W))
  | 0, _ => Prog.panic
  | fuel + 1, p => do
    if p.len = 0 then return none
    else if ← prefixExistsN p then return some p
    else lmLoop fuel (p.truncateTo (p.len - 1))

/-- `src/tree_bitmap/tree_bitmap_iterators.rs` 340-350, `longest_matching_prefix`. -/
def longestMatchingPrefix (p : PrefixId W) : Prog (NSlots W) (Option (PrefixId W)) :=
  lmLoop 256 p

/-- `src/tree_bitmap/tree_bitmap_iterators.rs` 232-243, the loop of
`LessSpecificPrefixIter::next`, from the level already decremented. -/
def lsFind (p : PrefixId W) : Nat → Prog (NSlots W) (Option Nat)
  | 0 => return none
  | lvl + 1 => do
    if ← prefixExistsN (p.truncateTo (lvl + 1)) then return some (lvl + 1)
    else lsFind p lvl

/-- `src/tree_bitmap/tree_bitmap_iterators.rs` 220-245, `LessSpecificPrefixIter::next`,
with the level of the prefix yielded. -/
def lsNext (p : PrefixId W) (cur : Nat) : Prog (NSlots W) (Option (PrefixId W × Nat)) := do
  match ← lsFind p (cur - 1) with
  | none => return none
  | some lvl => return some (p.truncateTo lvl, lvl)

/-- Collecting `LessSpecificPrefixIter` (`src/tree_bitmap/tree_bitmap_iterators.rs`
220-245); `fuel` bounds the number of calls of `next`, the level is a `u8`. -/
def lsCollect (p : PrefixId W) : Nat → Nat → Prog (NSlots W) (List (PrefixId W))
  | 0, _ => Prog.panic
  | fuel + 1, cur => do
    match ← lsFind p (cur - 1) with
    | none => return []
    | some lvl =>
      let rest ← lsCollect p fuel lvl
      return p.truncateTo lvl :: rest

/-- `src/tree_bitmap/tree_bitmap_iterators.rs` 325-338, `less_specific_prefix_iter`. -/
def lessSpecifics (p : PrefixId W) : Prog (NSlots W) (List (PrefixId W)) :=
  lsCollect p 256 p.len

/-- `src/types/match_options.rs` 45-55, `MatchType`. -/
inductive MatchType
  | exactMatch
  | longestMatch
  | emptyMatch
  deriving DecidableEq, Repr

/-- `src/rib/starcast_af_query.rs` 336-342, `TreeQueryResult`. -/
structure TreeQueryResult (W : Nat) where
  matchType : MatchType
  prefix_ : Option (PrefixId W)
  lessSpecifics : Option (List (PrefixId W))
  moreSpecifics : Option (List (PrefixId W))

/-- `if b { Some(..) } else { None }`. -/
def optionally {σ α : Type} (b : Bool) (q : Prog σ α) : Prog σ (Option α) :=
  if b then (do let x ← q; return some x) else return none

/-- `src/tree_bitmap/tree_bitmap_query.rs` 13-58, `match_prefix`. -/
def treeMatchPrefix (fuel : Nat) (p : PrefixId W) (mt : MatchType) (ls ms : Bool) :
    Prog (NSlots W) (TreeQueryResult W) := do
  let lm ← longestMatchingPrefix p
  let (pfx, ty) := match mt with
    | .exactMatch => match lm with
      | some q => if q = p then (lm, MatchType.exactMatch) else (none, .emptyMatch)
      | none => (none, .emptyMatch)
    | _ => (lm, .longestMatch)
  let lsR ← optionally ls (lessSpecifics p)
  let msR ← optionally ms (moreSpecifics fuel p)
  return ⟨ty, pfx, lsR, msR.map fun l => l.filter (fun q => decide (q ≠ p))⟩

end Rotonda
