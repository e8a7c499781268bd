import Verif.Model.Slots

/-!
# Tree nodes and the node table
(`src/tree_bitmap/node_cht.rs`, `src/tree_bitmap/atomic_bitmap.rs`,
`src/tree_bitmap/tree_bitmap_node.rs`, walks of `src/tree_bitmap/mod.rs`)
-/

namespace Rotonda

/-- `src/tree_bitmap/node_cht.rs` 17-37: `StoredNode { node_id, node, node_set }`
with the two atomic bit arrays of `TreeBitMapNode`, the size of its `node_set`
and the mui index (`RwLock<RoaringBitmap>`) of that `node_set`. -/
structure StoredNode (W : Nat) where
  id : NodeId W
  ptr : BitVec 16
  pfx : BitVec 32
  next : Nat
  rbm : Mui → Bool

instance {W : Nat} : Entry (StoredNode W) W where
  id := StoredNode.id
  next := StoredNode.next

/-- Memory of the node table. -/
abbrev NSlots (W : Nat) := Slots (StoredNode W)

variable {W : Nat}

/-- Insert a mui in a mui set (`RoaringBitmap::insert`). -/
def muiInsert (s : Mui → Bool) (m : Mui) : Mui → Bool := fun x => x == m || s x

/-- Remove a mui from a mui set (`RoaringBitmap::remove`). -/
def muiRemove (s : Mui → Bool) (m : Mui) : Mui → Bool := fun x => !(x == m) && s x

/-- `src/tree_bitmap/node_cht.rs` 44-56, `update_rbm_index` on the `node_set`
of the node at `a`: one critical section. -/
def updateRbm (a : Addr) (m : Mui) : Prog (NSlots W) Unit :=
  accessAt a (fun n : StoredNode W => ((), { n with rbm := muiInsert n.rbm m }))

/-- `src/tree_bitmap/atomic_bitmap.rs` 85-87, `AtomicPtrBitArr::load`. -/
def loadPtr (a : Addr) : Prog (NSlots W) (BitVec 16) := readAt a StoredNode.ptr

/-- `src/tree_bitmap/atomic_bitmap.rs` 121-123, `AtomicPfxBitArr::load`. -/
def loadPfx (a : Addr) : Prog (NSlots W) (BitVec 32) := readAt a StoredNode.pfx

/-- `src/tree_bitmap/atomic_bitmap.rs` 72-83, `AtomicPtrBitArr::compare_exchange`.
`none` = success, `some v` = failure with the current value. -/
def casPtr (a : Addr) (cur new : BitVec 16) : Prog (NSlots W) (Option (BitVec 16)) :=
  accessAt a (fun n : StoredNode W =>
    if n.ptr = cur then (none, { n with ptr := new }) else (some n.ptr, n))

/-- `src/tree_bitmap/atomic_bitmap.rs` 109-120, `AtomicPfxBitArr::compare_exchange`. -/
def casPfx (a : Addr) (cur new : BitVec 32) : Prog (NSlots W) (Option (BitVec 32)) :=
  accessAt a (fun n : StoredNode W =>
    if n.pfx = cur then (none, { n with pfx := new }) else (some n.pfx, n))

/-- `src/tree_bitmap/tree_bitmap_node.rs` 482-484, `into_ptrbitarr`. -/
def intoPtrBitArr (x : BitVec 32) : BitVec 16 := (x >>> 1).setWidth 16

/-- `src/tree_bitmap/tree_bitmap_node.rs` 486-488, `into_pfxbitarr`. -/
def intoPfxBitArr (x : BitVec 16) : BitVec 32 := x.setWidth 32 <<< 1

/-- The retry loop of `src/tree_bitmap/tree_bitmap_node.rs` 177-200 on the
pointer bit array: on failure retry with the newer value.  `fuel` bounds the
number of attempts. -/
def casPtrLoop (a : Addr) (bitPos : BitVec 32) : Nat → BitVec 16 → Prog (NSlots W) Unit
  | 0, _ => Prog.diverge
  | fuel + 1, cur => do
    match ← casPtr a cur (intoPtrBitArr (bitPos ||| intoPfxBitArr cur)) with
    | none => return ()
    | some newer => casPtrLoop a bitPos fuel newer

/-- The retry loop of `src/tree_bitmap/tree_bitmap_node.rs` 214-235 on the
prefix bit array. -/
def casPfxLoop (a : Addr) (bitPos : BitVec 32) : Nat → BitVec 32 → Prog (NSlots W) Unit
  | 0, _ => Prog.diverge
  | fuel + 1, cur => do
    match ← casPfx a cur (bitPos ||| cur) with
    | none => return ()
    | some newer => casPfxLoop a bitPos fuel newer

/-- `src/tree_bitmap/atomic_bitmap.rs` 41-51: the loop of `merge_with`.  The
inner `current` shadows the outer one, so every retry compares with the first
value loaded. -/
def mergePtrLoop (a : Addr) (cur node : BitVec 16) : Nat → BitVec 16 → Prog (NSlots W) Unit
  | 0, _ => Prog.diverge
  | fuel + 1, new => do
    match ← casPtr a cur new with
    | none => return ()
    | some c => mergePtrLoop a cur node fuel (c ||| node)

/-- `src/tree_bitmap/atomic_bitmap.rs` 34-52, `merge_with` on the pointer bits. -/
def mergePtr (F : Nat) (a : Addr) (node : BitVec 16) : Prog (NSlots W) Unit := do
  let cur ← loadPtr a
  mergePtrLoop a cur node (F + 1) (cur ||| node)

/-- As `mergePtrLoop`, on the prefix bits. -/
def mergePfxLoop (a : Addr) (cur node : BitVec 32) : Nat → BitVec 32 → Prog (NSlots W) Unit
  | 0, _ => Prog.diverge
  | fuel + 1, new => do
    match ← casPfx a cur new with
    | none => return ()
    | some c => mergePfxLoop a cur node fuel (c ||| node)

/-- `src/tree_bitmap/atomic_bitmap.rs` 34-52, `merge_with` on the prefix bits. -/
def mergePfx (F : Nat) (a : Addr) (node : BitVec 32) : Prog (NSlots W) Unit := do
  let cur ← loadPfx a
  mergePfxLoop a cur node (F + 1) (cur ||| node)

/-- `src/tree_bitmap/tree_bitmap_node.rs` 613-618, `NewNodeOrIndex`.  The new
node carried by `NewNode` always has two empty bit arrays (153-157). -/
inductive NewNodeOrIndex (W : Nat)
  | newNode (ptr : BitVec 16) (pfx : BitVec 32)
  | existingNode (id : NodeId W)
  | newPrefix
  | existingPrefix

/-- `src/tree_bitmap/tree_bitmap_node.rs` 126-251, `eval_node_or_prefix_at` on
the node at `a`.  The returned retry count is added in `Model/Retries`. -/
def evalNodeOrPrefixAt (F : Nat) (a : Addr) (bs : BitSpan) (base : NodeId W) (isLast : Bool) :
    Prog (NSlots W) (NewNodeOrIndex W) := do
  let ptr ← loadPtr a
  let pfx ← loadPfx a
  let bitPos ← Prog.ofOption bs.intoBitPos
  if isLast = false then
    let ptr2 ← loadPtr a
    if intoPfxBitArr ptr2 &&& bitPos = 0#32 then
      casPtrLoop a bitPos (F + 1) ptr
      return .newNode 0#16 0#32
    else
      return .existingNode base.nextStride
  else if pfx &&& bitPos = 0#32 then
    casPfxLoop a bitPos (F + 1) pfx
    return .newPrefix
  else
    return .existingPrefix

/-- Number of root buckets of the node table: `N_ROOT_SIZE` = 9 (IPv4) and 33
(IPv6), `src/rib/starcast.rs` 58-62. -/
def nodeRoots (W : Nat) : Nat := W / 4 + 1

/-- `src/cht/mod.rs` 31-33, `root_for_len` with `STRIDES_PER_BUCKET = 4`
(`src/tree_bitmap/node_cht.rs` 13-14); every root bucket has 16 slots
(`src/cht/mod.rs` 21-25). -/
def nodeRoot (W : Nat) (len : Nat) : Option Bucket :=
  if len / 4 < nodeRoots W then some ⟨len / 4, [], slotsForP2 4⟩ else none

/-- `src/tree_bitmap/mod.rs` 603-739, the loop of `store_node`.  The result is
`false` for `Err(FatalError)`. -/
def storeNodeLoop (F : Nat) (id : NodeId W) (m : Mui) (ptr : BitVec 16) (pfx : BitVec 32) :
    Nat → Nat → Bucket → Prog (NSlots W) Bool
  | 0, _, _ => Prog.panic
  | fuel + 1, level, nodes => do
    let index ← Prog.ofOption (hashId id level)
    match ← sliceGet nodes index with
    | none =>
      let nextLevel ← Prog.ofOption (nodesetSize id.len (level + 1))
      let (stored, itsUs) ← sliceGetOrInit nodes index
        (⟨id, ptr, pfx, slotsForP2 nextLevel, fun _ => false⟩ : StoredNode W)
      if stored.id = id then
        updateRbm stored.addr m
        if itsUs = false ∧ ptr ≠ 0#16 then mergePtr F stored.addr ptr
        if itsUs = false ∧ pfx ≠ 0#32 then mergePfx F stored.addr pfx
      return true
    | some stored =>
      if id = stored.id then
        updateRbm stored.addr m
        if ptr ≠ 0#16 then mergePtr F stored.addr ptr
        if pfx ≠ 0#32 then mergePfx F stored.addr pfx
        return true
      else
        let sz ← Prog.ofOption (nodesetSize id.len (level + 1))
        if 0 < sz then
          storeNodeLoop F id m ptr pfx fuel (level + 1) (nodes.child index stored.next)
        else return false

/-- `src/tree_bitmap/mod.rs` 756-822, the loop of `retrieve_node_mut`. -/
def retrieveNodeMutLoop (id : NodeId W) (m : Mui) :
    Nat → Nat → Bucket → Prog (NSlots W) (Option (Ref W))
  | 0, _, _ => Prog.panic
  | fuel + 1, level, nodes => do
    let index ← Prog.ofOption (hashId id level)
    let node ← do
      match ← sliceGet nodes index with
      | none =>
        let nextLevel ← Prog.ofOption (nodesetSize id.len (level + 1))
        let (node, _) ← sliceGetOrInit nodes index
          (⟨id, 0#16, 0#32, slotsForP2 nextLevel, fun _ => false⟩ : StoredNode W)
        pure node
      | some node => pure node
    if id = node.id then
      updateRbm node.addr m
      return some node
    else
      let sz ← Prog.ofOption (nodesetSize id.len (level + 1))
      if 0 < sz then
        retrieveNodeMutLoop id m fuel (level + 1) (nodes.child index node.next)
      else return none

/-- `src/tree_bitmap/mod.rs` 743-823, `retrieve_node_mut`. -/
def retrieveNodeMut (id : NodeId W) (m : Mui) : Prog (NSlots W) (Option (Ref W)) := do
  let root ← Prog.ofOption (nodeRoot W id.len)
  retrieveNodeMutLoop id m maxLevels 0 root

/-- `src/tree_bitmap/mod.rs` 834-864, the loop of `retrieve_node`. -/
def retrieveNodeLoop (id : NodeId W) : Nat → Nat → Bucket → Prog (NSlots W) (Option (Ref W))
  | 0, _, _ => Prog.panic
  | fuel + 1, level, nodes => do
    let index ← Prog.ofOption (hashId id level)
    match ← sliceGet (E := StoredNode W) nodes index with
    | none => return none
    | some node =>
      if id = node.id then return some node
      else
        let sz ← Prog.ofOption (nodesetSize id.len (level + 1))
        if 0 < sz then retrieveNodeLoop id fuel (level + 1) (nodes.child index node.next)
        else return none

/-- `src/tree_bitmap/mod.rs` 825-865, `retrieve_node`. -/
def retrieveNode (id : NodeId W) : Prog (NSlots W) (Option (Ref W)) := do
  let root ← Prog.ofOption (nodeRoot W id.len)
  retrieveNodeLoop id maxLevels 0 root

/-- `src/tree_bitmap/mod.rs` 877-927, the loop of `retrieve_node_for_mui`: the
mui index of *every* node met on the chain is consulted, before comparing ids. -/
def retrieveNodeForMuiLoop (id : NodeId W) (m : Mui) :
    Nat → Nat → Bucket → Prog (NSlots W) (Option (Ref W))
  | 0, _, _ => Prog.panic
  | fuel + 1, level, nodes => do
    let index ← Prog.ofOption (hashId id level)
    match ← sliceGet (E := StoredNode W) nodes index with
    | none => return none
    | some node =>
      let has ← readAt node.addr (fun n : StoredNode W => n.rbm m)
      if has = false then return none
      else if id = node.id then return some node
      else
        let sz ← Prog.ofOption (nodesetSize id.len (level + 1))
        if 0 < sz then retrieveNodeForMuiLoop id m fuel (level + 1) (nodes.child index node.next)
        else return none

/-- `src/tree_bitmap/mod.rs` 867-928, `retrieve_node_for_mui`. -/
def retrieveNodeForMui (id : NodeId W) (m : Mui) : Prog (NSlots W) (Option (Ref W)) := do
  let root ← Prog.ofOption (nodeRoot W id.len)
  retrieveNodeForMuiLoop id m maxLevels 0 root

/-- `src/tree_bitmap/mod.rs` 930-935, `get_root_node_id`. -/
def rootNodeId (W : Nat) : NodeId W := ⟨0#W, 0⟩

/-- The loop of `src/tree_bitmap/mod.rs` 970-992 (`node_id_for_prefix`):
smallest multiple `acc` of 4, at least 4, with `acc ≥ len`; returns `acc - 4`.
Panics when `acc += 4` overflows a `u8`. -/
def nodeLenLoop (len : Nat) : Nat → Nat → Option Nat
  | 0, _ => none
  | fuel + 1, acc => if acc + 4 ≤ 255 then
      if len ≤ acc + 4 then some acc else nodeLenLoop len fuel (acc + 4)
    else none

/-- `src/tree_bitmap/mod.rs` 961-993, `node_id_for_prefix`: the node that could
host the prefix and the position of the prefix in it. -/
def nodeIdForPrefix (p : PrefixId W) : Option (NodeId W × BitSpan) :=
  (nodeLenLoop p.len maxLevels 0).bind fun nl =>
    if nl < W ∧ p.len - nl ≤ W ∧ nl ≤ p.len then
      (checkedShrOrZero (p.bits <<< nl) (W - (p.len - nl))).bind fun x =>
        some (NodeId.newCleaned p.bits nl, ⟨x.toNat % 2 ^ 32, p.len - nl⟩)
    else none

/-- `src/tree_bitmap/mod.rs` 446-457, `prefix_exists`. -/
def prefixExistsN (p : PrefixId W) : Prog (NSlots W) Bool := do
  let (nodeId, bs) ← Prog.ofOption (nodeIdForPrefix p)
  match ← retrieveNode nodeId with
  | some n =>
    let pfx ← loadPfx n.addr
    let bitPos ← Prog.ofOption bs.intoBitPos
    return decide (0 < (pfx &&& bitPos).toNat)
  | none => return false

/-- `src/tree_bitmap/mod.rs` 459-474, `prefix_exists_for_mui`. -/
def prefixExistsForMuiN (p : PrefixId W) (m : Mui) : Prog (NSlots W) Bool := do
  let (nodeId, bs) ← Prog.ofOption (nodeIdForPrefix p)
  match ← retrieveNodeForMui nodeId m with
  | some n =>
    let pfx ← loadPfx n.addr
    let bitPos ← Prog.ofOption bs.intoBitPos
    return decide (0 < (pfx &&& bitPos).toNat)
  | none => return false

end Rotonda
