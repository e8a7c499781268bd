import Verif.Model.Node

/-!
# The existence tree (`src/tree_bitmap/mod.rs`)
-/

namespace Rotonda

/-- The atomic pointer `withdrawn_muis_bmin : Atomic<RoaringBitmap>`: `ver` is
the identity of the pointee (every successful exchange installs a freshly
allocated bitmap; old ones are never freed, so addresses are not reused). -/
structure WdCell where
  ver : Nat
  set : Mui → Bool

/-- `src/tree_bitmap/mod.rs` 249-259, `TreeBitMap`.  `rootRbm` is the mui index
of the root bucket for length 0 (written by `update_default_route_prefix_meta`,
never read).  Only the node counter of `counters` is ever incremented. -/
structure Tree (W : Nat) where
  slots : NSlots W
  rootRbm : Mui → Bool
  wd : WdCell
  nodes : Nat
  defaultExists : Bool

/-- The node table inside the tree. -/
def Tree.slotsL {W : Nat} : Lens (Tree W) (NSlots W) where
  get := Tree.slots
  set t s := { t with slots := s }

/-- `src/types/errors.rs` 7-45, `PrefixStoreError`. -/
inductive StoreError
  | nodeCreationMaxRetry
  | nodeNotFound
  | storeNotReady
  | fatal
  | pathSelectionOutdated
  | prefixNotFound
  | prefixLengthInvalid
  | bestPathNotFound
  | recordNotInMemory
  | persistFailed
  | statusUnknown
  deriving DecidableEq, Repr

variable {W : Nat}

/-- `src/tree_bitmap/mod.rs` 583-741, `store_node` (`inc_nodes_count` first).
`false` is `Err(FatalError)`. -/
def storeNode (F : Nat) (id : NodeId W) (m : Mui) (ptr : BitVec 16) (pfx : BitVec 32) :
    Prog (Tree W) Bool := do
  Prog.atomic (fun t => ((), { t with nodes := t.nodes + 1 }))
  let root ← Prog.ofOption (nodeRoot W id.len)
  (storeNodeLoop F id m ptr pfx maxLevels 0 root).zoom Tree.slotsL

/-- `src/tree_bitmap/mod.rs` 501-516, `update_default_route_prefix_meta`. -/
def updateDefaultRoute (m : Mui) : Prog (Tree W) Bool := do
  match ← (retrieveNodeMut (rootNodeId W) m).zoom Tree.slotsL with
  | some _ =>
    Prog.atomic (fun t => ((), { t with rootRbm := muiInsert t.rootRbm m }))
    return true
  | none => return false

/-- `src/tree_bitmap/mod.rs` 313-441, the stride loop of `set_prefix_exists`.
Returns whether the prefix existed.  On a failed `store_node` the code only
logs and goes on with the same node (427-440). -/
def setPrefixExistsLoop (F : Nat) (p : PrefixId W) (m : Mui) :
    Nat → Nat → NodeId W → Prog (Tree W) (Except StoreError Bool)
  | 0, _, _ => Prog.panic
  | fuel + 1, strideStart, cur => do
    let strideEnd := strideStart + 4
    if 255 < strideEnd ∨ 4 + p.len < strideEnd then Prog.panic
    else
      let nibbleLen := if p.len < strideEnd then 4 + p.len - strideEnd else 4
      let bs ← Prog.ofOption (intoBitSpan p.bits strideStart nibbleLen)
      let isLast := decide (p.len ≤ strideEnd)
      match ← (retrieveNodeMut cur m).zoom Tree.slotsL with
      | none => return .error .nodeCreationMaxRetry
      | some node =>
        match ← (evalNodeOrPrefixAt F node.addr bs ⟨p.bits, strideStart⟩ isLast).zoom
            Tree.slotsL with
        | .newNode ptr pfx =>
          let newId := NodeId.newCleaned p.bits (strideStart + bs.len)
          let ok ← storeNode F newId m ptr pfx
          setPrefixExistsLoop F p m fuel strideEnd (if ok then newId else cur)
        | .existingNode id => setPrefixExistsLoop F p m fuel strideEnd id
        | .newPrefix => return .ok false
        | .existingPrefix => return .ok true

/-- `src/tree_bitmap/mod.rs` 294-444, `set_prefix_exists`.  `ok b`: `b` tells
whether the prefix existed.  Retry counts are added in `Model/Retries`. -/
def setPrefixExists (F : Nat) (p : PrefixId W) (m : Mui) : Prog (Tree W) (Except StoreError Bool) :=
  if p.len = 0 then do
    let existed ← Prog.atomic (fun t : Tree W => (t.defaultExists, { t with defaultExists := true }))
    let ok ← updateDefaultRoute m
    return if ok then .ok existed else .error .storeNotReady
  else setPrefixExistsLoop F p m maxLevels 0 (rootNodeId W)

/-- `src/tree_bitmap/mod.rs` 446-457, `prefix_exists`. -/
def prefixExists (p : PrefixId W) : Prog (Tree W) Bool := (prefixExistsN p).zoom Tree.slotsL

/-- `src/tree_bitmap/mod.rs` 459-474, `prefix_exists_for_mui`. -/
def prefixExistsForMui (p : PrefixId W) (m : Mui) : Prog (Tree W) Bool :=
  (prefixExistsForMuiN p m).zoom Tree.slotsL

/-- `src/tree_bitmap/mod.rs` 518-524, `withdrawn_muis_bmin`. -/
def withdrawnMuis : Prog (Tree W) (Mui → Bool) := Prog.read (fun t => t.wd.set)

/-- `src/tree_bitmap/mod.rs` 563-578, the loop of `update_withdrawn_muis_bmin`:
`current` is never refreshed, `new` is replaced by the value found. -/
def updateWithdrawnLoop (cur : Nat) : Nat → (Mui → Bool) → Prog (Tree W) Unit
  | 0, _ => Prog.diverge
  | fuel + 1, new => do
    let r ← Prog.atomic (fun t : Tree W =>
      if t.wd.ver = cur then (none, { t with wd := ⟨t.wd.ver + 1, new⟩ })
      else (some t.wd.set, t))
    match r with
    | none => return ()
    | some found => updateWithdrawnLoop cur fuel found

/-- `src/tree_bitmap/mod.rs` 526-539, `mark_mui_as_active`. -/
def treeMarkActive (F : Nat) (m : Mui) : Prog (Tree W) Unit := do
  let cur ← Prog.read (fun t : Tree W => t.wd)
  updateWithdrawnLoop cur.ver (F + 1) (muiRemove cur.set m)

/-- `src/tree_bitmap/mod.rs` 541-555, `mark_mui_as_withdrawn`. -/
def treeMarkWithdrawn (F : Nat) (m : Mui) : Prog (Tree W) Unit := do
  let cur ← Prog.read (fun t : Tree W => t.wd)
  updateWithdrawnLoop cur.ver (F + 1) (muiInsert cur.set m)

/-- `src/tree_bitmap/mod.rs` 262-286, `TreeBitMap::new`, before the root node is
stored. -/
def Tree.empty : Tree W :=
  { slots := fun _ => none, rootRbm := fun _ => false, wd := ⟨0, fun _ => false⟩,
    nodes := 0, defaultExists := false }

/-- `src/tree_bitmap/mod.rs` 262-286, `TreeBitMap::new`: the root node is stored
with mui 0. -/
def treeNew (F : Nat) : Prog (Tree W) Bool :=
  storeNode F (rootNodeId W) 0#32 0#16 0#32

end Rotonda
