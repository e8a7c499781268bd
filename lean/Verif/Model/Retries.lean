import Verif.Model.Rib

/-!
# Counting the retries of an insert
(`src/tree_bitmap/tree_bitmap_node.rs`, `src/tree_bitmap/mod.rs`, `src/rib/starcast_af.rs`)

The programs of an insert once more, with the retry counts that `Model/Node`, `Model/Tree` and
`Model/Rib` leave out.  Next to the count of the code every program keeps a list of the swaps that
failed, one number per stride, which is not in the code.

The flag `ck` tells whether additions on `u32` are checked: `true` is a debug build, where an
overflow panics, `false` a release build, where it wraps.
-/

namespace Rotonda

variable {σ : Type} {M : Type} {W : Nat}

/-- Addition on `u32`. -/
def addU32 (ck : Bool) (a b : Nat) : Prog σ Nat :=
  if ck = true ∧ 2 ^ 32 ≤ a + b then Prog.panic else Prog.ret ((a + b) % 2 ^ 32)

/-- `src/tree_bitmap/tree_bitmap_node.rs` 177-200, the retry loop on the pointer bit array with
`retry_count` (190).  Besides the count, the number of failed swaps. -/
def casPtrLoopR (ck : Bool) (a : Addr) (bitPos : BitVec 32) :
    Nat → BitVec 16 → Nat → Nat → Prog (NSlots W) (Nat × Nat)
  | 0, _, _, _ => Prog.diverge
  | fuel + 1, cur, count, failed =>
    casPtr a cur (intoPtrBitArr (bitPos ||| intoPfxBitArr cur)) >>= fun r =>
    match r with
    | none => Prog.ret (count, failed)
    | some newer =>
      addU32 ck count 1 >>= fun count' => casPtrLoopR ck a bitPos fuel newer count' (failed + 1)

/-- `src/tree_bitmap/tree_bitmap_node.rs` 214-235, the retry loop on the prefix bit array with
`retry_count` (227). -/
def casPfxLoopR (ck : Bool) (a : Addr) (bitPos : BitVec 32) :
    Nat → BitVec 32 → Nat → Nat → Prog (NSlots W) (Nat × Nat)
  | 0, _, _, _ => Prog.diverge
  | fuel + 1, cur, count, failed =>
    casPfx a cur (bitPos ||| cur) >>= fun r =>
    match r with
    | none => Prog.ret (count, failed)
    | some newer =>
      addU32 ck count 1 >>= fun count' => casPfxLoopR ck a bitPos fuel newer count' (failed + 1)

/-- `src/tree_bitmap/tree_bitmap_node.rs` 126-251, `eval_node_or_prefix_at` with the count that it
returns. -/
def evalNodeOrPrefixAtR (ck : Bool) (F : Nat) (a : Addr) (bs : BitSpan) (base : NodeId W)
    (isLast : Bool) : Prog (NSlots W) (NewNodeOrIndex W × Nat × Nat) :=
  loadPtr a >>= fun ptr =>
  loadPfx a >>= fun pfx =>
  Prog.ofOption bs.intoBitPos >>= fun bitPos =>
  if isLast = false then
    loadPtr a >>= fun ptr2 =>
    if intoPfxBitArr ptr2 &&& bitPos = 0#32 then
      casPtrLoopR ck a bitPos (F + 1) ptr 0 0 >>= fun n => Prog.ret (.newNode 0#16 0#32, n)
    else Prog.ret (.existingNode base.nextStride, 0, 0)
  else if pfx &&& bitPos = 0#32 then
    casPfxLoopR ck a bitPos (F + 1) pfx 0 0 >>= fun n => Prog.ret (.newPrefix, n)
  else Prog.ret (.existingPrefix, 0, 0)

/-- `src/tree_bitmap/mod.rs` 583-741, `store_node` with its `retry_count` (602, 657, 662, 667,
710): it counts the merges into a node that somebody else created; `none` is `Err(FatalError)`.
The merges of an entry found at once (669-712) are not counted. -/
def storeNodeLoopR (F : Nat) (id : NodeId W) (m : Mui) (ptr : BitVec 16) (pfx : BitVec 32) :
    Nat → Nat → Bucket → Prog (NSlots W) (Option Nat)
  | 0, _, _ => Prog.panic
  | fuel + 1, level, nodes =>
    Prog.ofOption (hashId id level) >>= fun index =>
    sliceGet nodes index >>= fun o =>
    match o with
    | none =>
      Prog.ofOption (nodesetSize id.len (level + 1)) >>= fun nextLevel =>
      sliceGetOrInit nodes index
        (⟨id, ptr, pfx, slotsForP2 nextLevel, fun _ => false⟩ : StoredNode W) >>= fun r =>
      if r.1.id = id then
        updateRbm r.1.addr m >>= fun _ =>
        (if r.2 = false ∧ ptr ≠ 0#16 then mergePtr F r.1.addr ptr >>= fun _ => Prog.ret 1
          else Prog.ret 0) >>= fun n =>
        (if r.2 = false ∧ pfx ≠ 0#32 then mergePfx F r.1.addr pfx >>= fun _ => Prog.ret (n + 1)
          else Prog.ret n) >>= fun n => Prog.ret (some n)
      else Prog.ret (some 0)
    | some stored =>
      if id = stored.id then
        updateRbm stored.addr m >>= fun _ =>
        (if ptr ≠ 0#16 then mergePtr F stored.addr ptr else Prog.ret ()) >>= fun _ =>
        (if pfx ≠ 0#32 then mergePfx F stored.addr pfx else Prog.ret ()) >>= fun _ =>
        Prog.ret (some 0)
      else
        Prog.ofOption (nodesetSize id.len (level + 1)) >>= fun sz =>
        if 0 < sz then
          storeNodeLoopR F id m ptr pfx fuel (level + 1) (nodes.child index stored.next)
        else Prog.ret none

@[inherit_doc storeNodeLoopR]
def storeNodeR (F : Nat) (id : NodeId W) (m : Mui) (ptr : BitVec 16) (pfx : BitVec 32) :
    Prog (Tree W) (Option Nat) :=
  Prog.atomic (fun t => ((), { t with nodes := t.nodes + 1 })) >>= fun _ =>
  Prog.ofOption (nodeRoot W id.len) >>= fun root =>
  (storeNodeLoopR F id m ptr pfx maxLevels 0 root).zoom Tree.slotsL

/-- What `set_prefix_exists` returns: the count, whether the prefix existed and (not in the code)
the failed swaps of every stride. -/
structure WalkResult where
  count : Nat
  failed : List Nat
  existed : Bool
  deriving DecidableEq, Repr

/-- `src/tree_bitmap/mod.rs` 313-441, the stride loop of `set_prefix_exists` with
`acc_retry_count`: a stride that goes on adds its retries to the count so far (363-367, 386-391)
and adds the sum to the count so far once more (419); the last stride adds its retries (394-408). -/
def setPrefixExistsLoopR (ck : Bool) (F : Nat) (p : PrefixId W) (m : Mui) :
    Nat → Nat → NodeId W → Nat → List Nat → Prog (Tree W) (Except StoreError WalkResult)
  | 0, _, _, _, _ => Prog.panic
  | fuel + 1, strideStart, cur, acc, failed =>
    if 255 < strideStart + 4 ∨ 4 + p.len < strideStart + 4 then Prog.panic
    else
      Prog.ofOption (intoBitSpan p.bits strideStart
        (if p.len < strideStart + 4 then 4 + p.len - (strideStart + 4) else 4)) >>= fun bs =>
      (retrieveNodeMut cur m).zoom Tree.slotsL >>= fun o =>
      match o with
      | none => Prog.ret (.error .nodeCreationMaxRetry)
      | some node =>
        (evalNodeOrPrefixAtR ck F node.addr bs ⟨p.bits, strideStart⟩
          (decide (p.len ≤ strideStart + 4))).zoom Tree.slotsL >>= fun r =>
        match r with
        | (.newNode ptr pfx, n, f) =>
          storeNodeR F (NodeId.newCleaned p.bits (strideStart + bs.len)) m ptr pfx >>= fun s =>
          match s with
          | some k =>
            addU32 ck acc k >>= fun x =>
            addU32 ck x n >>= fun y =>
            addU32 ck acc y >>= fun acc' =>
            setPrefixExistsLoopR ck F p m fuel (strideStart + 4)
              (NodeId.newCleaned p.bits (strideStart + bs.len)) acc' (failed ++ [f])
          | none => setPrefixExistsLoopR ck F p m fuel (strideStart + 4) cur acc (failed ++ [f])
        | (.existingNode id, n, f) =>
          addU32 ck acc n >>= fun y =>
          addU32 ck acc y >>= fun acc' =>
          setPrefixExistsLoopR ck F p m fuel (strideStart + 4) id acc' (failed ++ [f])
        | (.newPrefix, n, f) =>
          addU32 ck acc n >>= fun c => Prog.ret (.ok ⟨c, failed ++ [f], false⟩)
        | (.existingPrefix, n, f) =>
          addU32 ck acc n >>= fun c => Prog.ret (.ok ⟨c, failed ++ [f], true⟩)

/-- `src/tree_bitmap/mod.rs` 294-444, `set_prefix_exists` with the count.  The count of
`update_default_route_prefix_meta` is the `try_count` of `update_rbm_index`
(`src/tree_bitmap/node_cht.rs` 51), which is never changed. -/
def setPrefixExistsR (ck : Bool) (F : Nat) (p : PrefixId W) (m : Mui) :
    Prog (Tree W) (Except StoreError WalkResult) :=
  if p.len = 0 then
    Prog.atomic (fun t : Tree W => (t.defaultExists, { t with defaultExists := true })) >>=
      fun existed =>
    updateDefaultRoute m >>= fun ok =>
    Prog.ret (if ok then .ok ⟨0, [], existed⟩ else .error .storeNotReady)
  else setPrefixExistsLoopR ck F p m maxLevels 0 (rootNodeId W) 0 []

/-- An `UpsertReport` with its `cas_count`, and (not in the code) the failed swaps of every stride
of every walk of the tree. -/
structure CountedReport where
  report : UpsertReport
  casCount : Nat
  failed : List (List Nat)
  deriving DecidableEq, Repr

/-- `src/rib/starcast_af.rs` 146-206, `upsert_prefix` with `cas_count`.  In memory the count is that
of `acquire_write_lock` (`src/prefix_cht/cht.rs` 46-64), which is 0: the lock is waited for, and
only a poisoned lock is tried again (`Model/Poison`: forever).  With `PersistOnly` it is the count
of a second `set_prefix_exists` (191-199). -/
def ribUpsertR [Meta M] (ck : Bool) (st : Strategy) (F : Nat) (p : PrefixId W) (r : Record M)
    (upd : Option (Meta.TBI M)) : Prog (Rib M W) (Except StoreError CountedReport) :=
  if st = .persistOnly then
    (setPrefixExistsR ck F p r.mui).zoom Rib.treeL >>= fun x =>
    match x with
    | .error e => Prog.ret (.error e)
    | .ok c =>
      onLsm (fun t => persistShort t p r) >>= fun _ =>
      Prog.ret (.ok ⟨⟨c.existed, true, 0⟩, c.count, [c.failed]⟩)
  else
    ribUpsert st F p r upd >>= fun x =>
    match x with
    | .error e => Prog.ret (.error e)
    | .ok rep => Prog.ret (.ok ⟨rep, 0, []⟩)

/-- `src/rib/starcast_af.rs` 114-144, `insert` with `cas_count` (136; the sum is a `usize`). -/
def ribInsertR [Meta M] (ck : Bool) (st : Strategy) (F : Nat) (p : PrefixId W) (r : Record M)
    (upd : Option (Meta.TBI M)) : Prog (Rib M W) (Except StoreError CountedReport) :=
  (setPrefixExistsR ck F p r.mui).zoom Rib.treeL >>= fun x =>
  match x with
  | .error e => Prog.ret (.error e)
  | .ok c =>
    ribUpsertR ck st F p r upd >>= fun y =>
    match y with
    | .error e => Prog.ret (.error e)
    | .ok u =>
      (if u.report.muiNew then Rib.incRoutes else Prog.ret ()) >>= fun _ =>
      if c.existed = false then
        Rib.incPrefixes p.len >>= fun _ =>
        Prog.ret (.ok ⟨{ u.report with prefixNew := true }, u.casCount + c.count,
          c.failed :: u.failed⟩)
      else Prog.ret (.ok ⟨u.report, u.casCount + c.count, c.failed :: u.failed⟩)

end Rotonda
