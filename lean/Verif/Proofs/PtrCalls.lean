import Verif.Proofs.PtrTab
import Verif.Model.Conc

/-!
# Every call follows only pointers it has found
-/

namespace Rotonda

open Prog

variable {M : Type} {W : Nat}

/-! ## Nodes -/

theorem local_updateRbm (a : Addr) (m : Mui) : Local (W := W) a (updateRbm a m) :=
  local_accessAt a fun _ => ⟨rfl, rfl⟩

theorem local_loadPtr (a : Addr) : Local (W := W) a (loadPtr a) := local_readAt a _

theorem local_loadPfx (a : Addr) : Local (W := W) a (loadPfx a) := local_readAt a _

theorem local_casPtr (a : Addr) (c n : BitVec 16) : Local (W := W) a (casPtr a c n) :=
  local_accessAt a fun e => by split <;> exact ⟨rfl, rfl⟩

theorem local_casPfx (a : Addr) (c n : BitVec 32) : Local (W := W) a (casPfx a c n) :=
  local_accessAt a fun e => by split <;> exact ⟨rfl, rfl⟩

theorem local_casPtrLoop (a : Addr) (bp : BitVec 32) (fuel : Nat) (c : BitVec 16) :
    Local (W := W) a (casPtrLoop a bp fuel c) := by
  induction fuel generalizing c with
  | zero => exact local_diverge _
  | succ n ih => unfold casPtrLoop; localp [local_casPtr _ _ _, ih _]

theorem local_casPfxLoop (a : Addr) (bp : BitVec 32) (fuel : Nat) (c : BitVec 32) :
    Local (W := W) a (casPfxLoop a bp fuel c) := by
  induction fuel generalizing c with
  | zero => exact local_diverge _
  | succ n ih => unfold casPfxLoop; localp [local_casPfx _ _ _, ih _]

theorem local_mergePtrLoop (a : Addr) (c d : BitVec 16) (fuel : Nat) (x : BitVec 16) :
    Local (W := W) a (mergePtrLoop a c d fuel x) := by
  induction fuel generalizing x with
  | zero => exact local_diverge _
  | succ n ih => unfold mergePtrLoop; localp [local_casPtr _ _ _, ih _]

theorem local_mergePfxLoop (a : Addr) (c d : BitVec 32) (fuel : Nat) (x : BitVec 32) :
    Local (W := W) a (mergePfxLoop a c d fuel x) := by
  induction fuel generalizing x with
  | zero => exact local_diverge _
  | succ n ih => unfold mergePfxLoop; localp [local_casPfx _ _ _, ih _]

theorem local_mergePtr (F : Nat) (a : Addr) (d : BitVec 16) : Local (W := W) a (mergePtr F a d) := by
  unfold mergePtr; localp [local_loadPtr _, local_mergePtrLoop _ _ _ _ _]

theorem local_mergePfx (F : Nat) (a : Addr) (d : BitVec 32) : Local (W := W) a (mergePfx F a d) := by
  unfold mergePfx; localp [local_loadPfx _, local_mergePfxLoop _ _ _ _ _]

theorem local_evalNodeOrPrefixAt (F : Nat) (a : Addr) (bs : BitSpan) (base : NodeId W) (l : Bool) :
    Local a (evalNodeOrPrefixAt F a bs base l) := by
  unfold evalNodeOrPrefixAt
  localp [local_loadPtr _, local_loadPfx _, local_casPtrLoop _ _ _ _, local_casPfxLoop _ _ _ _]

theorem knows_nodeRoot {K : Addr → Nat → Prop} {len : Nat} {b : Bucket} (h : nodeRoot W len = some b) :
    Knows (nodeRoots W) K b := by
  unfold nodeRoot at h
  split at h
  · cases h; exact .inl ⟨rfl, ‹_›, rfl⟩
  · cases h

theorem tab_storeNodeLoop (F : Nat) (id : NodeId W) (m : Mui) (ptr : BitVec 16) (pfx : BitVec 32)
    (fuel level : Nat) (b : Bucket) (K : Addr → Nat → Prop) (hb : Knows (nodeRoots W) K b) :
    TabS (nodeRoots W) (fun _ _ => True) K (storeNodeLoop F id m ptr pfx fuel level b) := by
  induction fuel generalizing level b K with
  | zero => exact .panic
  | succ n ih =>
    unfold storeNodeLoop
    refine .opt fun i _ => .get hb ?_ fun id' nx => ?_
    · refine .opt fun nl _ => .init hb fun id' nx us => ?_
      have : Local (b.slot i) (do
          if id' = id then do
            updateRbm (W := W) (b.slot i) m
            if us = false ∧ ptr ≠ 0#16 then mergePtr F (b.slot i) ptr
            if us = false ∧ pfx ≠ 0#32 then mergePfx F (b.slot i) pfx
          return true) := by
        localp [local_updateRbm _ _, local_mergePtr _ _ _, local_mergePfx _ _ _]
      exact (this _ _ (addKnown_self _ _)).mono fun _ _ _ => trivial
    · dsimp only
      split
      · have : Local (b.slot i) (do
            updateRbm (W := W) (b.slot i) m
            if ptr ≠ 0#16 then mergePtr F (b.slot i) ptr
            if pfx ≠ 0#32 then mergePfx F (b.slot i) pfx
            return true) := by
          localp [local_updateRbm _ _, local_mergePtr _ _ _, local_mergePfx _ _ _]
        exact (this _ _ (addKnown_self _ _)).mono fun _ _ _ => trivial
      · refine .opt fun sz _ => ?_
        split
        · exact ih _ _ _ (.child _ _ _)
        · exact .ret trivial

theorem tab_retrieveNodeMutLoop (id : NodeId W) (m : Mui)
    (fuel level : Nat) (b : Bucket) (K : Addr → Nat → Prop) (hb : Knows (nodeRoots W) K b) :
    TabS (nodeRoots W) (fun K' o => ∀ r : Ref W, o = some r → ∃ n, K' r.addr n) K
      (retrieveNodeMutLoop id m fuel level b) := by
  induction fuel generalizing level b K with
  | zero => exact .panic
  | succ n ih =>
    unfold retrieveNodeMutLoop
    refine .opt fun i _ => ?_
    have jp : ∀ (K' : Addr → Nat → Prop) id' nx, K' (b.slot i) nx →
        TabS (nodeRoots W) (fun K' o => ∀ r : Ref W, o = some r → ∃ n, K' r.addr n) K' (do
          if id = id' then do
            updateRbm (b.slot i) m
            pure (some (⟨b.slot i, id', nx⟩ : Ref W))
          else do
            let sz ← Prog.ofOption (nodesetSize id.len (level + 1))
            if 0 < sz then retrieveNodeMutLoop id m n (level + 1) (b.child i nx) else pure none) := by
      intro K' id' nx hK
      split
      · refine .loc ⟨nx, hK⟩ (local_updateRbm _ _) fun _ => .ret fun r hr => ?_
        cases hr
        exact ⟨nx, hK⟩
      · refine .opt fun sz _ => ?_
        split
        · exact ih _ _ _ (.inr ⟨by simp [Bucket.child], hK⟩)
        · exact .ret fun r hr => nomatch hr
    refine .get hb ?_ fun id' nx => jp _ _ _ (.inr ⟨rfl, rfl⟩)
    exact .opt fun nl _ => .init hb fun id' nx us => jp _ _ _ (.inr ⟨rfl, rfl⟩)

theorem yields_retrieveNodeMut (id : NodeId W) (m : Mui) : Yields (nodeRoots W) (retrieveNodeMut id m) :=
  fun _ => .opt fun _ h => tab_retrieveNodeMutLoop _ _ _ _ _ _ (knows_nodeRoot h)

theorem tab_retrieveNodeLoop (id : NodeId W)
    (fuel level : Nat) (b : Bucket) (K : Addr → Nat → Prop) (hb : Knows (nodeRoots W) K b) :
    TabS (nodeRoots W) (fun K' o => ∀ r : Ref W, o = some r → ∃ n, K' r.addr n) K
      (retrieveNodeLoop id fuel level b) := by
  induction fuel generalizing level b K with
  | zero => exact .panic
  | succ n ih =>
    unfold retrieveNodeLoop
    refine .opt fun i _ => .get hb (.ret fun r hr => nomatch hr) fun id' nx => ?_
    dsimp only
    split
    · refine .ret fun r hr => ?_
      cases hr
      exact addKnown_self _ _
    · refine .opt fun sz _ => ?_
      split
      · exact ih _ _ _ (.child _ _ _)
      · exact .ret fun r hr => nomatch hr

theorem yields_retrieveNode (id : NodeId W) : Yields (nodeRoots W) (retrieveNode id) :=
  fun _ => .opt fun _ h => tab_retrieveNodeLoop _ _ _ _ _ (knows_nodeRoot h)

theorem tab_retrieveNodeForMuiLoop (id : NodeId W) (m : Mui)
    (fuel level : Nat) (b : Bucket) (K : Addr → Nat → Prop) (hb : Knows (nodeRoots W) K b) :
    TabS (nodeRoots W) (fun K' o => ∀ r : Ref W, o = some r → ∃ n, K' r.addr n) K
      (retrieveNodeForMuiLoop id m fuel level b) := by
  induction fuel generalizing level b K with
  | zero => exact .panic
  | succ n ih =>
    unfold retrieveNodeForMuiLoop
    refine .opt fun i _ => .get hb (.ret fun r hr => nomatch hr) fun id' nx => ?_
    dsimp only
    refine .loc (addKnown_self _ _) (local_readAt _ _) fun has => ?_
    split
    · exact .ret fun r hr => nomatch hr
    · split
      · refine .ret fun r hr => ?_
        cases hr
        exact addKnown_self _ _
      · refine .opt fun sz _ => ?_
        split
        · exact ih _ _ _ (.child _ _ _)
        · exact .ret fun r hr => nomatch hr

theorem yields_retrieveNodeForMui (id : NodeId W) (m : Mui) :
    Yields (nodeRoots W) (retrieveNodeForMui id m) :=
  fun _ => .opt fun _ h => tab_retrieveNodeForMuiLoop _ _ _ _ _ _ (knows_nodeRoot h)

theorem freeS_prefixExistsN (p : PrefixId W) : FreeS (nodeRoots W) (prefixExistsN p) := by
  unfold prefixExistsN
  refine .bind (freeS_ofOption _) fun x => ?_
  dsimp only
  refine (yields_retrieveNode _).use (freeS_pure _) fun r => ?_
  dsimp only
  localp [local_loadPfx _]

theorem freeS_prefixExistsForMuiN (p : PrefixId W) (m : Mui) :
    FreeS (nodeRoots W) (prefixExistsForMuiN p m) := by
  unfold prefixExistsForMuiN
  refine .bind (freeS_ofOption _) fun x => ?_
  dsimp only
  refine (yields_retrieveNodeForMui _ _).use (freeS_pure _) fun r => ?_
  dsimp only
  localp [local_loadPfx _]

/-! ## Iterators -/

theorem local_moreSpecificPfxIter (a : Addr) (base : NodeId W) (bs : BitSpan) :
    Local a (moreSpecificPfxIter a base bs) := by
  unfold moreSpecificPfxIter; localp [local_loadPfx _]

theorem local_moreSpecificPtrIter (a : Addr) (base : NodeId W) (bs : BitSpan) :
    Local a (moreSpecificPtrIter a base bs) := by
  unfold moreSpecificPtrIter; localp [local_loadPtr _]

theorem freeS_msDescend (c : ChildIter W) (ps : List (ChildIter W)) (n : NodeId W) :
    FreeS (nodeRoots W) (msDescend c ps n) := by
  unfold msDescend
  refine (yields_retrieveNode _).use (freeS_pure _) fun r => ?_
  dsimp only
  localp [local_moreSpecificPfxIter _ _ _, local_moreSpecificPtrIter _ _ _]

theorem freeS_msStep (st : MsIter W) : FreeS (nodeRoots W) (msStep st) := by
  unfold msStep
  frees [freeS_msDescend _ _ _]

theorem freeS_msNext (fuel : Nat) (st : MsIter W) : FreeS (nodeRoots W) (msNext fuel st) := by
  induction fuel generalizing st with
  | zero => exact freeS_diverge
  | succ n ih => unfold msNext; frees [freeS_msStep _, ih _]

theorem freeS_msCollect (fuel : Nat) (st : MsIter W) : FreeS (nodeRoots W) (msCollect fuel st) := by
  induction fuel generalizing st with
  | zero => exact freeS_diverge
  | succ n ih => unfold msCollect; frees [freeS_msNext _ _, ih _]

theorem freeS_moreSpecificStart (p : PrefixId W) : FreeS (nodeRoots W) (moreSpecificStart p) := by
  unfold moreSpecificStart
  split
  · exact freeS_pure _
  · refine .bind (freeS_ofOption _) fun x => ?_
    dsimp only
    refine (yields_retrieveNode _).use (freeS_pure _) fun r => ?_
    dsimp only
    localp [local_moreSpecificPfxIter _ _ _, local_moreSpecificPtrIter _ _ _]

theorem freeS_moreSpecifics (fuel : Nat) (p : PrefixId W) : FreeS (nodeRoots W) (moreSpecifics fuel p) := by
  unfold moreSpecifics; frees [freeS_moreSpecificStart _, freeS_msCollect _ _]

theorem freeS_lmLoop (fuel : Nat) (p : PrefixId W) : FreeS (nodeRoots W) (lmLoop fuel p) := by
  induction fuel generalizing p with
  | zero => exact freeS_panic
  | succ n ih => unfold lmLoop; frees [freeS_prefixExistsN _, ih _]

theorem freeS_lsFind (p : PrefixId W) (lvl : Nat) : FreeS (nodeRoots W) (lsFind p lvl) := by
  induction lvl with
  | zero => exact freeS_pure _
  | succ n ih => unfold lsFind; frees [freeS_prefixExistsN _]

theorem freeS_lsNext (p : PrefixId W) (cur : Nat) : FreeS (nodeRoots W) (lsNext p cur) := by
  unfold lsNext; frees [freeS_lsFind _ _]

theorem freeS_lsCollect (p : PrefixId W) (fuel cur : Nat) : FreeS (nodeRoots W) (lsCollect p fuel cur) := by
  induction fuel generalizing cur with
  | zero => exact freeS_panic
  | succ n ih => unfold lsCollect; frees [freeS_lsFind _ _, ih _]

theorem freeS_optionally {α : Type} (b : Bool) {q : Prog (NSlots W) α} (h : FreeS (nodeRoots W) q) :
    FreeS (nodeRoots W) (optionally b q) := by
  unfold optionally; frees []

theorem freeS_treeMatchPrefix (fuel : Nat) (p : PrefixId W) (mt : MatchType) (ls ms : Bool) :
    FreeS (nodeRoots W) (treeMatchPrefix fuel p mt ls ms) := by
  unfold treeMatchPrefix
  refine .bind (freeS_lmLoop _ _) fun lm => ?_
  dsimp only
  refine .bind (freeS_optionally _ (freeS_lsCollect _ _ _)) fun _ => ?_
  refine .bind (freeS_optionally _ (freeS_moreSpecifics _ _)) fun _ => freeS_pure _

/-! ## The tree -/

theorem free_treeAtomic {α : Type} {f : Tree W → α × Tree W}
    (hf : ∀ t n, f { t with slots := n } = ((f t).1, { (f t).2 with slots := n })) :
    Free (M := M) ((Prog.atomic f).zoom Rib.treeL) := by
  refine fun _ _ => .frame _ _ ?_ fun _ => .ret trivial
  intro s n p
  have h := hf s.tree n
  simp only [Rib.treeL, Rib.withTables] at h ⊢
  rw [h]

theorem free_treeRead {α : Type} {f : Tree W → α} (hf : ∀ t n, f { t with slots := n } = f t) :
    Free (M := M) ((Prog.read f).zoom Rib.treeL) :=
  free_treeAtomic fun t n => by rw [hf]

theorem free_storeNode (F : Nat) (id : NodeId W) (m : Mui) (ptr : BitVec 16) (pfx : BitVec 32) :
    Free (M := M) ((storeNode F id m ptr pfx).zoom Rib.treeL) := by
  unfold storeNode
  refine .zoom (free_treeAtomic fun _ _ => rfl) fun _ => ?_
  rw [zoom_bind]
  intro K Kr
  cases h : nodeRoot W id.len with
  | none => exact .panic
  | some b =>
    exact (TabS.onNodes (tab_storeNodeLoop F id m ptr pfx maxLevels 0 b K (knows_nodeRoot h))).mono
      fun _ _ _ _ => trivial

theorem free_updateDefaultRoute (m : Mui) : Free (M := M) ((updateDefaultRoute (W := W) m).zoom Rib.treeL) := by
  unfold updateDefaultRoute
  refine .zoom (free_onNodes (yields_retrieveNodeMut _ _).free) fun o => ?_
  have h : Free (M := M) ((Prog.atomic fun t : Tree W => ((), { t with rootRbm := muiInsert t.rootRbm m })).zoom
    Rib.treeL) := free_treeAtomic fun _ _ => rfl
  free []

theorem free_setPrefixExistsLoop (F : Nat) (p : PrefixId W) (m : Mui) (fuel ss : Nat) (cur : NodeId W) :
    Free (M := M) ((setPrefixExistsLoop F p m fuel ss cur).zoom Rib.treeL) := by
  induction fuel generalizing ss cur with
  | zero => exact free_panic
  | succ n ih =>
    unfold setPrefixExistsLoop
    dsimp only
    split
    · exact free_panic
    · refine .zoom (free_zofOption _) fun bs => ?_
      rw [zoom_bind]
      intro K Kr
      refine .bind (TabS.onNodes (yields_retrieveNodeMut cur m K)) ?_
      rintro K' Kr' (_ | r) ⟨hr, rfl⟩
      · exact free_zpure _ _ _
      · dsimp only
        rw [zoom_bind]
        refine .bind (TabS.onNodes (local_evalNodeOrPrefixAt F r.addr bs _ _ _ _ (hr r rfl))) ?_
        rintro K'' Kr'' x ⟨rfl, rfl⟩
        have : Free (M := M) ((match x with
          | .newNode ptr pfx => do
            let ok ← storeNode F (NodeId.newCleaned p.bits (ss + bs.len)) m ptr pfx
            setPrefixExistsLoop F p m n (ss + 4) (if ok then NodeId.newCleaned p.bits (ss + bs.len) else cur)
          | .existingNode id => setPrefixExistsLoop F p m n (ss + 4) id
          | .newPrefix => return .ok false
          | .existingPrefix => return .ok true : Prog (Tree W) (Except StoreError Bool)).zoom Rib.treeL) := by
          free [free_storeNode _ _ _ _ _, ih _ _]
        exact this _ _

theorem free_setPrefixExists (F : Nat) (p : PrefixId W) (m : Mui) :
    Free (M := M) ((setPrefixExists F p m).zoom Rib.treeL) := by
  unfold setPrefixExists
  split
  · refine .zoom (free_treeAtomic fun _ _ => rfl) fun _ => ?_
    free [free_updateDefaultRoute _]
  · exact free_setPrefixExistsLoop _ _ _ _ _ _

theorem free_updateWithdrawnLoop (c fuel : Nat) (s : Mui → Bool) :
    Free (M := M) ((updateWithdrawnLoop (W := W) c fuel s).zoom Rib.treeL) := by
  induction fuel generalizing s with
  | zero => exact free_diverge
  | succ n ih =>
    unfold updateWithdrawnLoop
    refine .zoom (free_treeAtomic fun t k => ?_) fun o => ?_
    · dsimp only; split <;> rfl
    · free [ih _]

theorem free_treeMarkActive (F : Nat) (m : Mui) :
    Free (M := M) ((treeMarkActive (W := W) F m).zoom Rib.treeL) := by
  unfold treeMarkActive
  refine .zoom (free_treeRead fun _ _ => rfl) fun _ => free_updateWithdrawnLoop _ _ _

theorem free_treeMarkWithdrawn (F : Nat) (m : Mui) :
    Free (M := M) ((treeMarkWithdrawn (W := W) F m).zoom Rib.treeL) := by
  unfold treeMarkWithdrawn
  refine .zoom (free_treeRead fun _ _ => rfl) fun _ => free_updateWithdrawnLoop _ _ _

theorem free_withdrawnMuis : Free (M := M) ((withdrawnMuis (W := W)).zoom Rib.treeL) :=
  free_treeRead fun _ _ => rfl

/-! ## The prefix table -/

theorem knows_prefixRoot {K : Addr → Nat → Prop} {len : Nat} {b : Bucket} (h : prefixRoot W len = some b) :
    Knows (prefixRoots W) K b := by
  unfold prefixRoot at h
  split at h
  · cases h; exact .inl ⟨rfl, ‹_›, rfl⟩
  · cases h

theorem tab_findPrefixLoop (id : PrefixId W) (lim : Nat)
    (fuel level : Nat) (b : Bucket) (K : Addr → Nat → Prop) (hb : Knows (prefixRoots W) K b) :
    TabS (prefixRoots W) (fun K' o => ∀ r : Ref W, o = some r → ∃ n, K' r.addr n) K
      (findPrefixLoop (M := M) id lim fuel level b) := by
  induction fuel generalizing level b K with
  | zero => exact .panic
  | succ n ih =>
    unfold findPrefixLoop
    refine .opt fun i _ => .get hb ?_ fun id' nx => ?_
    · dsimp only
      split
      · exact .ret fun r hr => nomatch hr
      · exact .panic
    · dsimp only
      split
      · split
        · refine .ret fun r hr => ?_
          cases hr
          exact addKnown_self _ _
        · exact .panic
      · exact ih _ _ _ (.child _ _ _)

theorem yields_retrievePrefix (id : PrefixId W) : Yields (prefixRoots W) (retrievePrefix (M := M) id) :=
  fun _ => .opt fun _ h => tab_findPrefixLoop _ _ _ _ _ _ (knows_prefixRoot h)

theorem freeS_getRecordsForPrefix (id : PrefixId W) (mui : Option Mui) (iw : Bool) (bm : Mui → Bool) :
    FreeS (prefixRoots W) (getRecordsForPrefix (M := M) id mui iw bm) := by
  unfold getRecordsForPrefix
  intro K
  refine .opt fun b h => ?_
  refine .bind (tab_findPrefixLoop _ _ _ _ _ _ (knows_prefixRoot h)) ?_
  rintro K' (_ | r) hr
  · exact .ret trivial
  · exact (local_readAt r.addr _ _ _ (hr r rfl)).mono fun _ _ _ => trivial

theorem tab_retrievePrefixMutLoop (id : PrefixId W)
    (fuel level : Nat) (b : Bucket) (K : Addr → Nat → Prop) (hb : Knows (prefixRoots W) K b) :
    TabS (prefixRoots W) (fun K' o => ∃ n, K' o.1.addr n) K
      (retrievePrefixMutLoop (M := M) id fuel level b) := by
  induction fuel generalizing level b K with
  | zero => exact .panic
  | succ n ih =>
    unfold retrievePrefixMutLoop
    refine .opt fun i _ => ?_
    have jp : ∀ (K' : Addr → Nat → Prop) id' nx f, K' (b.slot i) nx →
        TabS (prefixRoots W) (fun K' (o : Ref W × Bool) => ∃ n, K' o.1.addr n) K'
          (if id = id' then pure ((⟨b.slot i, id', nx⟩ : Ref W), f)
            else retrievePrefixMutLoop (M := M) id n (level + 1) (b.child i nx)) := by
      intro K' id' nx f hK
      split
      · exact .ret ⟨nx, hK⟩
      · exact ih _ _ _ (.inr ⟨by simp [Bucket.child], hK⟩)
    refine .get hb ?_ fun id' nx => jp _ _ _ _ (.inr ⟨rfl, rfl⟩)
    exact .opt fun nl _ => .init hb fun id' nx us => jp _ _ _ _ (.inr ⟨rfl, rfl⟩)

theorem tab_retrievePrefixMut (id : PrefixId W) (K : Addr → Nat → Prop) :
    TabS (prefixRoots W) (fun K' o => ∃ n, K' o.1.addr n) K (retrievePrefixMut (M := M) id) :=
  .opt fun _ h => tab_retrievePrefixMutLoop _ _ _ _ _ (knows_prefixRoot h)

theorem local_setPathSelections (a : Addr) (ps : Option Mui × Option Mui) :
    Local (W := W) a (setPathSelections (M := M) a ps) := by
  unfold setPathSelections
  refine .bind (local_readAt _ _) fun c => ?_
  split
  · exact local_pure _ _
  · exact local_accessAt a fun e => by split <;> exact ⟨rfl, rfl⟩

theorem local_setPsOutdated (a : Addr) : Local (W := W) a (setPsOutdated (M := M) a) :=
  local_accessAt a fun _ => ⟨rfl, rfl⟩

theorem local_calculateAndStore [Meta M] (a : Addr) (tbi : Meta.TBI M) :
    Local (W := W) a (calculateAndStore (M := M) a tbi) := by
  unfold calculateAndStore
  localp [local_setPathSelections _ _]

theorem local_upsertRecordAt (a : Addr) (r : Record M) : Local (W := W) a (upsertRecordAt a r) :=
  local_accessAt a fun _ => ⟨rfl, rfl⟩

theorem local_markStatusAt (a : Addr) (m : Mui) (t : LTime) (rs : RouteStatus) :
    Local (W := W) a (markStatusAt (M := M) a m t rs) := local_accessAt a fun _ => ⟨rfl, rfl⟩

theorem localR_incRoutes (a : Addr) : LocalR a ((PCht.incRoutes (M := M) (W := W)).zoom Rib.chtL) :=
  fun _ _ _ => .frame _ _ (fun _ _ _ => rfl) fun _ => .ret ⟨rfl, rfl⟩

theorem localR_incPrefixes (a : Addr) (len : Nat) :
    LocalR a ((PCht.incPrefixes (M := M) (W := W) len).zoom Rib.chtL) :=
  fun _ _ _ => .frame _ _ (fun _ _ _ => rfl) fun _ => .ret ⟨rfl, rfl⟩

theorem free_pchtUpsert [Meta M] (p : PrefixId W) (r : Record M) (upd : Option (Meta.TBI M)) :
    Free ((pchtUpsert p r upd).zoom Rib.chtL) := by
  unfold pchtUpsert
  rw [zoom_bind]
  intro K Kr
  refine .bind (TabS.onRecs (tab_retrievePrefixMut p Kr)) ?_
  rintro K' Kr' ⟨sp, found⟩ ⟨hr, rfl⟩
  dsimp only
  refine LocalR.free (a := sp.addr) ?_ _ _ hr
  have h1 : LocalR sp.addr (((upsertRecordAt (W := W) sp.addr r).zoom PCht.slotsL).zoom Rib.chtL) :=
    localR_onRecs (local_upsertRecordAt _ _)
  have h2 : LocalR sp.addr (((setPsOutdated (M := M) (W := W) sp.addr).zoom PCht.slotsL).zoom Rib.chtL) :=
    localR_onRecs (local_setPsOutdated _)
  have h3 : ∀ tbi, LocalR sp.addr (((calculateAndStore (M := M) (W := W) sp.addr tbi).zoom PCht.slotsL).zoom
    Rib.chtL) := fun tbi => localR_onRecs (local_calculateAndStore _ _)
  localr [localR_incRoutes _, localR_incPrefixes _ _, h3 _]

/-! ## Calls -/

theorem free_onLsm (f : Lsm → Lsm) : Free (onLsm (M := M) (W := W) f) := free_atomic fun _ _ _ => rfl

theorem free_read {α : Type} {f : Rib M W → α} (hf : ∀ s n p, f (s.withTables n p) = f s) :
    Free (Prog.read f) :=
  free_atomic fun s n p => by rw [hf]

theorem free_incRoutes : Free (Rib.incRoutes (M := M) (W := W)) := free_atomic fun _ _ _ => rfl

theorem free_incPrefixes (len : Nat) : Free (Rib.incPrefixes (M := M) (W := W) len) :=
  free_atomic fun _ _ _ => rfl

theorem free_ribUpsert [Meta M] (st : Strategy) (F : Nat) (p : PrefixId W) (r : Record M)
    (upd : Option (Meta.TBI M)) : Free (ribUpsert st F p r upd) := by
  unfold ribUpsert
  free [free_onLsm _, free_pchtUpsert _ _ _, free_setPrefixExists _ _ _]

theorem free_ribInsert [Meta M] (st : Strategy) (F : Nat) (p : PrefixId W) (r : Record M)
    (upd : Option (Meta.TBI M)) : Free (ribInsert st F p r upd) := by
  unfold ribInsert
  free [free_ribUpsert _ _ _ _ _, free_setPrefixExists _ _ _, free_incRoutes, free_incPrefixes _]

theorem free_ribContains (p : PrefixId W) (mui : Option Mui) : Free (M := M) (ribContains p mui) := by
  unfold ribContains
  split
  · exact free_onNodes (freeS_prefixExistsForMuiN _ _)
  · exact free_onNodes (freeS_prefixExistsN _)

theorem tab_ribMarkMem (p : PrefixId W) (m : Mui) (t : LTime) (rs : RouteStatus) (K Kr : Addr → Nat → Prop) :
    TabR (fun _ Kr' o => ∀ r : Ref W, o = some r → ∃ n, Kr' r.addr n) K Kr (ribMarkMem (M := M) p m t rs) := by
  unfold ribMarkMem
  refine .bind (TabS.onRecs (tab_retrievePrefixMut p Kr)) ?_
  rintro K' Kr' ⟨sp, found⟩ ⟨hr, rfl⟩
  dsimp only
  split
  · exact .ret fun r hr => nomatch hr
  · refine .bind (localR_onRecs (local_markStatusAt sp.addr m t rs) _ _ hr) ?_
    rintro K'' Kr'' _ ⟨rfl, rfl⟩
    refine .ret fun r h => ?_
    cases h
    exact hr

theorem localR_ribPersistMarker (sp : Ref W) (p : PrefixId W) (m : Mui) (t : LTime) :
    LocalR sp.addr (ribPersistMarker (M := M) sp p m t) := by
  unfold ribPersistMarker
  refine .bind (localR_onRecs (local_readAt _ _)) fun o => ?_
  have h : LocalR sp.addr (onLsm (M := M) (W := W) fun x => insertEmptyRecord x p m t) :=
    localR_atomic _ fun _ _ _ => rfl
  localr []

theorem free_ribMarkMem (p : PrefixId W) (m : Mui) (t : LTime) (rs : RouteStatus) :
    Free (ribMarkMem (M := M) p m t rs) :=
  fun K Kr => (tab_ribMarkMem p m t rs K Kr).mono fun _ _ _ _ => trivial

theorem free_markPersist (p : PrefixId W) (m : Mui) (t : LTime) (rs : RouteStatus) {α : Type} (x y : α) :
    Free (M := M) (do
      match ← ribMarkMem p m t rs with
      | some sp =>
        ribPersistMarker sp p m t
        return x
      | none => return y) := by
  intro K Kr
  refine .bind (tab_ribMarkMem p m t rs K Kr) ?_
  rintro K' Kr' (_ | sp) hr
  · exact .ret trivial
  · exact LocalR.free (.bind (localR_ribPersistMarker sp p m t) fun _ => localR_pure _ _) _ _ (hr sp rfl)

theorem free_rewriteAll (t : LTime) (rs : RouteStatus) (l : List Bytes) :
    Free (M := M) (rewriteAll W t rs l) := by
  induction l with
  | nil => exact free_pure _
  | cons b bs ih =>
    unfold rewriteAll
    refine .bind (free_atomic fun s n p => ?_) fun ok => ?_
    · simp only [show (s.withTables n p).lsm = s.lsm from rfl]
      cases rewriteHeader W s.lsm t rs b <;> rfl
    · free []

theorem free_ribMarkWithdrawnForPrefix (st : Strategy) (p : PrefixId W) (m : Mui) (t : LTime) :
    Free (M := M) (ribMarkWithdrawnForPrefix st p m t) := by
  have hr : Free (M := M) (W := W) (Prog.read fun r : Rib M W => recordsWithKeys r.lsm p m) :=
    free_read fun _ _ _ => rfl
  cases st with
  | persistHistory => exact free_markPersist p m t .withdrawn _ _
  | _ => unfold ribMarkWithdrawnForPrefix; free [free_ribMarkMem _ _ _ _, free_rewriteAll _ _ _]

theorem free_ribMarkActiveForPrefix (st : Strategy) (p : PrefixId W) (m : Mui) (t : LTime) :
    Free (M := M) (ribMarkActiveForPrefix st p m t) := by
  have hr : Free (M := M) (W := W) (Prog.read fun r : Rib M W => mostRecentRecord r.lsm p m) :=
    free_read fun _ _ _ => rfl
  cases st with
  | persistHistory => exact free_markPersist p m t .active _ _
  | _ => unfold ribMarkActiveForPrefix; free [free_ribMarkMem _ _ _ _, free_rewriteAll _ _ _]

theorem free_ribMuiIsWithdrawn (m : Mui) : Free (M := M) (W := W) (ribMuiIsWithdrawn m) := by
  unfold ribMuiIsWithdrawn; free [free_withdrawnMuis]

theorem free_ribIsMuiActive (m : Mui) : Free (M := M) (W := W) (ribIsMuiActive m) := by
  unfold ribIsMuiActive; free [free_withdrawnMuis]

theorem free_sumCounters {get : Rib M W → Nat → Nat} (hg : ∀ s n p, get (s.withTables n p) = get s)
    (l : List Nat) : Free (sumCounters get l) := by
  induction l with
  | nil => exact free_pure _
  | cons a as ih =>
    unfold sumCounters
    refine .bind (free_read fun s n p => by rw [hg]) fun _ => ?_
    free []

theorem free_ribPrefixesCount : Free (M := M) (W := W) ribPrefixesCount := by
  unfold ribPrefixesCount
  exact .bind (free_sumCounters (fun _ _ _ => rfl) _) fun _ =>
    .bind (free_sumCounters (fun _ _ _ => rfl) _) fun _ => free_pure _

theorem free_ribRoutesCount : Free (M := M) (W := W) ribRoutesCount := by
  unfold ribRoutesCount
  exact .bind (free_read fun _ _ _ => rfl) fun _ => .bind (free_read fun _ _ _ => rfl) fun _ => free_pure _

theorem free_ribPrefixesCountForLen (len : Nat) : Free (M := M) (W := W) (ribPrefixesCountForLen len) := by
  unfold ribPrefixesCountForLen
  split
  · exact free_read fun _ _ _ => rfl
  · exact free_pure _

theorem free_ribNodesCount : Free (M := M) (W := W) ribNodesCount := free_read fun _ _ _ => rfl

theorem free_ribGetValue [Meta M] (st : Strategy) (p : PrefixId W) (mui : Option Mui) (iw : Bool) :
    Free (M := M) (ribGetValue st p mui iw) := by
  have hr : ∀ bmin, Free (M := M) (W := W) (Prog.read fun r : Rib M W =>
    recordsForPrefix r.lsm p mui iw bmin) := fun _ => free_read fun _ _ _ => rfl
  have hm : ∀ bmin, Free (M := M) (onRecs (getRecordsForPrefix p mui iw bmin)) :=
    fun _ => free_onRecs (freeS_getRecordsForPrefix _ _ _ _)
  unfold ribGetValue
  free [free_withdrawnMuis, hr _, hm _]

theorem free_lazily {σ β : Type} {next : Nat → σ → Prog (NSlots W) (Option (PrefixId W × σ))}
    {body : PrefixId W → Prog (Rib M W) β} (hn : ∀ f s, FreeS (nodeRoots W) (next f s))
    (hb : ∀ p, Free (body p)) (fuel : Nat) (st : σ) : Free (lazily next body fuel st) := by
  induction fuel generalizing st with
  | zero => exact free_diverge
  | succ n ih =>
    unfold lazily
    free [free_onNodes (hn _ _), hb _, ih _]

theorem free_eachMore {β : Type} (fuel : Nat) (p : PrefixId W) {body : PrefixId W → Prog (Rib M W) β}
    (hb : ∀ p, Free (body p)) : Free (eachMore fuel p body) := by
  unfold eachMore
  free [free_onNodes (freeS_moreSpecificStart _), free_lazily freeS_msNext hb _ _]

theorem free_eachLess {β : Type} (p : PrefixId W) {body : PrefixId W → Prog (Rib M W) β}
    (hb : ∀ p, Free (body p)) : Free (eachLess p body) :=
  free_lazily (fun _ => freeS_lsNext p) hb _ _

theorem free_filterItem [Meta M] (st : Strategy) (mui : Option Mui) (iw : Bool) (p : PrefixId W) :
    Free (M := M) (filterItem st mui iw p) := by
  unfold filterItem; free [free_ribGetValue _ _ _ _]

theorem free_filterValues [Meta M] (st : Strategy) (mui : Option Mui) (iw : Bool) (l : List (PrefixId W)) :
    Free (M := M) (filterValues st mui iw l) := by
  induction l with
  | nil => exact free_pure _
  | cons p ps ih => unfold filterValues; free [free_ribGetValue _ _ _ _]

theorem free_pfxItem [Meta M] (st : Strategy) (p : PrefixId W) : Free (M := M) (pfxItem st p) := by
  unfold pfxItem; free [free_ribGetValue _ _ _ _]

theorem free_ribPrefixesIter [Meta M] (st : Strategy) (fuel : Nat) :
    Free (M := M) (W := W) (ribPrefixesIter st fuel) := free_eachMore _ _ (free_pfxItem st)

theorem free_ribMoreSpecificsIter [Meta M] (st : Strategy) (fuel : Nat) (p : PrefixId W) (mui : Option Mui)
    (iw : Bool) : Free (M := M) (ribMoreSpecificsIter st fuel p mui iw) := by
  unfold ribMoreSpecificsIter
  free [free_ribMuiIsWithdrawn _, free_eachMore _ _ (free_filterItem st _ iw)]

theorem free_ribLessSpecificsIter [Meta M] (st : Strategy) (p : PrefixId W) (mui : Option Mui) (iw : Bool) :
    Free (M := M) (ribLessSpecificsIter st p mui iw) := by
  unfold ribLessSpecificsIter
  free [free_eachLess _ (free_filterItem st mui iw)]

theorem free_ribIterRecordsForMui [Meta M] (st : Strategy) (fuel : Nat) (m : Mui) (iw : Bool) :
    Free (M := M) (W := W) (ribIterRecordsForMui st fuel m iw) := by
  unfold ribIterRecordsForMui
  free [free_ribMuiIsWithdrawn _, free_ribMoreSpecificsIter _ _ _ _ _]

theorem free_fillRecords [Meta M] (st : Strategy) (mui : Option Mui) (iw : Bool)
    (o : Option (List (PrefixId W))) : Free (M := M) (fillRecords st mui iw o) := by
  unfold fillRecords
  free [free_filterValues _ _ _ _]

theorem free_ribMatchFound [Meta M] (st : Strategy) (mui : Option Mui) (iw : Bool) (ty : MatchType)
    (o : Option (PrefixId W)) : Free (M := M) (ribMatchFound st mui iw ty o) := by
  unfold ribMatchFound
  free [free_ribGetValue _ _ _ _]

theorem free_ribMatchPrefix [Meta M] (st : Strategy) (fuel : Nat) (p : PrefixId W) (o : MatchOptions) :
    Free (M := M) (ribMatchPrefix st fuel p o) := by
  unfold ribMatchPrefix
  free [free_onNodes (freeS_treeMatchPrefix _ _ _ _ _), free_ribMatchFound _ _ _ _ _, free_fillRecords _ _ _ _]

theorem free_sameItem [Meta M] (st : Strategy) (p : PrefixId W) (mui : Option Mui) (iw : Bool)
    (q : PrefixId W) : Free (M := M) (sameItem st p mui iw q) := by
  unfold sameItem; free [free_ribGetValue _ _ _ _]

theorem free_ribFromCommon [Meta M] (st : Strategy) (p : PrefixId W) (mui : Option Mui) (iw : Bool)
    {walk : Prog (Rib M W) (List (FatalResult (Option (PrefixRecord M W))))} (hw : Free walk) :
    Free (ribFromCommon st p mui iw walk) := by
  unfold ribFromCommon
  free [free_ribGetValue _ _ _ _, free_ribContains _ _]

theorem free_ribMoreSpecificsFrom [Meta M] (st : Strategy) (fuel : Nat) (p : PrefixId W) (mui : Option Mui)
    (iw : Bool) : Free (M := M) (ribMoreSpecificsFrom st fuel p mui iw) := by
  unfold ribMoreSpecificsFrom
  free [free_ribFromCommon _ _ _ _ (free_eachMore _ _ (free_sameItem st p mui iw))]

theorem free_ribLessSpecificsFrom [Meta M] (st : Strategy) (p : PrefixId W) (mui : Option Mui)
    (iw : Bool) : Free (M := M) (ribLessSpecificsFrom st p mui iw) := by
  unfold ribLessSpecificsFrom
  free [free_ribFromCommon _ _ _ _ (free_eachLess _ (free_sameItem st p mui iw))]

/-- A look-up followed by the use of the entry found. -/
theorem free_lookup {α : Type} {p : Prog (PSlots M W) (Option (Ref W))} {k : Option (Ref W) → Prog (Rib M W) α}
    (h : Yields (prefixRoots W) p) (hn : Free (k none)) (hs : ∀ r, LocalR r.addr (k (some r))) :
    Free (onRecs p >>= k) := by
  intro K Kr
  refine .bind (TabS.onRecs (h Kr)) ?_
  rintro K' Kr' (_ | r) ⟨hr, rfl⟩
  · exact hn _ _
  · exact (hs r).free _ _ (hr r rfl)

theorem free_ribBestPath (p : PrefixId W) : Free (M := M) (ribBestPath p) := by
  unfold ribBestPath
  refine free_lookup (yields_retrievePrefix p) (free_pure _) fun r => ?_
  dsimp only
  localr [localR_onRecs (local_readAt _ _)]

theorem free_ribCalcBest [Meta M] (p : PrefixId W) (tbi : Meta.TBI M) : Free (M := M) (ribCalcBest p tbi) := by
  unfold ribCalcBest
  exact free_lookup (yields_retrievePrefix p) (free_pure _) fun r =>
    localR_onRecs (local_calculateAndStore _ _)

theorem free_ribIsPsOutdated (p : PrefixId W) : Free (M := M) (ribIsPsOutdated p) := by
  unfold ribIsPsOutdated
  refine free_lookup (yields_retrievePrefix p) (free_pure _) fun r => ?_
  dsimp only
  exact .bind (localR_onRecs (local_readAt _ _)) fun _ => localR_pure _ _

theorem free_ribPersistPrefixesIter [Meta M] (st : Strategy) :
    Free (M := M) (W := W) (ribPersistPrefixesIter st) := by
  have hr : Free (M := M) (W := W) (Prog.read fun r : Rib M W => lsmPrefixesIter W r.lsm) :=
    free_read fun _ _ _ => rfl
  unfold ribPersistPrefixesIter
  free []

theorem free_ribNew (F : Nat) : Free (M := M) (W := W) (ribNew F) := free_storeNode _ _ _ _ _

theorem free_call [Meta M] (st : Strategy) (F fuel : Nat) (c : Call M W) : Free (c.prog st F fuel) := by
  cases c with
  | insert p r tbi => exact free_ribInsert _ _ _ _ _
  | withdrawFor p m t => exact free_ribMarkWithdrawnForPrefix _ _ _ _
  | activateFor p m t => exact free_ribMarkActiveForPrefix _ _ _ _
  | withdraw m => exact free_treeMarkWithdrawn _ _
  | activate m => exact free_treeMarkActive _ _
  | calcBest p tbi => exact free_ribCalcBest _ _
  | contains p mui => exact free_ribContains _ _
  | getRecords p mui iw => exact free_ribGetValue _ _ _ _
  | matchPrefix p o => exact free_ribMatchPrefix _ _ _ _
  | moreFrom p mui iw => exact free_ribMoreSpecificsFrom _ _ _ _ _
  | lessFrom p mui iw => exact free_ribLessSpecificsFrom _ _ _ _
  | moreIter p mui iw => exact free_ribMoreSpecificsIter _ _ _ _ _
  | lessIter p mui iw => exact free_ribLessSpecificsIter _ _ _ _
  | prefixesIter => exact free_ribPrefixesIter _ _
  | persistPrefixesIter => exact free_ribPersistPrefixesIter _
  | recordsForMui m iw => exact free_ribIterRecordsForMui _ _ _ _
  | bestPath p => exact free_ribBestPath _
  | isPsOutdated p => exact free_ribIsPsOutdated _
  | muiIsWithdrawn m => exact free_ribMuiIsWithdrawn _
  | isMuiActive m => exact free_ribIsMuiActive _
  | prefixesCount => exact free_ribPrefixesCount
  | routesCount => exact free_ribRoutesCount
  | prefixesCountForLen l => exact free_ribPrefixesCountForLen _
  | nodesCount => exact free_ribNodesCount

theorem Free.runs {α : Type} {p : Prog (Rib M W) α} (h : Free p) : ∃ t : PtrProg M W α, t.Runs p :=
  (h _ _).scoped

end Rotonda
