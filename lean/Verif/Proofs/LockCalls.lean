import Verif.Proofs.LockActs
import Verif.Proofs.ReadOnly

/-!
# The actions of the calls
-/

namespace Rotonda
open Prog

variable {M : Type} {W : Nat}

/-- The program only has sections of the mui sets and actions that need no lock. -/
abbrev NodeActs {α : Type} (p : Prog (NSlots W) α) : Prop := p.Acts (nodeMuis W).Act

/-- The program only has sections of the record maps and actions that need no lock. -/
abbrev RecActs {α : Type} (p : Prog (PSlots M W) α) : Prop := p.Acts (recMaps M W).Act

/-- The same for the whole store. -/
abbrev RibActs {α : Type} (p : Prog (Rib M W) α) : Prop := p.Acts (ribLocks M W).Act

/-! ## Nodes -/

theorem nodeActs_refRead (a : Addr) :
    NodeActs (Prog.read fun s : Slots (StoredNode W) => (s a).map (refOf a)) :=
  acts_read (.neutral (neutral_refRead nodeMuis_laws _))

theorem nodeActs_casInit (a : Addr) (e : StoredNode W) : NodeActs (casInit a e) :=
  acts_atomic (.neutral (neutral_casInit nodeMuis_laws _ _))

theorem nodeActs_sliceGet (b : Bucket) (i : Nat) :
    NodeActs (sliceGet (E := StoredNode W) b i) := by
  unfold sliceGet; acts [nodeActs_refRead _]

theorem nodeActs_sliceGetOrInit (b : Bucket) (i : Nat) (e : StoredNode W) :
    NodeActs (sliceGetOrInit b i e) := by
  unfold sliceGetOrInit
  acts [nodeActs_refRead _, nodeActs_casInit _ _]

theorem nodeActs_loadPtr (a : Addr) : NodeActs (loadPtr (W := W) a) :=
  Acts.bind (acts_read (.neutral (neutral_readAt a fun e e' h => by
    have := congrArg StoredNode.ptr h
    exact this))) fun _ => acts_ofOption _

theorem nodeActs_loadPfx (a : Addr) : NodeActs (loadPfx (W := W) a) :=
  Acts.bind (acts_read (.neutral (neutral_readAt a fun e e' h => by
    have := congrArg StoredNode.pfx h
    exact this))) fun _ => acts_ofOption _

theorem nodeActs_hasMui (a : Addr) (m : Mui) :
    NodeActs (readAt a fun n : StoredNode W => n.rbm m) :=
  Acts.bind (acts_read (sect_readAt nodeMuis_laws a fun v => v m)) fun _ => acts_ofOption _

theorem nodeActs_updateRbm (a : Addr) (m : Mui) : NodeActs (updateRbm (W := W) a m) :=
  Acts.bind (acts_atomic (sect_accessAt a fun v => ((), muiInsert v m))) fun _ => acts_ofOption _

theorem nodeActs_casPtr (a : Addr) (x y : BitVec 16) : NodeActs (casPtr (W := W) a x y) := by
  refine Acts.bind (acts_atomic (.neutral (neutral_accessAt a (fun e e' h => ?_) fun e => ?_)))
    fun _ => acts_ofOption _
  · cases e; cases e'; simp only [StoredNode.mk.injEq, and_true] at h
    obtain ⟨rfl, rfl, rfl, rfl⟩ := h
    dsimp only
    split <;> exact ⟨rfl, rfl⟩
  · split <;> rfl

theorem nodeActs_casPfx (a : Addr) (x y : BitVec 32) : NodeActs (casPfx (W := W) a x y) := by
  refine Acts.bind (acts_atomic (.neutral (neutral_accessAt a (fun e e' h => ?_) fun e => ?_)))
    fun _ => acts_ofOption _
  · cases e; cases e'; simp only [StoredNode.mk.injEq, and_true] at h
    obtain ⟨rfl, rfl, rfl, rfl⟩ := h
    dsimp only
    split <;> exact ⟨rfl, rfl⟩
  · split <;> rfl

theorem nodeActs_casPtrLoop (a : Addr) (x : BitVec 32) (fuel : Nat) : ∀ y,
    NodeActs (casPtrLoop (W := W) a x fuel y) := by
  induction fuel with
  | zero => intro; exact acts_diverge
  | succ n ih => intro y; unfold casPtrLoop; acts [nodeActs_casPtr _ _ _, ih _]

theorem nodeActs_casPfxLoop (a : Addr) (x : BitVec 32) (fuel : Nat) : ∀ y,
    NodeActs (casPfxLoop (W := W) a x fuel y) := by
  induction fuel with
  | zero => intro; exact acts_diverge
  | succ n ih => intro y; unfold casPfxLoop; acts [nodeActs_casPfx _ _ _, ih _]

theorem nodeActs_mergePtrLoop (a : Addr) (x z : BitVec 16) (fuel : Nat) : ∀ y,
    NodeActs (mergePtrLoop (W := W) a x z fuel y) := by
  induction fuel with
  | zero => intro; exact acts_diverge
  | succ n ih => intro y; unfold mergePtrLoop; acts [nodeActs_casPtr _ _ _, ih _]

theorem nodeActs_mergePfxLoop (a : Addr) (x z : BitVec 32) (fuel : Nat) : ∀ y,
    NodeActs (mergePfxLoop (W := W) a x z fuel y) := by
  induction fuel with
  | zero => intro; exact acts_diverge
  | succ n ih => intro y; unfold mergePfxLoop; acts [nodeActs_casPfx _ _ _, ih _]

theorem nodeActs_mergePtr (F : Nat) (a : Addr) (x : BitVec 16) :
    NodeActs (mergePtr (W := W) F a x) := by
  unfold mergePtr; acts [nodeActs_loadPtr _, nodeActs_mergePtrLoop _ _ _ _ _]

theorem nodeActs_mergePfx (F : Nat) (a : Addr) (x : BitVec 32) :
    NodeActs (mergePfx (W := W) F a x) := by
  unfold mergePfx; acts [nodeActs_loadPfx _, nodeActs_mergePfxLoop _ _ _ _ _]

theorem nodeActs_eval (F : Nat) (a : Addr) (bs : BitSpan) (base : NodeId W) (l : Bool) :
    NodeActs (evalNodeOrPrefixAt F a bs base l) := by
  unfold evalNodeOrPrefixAt
  acts [nodeActs_loadPtr _, nodeActs_loadPfx _, nodeActs_casPtrLoop _ _ _ _,
    nodeActs_casPfxLoop _ _ _ _]

theorem nodeActs_storeNodeLoop (F : Nat) (id : NodeId W) (m : Mui) (ptr : BitVec 16)
    (pfx : BitVec 32) (fuel : Nat) : ∀ level b,
    NodeActs (storeNodeLoop F id m ptr pfx fuel level b) := by
  induction fuel with
  | zero => intros; exact acts_panic
  | succ n ih =>
    intro level b
    unfold storeNodeLoop
    acts [nodeActs_sliceGet _ _, nodeActs_sliceGetOrInit _ _ _, nodeActs_updateRbm _ _,
      nodeActs_mergePtr _ _ _, nodeActs_mergePfx _ _ _, ih _ _]

theorem nodeActs_retrieveNodeMut (id : NodeId W) (m : Mui) : NodeActs (retrieveNodeMut id m) := by
  have loop : ∀ fuel level b, NodeActs (retrieveNodeMutLoop id m fuel level b) := by
    intro fuel
    induction fuel with
    | zero => intros; exact acts_panic
    | succ n ih =>
      intro level b
      unfold retrieveNodeMutLoop
      acts [nodeActs_sliceGet _ _, nodeActs_sliceGetOrInit _ _ _, nodeActs_updateRbm _ _, ih _ _]
  exact Acts.bind (acts_ofOption _) fun _ => loop _ _ _

theorem nodeActs_retrieveNode (id : NodeId W) : NodeActs (retrieveNode id) := by
  have loop : ∀ fuel level b, NodeActs (retrieveNodeLoop id fuel level b) := by
    intro fuel
    induction fuel with
    | zero => intros; exact acts_panic
    | succ n ih =>
      intro level b
      unfold retrieveNodeLoop
      acts [nodeActs_sliceGet _ _, ih _ _]
  exact Acts.bind (acts_ofOption _) fun _ => loop _ _ _

theorem nodeActs_retrieveNodeForMui (id : NodeId W) (m : Mui) :
    NodeActs (retrieveNodeForMui id m) := by
  have loop : ∀ fuel level b, NodeActs (retrieveNodeForMuiLoop id m fuel level b) := by
    intro fuel
    induction fuel with
    | zero => intros; exact acts_panic
    | succ n ih =>
      intro level b
      unfold retrieveNodeForMuiLoop
      acts [nodeActs_sliceGet _ _, nodeActs_hasMui _ _, ih _ _]
  exact Acts.bind (acts_ofOption _) fun _ => loop _ _ _

theorem nodeActs_prefixExistsN (p : PrefixId W) : NodeActs (prefixExistsN p) := by
  unfold prefixExistsN
  acts [nodeActs_retrieveNode _, nodeActs_loadPfx _]

theorem nodeActs_prefixExistsForMuiN (p : PrefixId W) (m : Mui) :
    NodeActs (prefixExistsForMuiN p m) := by
  unfold prefixExistsForMuiN
  acts [nodeActs_retrieveNodeForMui _ _, nodeActs_loadPfx _]

theorem nodeActs_moreSpecificPfxIter (a : Addr) (b : NodeId W) (bs : BitSpan) :
    NodeActs (moreSpecificPfxIter a b bs) := by
  unfold moreSpecificPfxIter; acts [nodeActs_loadPfx _]

theorem nodeActs_moreSpecificPtrIter (a : Addr) (b : NodeId W) (bs : BitSpan) :
    NodeActs (moreSpecificPtrIter a b bs) := by
  unfold moreSpecificPtrIter; acts [nodeActs_loadPtr _]

theorem nodeActs_msStep (st : MsIter W) : NodeActs (msStep st) := by
  unfold msStep msDescend
  acts [nodeActs_retrieveNode _, nodeActs_moreSpecificPfxIter _ _ _,
    nodeActs_moreSpecificPtrIter _ _ _]

theorem nodeActs_msNext (fuel : Nat) : ∀ st : MsIter W, NodeActs (msNext fuel st) := by
  induction fuel with
  | zero => intros; exact acts_diverge
  | succ n ih => intro st; unfold msNext; acts [nodeActs_msStep _, ih _]

theorem nodeActs_msCollect (fuel : Nat) : ∀ st : MsIter W, NodeActs (msCollect fuel st) := by
  induction fuel with
  | zero => intros; exact acts_diverge
  | succ n ih => intro st; unfold msCollect; acts [nodeActs_msNext _ _, ih _]

theorem nodeActs_moreSpecificStart (p : PrefixId W) : NodeActs (moreSpecificStart p) := by
  unfold moreSpecificStart
  acts [nodeActs_retrieveNode _, nodeActs_moreSpecificPfxIter _ _ _,
    nodeActs_moreSpecificPtrIter _ _ _]

theorem nodeActs_moreSpecifics (fuel : Nat) (p : PrefixId W) : NodeActs (moreSpecifics fuel p) := by
  unfold moreSpecifics
  acts [nodeActs_moreSpecificStart _, nodeActs_msCollect _ _]

theorem nodeActs_lmLoop (fuel : Nat) : ∀ p : PrefixId W, NodeActs (lmLoop fuel p) := by
  induction fuel with
  | zero => intros; exact acts_panic
  | succ n ih => intro p; unfold lmLoop; acts [nodeActs_prefixExistsN _, ih _]

theorem nodeActs_lsFind (p : PrefixId W) (lvl : Nat) : NodeActs (lsFind p lvl) := by
  induction lvl with
  | zero => exact acts_pure _
  | succ n ih => unfold lsFind; acts [nodeActs_prefixExistsN _]

theorem nodeActs_lsNext (p : PrefixId W) (cur : Nat) : NodeActs (lsNext p cur) := by
  unfold lsNext; acts [nodeActs_lsFind _ _]

theorem nodeActs_lsCollect (p : PrefixId W) (fuel : Nat) : ∀ cur,
    NodeActs (lsCollect p fuel cur) := by
  induction fuel with
  | zero => intros; exact acts_panic
  | succ n ih => intro cur; unfold lsCollect; acts [nodeActs_lsFind _ _, ih _]

theorem nodeActs_treeMatchPrefix (fuel : Nat) (p : PrefixId W) (mt : MatchType) (ls ms : Bool) :
    NodeActs (treeMatchPrefix fuel p mt ls ms) := by
  unfold treeMatchPrefix optionally longestMatchingPrefix lessSpecifics
  acts [nodeActs_lmLoop _ _, nodeActs_lsCollect _ _ _, nodeActs_moreSpecifics _ _]

/-! ## Tree -/

/-- The program only has actions allowed on the tree. -/
abbrev TreeActs (M : Type) {α : Type} (p : Prog (Tree W) α) : Prop := p.Acts (TreeAct M)

theorem NodeActs.tree {α : Type} {p : Prog (NSlots W) α} (h : NodeActs p) :
    TreeActs M (p.zoom Tree.slotsL) := Acts.zoom (fun _ => act_onNodes) h

theorem TreeActs.rib {α : Type} {p : Prog (Tree W) α} (h : TreeActs M p) :
    RibActs (M := M) (p.zoom Rib.treeL) := Acts.zoom (fun _ h => h) h

theorem NodeActs.rib {α : Type} {p : Prog (NSlots W) α} (h : NodeActs p) :
    RibActs (M := M) (onNodes p) := h.tree.rib

/-- An action on the tree that does not look at the nodes. -/
theorem treeAct_rest {ρ : Type} {f : Tree W → ρ × Tree W}
    (h1 : ∀ t, (f t).1 = (f { t with slots := fun _ => none }).1)
    (h2 : ∀ t, ({ (f t).2 with slots := fun _ => none } : Tree W) =
      { (f { t with slots := fun _ => none }).2 with slots := fun _ => none })
    (h3 : ∀ t, (f t).2.slots = t.slots) : TreeAct M f :=
  act_rest (fun r => h1 r.tree) (fun r => by
    simp only [Rib.rest, zoomAct, Rib.treeL]
    rw [h2]) (fun r => h3 r.tree) fun _ => rfl

theorem treeActs_storeNode (F : Nat) (id : NodeId W) (m : Mui) (ptr : BitVec 16) (pfx : BitVec 32) :
    TreeActs M (storeNode F id m ptr pfx) := by
  unfold storeNode
  acts [acts_atomic (treeAct_rest (fun _ => rfl) (fun _ => rfl) fun _ => rfl),
    NodeActs.tree (nodeActs_storeNodeLoop _ _ _ _ _ _ _ _)]

theorem treeActs_updateDefaultRoute (m : Mui) : TreeActs M (updateDefaultRoute (W := W) m) := by
  unfold updateDefaultRoute
  acts [acts_atomic (treeAct_rest (fun _ => rfl) (fun _ => rfl) fun _ => rfl),
    NodeActs.tree (nodeActs_retrieveNodeMut _ _)]

theorem treeActs_setPrefixExists (F : Nat) (p : PrefixId W) (m : Mui) :
    TreeActs M (setPrefixExists F p m) := by
  have loop : ∀ fuel start cur, TreeActs M (setPrefixExistsLoop F p m fuel start cur) := by
    intro fuel
    induction fuel with
    | zero => intros; exact acts_panic
    | succ n ih =>
      intro start cur
      unfold setPrefixExistsLoop
      dsimp only
      acts [NodeActs.tree (nodeActs_retrieveNodeMut _ _),
        NodeActs.tree (nodeActs_eval _ _ _ _ _), treeActs_storeNode _ _ _ _ _, ih _ _]
  unfold setPrefixExists
  acts [acts_atomic (treeAct_rest (fun _ => rfl) (fun _ => rfl) fun _ => rfl),
    treeActs_updateDefaultRoute _, loop _ _ _]

theorem treeActs_withdrawnMuis : TreeActs M (withdrawnMuis (W := W)) :=
  acts_read (treeAct_rest (fun _ => rfl) (fun _ => rfl) fun _ => rfl)

theorem treeActs_updateWithdrawnLoop (cur : Nat) (fuel : Nat) : ∀ new,
    TreeActs M (updateWithdrawnLoop (W := W) cur fuel new) := by
  induction fuel with
  | zero => intros; exact acts_diverge
  | succ n ih =>
    intro new
    unfold updateWithdrawnLoop
    refine Acts.bind (acts_atomic (treeAct_rest (fun t => ?_) (fun t => ?_) fun t => ?_)) ?_
    · dsimp only; split <;> rfl
    · dsimp only; split <;> rfl
    · split <;> rfl
    · acts [ih _]

theorem treeActs_markActive (F : Nat) (m : Mui) : TreeActs M (treeMarkActive (W := W) F m) :=
  Acts.bind (acts_read (treeAct_rest (fun _ => rfl) (fun _ => rfl) fun _ => rfl))
    fun _ => treeActs_updateWithdrawnLoop _ _ _

theorem treeActs_markWithdrawn (F : Nat) (m : Mui) :
    TreeActs M (treeMarkWithdrawn (W := W) F m) :=
  Acts.bind (acts_read (treeAct_rest (fun _ => rfl) (fun _ => rfl) fun _ => rfl))
    fun _ => treeActs_updateWithdrawnLoop _ _ _

/-! ## Records -/

theorem recActs_refRead (a : Addr) :
    RecActs (Prog.read fun s : Slots (StoredPrefix M W) => (s a).map (refOf a)) :=
  acts_read (.neutral (neutral_refRead recMaps_laws _))

theorem recActs_casInit (a : Addr) (e : StoredPrefix M W) : RecActs (casInit a e) :=
  acts_atomic (.neutral (neutral_casInit recMaps_laws _ _))

theorem recActs_sliceGet (b : Bucket) (i : Nat) :
    RecActs (sliceGet (E := StoredPrefix M W) b i) := by
  unfold sliceGet; acts [recActs_refRead _]

theorem recActs_sliceGetOrInit (b : Bucket) (i : Nat) (e : StoredPrefix M W) :
    RecActs (sliceGetOrInit b i e) := by
  unfold sliceGetOrInit
  acts [recActs_refRead _, recActs_casInit _ _]

theorem recActs_readRecs {ρ : Type} (a : Addr) (f : Recs M → ρ) :
    RecActs (readAt a fun e : StoredPrefix M W => f e.recs) :=
  Acts.bind (acts_read (sect_readAt recMaps_laws a f)) fun _ => acts_ofOption _

theorem recActs_readPs {ρ : Type} (a : Addr) (f : PsCell → ρ) :
    RecActs (readAt a fun e : StoredPrefix M W => f e.ps) :=
  Acts.bind (acts_read (.neutral (neutral_readAt a fun e e' h => by
    have := congrArg (StoredPrefix.ps (M := M)) h
    exact congrArg f this))) fun _ => acts_ofOption _

theorem recActs_accessPs {ρ : Type} (a : Addr) (f : PsCell → ρ × PsCell) :
    RecActs (accessAt a fun e : StoredPrefix M W => ((f e.ps).1, { e with ps := (f e.ps).2 })) := by
  refine Acts.bind (acts_atomic (.neutral (neutral_accessAt a (fun e e' h => ?_) fun e => rfl)))
    fun _ => acts_ofOption _
  cases e; cases e'; simp only [StoredPrefix.mk.injEq, true_and] at h
  obtain ⟨rfl, rfl, rfl⟩ := h
  exact ⟨rfl, rfl⟩

theorem recActs_upsertRecordAt (a : Addr) (r : Record M) :
    RecActs (W := W) (upsertRecordAt a r) :=
  Acts.bind (acts_atomic (sect_accessAt a fun v => upsertRecord v r)) fun _ => acts_ofOption _

theorem recActs_markStatusAt (a : Addr) (m : Mui) (t : LTime) (rs : RouteStatus) :
    RecActs (M := M) (W := W) (markStatusAt a m t rs) :=
  Acts.bind (acts_atomic (sect_accessAt a fun v => ((), markStatus v m t rs)))
    fun _ => acts_ofOption _

theorem recActs_findPrefixLoop (id : PrefixId W) (lim fuel : Nat) : ∀ level b,
    RecActs (M := M) (findPrefixLoop id lim fuel level b) := by
  induction fuel with
  | zero => intros; exact acts_panic
  | succ n ih => intro level b; unfold findPrefixLoop; acts [recActs_sliceGet _ _, ih _ _]

theorem recActs_retrievePrefix (id : PrefixId W) : RecActs (M := M) (retrievePrefix id) :=
  Acts.bind (acts_ofOption _) fun _ => recActs_findPrefixLoop _ _ _ _ _

theorem recActs_getRecordsForPrefix (id : PrefixId W) (mui : Option Mui) (iw : Bool)
    (bmin : Mui → Bool) : RecActs (M := M) (getRecordsForPrefix id mui iw bmin) := by
  unfold getRecordsForPrefix
  acts [recActs_findPrefixLoop _ _ _ _ _,
    recActs_readRecs _ fun v => getFilteredRecords v mui iw bmin]

theorem recActs_retrievePrefixMut (id : PrefixId W) : RecActs (M := M) (retrievePrefixMut id) := by
  have loop : ∀ fuel level b, RecActs (M := M) (retrievePrefixMutLoop id fuel level b) := by
    intro fuel
    induction fuel with
    | zero => intros; exact acts_panic
    | succ n ih =>
      intro level b
      unfold retrievePrefixMutLoop
      acts [recActs_sliceGet _ _, recActs_sliceGetOrInit _ _ _, ih _ _]
  exact Acts.bind (acts_ofOption _) fun _ => loop _ _ _

theorem recActs_setPsOutdated (a : Addr) : RecActs (M := M) (W := W) (setPsOutdated a) :=
  recActs_accessPs a fun c => ((), { c with tag := true })

theorem recActs_setPathSelections (a : Addr) (ps : Option Mui × Option Mui) :
    RecActs (M := M) (W := W) (setPathSelections a ps) := by
  unfold setPathSelections
  refine Acts.bind (recActs_readPs a id) fun cur => ?_
  split
  · exact acts_pure _
  · refine Acts.bind (acts_atomic (.neutral (neutral_accessAt a (fun e e' h => ?_) fun e => ?_)))
      fun _ => acts_ofOption _
    · cases e; cases e'; simp only [StoredPrefix.mk.injEq, true_and] at h
      obtain ⟨rfl, rfl, rfl⟩ := h
      dsimp only
      split <;> exact ⟨rfl, rfl⟩
    · split <;> rfl

section
variable [Meta M]

theorem recActs_calculateAndStore (a : Addr) (tbi : Meta.TBI M) :
    RecActs (W := W) (calculateAndStore a tbi) := by
  unfold calculateAndStore
  acts [recActs_readRecs _ fun v => bestBackup v tbi, recActs_setPathSelections _ _]

/-- The program only has actions allowed on the prefix table. -/
abbrev ChtActs {α : Type} (p : Prog (PCht M W) α) : Prop := p.Acts ChtAct

omit [Meta M] in
theorem RecActs.cht {α : Type} {p : Prog (PSlots M W) α} (h : RecActs p) :
    ChtActs (p.zoom PCht.slotsL) := Acts.zoom (fun _ => act_onRecs) h

omit [Meta M] in
theorem ChtActs.rib {α : Type} {p : Prog (PCht M W) α} (h : ChtActs p) :
    RibActs (p.zoom Rib.chtL) := Acts.zoom (fun _ h => h) h

omit [Meta M] in
theorem RecActs.rib {α : Type} {p : Prog (PSlots M W) α} (h : RecActs p) :
    RibActs (onRecs p) := h.cht.rib

theorem chtActs_pchtUpsert (p : PrefixId W) (r : Record M) (upd : Option (Meta.TBI M)) :
    ChtActs (pchtUpsert p r upd) := by
  have h1 : ChtActs (PCht.incRoutes (M := M) (W := W)) :=
    acts_atomic (act_rest (fun _ => rfl) (fun _ => rfl) (fun _ => rfl) fun _ => rfl)
  have h2 : ∀ n, ChtActs (PCht.incPrefixes (M := M) (W := W) n) := fun n =>
    acts_atomic (act_rest (fun _ => rfl) (fun _ => rfl) (fun _ => rfl) fun _ => rfl)
  unfold pchtUpsert
  acts [(recActs_retrievePrefixMut _).cht, (recActs_upsertRecordAt _ _).cht,
    (recActs_setPsOutdated _).cht, (recActs_calculateAndStore _ _).cht, h1, h2 _]

/-! ## The store -/

omit [Meta M] in
theorem ribActs_rest {α : Type} {f : Rib M W → α × Rib M W} (h1 : ∀ r, (f r).1 = (f r.rest).1)
    (h2 : ∀ r, (f r).2.rest = (f r.rest).2.rest) (h3 : ∀ r, (f r).2.tree.slots = r.tree.slots)
    (h4 : ∀ r, (f r).2.cht.slots = r.cht.slots) : RibActs (Prog.atomic f) :=
  acts_atomic (act_rest h1 h2 h3 h4)

omit [Meta M] in
theorem ribActs_read {α : Type} {f : Rib M W → α} (h : ∀ r, f r = f r.rest) :
    RibActs (Prog.read f) :=
  acts_read (act_rest h (fun _ => rfl) (fun _ => rfl) fun _ => rfl)

omit [Meta M] in
theorem ribActs_onLsm (f : Lsm → Lsm) : RibActs (onLsm f : Prog (Rib M W) Unit) :=
  ribActs_rest (fun _ => rfl) (fun _ => rfl) (fun _ => rfl) fun _ => rfl

omit [Meta M] in
theorem ribActs_readLsm {α : Type} (f : Lsm → α) :
    RibActs (Prog.read fun r : Rib M W => f r.lsm) := ribActs_read fun _ => rfl

theorem ribActs_upsert (st : Strategy) (F : Nat) (p : PrefixId W) (r : Record M)
    (upd : Option (Meta.TBI M)) : RibActs (ribUpsert st F p r upd) := by
  have h : ∀ f : Lsm → Lsm, RibActs (onLsm f : Prog (Rib M W) Unit) := ribActs_onLsm
  unfold ribUpsert
  acts [h _, (chtActs_pchtUpsert _ _ _).rib, (treeActs_setPrefixExists _ _ _).rib]

theorem ribActs_insert (st : Strategy) (F : Nat) (p : PrefixId W) (r : Record M)
    (upd : Option (Meta.TBI M)) : RibActs (ribInsert st F p r upd) := by
  have h1 : RibActs (Rib.incRoutes (M := M) (W := W)) :=
    ribActs_rest (fun _ => rfl) (fun _ => rfl) (fun _ => rfl) fun _ => rfl
  have h2 : ∀ n, RibActs (Rib.incPrefixes (M := M) (W := W) n) := fun n =>
    ribActs_rest (fun _ => rfl) (fun _ => rfl) (fun _ => rfl) fun _ => rfl
  unfold ribInsert
  acts [(treeActs_setPrefixExists _ _ _).rib, ribActs_upsert _ _ _ _ _, h1, h2 _]

omit [Meta M] in
theorem ribActs_contains (p : PrefixId W) (mui : Option Mui) :
    RibActs (M := M) (ribContains p mui) := by
  unfold ribContains prefixExistsForMui prefixExists
  split
  · exact (nodeActs_prefixExistsForMuiN _ _).rib
  · exact (nodeActs_prefixExistsN _).rib

omit [Meta M] in
theorem ribActs_rewriteAll (t : LTime) (rs : RouteStatus) (l : List Bytes) :
    RibActs (rewriteAll W t rs l : Prog (Rib M W) Bool) := by
  induction l with
  | nil => exact acts_pure _
  | cons b l ih =>
    unfold rewriteAll
    refine Acts.bind (ribActs_rest (fun r => ?_) (fun r => ?_) (fun r => ?_) fun r => ?_) ?_
    · dsimp only [Rib.rest]; cases rewriteHeader W r.lsm t rs b <;> rfl
    · dsimp only [Rib.rest]; cases rewriteHeader W r.lsm t rs b <;> rfl
    · cases rewriteHeader W r.lsm t rs b <;> rfl
    · cases rewriteHeader W r.lsm t rs b <;> rfl
    · acts []

omit [Meta M] in
theorem ribActs_markMem (p : PrefixId W) (m : Mui) (t : LTime) (rs : RouteStatus) :
    RibActs (M := M) (ribMarkMem p m t rs) := by
  unfold ribMarkMem
  acts [(recActs_retrievePrefixMut _).rib, (recActs_markStatusAt _ _ _ _).rib]

omit [Meta M] in
theorem ribActs_persistMarker (sp : Ref W) (p : PrefixId W) (m : Mui) (t : LTime) :
    RibActs (M := M) (ribPersistMarker sp p m t) := by
  have h : ∀ f : Lsm → Lsm, RibActs (onLsm f : Prog (Rib M W) Unit) := ribActs_onLsm
  unfold ribPersistMarker
  acts [(recActs_readRecs sp.addr fun v : Recs M => getRecordForMui v m true).rib, h _]

omit [Meta M] in
theorem ribActs_withdrawFor (st : Strategy) (p : PrefixId W) (m : Mui) (t : LTime) :
    RibActs (M := M) (ribMarkWithdrawnForPrefix st p m t) := by
  unfold ribMarkWithdrawnForPrefix
  acts [ribActs_markMem _ _ _ _, ribActs_persistMarker _ _ _ _, ribActs_rewriteAll _ _ _,
    ribActs_readLsm fun l => recordsWithKeys l p m]

omit [Meta M] in
theorem ribActs_activateFor (st : Strategy) (p : PrefixId W) (m : Mui) (t : LTime) :
    RibActs (M := M) (ribMarkActiveForPrefix st p m t) := by
  unfold ribMarkActiveForPrefix
  acts [ribActs_markMem _ _ _ _, ribActs_persistMarker _ _ _ _, ribActs_rewriteAll _ _ _,
    ribActs_readLsm fun l => mostRecentRecord l p m]

theorem ribActs_calcBest (p : PrefixId W) (tbi : Meta.TBI M) : RibActs (ribCalcBest p tbi) := by
  unfold ribCalcBest
  acts [(recActs_retrievePrefix _).rib, (recActs_calculateAndStore _ _).rib]

omit [Meta M] in
theorem ribActs_withdrawnMuis :
    RibActs (withdrawnMuis.zoom Rib.treeL : Prog (Rib M W) _) := treeActs_withdrawnMuis.rib

omit [Meta M] in
theorem ribActs_muiIsWithdrawn (m : Mui) : RibActs (M := M) (W := W) (ribMuiIsWithdrawn m) :=
  ribActs_withdrawnMuis.bind fun _ => acts_pure _

omit [Meta M] in
theorem ribActs_isMuiActive (m : Mui) : RibActs (M := M) (W := W) (ribIsMuiActive m) :=
  ribActs_withdrawnMuis.bind fun _ => acts_pure _

theorem ribActs_getValue (st : Strategy) (p : PrefixId W) (mui : Option Mui) (iw : Bool) :
    RibActs (M := M) (ribGetValue st p mui iw) := by
  have h : ∀ bmin, RibActs (Prog.read fun r : Rib M W => recordsForPrefix r.lsm p mui iw bmin) :=
    fun bmin => ribActs_readLsm fun l => recordsForPrefix l p mui iw bmin
  unfold ribGetValue
  acts [ribActs_withdrawnMuis, (recActs_getRecordsForPrefix _ _ _ _).rib, h _]

theorem ribActs_filterValues (st : Strategy) (mui : Option Mui) (iw : Bool)
    (l : List (PrefixId W)) : RibActs (M := M) (filterValues st mui iw l) := by
  induction l with
  | nil => exact acts_pure _
  | cons p l ih => unfold filterValues; acts [ribActs_getValue _ _ _ _]

omit [Meta M] in
theorem ribActs_lazily {σ β : Type} {next : Nat → σ → Prog (NSlots W) (Option (PrefixId W × σ))}
    {body : PrefixId W → Prog (Rib M W) β} (hn : ∀ n st, NodeActs (next n st))
    (hb : ∀ p, RibActs (body p)) (fuel : Nat) : ∀ st, RibActs (lazily next body fuel st) := by
  induction fuel with
  | zero => intros; exact acts_diverge
  | succ n ih => intro st; unfold lazily; acts [(hn _ _).rib, hb _, ih _]

omit [Meta M] in
theorem ribActs_eachMore {β : Type} {body : PrefixId W → Prog (Rib M W) β}
    (hb : ∀ p, RibActs (body p)) (fuel : Nat) (p : PrefixId W) :
    RibActs (eachMore fuel p body) := by
  unfold eachMore
  acts [(nodeActs_moreSpecificStart _).rib, ribActs_lazily nodeActs_msNext hb _ _]

omit [Meta M] in
theorem ribActs_eachLess {β : Type} {body : PrefixId W → Prog (Rib M W) β}
    (hb : ∀ p, RibActs (body p)) (p : PrefixId W) : RibActs (eachLess p body) :=
  ribActs_lazily (fun _ _ => nodeActs_lsNext _ _) hb _ _

theorem ribActs_filterItem (st : Strategy) (mui : Option Mui) (iw : Bool) (p : PrefixId W) :
    RibActs (M := M) (filterItem st mui iw p) := by
  unfold filterItem; acts [ribActs_getValue _ _ _ _]

theorem ribActs_pfxItem (st : Strategy) (p : PrefixId W) : RibActs (M := M) (pfxItem st p) := by
  unfold pfxItem; acts [ribActs_getValue _ _ _ _]

theorem ribActs_moreIter (st : Strategy) (fuel : Nat) (p : PrefixId W) (mui : Option Mui)
    (iw : Bool) : RibActs (M := M) (ribMoreSpecificsIter st fuel p mui iw) := by
  unfold ribMoreSpecificsIter
  acts [ribActs_muiIsWithdrawn _, ribActs_eachMore (ribActs_filterItem _ _ _) _ _]

theorem ribActs_lessIter (st : Strategy) (p : PrefixId W) (mui : Option Mui) (iw : Bool) :
    RibActs (M := M) (ribLessSpecificsIter st p mui iw) := by
  unfold ribLessSpecificsIter
  acts [ribActs_eachLess (ribActs_filterItem _ _ _) _]

theorem ribActs_recordsForMui (st : Strategy) (fuel : Nat) (m : Mui) (iw : Bool) :
    RibActs (M := M) (W := W) (ribIterRecordsForMui st fuel m iw) := by
  unfold ribIterRecordsForMui
  acts [ribActs_muiIsWithdrawn _, ribActs_moreIter _ _ _ _ _]

theorem ribActs_fillRecords (st : Strategy) (mui : Option Mui) (iw : Bool)
    (o : Option (List (PrefixId W))) : RibActs (M := M) (fillRecords st mui iw o) := by
  unfold fillRecords; acts [ribActs_filterValues _ _ _ _]

theorem ribActs_matchFound (st : Strategy) (mui : Option Mui) (iw : Bool) (ty : MatchType)
    (o : Option (PrefixId W)) : RibActs (M := M) (ribMatchFound st mui iw ty o) := by
  unfold ribMatchFound; acts [ribActs_getValue _ _ _ _]

theorem ribActs_matchPrefix (st : Strategy) (fuel : Nat) (p : PrefixId W) (o : MatchOptions) :
    RibActs (M := M) (ribMatchPrefix st fuel p o) := by
  unfold ribMatchPrefix
  acts [(nodeActs_treeMatchPrefix _ _ _ _ _).rib, ribActs_matchFound _ _ _ _ _,
    ribActs_fillRecords _ _ _ _]

theorem ribActs_sameItem (st : Strategy) (p : PrefixId W) (mui : Option Mui) (iw : Bool)
    (q : PrefixId W) : RibActs (M := M) (sameItem st p mui iw q) := by
  unfold sameItem; acts [ribActs_getValue _ _ _ _]

theorem ribActs_fromCommon (st : Strategy) (p : PrefixId W) (mui : Option Mui) (iw : Bool)
    {walk : Prog (Rib M W) (List (FatalResult (Option (PrefixRecord M W))))} (hw : RibActs walk) :
    RibActs (ribFromCommon st p mui iw walk) := by
  unfold ribFromCommon
  acts [ribActs_contains _ _, ribActs_getValue _ _ _ _, hw]

theorem ribActs_moreFrom (st : Strategy) (fuel : Nat) (p : PrefixId W) (mui : Option Mui)
    (iw : Bool) : RibActs (M := M) (ribMoreSpecificsFrom st fuel p mui iw) := by
  unfold ribMoreSpecificsFrom
  acts [ribActs_fromCommon _ _ _ _ (ribActs_eachMore (ribActs_sameItem _ _ _ _) _ _)]

theorem ribActs_lessFrom (st : Strategy) (p : PrefixId W) (mui : Option Mui) (iw : Bool) :
    RibActs (M := M) (ribLessSpecificsFrom st p mui iw) := by
  unfold ribLessSpecificsFrom
  acts [ribActs_fromCommon _ _ _ _ (ribActs_eachLess (ribActs_sameItem _ _ _ _) _)]

theorem ribActs_persistPrefixesIter (st : Strategy) :
    RibActs (M := M) (W := W) (ribPersistPrefixesIter st) := by
  unfold ribPersistPrefixesIter
  acts [ribActs_readLsm (lsmPrefixesIter W)]

omit [Meta M] in
theorem ribActs_bestPath (p : PrefixId W) : RibActs (M := M) (ribBestPath p) := by
  have h1 : ∀ a : Addr, RibActs (onRecs (readAt a fun e : StoredPrefix M W => e.ps.val)) :=
    fun a => (recActs_readPs a PsCell.val).rib
  have h2 : ∀ (a : Addr) (m : Mui), RibActs (onRecs (readAt a fun e : StoredPrefix M W =>
      getRecordForMui e.recs m false)) :=
    fun a m => (recActs_readRecs a fun v => getRecordForMui v m false).rib
  unfold ribBestPath
  acts [(recActs_retrievePrefix _).rib, h1 _, h2 _ _]

omit [Meta M] in
theorem ribActs_isPsOutdated (p : PrefixId W) : RibActs (M := M) (ribIsPsOutdated p) := by
  have h : ∀ a : Addr, RibActs (onRecs (isPsOutdatedAt (M := M) (W := W) a)) :=
    fun a => (recActs_readPs a PsCell.tag).rib
  unfold ribIsPsOutdated
  acts [(recActs_retrievePrefix _).rib, h _]

omit [Meta M] in
theorem ribActs_prefixesCountForLen (l : Nat) :
    RibActs (M := M) (W := W) (ribPrefixesCountForLen l) := by
  unfold ribPrefixesCountForLen
  split
  · exact ribActs_read fun _ => rfl
  · exact acts_pure _

omit [Meta M] in
theorem ribActs_sumCounters {get : Rib M W → Nat → Nat} (h : ∀ r l, get r l = get r.rest l)
    (ls : List Nat) : RibActs (sumCounters get ls) := by
  induction ls with
  | nil => exact acts_pure _
  | cons l ls ih =>
    have hl : RibActs (Prog.read fun r => get r l) := ribActs_read fun r => h r l
    unfold sumCounters
    acts [hl, ih]

omit [Meta M] in
theorem ribActs_prefixesCount : RibActs (M := M) (W := W) ribPrefixesCount := by
  have h1 := ribActs_sumCounters (M := M) (W := W) (get := fun r => r.cht.prefixes)
    (fun _ _ => rfl) (List.range 129)
  have h2 := ribActs_sumCounters (M := M) (W := W) (get := fun r => r.prefixes)
    (fun _ _ => rfl) (List.range 129)
  unfold ribPrefixesCount
  acts [h1, h2]

omit [Meta M] in
theorem ribActs_routesCount : RibActs (M := M) (W := W) ribRoutesCount := by
  have h1 : RibActs (Prog.read fun r : Rib M W => r.cht.routesCount) := ribActs_read fun _ => rfl
  have h2 : RibActs (Prog.read fun r : Rib M W => r.routes) := ribActs_read fun _ => rfl
  unfold ribRoutesCount
  acts [h1, h2]

/-- Every action of every call is a critical section or needs no lock. -/
theorem call_acts (st : Strategy) (F fuel : Nat) (c : Call M W) : RibActs (c.prog st F fuel) := by
  cases c with
  | insert p r tbi => exact ribActs_insert ..
  | withdrawFor p m t => exact ribActs_withdrawFor ..
  | activateFor p m t => exact ribActs_activateFor ..
  | withdraw m => exact (treeActs_markWithdrawn _ _).rib
  | activate m => exact (treeActs_markActive _ _).rib
  | calcBest p tbi => exact ribActs_calcBest ..
  | contains p mui => exact ribActs_contains ..
  | getRecords p mui iw => exact ribActs_getValue ..
  | matchPrefix p o => exact ribActs_matchPrefix ..
  | moreFrom p mui iw => exact ribActs_moreFrom ..
  | lessFrom p mui iw => exact ribActs_lessFrom ..
  | moreIter p mui iw => exact ribActs_moreIter ..
  | lessIter p mui iw => exact ribActs_lessIter ..
  | prefixesIter => exact ribActs_eachMore (ribActs_pfxItem _) _ _
  | persistPrefixesIter => exact ribActs_persistPrefixesIter ..
  | recordsForMui m iw => exact ribActs_recordsForMui ..
  | bestPath p => exact ribActs_bestPath ..
  | isPsOutdated p => exact ribActs_isPsOutdated ..
  | muiIsWithdrawn m => exact ribActs_muiIsWithdrawn ..
  | isMuiActive m => exact ribActs_isMuiActive ..
  | prefixesCount => exact ribActs_prefixesCount
  | routesCount => exact ribActs_routesCount
  | prefixesCountForLen l => exact ribActs_prefixesCountForLen ..
  | nodesCount => exact ribActs_read fun _ => rfl

end
end Rotonda
