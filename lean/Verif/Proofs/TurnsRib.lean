import Verif.Proofs.Turns

/-!
# Counting the actions of the calls of the store
-/

namespace Rotonda

open Prog Spec

variable {M : Type} {W : Nat}

/-! ## Setting the bit of a prefix -/

theorem bounded_setPrefixExistsLoop [hW : Fam W] {F : Nat} {p : PrefixId W} (hp : p.Clean) {m : Mui}
    (fuel : Nat) : ∀ (start : Nat) (cur : NodeId W), Anc cur p → cur.len = start → start < p.len →
    (setPrefixExistsLoop F p m fuel start cur).Bounded NodesOk (fun _ => True)
      ((strides p.len - start / 4) * (6 * levels (nodeLen p.len) + F + 7)) := by
  have hpW := hp.1
  have hw := hW.width
  induction fuel with
  | zero => intros; trivial
  | succ fuel ih =>
    intro start cur hanc hcur hlt
    have h4 : 4 ∣ start := hcur ▸ hanc.2.1
    unfold setPrefixExistsLoop
    dsimp only
    split
    · trivial
    generalize hk : (if p.len < start + 4 then 4 + p.len - (start + 4) else 4) = k
    have hk1 : 1 ≤ k ∧ k ≤ 4 ∧ start + k ≤ W ∧ (start + 4 < p.len → k = 4) := by
      rw [← hk]; split <;> omega
    rw [intoBitSpan_eq hk1.1 hk1.2.1 hk1.2.2.1, some_bind]
    generalize hH : levels (nodeLen p.len) = H
    obtain ⟨j, hj⟩ : ∃ j, strides p.len - start / 4 = j + 1 :=
      ⟨strides p.len - start / 4 - 1, by unfold strides; omega⟩
    have hj' : start + 4 < p.len → j = strides p.len - (start + 4) / 4 := by
      intro _; omega
    rw [hj, Nat.succ_mul]
    have hle : levels cur.len ≤ H := by
      rw [← hH]
      refine levels_mono ?_
      unfold nodeLen; omega
    refine Bounded.then (n := 3 * H + 1) (m := F + 4 + (3 * H + 2 + j * (6 * H + F + 7)))
      (Q := fun _ => True) ?_ (by omega) fun o _ => ?_
    · exact Bounded.zoom (L := Tree.slotsL) (I' := ChainInv (E := StoredNode W) (nodeLayout W))
        (fun (s : Tree W) (hs : NodesOk s) => hs)
        ((bounded_retrieveNodeMut (hanc.ok hp)).le (by omega))
    cases o with
    | none => trivial
    | some node =>
      refine Bounded.bind (Bounded.zoom (L := Tree.slotsL)
        (I' := ChainInv (E := StoredNode W) (nodeLayout W))
        (fun (s : Tree W) (hs : NodesOk s) => hs) bounded_eval) fun x hx => ?_
      have next : ∀ id : NodeId W, start + 4 < p.len → Anc id p → id.len = start + 4 →
          (setPrefixExistsLoop F p m fuel (start + 4) id).Bounded NodesOk (fun _ => True)
            (j * (6 * H + F + 7)) := by
        intro id hl ha hi
        have := ih (start + 4) id ha hi hl
        rwa [hH, ← hj' hl] at this
      have anc4 : start + 4 < p.len → Anc (NodeId.newCleaned p.bits (start + 4)) p := fun hl =>
        ⟨by simp only [NodeId.newCleaned]; omega, by simp only [NodeId.newCleaned]; omega, rfl⟩
      cases x with
      | newNode ptr pfx =>
        obtain ⟨hl, rfl, rfl⟩ := hx
        have hl' : start + 4 < p.len := by have := of_decide_eq_false hl; omega
        have hk4 := hk1.2.2.2 hl'
        subst hk4
        have hanc4 := anc4 hl'
        have hle4 : levels (start + 4) ≤ H := by
          rw [← hH]
          refine levels_mono ?_
          unfold nodeLen; omega
        refine Bounded.then (n := 3 * H + 2) (m := j * (6 * H + F + 7))
          ((bounded_storeNode (hanc4.ok hp)).le (by simp only [NodeId.newCleaned]; omega)) le_rfl
          fun ok hok => ?_
        subst hok
        exact next _ hl' hanc4 rfl
      | existingNode id =>
        obtain ⟨hl, rfl⟩ := hx
        have hl' : start + 4 < p.len := by have := of_decide_eq_false hl; omega
        exact (next _ hl' (anc4 hl') rfl).le (by omega)
      | newPrefix => trivial
      | existingPrefix => trivial

theorem bounded_setPrefixExists [hW : Fam W] {F : Nat} {p : PrefixId W} (hp : p.Clean) {m : Mui} :
    (setPrefixExists F p m).Bounded NodesOk (fun _ => True) (walkTurns F p.len) := by
  unfold setPrefixExists walkTurns
  split
  · refine Bounded.then (n := 1) (m := 5) bounded_atomic le_rfl fun ex _ => ?_
    refine Bounded.then (n := 5) (m := 0) (Q := fun _ => True) ?_ le_rfl fun ok _ => ?_
    · unfold updateDefaultRoute
      refine Bounded.then (n := 4) (m := 1) (Q := fun _ => True) ?_ le_rfl fun o _ => ?_
      · exact Bounded.zoom (L := Tree.slotsL) (I' := ChainInv (E := StoredNode W) (nodeLayout W))
          (fun (s : Tree W) (hs : NodesOk s) => hs)
          ((bounded_retrieveNodeMut ok_root).le (by show 3 * levels 0 + 1 ≤ 4; decide))
      · cases o with
        | none => trivial
        | some r => exact Bounded.then (m := 0) bounded_atomic le_rfl fun _ _ => trivial
    · trivial
  · rename_i h0
    exact bounded_setPrefixExistsLoop hp _ 0 _ (anc_root (by omega)) rfl (by omega)

/-! ## The prefix table -/

theorem bounded_findPrefixLoop [Fam W] {id : PrefixId W} (hok : id.Clean) {lim : Nat}
    (fuel : Nat) : ∀ n size, ValidLevel id.len n → hIdx id n < size →
    (findPrefixLoop (M := M) id lim fuel n (bucketAt (pfxLayout W) id n size)).Bounded
      (ChainInv (pfxLayout W)) (fun _ => True) (levels id.len - n) := by
  induction fuel with
  | zero => intros; trivial
  | succ k ih =>
    intro n size hv hsz
    have hlt := level_lt hv
    unfold findPrefixLoop
    rw [show hashId id n = some (hIdx id n) from hashId_eq hok hv, some_bind]
    refine Bounded.then (n := 1) (m := levels id.len - (n + 1))
      (bounded_sliceGet (C := pfxLayout W) (E := StoredPrefix M W) hok hv hsz)
      (by omega) fun o ho => ?_
    cases o with
    | none => simp only; split <;> trivial
    | some r =>
      simp only
      split
      · split <;> trivial
      · rename_i hne
        obtain ⟨hv', hsz'⟩ := ho r rfl fun h => hne h.symm
        rw [bucketAt_child]
        exact ih _ _ hv' hsz'

theorem bounded_retrievePrefix [Fam W] {p : PrefixId W} (hp : p.Clean) :
    (retrievePrefix (M := M) p).Bounded (ChainInv (pfxLayout W)) (fun _ => True) (levels p.len) := by
  unfold retrievePrefix
  rw [prefixRoot_eq hp]
  exact bounded_findPrefixLoop hp _ _ _ (.inl rfl) (root_fits hp)

theorem bounded_getRecordsForPrefix [Fam W] {p : PrefixId W} (hp : p.Clean) {mui : Option Mui}
    {iw : Bool} {bmin : Mui → Bool} :
    (getRecordsForPrefix (M := M) p mui iw bmin).Bounded (ChainInv (pfxLayout W)) (fun _ => True)
      (levels p.len + 1) := by
  unfold getRecordsForPrefix
  rw [prefixRoot_eq hp, some_bind]
  refine Bounded.then (n := levels p.len) (m := 1)
    (bounded_findPrefixLoop hp _ _ _ (.inl rfl) (root_fits hp)) le_rfl fun o _ => ?_
  cases o with
  | none => trivial
  | some r => exact bounded_readAt

theorem bounded_retrievePrefixMutLoop [Fam W] {id : PrefixId W} (hok : id.Clean)
    (fuel : Nat) : ∀ n size, ValidLevel id.len n → hIdx id n < size →
    (retrievePrefixMutLoop (M := M) id fuel n (bucketAt (pfxLayout W) id n size)).Bounded
      (ChainInv (pfxLayout W)) (fun _ => True) (3 * (levels id.len - n)) := by
  induction fuel with
  | zero => intros; trivial
  | succ k ih =>
    intro n size hv hsz
    have hlt := level_lt hv
    have jp : ∀ (sp : Ref W) (found : Bool), Onward id n sp →
        (if id = sp.id then Prog.ret (sp, found)
        else retrievePrefixMutLoop id k (n + 1)
            ((bucketAt (pfxLayout W) id n size).child (hIdx id n) sp.next) :
          Prog (PSlots M W) (Ref W × Bool)).Bounded
          (ChainInv (pfxLayout W)) (fun _ => True) (3 * (levels id.len - (n + 1))) := by
      intro sp found ho
      split
      · trivial
      · rename_i hne
        obtain ⟨hv', hsz'⟩ := ho fun h => hne h.symm
        rw [bucketAt_child]
        exact ih _ _ hv' hsz'
    unfold retrievePrefixMutLoop
    rw [show hashId id n = some (hIdx id n) from hashId_eq hok hv, some_bind]
    refine Bounded.then (n := 1) (m := 2 + 3 * (levels id.len - (n + 1)))
      (bounded_sliceGet (C := pfxLayout W) (E := StoredPrefix M W) hok hv hsz) (by omega) fun o ho => ?_
    cases o with
    | some r => exact (jp r true (ho r rfl)).le (by omega)
    | none =>
      show Bounded _ _ (Prog.ofOption (nodesetSize id.len (n + 1)) >>= fun nextLevel =>
        sliceGetOrInit (bucketAt (pfxLayout W) id n size) (hIdx id n)
          (StoredPrefix.new (M := M) id nextLevel) >>= _) _
      have hnl := nsz_of hok hv
      refine Bounded.then (n := 0) (Q := fun nl => nl = lvlBits id.len (n + 1))
        (bounded_ofOption fun a ha => by rw [hnl] at ha; cases ha; rfl) (Nat.zero_add _).le fun nl hnl' => ?_
      subst hnl'
      refine Bounded.bind (bounded_sliceGetOrInit (E := StoredPrefix M W) (C := pfxLayout W)
        (e := StoredPrefix.new id (lvlBits id.len (n + 1))) hok hv hsz) fun x hx => ?_
      exact jp x.1 false hx

theorem bounded_retrievePrefixMut [Fam W] {p : PrefixId W} (hp : p.Clean) :
    (retrievePrefixMut (M := M) p).Bounded (ChainInv (pfxLayout W)) (fun _ => True)
      (3 * levels p.len) := by
  unfold retrievePrefixMut
  rw [prefixRoot_eq hp]
  exact bounded_retrievePrefixMutLoop hp _ _ _ (.inl rfl) (root_fits hp)

theorem bounded_setPathSelections {I : PSlots M W → Prop} {a : Addr} {ps : Option Mui × Option Mui} :
    (setPathSelections (M := M) (W := W) a ps).Bounded I (fun _ => True) 2 := by
  unfold setPathSelections
  refine Bounded.then (n := 1) (m := 1) bounded_readAt le_rfl fun cur _ => ?_
  split
  · trivial
  · exact bounded_accessAt

theorem bounded_calculateAndStore [Meta M] {I : PSlots M W → Prop} {a : Addr} {tbi : Meta.TBI M} :
    (calculateAndStore (M := M) (W := W) a tbi).Bounded I (fun _ => True) 3 := by
  unfold calculateAndStore
  refine Bounded.then (n := 1) (m := 2) bounded_readAt le_rfl fun cur _ => ?_
  refine Bounded.then (n := 2) (m := 0) bounded_setPathSelections le_rfl fun o _ => ?_
  cases o <;> trivial

/-- The invariant of the prefix table. -/
def RecsOk (t : PCht M W) : Prop := ChainInv (E := StoredPrefix M W) (pfxLayout W) t.slots

theorem bounded_pchtUpsert [Meta M] [Fam W] {p : PrefixId W} (hp : p.Clean) {r : Record M}
    {upd : Option (Meta.TBI M)} :
    (pchtUpsert p r upd).Bounded RecsOk (fun _ => True) (3 * levels p.len + 6) := by
  unfold pchtUpsert
  refine Bounded.then (n := 3 * levels p.len) (m := 6) (Q := fun _ => True)
    (Bounded.zoom (L := PCht.slotsL) (I' := ChainInv (E := StoredPrefix M W) (pfxLayout W))
      (fun (s : PCht M W) (hs : RecsOk s) => hs) (bounded_retrievePrefixMut hp)) le_rfl fun x _ => ?_
  obtain ⟨sp, found⟩ := x
  have one : ∀ {ρ : Type} {f : StoredPrefix M W → ρ × StoredPrefix M W},
      ((accessAt sp.addr f).zoom PCht.slotsL).Bounded RecsOk (fun _ => True) 1 := fun {ρ f} =>
    Bounded.zoom (L := PCht.slotsL) (I' := fun _ => True) (fun _ _ => trivial) bounded_accessAt
  simp only
  split
  · refine Bounded.then (n := 1) (m := 5) one le_rfl fun old _ => ?_
    cases old with
    | some v => trivial
    | none =>
      refine Bounded.then (n := 1) (m := 4) bounded_atomic le_rfl fun _ _ => ?_
      exact Bounded.then (n := 1) (m := 0) bounded_atomic (by omega) fun _ _ => trivial
  · refine Bounded.then (n := 1) (m := 5) one le_rfl fun _ _ => ?_
    refine Bounded.then (n := 1) (m := 4) one le_rfl fun old _ => ?_
    have fin : ∀ sel : Except StoreError (Option Mui × Option Mui),
        (match sel with
        | .error e => Prog.ret (.error e)
        | .ok _ => Prog.ret (.ok (⟨false, true, (old.map Prod.snd).getD 1⟩, old.map Prod.fst)) :
          Prog (PCht M W) (Except StoreError (UpsertReport × Option (MMV M)))).Bounded RecsOk
          (fun _ => True) 0 := by
      intro sel
      cases sel <;> trivial
    cases upd with
    | none =>
      cases old with
      | none => exact Bounded.then (n := 1) (m := 3) bounded_atomic le_rfl fun _ _ => trivial
      | some v => trivial
    | some tbi =>
      have calc3 : ((calculateAndStore sp.addr tbi).zoom PCht.slotsL : Prog (PCht M W) _).Bounded
          RecsOk (fun _ => True) 3 :=
        Bounded.zoom (L := PCht.slotsL) (I' := fun _ => True) (fun _ _ => trivial)
          bounded_calculateAndStore
      cases old with
      | none =>
        refine Bounded.then (n := 1) (m := 3) bounded_atomic le_rfl fun _ _ => ?_
        exact Bounded.then (n := 3) (m := 0) calc3 le_rfl fun sel _ => fin sel
      | some v => exact Bounded.then (n := 3) (m := 0) calc3 (by omega) fun sel _ => fin sel

/-! ## The store -/

/-- The invariants of both tables. -/
def TablesOk (s : Rib M W) : Prop := NodesOk s.tree ∧ RecsOk s.cht

variable {α : Type} {Q : α → Prop} {n : Nat}

theorem bounded_onTree {p : Prog (Tree W) α} (h : p.Bounded NodesOk Q n) :
    (p.zoom Rib.treeL : Prog (Rib M W) α).Bounded TablesOk Q n :=
  Bounded.zoom (L := Rib.treeL) (fun (s : Rib M W) (hs : TablesOk s) => hs.1) h

theorem bounded_onCht {p : Prog (PCht M W) α} (h : p.Bounded RecsOk Q n) :
    (p.zoom Rib.chtL : Prog (Rib M W) α).Bounded TablesOk Q n :=
  Bounded.zoom (L := Rib.chtL) (fun (s : Rib M W) (hs : TablesOk s) => hs.2) h

theorem bounded_onNodes {p : Prog (NSlots W) α} (h : p.Bounded (ChainInv (nodeLayout W)) Q n) :
    (onNodes p : Prog (Rib M W) α).Bounded TablesOk Q n :=
  bounded_onTree (Bounded.zoom (L := Tree.slotsL) (fun (s : Tree W) (hs : NodesOk s) => hs) h)

theorem bounded_onRecs {p : Prog (PSlots M W) α} (h : p.Bounded (ChainInv (pfxLayout W)) Q n) :
    (onRecs p : Prog (Rib M W) α).Bounded TablesOk Q n :=
  bounded_onCht (Bounded.zoom (L := PCht.slotsL) (fun (s : PCht M W) (hs : RecsOk s) => hs) h)

theorem bounded_onLsm {f : Lsm → Lsm} : (onLsm f : Prog (Rib M W) Unit).Bounded TablesOk (fun _ => True) 1 :=
  bounded_atomic

theorem bounded_ribUpsert [Meta M] [Fam W] {st : Strategy} {F : Nat} {p : PrefixId W} (hp : p.Clean)
    {r : Record M} {upd : Option (Meta.TBI M)} :
    (ribUpsert st F p r upd).Bounded TablesOk (fun _ => True)
      ((walks st - 1) * walkTurns F p.len + upsertTurns st p.len - 2) := by
  have ups := bounded_onCht (M := M) (bounded_pchtUpsert (upd := upd) hp (r := r))
  cases st with
  | writeAhead =>
    refine Bounded.then (n := 1) (m := 3 * levels p.len + 6) bounded_onLsm
      (by simp only [walks, upsertTurns]; omega) fun _ _ => ?_
    refine Bounded.then (m := 0) ups le_rfl fun x _ => ?_
    obtain e | ⟨x, y⟩ := x <;> trivial
  | persistHistory =>
    refine Bounded.then (m := 1) ups (by simp only [walks, upsertTurns]; omega) fun x _ => ?_
    obtain e | ⟨x, y⟩ := x
    · trivial
    · cases y with
      | none => trivial
      | some old => exact Bounded.then (n := 1) (m := 0) bounded_onLsm le_rfl fun _ _ => trivial
  | memoryOnly =>
    refine Bounded.then (m := 0) ups (by simp only [walks, upsertTurns]; omega) fun x _ => ?_
    obtain e | ⟨x, y⟩ := x <;> trivial
  | persistOnly =>
    refine Bounded.then (m := 1) (bounded_onTree (bounded_setPrefixExists hp))
      (by simp only [walks, upsertTurns]; omega) fun x _ => ?_
    obtain e | ex := x
    · trivial
    · exact Bounded.then (n := 1) (m := 0) bounded_onLsm le_rfl fun _ _ => trivial

theorem bounded_ribInsert [Meta M] [Fam W] {st : Strategy} {F : Nat} {p : PrefixId W} (hp : p.Clean)
    {r : Record M} {upd : Option (Meta.TBI M)} :
    (ribInsert st F p r upd).Bounded TablesOk (fun _ => True)
      (walks st * walkTurns F p.len + upsertTurns st p.len) := by
  unfold ribInsert
  have hu : 3 ≤ upsertTurns st p.len := by cases st <;> simp only [upsertTurns] <;> omega
  have hw : walks st * walkTurns F p.len = walkTurns F p.len + (walks st - 1) * walkTurns F p.len := by
    cases st <;> simp only [walks] <;> omega
  refine Bounded.then (m := (walks st - 1) * walkTurns F p.len + upsertTurns st p.len)
    (bounded_onTree (bounded_setPrefixExists hp)) (by omega) fun x _ => ?_
  obtain e | ex := x
  · trivial
  · refine Bounded.then (m := 2) (bounded_ribUpsert hp) (by omega) fun y _ => ?_
    obtain e | rep := y
    · trivial
    · have tail : (if ex = false then Rib.incPrefixes p.len >>= fun _ =>
          Prog.ret (.ok { rep with prefixNew := true }) else Prog.ret (.ok rep) :
          Prog (Rib M W) (Except StoreError UpsertReport)).Bounded TablesOk (fun _ => True) 1 := by
        split
        · exact Bounded.then (n := 1) (m := 0) bounded_atomic le_rfl fun _ _ => trivial
        · trivial
      simp only
      split
      · exact Bounded.then (n := 1) (m := 1) bounded_atomic le_rfl fun _ _ => tail
      · exact tail.le (by omega)

theorem bounded_ribContains [Fam W] {p : PrefixId W} (hp : p.Clean) {mui : Option Mui} :
    (ribContains p mui : Prog (Rib M W) Bool).Bounded TablesOk (fun _ => True)
      (if mui = none then existsTurns p.len else 2 * levels (nodeLen p.len) + 1) := by
  cases mui with
  | none => exact bounded_onNodes (bounded_prefixExistsN hp)
  | some m => exact bounded_onNodes (bounded_prefixExistsForMuiN hp)

theorem bounded_ribMarkMem [Fam W] {p : PrefixId W} (hp : p.Clean) {m : Mui} {t : LTime}
    {rs : RouteStatus} : (ribMarkMem p m t rs : Prog (Rib M W) _).Bounded TablesOk (fun _ => True)
      (3 * levels p.len + 1) := by
  unfold ribMarkMem
  refine Bounded.then (m := 1) (bounded_onRecs (bounded_retrievePrefixMut hp)) le_rfl fun x _ => ?_
  obtain ⟨sp, found⟩ := x
  simp only
  split
  · trivial
  · exact Bounded.then (n := 1) (m := 0) (bounded_onRecs bounded_accessAt) le_rfl fun _ _ => trivial

theorem bounded_marker {sp : Ref W} {p : PrefixId W} {m : Mui} {t : LTime} :
    (ribPersistMarker sp p m t : Prog (Rib M W) _).Bounded TablesOk (fun _ => True) 2 := by
  unfold ribPersistMarker
  refine Bounded.then (n := 1) (m := 1) (bounded_onRecs bounded_readAt) le_rfl fun o _ => ?_
  cases o with
  | none => trivial
  | some _ => exact bounded_onLsm

theorem bounded_markFor [Fam W] {st : Strategy} (hst : st ≠ .persistOnly) {p : PrefixId W} (hp : p.Clean)
    {m : Mui} {t : LTime} :
    (ribMarkWithdrawnForPrefix st p m t : Prog (Rib M W) _).Bounded TablesOk (fun _ => True)
      (3 * levels p.len + 3) ∧
    (ribMarkActiveForPrefix st p m t : Prog (Rib M W) _).Bounded TablesOk (fun _ => True)
      (3 * levels p.len + 3) := by
  constructor
  · cases st with
    | persistOnly => exact absurd rfl hst
    | persistHistory =>
      refine Bounded.then (m := 2) (bounded_ribMarkMem hp) le_rfl fun o _ => ?_
      cases o with
      | none => trivial
      | some sp => exact Bounded.then (m := 0) bounded_marker le_rfl fun _ _ => trivial
    | writeAhead | memoryOnly =>
      refine Bounded.then (m := 0) (bounded_ribMarkMem hp) (by omega) fun o _ => ?_
      cases o <;> trivial
  · cases st with
    | persistOnly => exact absurd rfl hst
    | persistHistory =>
      refine Bounded.then (m := 2) (bounded_ribMarkMem hp) le_rfl fun o _ => ?_
      cases o with
      | none => trivial
      | some sp => exact Bounded.then (m := 0) bounded_marker le_rfl fun _ _ => trivial
    | writeAhead | memoryOnly =>
      refine Bounded.then (m := 0) (bounded_ribMarkMem hp) (by omega) fun o _ => ?_
      cases o <;> trivial

theorem bounded_activatePersisted {p : PrefixId W} {m : Mui} {t : LTime} :
    (ribMarkActiveForPrefix .persistOnly p m t : Prog (Rib M W) _).Bounded TablesOk (fun _ => True) 2 := by
  refine Bounded.then (n := 1) (m := 1) bounded_read' le_rfl fun o _ => ?_
  cases o with
  | none => trivial
  | some b =>
    refine Bounded.then (n := 1) (m := 0) (Q := fun _ => True) ?_ le_rfl fun ok _ => ?_
    · refine Bounded.then (n := 1) (m := 0) bounded_atomic le_rfl fun ok _ => ?_
      cases ok <;> trivial
    · cases ok <;> trivial

theorem bounded_ribGetValue [Meta M] [Fam W] {st : Strategy} {p : PrefixId W} (hp : p.Clean)
    {mui : Option Mui} {iw : Bool} :
    (ribGetValue st p mui iw : Prog (Rib M W) _).Bounded TablesOk (fun _ => True)
      (recordsTurns st p.len) := by
  have mem : ∀ bmin, (onRecs (getRecordsForPrefix p mui iw bmin) >>= fun rs => Prog.ret (.ok rs) :
      Prog (Rib M W) (FatalResult (Option (List (Record M))))).Bounded TablesOk (fun _ => True)
      (levels p.len + 1) := fun bmin =>
    Bounded.then (m := 0) (bounded_onRecs (bounded_getRecordsForPrefix hp)) le_rfl fun _ _ => trivial
  have bm : (withdrawnMuis.zoom Rib.treeL : Prog (Rib M W) _).Bounded TablesOk (fun _ => True) 1 :=
    bounded_onTree bounded_read'
  cases st with
  | persistOnly =>
    refine Bounded.then (m := 1) bm le_rfl fun bmin _ => ?_
    refine Bounded.then (n := 1) (m := 0) bounded_read' le_rfl fun res _ => ?_
    refine Bounded.then (n := 0) (m := 0) (Q := fun _ => True) (bounded_ofOption fun _ _ => trivial) le_rfl
      fun l _ => ?_
    cases l with
    | none => trivial
    | some l => simp only; split <;> trivial
  | writeAhead | persistHistory | memoryOnly =>
    exact Bounded.then (m := levels p.len + 1) bm (by simp only [recordsTurns]; omega) fun bmin _ => mem bmin

/-! ## Less specifics -/

theorem onNodes_bind' {β : Type} (p : Prog (NSlots W) α) (k : α → Prog (NSlots W) β) :
    (onNodes (p >>= k) : Prog (Rib M W) β) = onNodes p >>= fun a => onNodes (k a) := by
  unfold onNodes
  rw [zoom_bind, zoom_bind]

/-- Searching for the next less specific prefix and going on with it. -/
theorem bounded_lsFind_bind [Fam W] {β : Type} {R : β → Prop} {p : PrefixId W} {l c : Nat}
    {k : Option Nat → Prog (Rib M W) β} (hnone : (k none).Bounded TablesOk R 0) :
    ∀ lvl, lvl ≤ W → lvl ≤ l →
    (∀ n, 1 ≤ n → n ≤ lvl → (k (some n)).Bounded TablesOk R (c + (n - 1) * (existsTurns l + c))) →
    (onNodes (lsFind p lvl) >>= k).Bounded TablesOk R (lvl * (existsTurns l + c))
  | 0, _, _, _ => by
    unfold lsFind
    exact hnone.le (by omega)
  | lvl + 1, hW, hl, hk => by
    unfold lsFind
    rw [onNodes_bind', bind_assoc']
    refine Bounded.then (n := existsTurns l) (m := c + lvl * (existsTurns l + c))
      (bounded_onNodes ((bounded_prefixExistsN (truncateTo_clean p hW)).le (existsTurns_mono hl)))
      (by rw [Nat.succ_mul]; omega) fun b _ => ?_
    cases b with
    | true => exact hk (lvl + 1) (by omega) (by omega)
    | false =>
      exact (bounded_lsFind_bind hnone lvl (by omega) (by omega)
        fun n h1 h2 => hk n h1 (by omega)).le (by omega)

theorem bounded_lsCollect [Fam W] {p : PrefixId W} {l : Nat} (fuel : Nat) : ∀ cur,
    cur ≤ W → cur ≤ l →
    (onNodes (lsCollect p fuel cur) : Prog (Rib M W) _).Bounded TablesOk
      (fun ps => ps.length ≤ cur - 1 ∧ ∀ q ∈ ps, q.Clean ∧ q.len ≤ l) ((cur - 1) * existsTurns l) := by
  induction fuel with
  | zero => intros; trivial
  | succ fuel ih =>
    intro cur hW hl
    unfold lsCollect
    rw [onNodes_bind']
    have := bounded_lsFind_bind (M := M) (p := p) (l := l) (c := 0)
      (R := fun ps : List (PrefixId W) => ps.length ≤ cur - 1 ∧ ∀ q ∈ ps, q.Clean ∧ q.len ≤ l)
      (k := fun o => onNodes (match o with
        | none => Prog.ret []
        | some lvl => lsCollect p fuel lvl >>= fun rest => Prog.ret (p.truncateTo lvl :: rest)))
      ⟨Nat.zero_le _, fun q hq => by cases hq⟩ (cur - 1) (by omega) (by omega) fun n h1 h2 => by
        rw [onNodes_bind']
        refine Bounded.then (m := 0) (ih n (by omega) (by omega))
          (by simp only [Nat.add_zero, Nat.zero_add]; exact le_rfl) fun ps hps => ?_
        refine ⟨?_, fun q hq => ?_⟩
        · have := hps.1
          simp only [List.length_cons]; omega
        · rcases List.mem_cons.1 hq with rfl | hq
          · exact ⟨truncateTo_clean p (by omega), by simp only [PrefixId.truncateTo]; omega⟩
          · exact hps.2 q hq
    exact this

theorem bounded_filterValues [Meta M] [Fam W] {st : Strategy} {mui : Option Mui} {iw : Bool} {l : Nat} :
    ∀ ps : List (PrefixId W), (∀ q ∈ ps, q.Clean ∧ q.len ≤ l) →
    (filterValues st mui iw ps : Prog (Rib M W) _).Bounded TablesOk (fun _ => True)
      (ps.length * recordsTurns st l)
  | [], _ => by unfold filterValues; trivial
  | p :: ps, h => by
    unfold filterValues
    obtain ⟨h1, h2⟩ := h p List.mem_cons_self
    refine Bounded.then (n := recordsTurns st l) (m := ps.length * recordsTurns st l)
      ((bounded_ribGetValue h1).le (recordsTurns_mono h2))
      (by rw [List.length_cons, Nat.succ_mul]; omega) fun v _ => ?_
    refine Bounded.then (n := 0) (Q := fun _ => True) (bounded_ofOption fun _ _ => trivial)
      (Nat.zero_add _).le fun pfx _ => ?_
    refine Bounded.then (m := 0) (bounded_filterValues ps fun q hq => h q (List.mem_cons_of_mem _ hq))
      le_rfl fun rest _ => ?_
    split <;> trivial

theorem bounded_eachLess [Fam W] {β : Type} {p : PrefixId W} (hp : p.Clean) {c : Nat}
    {body : PrefixId W → Prog (Rib M W) β}
    (hb : ∀ q : PrefixId W, q.Clean → q.len ≤ p.len → (body q).Bounded TablesOk (fun _ => True) c) :
    (eachLess p body).Bounded TablesOk (fun _ => True) ((p.len - 1) * (existsTurns p.len + c)) := by
  have loop : ∀ fuel cur, cur ≤ p.len →
      (lazily (M := M) (fun _ => lsNext p) body fuel cur).Bounded TablesOk (fun _ => True)
        ((cur - 1) * (existsTurns p.len + c)) := by
    intro fuel
    induction fuel with
    | zero => intros; trivial
    | succ fuel ih =>
      intro cur hc
      have hW := hp.1
      unfold lazily lsNext
      rw [onNodes_bind', bind_assoc']
      refine bounded_lsFind_bind (l := p.len) (c := c) ?_ (cur - 1) (by omega) (by omega) fun n h1 h2 => ?_
      · trivial
      · show Bounded _ _ (body (p.truncateTo n) >>= _) _
        refine Bounded.bind (hb _ (truncateTo_clean p (by omega))
          (by simp only [PrefixId.truncateTo]; omega)) fun b _ => ?_
        refine Bounded.then (m := 0) (ih n (by omega)) le_rfl fun _ _ => trivial
  exact loop 256 p.len le_rfl

theorem bounded_filterItem [Meta M] [Fam W] {st : Strategy} {p : PrefixId W} (hp : p.Clean)
    {mui : Option Mui} {iw : Bool} :
    (filterItem st mui iw p : Prog (Rib M W) _).Bounded TablesOk (fun _ => True)
      (recordsTurns st p.len) := by
  unfold filterItem
  refine Bounded.then (m := 0) (bounded_ribGetValue hp) le_rfl fun v _ => ?_
  refine Bounded.then (n := 0) (m := 0) (Q := fun _ => True) (bounded_ofOption fun _ _ => trivial) le_rfl
    fun pfx _ => ?_
  split <;> trivial

theorem bounded_sameItem [Meta M] [Fam W] {st : Strategy} {p q : PrefixId W} (hp : p.Clean)
    {mui : Option Mui} {iw : Bool} :
    (sameItem st p mui iw q : Prog (Rib M W) _).Bounded TablesOk (fun _ => True)
      (recordsTurns st p.len) := by
  unfold sameItem
  refine Bounded.then (m := 0) (bounded_ribGetValue hp) le_rfl fun v _ => ?_
  refine Bounded.then (n := 0) (m := 0) (Q := fun _ => True) (bounded_ofOption fun _ _ => trivial) le_rfl
    fun pfx _ => ?_
  split <;> trivial

theorem bounded_lessFrom [Meta M] [Fam W] {st : Strategy} {p : PrefixId W} (hp : p.Clean)
    {mui : Option Mui} {iw : Bool} :
    (ribLessSpecificsFrom st p mui iw : Prog (Rib M W) _).Bounded TablesOk (fun _ => True)
      ((if mui = none then existsTurns p.len else 2 * levels (nodeLen p.len) + 1) +
        recordsTurns st p.len + (p.len - 1) * (existsTurns p.len + recordsTurns st p.len)) := by
  unfold ribLessSpecificsFrom
  rw [Nat.add_assoc]
  refine Bounded.then (m := 0) (Q := fun _ => True) ?_ le_rfl fun x _ => ?_
  · unfold ribFromCommon
    refine Bounded.bind (bounded_ribContains hp) fun c _ => ?_
    have tail : ∀ pfx : Option (Prefix W), (ribGetValue st p mui iw >>= fun r =>
        (match r with
        | .error e => Prog.ret (.error e)
        | .ok r => eachLess p (sameItem st p mui iw) >>= fun l =>
          match collectFatalOption l with
          | .error e => Prog.ret (.error e)
          | .ok set => Prog.ret (.ok (pfx, r.getD [], set)) :
        Prog (Rib M W) (FatalResult (Option (Prefix W) × List (Record M) ×
          Option (List (PrefixRecord M W)))))).Bounded TablesOk (fun _ => True)
        (recordsTurns st p.len + (p.len - 1) * (existsTurns p.len + recordsTurns st p.len)) := by
      intro pfx
      refine Bounded.bind (bounded_ribGetValue hp) fun r _ => ?_
      cases r with
      | error e => trivial
      | ok r =>
        refine Bounded.then (m := 0) (bounded_eachLess hp fun q _ _ => bounded_sameItem hp) le_rfl
          fun l _ => ?_
        split <;> trivial
    cases c with
    | false =>
      refine Bounded.then (n := 0) (Q := fun _ => True) ?_ (Nat.zero_add _).le fun q _ => tail q
      exact Bounded.then (n := 0) (m := 0) (Q := fun _ => True) (bounded_ofOption fun _ _ => trivial)
        le_rfl fun q _ => trivial
    | true => exact tail none
  · split <;> trivial

theorem bounded_match [Meta M] [Fam W] {st : Strategy} {fuel : Nat} {p : PrefixId W} (hp : p.Clean)
    {o : MatchOptions} (ho : o.includeMoreSpecifics = false) :
    (ribMatchPrefix st fuel p o : Prog (Rib M W) _).Bounded TablesOk (fun _ => True)
      (p.len * existsTurns p.len + recordsTurns st p.len +
        if o.includeLessSpecifics then (p.len - 1) * (existsTurns p.len + recordsTurns st p.len)
        else 0) := by
  have hW := hp.1
  unfold ribMatchPrefix
  generalize hls : o.includeLessSpecifics = ls
  rw [ho]
  have hE := bounded_lsCollect (M := M) (p := p) 256 p.len hW le_rfl
  refine Bounded.then
    (n := p.len * existsTurns p.len + if ls then (p.len - 1) * existsTurns p.len else 0)
    (m := recordsTurns st p.len + if ls then (p.len - 1) * recordsTurns st p.len else 0)
    (Q := fun res => (∀ q, res.prefix_ = some q → q.Clean ∧ q.len ≤ p.len) ∧
      res.moreSpecifics = none ∧ (ls = false → res.lessSpecifics = none) ∧
      ∀ ps, res.lessSpecifics = some ps → ps.length ≤ p.len - 1 ∧ ∀ q ∈ ps, q.Clean ∧ q.len ≤ p.len)
    ?_ ?_ fun res hres => ?_
  · unfold treeMatchPrefix
    rw [onNodes_bind']
    refine Bounded.bind (bounded_onNodes (bounded_lmLoop (l := p.len) 256 p hp le_rfl)) fun lm hlm => ?_
    have tail : ∀ x : Option (PrefixId W) × MatchType,
        (∀ q, x.1 = some q → q.Clean ∧ q.len ≤ p.len) →
        (onNodes (optionally ls (lessSpecifics p) >>= fun lsR =>
          optionally false (moreSpecifics fuel p) >>= fun msR =>
          Prog.ret ⟨x.2, x.1, lsR, msR.map fun l => l.filter (fun q => decide (q ≠ p))⟩) :
          Prog (Rib M W) (TreeQueryResult W)).Bounded TablesOk
          (fun res => (∀ q, res.prefix_ = some q → q.Clean ∧ q.len ≤ p.len) ∧
            res.moreSpecifics = none ∧ (ls = false → res.lessSpecifics = none) ∧
            ∀ ps, res.lessSpecifics = some ps → ps.length ≤ p.len - 1 ∧
              ∀ q ∈ ps, q.Clean ∧ q.len ≤ p.len)
          (if ls then (p.len - 1) * existsTurns p.len else 0) := by
      intro x hx
      cases ls with
      | false => exact ⟨hx, rfl, fun _ => rfl, fun ps h => by cases h⟩
      | true =>
        rw [onNodes_bind']
        unfold optionally lessSpecifics
        rw [if_pos rfl, onNodes_bind', bind_assoc', if_pos rfl]
        refine Bounded.then (m := 0) hE le_rfl fun ps hps => ?_
        refine ⟨hx, rfl, fun h => (nomatch h), fun ps' h => ?_⟩
        cases h
        exact hps
    generalize o.matchType = mt
    cases mt with
    | exactMatch =>
      cases lm with
      | none => exact tail (none, .emptyMatch) fun q hq => by cases hq
      | some q =>
        by_cases e : q = p
        · simp only [if_pos e]
          exact tail (some q, .exactMatch) hlm
        · simp only [if_neg e]
          exact tail (none, .emptyMatch) fun q hq => by cases hq
    | longestMatch => exact tail (lm, .longestMatch) hlm
    | emptyMatch => exact tail (lm, .longestMatch) hlm
  · cases ls
    · simp only [Bool.false_eq_true, if_false]; omega
    · simp only [if_true, Nat.mul_add]; omega
  · obtain ⟨h1, h2, h3, h4⟩ := hres
    refine Bounded.bind (Q := fun _ => True) ?_ fun found _ => ?_
    · cases hq : res.prefix_ with
      | none => trivial
      | some q =>
        obtain ⟨c1, c2⟩ := h1 q hq
        refine Bounded.then (n := 0) (Q := fun _ => True) (bounded_ofOption fun _ _ => trivial)
          (Nat.zero_add _).le fun qp _ => ?_
        refine Bounded.then (m := 0) ((bounded_ribGetValue c1).le (recordsTurns_mono c2)) le_rfl fun v _ => ?_
        split <;> trivial
    · rw [h2]
      refine Bounded.then (n := 0) (Q := fun _ => True) trivial (Nat.zero_add _).le fun ms _ => ?_
      cases ms with
      | error e => trivial
      | ok ms =>
        refine Bounded.then (m := 0) (Q := fun _ => True) ?_ le_rfl fun x _ => ?_
        · cases hl : res.lessSpecifics with
          | none => trivial
          | some ps =>
            obtain ⟨c1, c2⟩ := h4 ps hl
            cases ls with
            | false => rw [h3 rfl] at hl; cases hl
            | true =>
              show Bounded _ _ _ ((p.len - 1) * recordsTurns st p.len)
              refine Bounded.then (m := 0) (bounded_filterValues ps c2)
                (Nat.mul_le_mul_right _ c1) fun l _ => ?_
              split <;> trivial
        · cases x <;> trivial

theorem bounded_sumCounters {get : Rib M W → Nat → Nat} : ∀ l : List Nat,
    (sumCounters get l).Bounded TablesOk (fun _ => True) l.length
  | [] => trivial
  | x :: l => by
    unfold sumCounters
    refine Bounded.then (n := 1) (m := l.length) bounded_read' (by rw [List.length_cons]; omega) fun _ _ => ?_
    exact Bounded.then (m := 0) (bounded_sumCounters l) le_rfl fun _ _ => trivial

theorem bounded_call [Meta M] [Fam W] {st : Strategy} {F fuel : Nat} {c : Call M W} {n : Nat}
    (h : c.turns st F = some n) : (c.prog st F fuel).Bounded TablesOk (fun _ => True) n := by
  cases c with
  | insert p r tbi => cases h; exact bounded_ribInsert p.clean
  | withdrawFor p m t =>
    cases st with
    | persistOnly => cases h
    | writeAhead => cases h; exact (bounded_markFor (st := .writeAhead) (by decide) p.clean).1
    | persistHistory => cases h; exact (bounded_markFor (st := .persistHistory) (by decide) p.clean).1
    | memoryOnly => cases h; exact (bounded_markFor (st := .memoryOnly) (by decide) p.clean).1
  | activateFor p m t =>
    cases st with
    | persistOnly => cases h; exact bounded_activatePersisted
    | writeAhead => cases h; exact (bounded_markFor (st := .writeAhead) (by decide) p.clean).2
    | persistHistory => cases h; exact (bounded_markFor (st := .persistHistory) (by decide) p.clean).2
    | memoryOnly => cases h; exact (bounded_markFor (st := .memoryOnly) (by decide) p.clean).2
  | withdraw m => cases h
  | activate m => cases h
  | calcBest p tbi =>
    cases h
    refine Bounded.then (m := 3) (bounded_onRecs (bounded_retrievePrefix p.clean)) le_rfl fun o _ => ?_
    cases o with
    | none => trivial
    | some sp => exact bounded_onRecs bounded_calculateAndStore
  | contains p mui =>
    have := bounded_ribContains (M := M) p.clean (mui := mui)
    cases mui <;> (cases h; exact this)
  | getRecords p mui iw => cases h; exact bounded_ribGetValue p.clean
  | matchPrefix p o =>
    cases ho : o.includeMoreSpecifics with
    | true => simp [Call.turns, ho] at h
    | false =>
      simp only [Call.turns, ho, Bool.false_eq_true, if_false, Option.some.injEq] at h
      rw [← h]
      exact bounded_match p.clean ho
  | moreFrom p mui iw => cases h
  | lessFrom p mui iw => cases h; exact bounded_lessFrom p.clean
  | moreIter p mui iw => cases h
  | lessIter p mui iw =>
    cases h
    exact Bounded.then (m := 0) (bounded_eachLess p.clean fun q hq hl =>
      (bounded_filterItem hq).le (recordsTurns_mono hl)) le_rfl fun _ _ => trivial
  | prefixesIter => cases h
  | persistPrefixesIter => cases h
  | recordsForMui m iw => cases h
  | bestPath p =>
    cases h
    refine Bounded.then (m := 2) (bounded_onRecs (bounded_retrievePrefix p.clean)) le_rfl fun o _ => ?_
    cases o with
    | none => trivial
    | some sp =>
      refine Bounded.then (n := 1) (m := 1) (bounded_onRecs bounded_readAt) le_rfl fun ps _ => ?_
      split
      · trivial
      · refine Bounded.then (n := 1) (m := 0) (bounded_onRecs bounded_readAt) le_rfl fun o _ => ?_
        cases o <;> trivial
  | isPsOutdated p =>
    cases h
    refine Bounded.then (m := 1) (bounded_onRecs (bounded_retrievePrefix p.clean)) le_rfl fun o _ => ?_
    cases o with
    | none => trivial
    | some sp => exact Bounded.then (m := 0) (bounded_onRecs bounded_readAt) le_rfl fun _ _ => trivial
  | muiIsWithdrawn m =>
    cases h
    exact Bounded.then (m := 0) (bounded_onTree bounded_read') le_rfl fun _ _ => trivial
  | isMuiActive m =>
    cases h
    exact Bounded.then (m := 0) (bounded_onTree bounded_read') le_rfl fun _ _ => trivial
  | prefixesCount =>
    cases h
    show Bounded _ _ ribPrefixesCount 258
    unfold ribPrefixesCount
    have hl : (List.range 129).length = 129 := List.length_range
    generalize List.range 129 = l at hl
    refine Bounded.then (n := l.length) (m := l.length) (bounded_sumCounters _) (by omega) fun _ _ => ?_
    exact Bounded.then (m := 0) (bounded_sumCounters _) le_rfl fun _ _ => trivial
  | routesCount =>
    cases h
    refine Bounded.then (n := 1) (m := 1) bounded_read' le_rfl fun _ _ => ?_
    exact Bounded.then (n := 1) (m := 0) bounded_read' le_rfl fun _ _ => trivial
  | prefixesCountForLen l =>
    cases h
    show Bounded _ _ (ribPrefixesCountForLen l) 1
    unfold ribPrefixesCountForLen
    split
    · exact bounded_read'
    · trivial
  | nodesCount => cases h; exact bounded_read'

end Rotonda
