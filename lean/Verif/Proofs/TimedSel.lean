import Verif.Proofs.Timed
import Verif.Proofs.PathSel
import Verif.Proofs.ReadsQueries
import Verif.Spec.ConcSel

/-!
# Path selections along a run
-/

namespace Rotonda

open Prog Spec

variable {M : Type} {W : Nat}

/-- What a selection depends on. -/
def mdsOf (rs : Recs M) : List (Mui × M) := rs.map fun kv => (kv.1, kv.2.md)

theorem bestBackup_congr [Meta M] {rs rs' : Recs M} (h : mdsOf rs = mdsOf rs') (tbi : Meta.TBI M) :
    bestBackup rs tbi = bestBackup rs' tbi := by
  have : ∀ rs : Recs M, (rs.map fun kv => (Meta.asOrderable kv.2.md tbi, kv.1)) =
      (mdsOf rs).map fun x => (Meta.asOrderable x.2 tbi, x.1) := by
    intro rs; simp [mdsOf]
  unfold bestBackup
  rw [this, this, h]

theorem mdsOf_modify (rs : Recs M) (m : Mui) (f : MMV M → MMV M) (hf : ∀ v, (f v).md = v.md) :
    mdsOf (rs.modify m f) = mdsOf rs := by
  unfold mdsOf Recs.modify
  rw [List.map_map]
  refine List.map_congr_left fun kv _ => ?_
  simp only [Function.comp_apply]
  split <;> simp [hf]

theorem mdsOf_mark (rs : Recs M) (m : Mui) (l : LTime) (st : RouteStatus) :
    mdsOf (markStatus rs m l st) = mdsOf rs := mdsOf_modify _ _ _ fun _ => rfl

/-- Nothing that matters to selections changes. -/
def PsSame (s s' : PSlots M W) : Prop :=
  (∀ a e, s a = some e → ∃ e', s' a = some e' ∧ e'.id = e.id ∧ e'.ps.val = e.ps.val ∧
    mdsOf e'.recs = mdsOf e.recs) ∧
  ∀ a e', s a = none → s' a = some e' → e'.ps.val = (none, none)

theorem PsSame.rfl' (s : PSlots M W) : PsSame s s :=
  ⟨fun _ e he => ⟨e, he, rfl, rfl, rfl⟩, fun _ _ h h' => by rw [h] at h'; cases h'⟩

theorem psSame_readOnly {α : Type} {p : Prog (PSlots M W) α} (h : p.ReadOnly) :
    p.Always PsSame := ReadOnly.always PsSame.rfl' h

theorem psSame_access {ρ : Type} {a : Addr} {f : StoredPrefix M W → ρ × StoredPrefix M W}
    (hf : ∀ e, (f e).2.id = e.id ∧ (f e).2.ps.val = e.ps.val ∧ mdsOf (f e).2.recs = mdsOf e.recs) :
    (accessAt a f).Always PsSame := by
  unfold accessAt
  refine Always.bind (always_atomic fun s => ?_) fun _ => always_ofOption _
  cases h : s a with
  | none => simpa using PsSame.rfl' s
  | some e =>
    simp only
    refine ⟨fun b e' he => ?_, fun b e' h1 h2 => ?_⟩
    · by_cases hb : b = a
      · subst hb
        rw [h] at he; cases he
        exact ⟨_, Slots.set_same _ _ _, hf e⟩
      · exact ⟨e', by rw [Slots.set_other _ _ hb]; exact he, rfl, rfl, rfl⟩
    · by_cases hb : b = a
      · subst hb; rw [h] at h1; cases h1
      · rw [Slots.set_other _ _ hb, h1] at h2; cases h2

theorem psSame_sliceGetOrInit (b : Bucket) (i : Nat) (id : PrefixId W) (n : Nat) :
    (sliceGetOrInit b i (StoredPrefix.new (M := M) id n)).Always PsSame := by
  have hcas : (casInit (b.slot i) (StoredPrefix.new (M := M) id n)).Always PsSame := by
    refine always_atomic fun s => ?_
    cases h : s (b.slot i) with
    | some e => simpa using PsSame.rfl' s
    | none =>
      simp only
      refine ⟨fun c e' he => ?_, fun c e' h1 h2 => ?_⟩
      · have hb : c ≠ b.slot i := by rintro rfl; rw [h] at he; cases he
        exact ⟨e', by rw [Slots.set_other _ _ hb]; exact he, rfl, rfl, rfl⟩
      · by_cases hb : c = b.slot i
        · subst hb; rw [Slots.set_same] at h2; cases h2; rfl
        · rw [Slots.set_other _ _ hb, h1] at h2; cases h2
  unfold sliceGetOrInit
  always [always_read PsSame.rfl' _, hcas]

theorem psSame_retrievePrefixMutLoop (id : PrefixId W) (fuel : Nat) : ∀ level b,
    (retrievePrefixMutLoop (M := M) id fuel level b).Always PsSame := by
  induction fuel with
  | zero => intros; exact always_panic
  | succ n ih =>
    intro level b
    unfold retrievePrefixMutLoop
    have h1 := fun b i => psSame_readOnly (readOnly_sliceGet (E := StoredPrefix M W) b i)
    have h2 := fun b i => psSame_sliceGetOrInit (M := M) (W := W) b i
    have hf := fun b => ih (level + 1) b
    always [h1 _ _, h2 _ _ _ _, hf _]

theorem psSame_retrievePrefixMut (id : PrefixId W) :
    (retrievePrefixMut (M := M) id).Always PsSame :=
  Always.bind (always_ofOption _) fun _ => psSame_retrievePrefixMutLoop _ _ _ _

theorem psSame_setPsOutdated (a : Addr) : (setPsOutdated (M := M) (W := W) a).Always PsSame :=
  psSame_access fun _ => ⟨rfl, rfl, rfl⟩

theorem psSame_markStatusAt (a : Addr) (m : Mui) (l : LTime) (st : RouteStatus) :
    (markStatusAt (M := M) (W := W) a m l st).Always PsSame :=
  psSame_access fun _ => ⟨rfl, rfl, mdsOf_mark _ _ _ _⟩

/-! ## The store -/

/-- The same for the store. -/
def RibPsSame (s s' : Rib M W) : Prop := PsSame s.cht.slots s'.cht.slots

theorem RibPsSame.rfl' (s : Rib M W) : RibPsSame s s := PsSame.rfl' _

theorem ribPs_readOnly {α : Type} {p : Prog (Rib M W) α} (h : p.ReadOnly) : p.Always RibPsSame :=
  ReadOnly.always RibPsSame.rfl' h

theorem ribPs_onRecs {α : Type} {p : Prog (PSlots M W) α} (h : p.Always PsSame) :
    (onRecs p).Always RibPsSame :=
  Always.zoom (G' := fun a b : PCht M W => PsSame a.slots b.slots)
    (fun _ _ h => h) (Always.zoom (fun _ _ h => h) h)

theorem ribPs_tree {α : Type} (p : Prog (Tree W) α) :
    (p.zoom Rib.treeL : Prog (Rib M W) α).Always RibPsSame :=
  Always.zoom (fun _ _ _ => PsSame.rfl' _) (always_true p)

theorem ribPs_onLsm (f : Lsm → Lsm) : (onLsm (M := M) (W := W) f).Always RibPsSame :=
  always_atomic fun _ => PsSame.rfl' _

theorem ribPs_incRoutes : (Rib.incRoutes (M := M) (W := W)).Always RibPsSame :=
  always_atomic fun _ => PsSame.rfl' _

theorem ribPs_incPrefixes (l : Nat) : (Rib.incPrefixes (M := M) (W := W) l).Always RibPsSame :=
  always_atomic fun _ => PsSame.rfl' _

theorem ribPs_markMem (p : PrefixId W) (m : Mui) (t : LTime) (rs : RouteStatus) :
    (ribMarkMem (M := M) p m t rs).Always RibPsSame := by
  unfold ribMarkMem
  refine Always.bind (ribPs_onRecs (psSame_retrievePrefixMut _)) fun r => ?_
  obtain ⟨sp, found⟩ := r
  dsimp only
  split
  · trivial
  · exact Always.bind (ribPs_onRecs (psSame_markStatusAt _ _ _ _)) fun _ => trivial

theorem ribPs_persistMarker (sp : Ref W) (p : PrefixId W) (m : Mui) (t : LTime) :
    (ribPersistMarker (M := M) sp p m t).Always RibPsSame := by
  unfold ribPersistMarker
  refine Always.bind (ribPs_readOnly (ReadOnly.onRecs (readOnly_readAt _ _))) fun r => ?_
  cases r with
  | none => trivial
  | some _ => exact ribPs_onLsm _

theorem ribPs_rewriteAll (t : LTime) (rs : RouteStatus) :
    ∀ bs : List Bytes, (rewriteAll (M := M) W t rs bs).Always RibPsSame := by
  intro bs
  induction bs with
  | nil => trivial
  | cons b bs ih =>
    unfold rewriteAll
    refine Always.bind (always_atomic fun s => ?_) fun ok => ?_
    · cases rewriteHeader W s.lsm t rs b with
      | none => exact RibPsSame.rfl' _
      | some l => exact PsSame.rfl' _
    · cases ok with
      | true => exact ih
      | false => trivial

theorem ribPs_withdrawFor (st : Strategy) (p : PrefixId W) (m : Mui) (t : LTime) :
    (ribMarkWithdrawnForPrefix (M := M) st p m t).Always RibPsSame := by
  have h1 := fun rs => ribPs_markMem (M := M) p m t rs
  have h2 := fun sp => ribPs_persistMarker (M := M) sp p m t
  have h3 := fun rs bs => ribPs_rewriteAll (M := M) (W := W) t rs bs
  unfold ribMarkWithdrawnForPrefix
  cases st <;> dsimp only <;> always [h1 _, h2 _, h3 _ _, always_read RibPsSame.rfl' _]

theorem ribPs_activateFor (st : Strategy) (p : PrefixId W) (m : Mui) (t : LTime) :
    (ribMarkActiveForPrefix (M := M) st p m t).Always RibPsSame := by
  have h1 := fun rs => ribPs_markMem (M := M) p m t rs
  have h2 := fun sp => ribPs_persistMarker (M := M) sp p m t
  have h3 := fun rs bs => ribPs_rewriteAll (M := M) (W := W) t rs bs
  unfold ribMarkActiveForPrefix
  cases st <;> dsimp only <;> always [h1 _, h2 _, h3 _ _, always_read RibPsSame.rfl' _]

variable [Meta M]

/-- Every call that neither inserts nor calculates leaves the selections alone. -/
theorem ribPs_call (x : Call M W) (hx : ∀ p, ¬ CallSelects p x) (st : Strategy) (F fuel : Nat) :
    (x.prog st F fuel).Always RibPsSame := by
  cases x with
  | insert p r tbi => exact absurd rfl (hx p)
  | calcBest p tbi => exact absurd rfl (hx p)
  | withdrawFor p m t => exact ribPs_withdrawFor _ _ _ _
  | activateFor p m t => exact ribPs_activateFor _ _ _ _
  | withdraw m => exact ribPs_tree _
  | activate m => exact ribPs_tree _
  | contains p mui => exact ribPs_readOnly (readOnly_ribContains _ _)
  | getRecords p mui iw => exact ribPs_readOnly (readOnly_ribGetValue _ _ _ _)
  | matchPrefix p o => exact ribPs_readOnly (readOnly_ribMatchPrefix _ _ _ _)
  | moreFrom p mui iw => exact ribPs_readOnly (readOnly_ribMoreSpecificsFrom _ _ _ _ _)
  | lessFrom p mui iw => exact ribPs_readOnly (readOnly_ribLessSpecificsFrom _ _ _ _)
  | moreIter p mui iw => exact ribPs_readOnly (readOnly_ribMoreSpecificsIter _ _ _ _ _)
  | lessIter p mui iw => exact ribPs_readOnly (readOnly_ribLessSpecificsIter _ _ _ _)
  | prefixesIter => exact ribPs_readOnly (readOnly_ribPrefixesIter _ _)
  | persistPrefixesIter => exact ribPs_readOnly (readOnly_ribPersistPrefixesIter _)
  | recordsForMui m iw => exact ribPs_readOnly (readOnly_ribIterRecordsForMui _ _ _ _)
  | bestPath p => exact ribPs_readOnly (readOnly_ribBestPath _)
  | isPsOutdated p => exact ribPs_readOnly (readOnly_ribIsPsOutdated _)
  | muiIsWithdrawn m => exact ribPs_readOnly (readOnly_ribMuiIsWithdrawn _)
  | isMuiActive m => exact ribPs_readOnly (readOnly_ribIsMuiActive _)
  | prefixesCount => exact ribPs_readOnly readOnly_ribPrefixesCount
  | routesCount => exact ribPs_readOnly readOnly_ribRoutesCount
  | prefixesCountForLen l => exact ribPs_readOnly (readOnly_ribPrefixesCountForLen _)
  | nodesCount => exact ribPs_readOnly (readOnly_read _)

/-! ## Steps of a call -/

/-- A step `j` of the call `x`, which started at step `k`: it leaves the selections and what
they depend on of all other prefixes alone; a new selection is that of the records of some
moment of the call. -/
def PsStep (P : ℕ → PSlots M W) (x : Call M W) (k j : ℕ) (s' : PSlots M W) : Prop :=
  (∀ a e, P j a = some e → ∃ e', s' a = some e' ∧ e'.id = e.id ∧
    (∀ p : Prefix W, e.id = p.id → ¬ CallSelects p x →
      e'.ps.val = e.ps.val ∧ mdsOf e'.recs = mdsOf e.recs) ∧
    (e'.ps.val = e.ps.val ∨ ∃ (p : Prefix W) (tbi : Meta.TBI M), e.id = p.id ∧ CallStores p tbi x ∧
      ∃ l, k ≤ l ∧ l ≤ j ∧ ∃ e0, P l a = some e0 ∧ e0.id = e.id ∧
        e'.ps.val = bestBackup e0.recs tbi)) ∧
  ∀ a e', P j a = none → s' a = some e' → e'.ps.val = (none, none)

theorem PsStep.of_same {P : ℕ → PSlots M W} {x : Call M W} {k j : ℕ} {s' : PSlots M W}
    (h : PsSame (P j) s') : PsStep P x k j s' :=
  ⟨fun a e he => by
    obtain ⟨e', h1, h2, h3, h4⟩ := h.1 a e he
    exact ⟨e', h1, h2, fun _ _ _ => ⟨h3, h4⟩, .inl h3⟩, h.2⟩

theorem PsStep.set {P : ℕ → PSlots M W} {x : Call M W} {k j : ℕ} {a : Addr} {e e' : StoredPrefix M W}
    (h : P j a = some e) (hid : e'.id = e.id) {p : Prefix W} (hp : e.id = p.id)
    (hs : CallSelects p x)
    (hv : e'.ps.val = e.ps.val ∨ ∃ (p : Prefix W) (tbi : Meta.TBI M), e.id = p.id ∧ CallStores p tbi x ∧
      ∃ l, k ≤ l ∧ l ≤ j ∧ ∃ e0, P l a = some e0 ∧ e0.id = e.id ∧
        e'.ps.val = bestBackup e0.recs tbi) :
    PsStep P x k j ((P j).set a e') := by
  refine ⟨fun b f hf => ?_, fun b f h1 h2 => ?_⟩
  · by_cases hb : b = a
    · subst hb
      rw [h] at hf; cases hf
      refine ⟨_, Slots.set_same _ _ _, hid, fun q hq hn => ?_, hv⟩
      exact absurd (Prefix.id_inj (hp.symm.trans hq) ▸ hs) hn
    · exact ⟨f, by rw [Slots.set_other _ _ hb]; exact hf, rfl, fun _ _ _ => ⟨rfl, rfl⟩, .inl rfl⟩
  · by_cases hb : b = a
    · subst hb; rw [h] at h1; cases h1
    · rw [Slots.set_other _ _ hb, h1] at h2; cases h2

/-- Some selection of `p` was that of the records at one moment and stored at a later one,
both between `k` and `m`. -/
def SelAt (P : ℕ → PSlots M W) (p : Prefix W) (tbi : Meta.TBI M) (k m : ℕ)
    (sel : Option Mui × Option Mui) : Prop :=
  ∃ a k1 k2, k ≤ k1 ∧ k1 ≤ k2 ∧ k2 ≤ m ∧
    (∃ e, P k1 a = some e ∧ e.id = p.id ∧ bestBackup e.recs tbi = sel) ∧
    ∃ e, P k2 a = some e ∧ e.id = p.id ∧ e.ps.val = sel

/-- The selection of `p` stored at the moment `m` is that of the records. -/
def CurAt (s : PSlots M W) (p : Prefix W) (tbi : Meta.TBI M) (sel : Option Mui × Option Mui) : Prop :=
  ∃ a e, s a = some e ∧ e.id = p.id ∧ bestBackup e.recs tbi = sel ∧ e.ps.val = sel

/-- The selection of `p` and what it depends on stay. -/
def KeepSel (p : PrefixId W) (s s' : PSlots M W) : Prop :=
  ∀ a e, s a = some e → e.id = p → ∃ e', s' a = some e' ∧ e'.id = p ∧ e'.ps.val = e.ps.val ∧
    mdsOf e'.recs = mdsOf e.recs

omit [Meta M] in
theorem PsSame.keep {p : PrefixId W} {s s' : PSlots M W} (h : PsSame s s') : KeepSel p s s' :=
  fun a e he hid => by
    obtain ⟨e', h1, h2, h3, h4⟩ := h.1 a e he
    exact ⟨e', h1, h2.trans hid, h3, h4⟩

theorem CurAt.keep {s s' : PSlots M W} {p : Prefix W} {tbi : Meta.TBI M} {sel : Option Mui × Option Mui}
    (h : CurAt s p tbi sel) (hk : KeepSel p.id s s') : CurAt s' p tbi sel := by
  obtain ⟨a, e, he, hid, h1, h2⟩ := h
  obtain ⟨e', he', hid', h3, h4⟩ := hk a e he hid
  exact ⟨a, e', he', hid', (bestBackup_congr h4 tbi).trans h1, h3.trans h2⟩

section
variable {P : ℕ → PSlots M W} {N n : ℕ} {O : ℕ → Prop} {G : ℕ → PSlots M W → Prop} {a : Addr}
  {p : PrefixId W} {ρ : Type}

/-- The others leave the selection of `p` alone from step `k` on. -/
def Quiet (P : ℕ → PSlots M W) (N : ℕ) (O : ℕ → Prop) (p : PrefixId W) (k : ℕ) : Prop :=
  ∀ l, k ≤ l → l < N → O l → KeepSel p (P l) (P (l + 1))

omit [Meta M] in
theorem Quiet.keep {k i j : ℕ} (h : Quiet P N O p k) (hk : k ≤ i) (hij : i ≤ j) (hN : j ≤ N)
    (hO : ∀ l, i ≤ l → l < j → O l) : KeepSel p (P i) (P j) := by
  induction j, hij using Nat.le_induction with
  | base => exact fun a e he hid => ⟨e, he, hid, rfl, rfl⟩
  | succ j hj ih =>
    intro a e he hid
    obtain ⟨e1, h1, h2, h3, h4⟩ := ih (by omega) (fun l h1 h2 => hO l h1 (by omega)) a e he hid
    obtain ⟨e2, h5, h6, h7, h8⟩ := h j (by omega) (by omega) (hO j hj (by omega)) a e1 h1 h2
    exact ⟨e2, h5, h6, h7.trans h3, h8.trans h4⟩

omit [Meta M] in
theorem twp_access {f : StoredPrefix M W → ρ × StoredPrefix M W} {Q : ρ → ℕ → Prop}
    (hE : ∀ j, n ≤ j → j ≤ N → EntryAt (P j) a p)
    (h : ∀ j e, n ≤ j → j < N → (∀ l, n ≤ l → l < j → O l) → P j a = some e → e.id = p →
      G j ((P j).set a (f e).2) ∧ (P (j + 1) a = some (f e).2 → Q (f e).1 (j + 1))) :
    twp P N O G (accessAt a f) Q n := by
  unfold accessAt
  rw [twp_bind]
  intro j hj hN hO
  obtain ⟨e, he, hid⟩ := hE j hj hN.le
  dsimp only
  rw [he]
  dsimp only
  obtain ⟨h1, h2⟩ := h j e hj hN hO he hid
  exact ⟨h1, fun hs => twp_ofOption fun r hr => by
    cases hr
    exact h2 (by rw [hs, Slots.set_same])⟩

omit [Meta M] in
theorem twp_readAt {f : StoredPrefix M W → ρ} {Q : ρ → ℕ → Prop} (hG : ∀ j, G j (P j))
    (hE : ∀ j, n ≤ j → j ≤ N → EntryAt (P j) a p)
    (h : ∀ j e, n ≤ j → j < N → (∀ l, n ≤ l → l < j → O l) → P j a = some e → e.id = p →
      P (j + 1) = P j → Q (f e) (j + 1)) :
    twp P N O G (readAt a f) Q n := by
  unfold readAt
  rw [twp_bind]
  intro j hj hN hO
  obtain ⟨e, he, hid⟩ := hE j hj hN.le
  dsimp only
  refine ⟨hG j, fun hs => ?_⟩
  rw [he]
  exact twp_ofOption fun r hr => by
    cases hr
    exact h j e hj hN hO he hid hs

/-- The calculation of a selection. -/
theorem twp_calculateAndStore {x : Call M W} {k : ℕ} {p : Prefix W} {tbi : Meta.TBI M} (hk : k ≤ n)
    (hx : CallStores p tbi x) (hsel : CallSelects p x)
    (hE : ∀ j, n ≤ j → j ≤ N → EntryAt (P j) a p.id) :
    twp P N O (PsStep P x k) (calculateAndStore a tbi)
      (fun r m => ∀ sel, r = .ok sel → SelAt P p tbi k m sel ∧
        (Quiet P N O p.id k → CurAt (P m) p tbi sel)) n := by
  have hrefl : ∀ j, PsStep P x k j (P j) := fun j => PsStep.of_same (PsSame.rfl' _)
  unfold calculateAndStore
  rw [twp_bind]
  refine twp_readAt hrefl hE fun j e hj hN hO he hid hs0 => ?_
  rw [twp_bind]
  unfold setPathSelections
  rw [twp_bind]
  refine twp_readAt hrefl (fun j' h1 h2 => hE j' (by omega) h2)
    fun j1 e1 hj1 hN1 hO1 he1 hid1 hs1 => ?_
  have hq1 : Quiet P N O p.id k → bestBackup e1.recs tbi = bestBackup e.recs tbi := by
    intro hq
    obtain ⟨e', h1, _, _, h4⟩ := hq.keep (i := j + 1) (j := j1) (by omega) hj1 (by omega) hO1 a e
      (by rw [hs0]; exact he) hid
    rw [he1] at h1; cases h1
    exact bestBackup_congr h4 tbi
  by_cases hv : e1.ps.val = bestBackup e.recs tbi
  · rw [if_pos hv]
    intro sel hsl
    cases hsl
    exact ⟨⟨a, j, j1, by omega, by omega, by omega, ⟨e, he, hid, rfl⟩, e1, he1, hid1, hv⟩,
      fun hq => ⟨a, e1, by rw [hs1]; exact he1, hid1, hq1 hq, hv⟩⟩
  · rw [if_neg hv]
    refine twp_access (fun j' h1 h2 => hE j' (by omega) h2) fun j2 e2 hj2 hN2 hO2 he2 hid2 => ?_
    split
    · refine ⟨PsStep.set he2 rfl hid2 hsel (.inr ⟨p, tbi, hid2, hx, j, by omega, by omega, e, he,
        hid.trans hid2.symm, rfl⟩), fun hs => ?_⟩
      intro sel hsl
      cases hsl
      refine ⟨⟨a, j, j2 + 1, by omega, by omega, by omega, ⟨e, he, hid, rfl⟩, _, hs, hid2, rfl⟩,
        fun hq => ⟨a, _, hs, hid2, ?_, rfl⟩⟩
      obtain ⟨e', h1, _, _, h4⟩ := hq.keep (i := j1 + 1) (j := j2) (by omega) hj2 (by omega) hO2 a e1
        (by rw [hs1]; exact he1) hid1
      rw [he2] at h1; cases h1
      exact (bestBackup_congr h4 tbi).trans (hq1 hq)
    · refine ⟨PsStep.set he2 rfl hid2 hsel (.inl rfl), fun hs => ?_⟩
      intro sel hsl
      cases hsl

end

/-! ## The calls -/

section
variable {S : ℕ → Rib M W} {N : ℕ} {O : ℕ → Prop} {T : PrefixId W → Mui → Prop} {x : Call M W} {k : ℕ}

/-- The guarantee of the call for the store. -/
def RibPsStep (S : ℕ → Rib M W) (x : Call M W) (k j : ℕ) (s' : Rib M W) : Prop :=
  PsStep (fun j => (S j).cht.slots) x k j s'.cht.slots

/-- The call has stored a selection made with `tbi`. -/
def Selected (S : ℕ → Rib M W) (N : ℕ) (O : ℕ → Prop) (p : Prefix W) (tbi : Meta.TBI M) (k m : ℕ)
    (sel : Option Mui × Option Mui) : Prop :=
  SelAt (fun j => (S j).cht.slots) p tbi k m sel ∧
    (Quiet (fun j => (S j).cht.slots) N O p.id k → CurAt (S m).cht.slots p tbi sel)

theorem twp_onRecs {α : Type} {prog : Prog (PSlots M W) α} {Q : α → ℕ → Prop} {n : ℕ}
    (h : twp (fun j => (S j).cht.slots) N O (PsStep (fun j => (S j).cht.slots) x k) prog Q n) :
    twp S N O (RibPsStep S x k) (onRecs prog) Q n :=
  twp_zoom Rib.chtL_lawful.get_set
    (G' := fun j t => PsStep (fun j => (S j).cht.slots) x k j t.slots) (fun _ _ h => h)
    (twp_zoom PCht.slotsL_lawful.get_set (fun _ _ h => h) h)

theorem twp_same {α : Type} {prog : Prog (Rib M W) α} {n : ℕ} (h : prog.Always RibPsSame) :
    twp S N O (RibPsStep S x k) prog (fun _ _ => True) n :=
  twp_of_always (fun _ _ _ _ h => PsStep.of_same h) h

theorem twp_selected {α : Type} {prog : Prog (Rib M W) α} {n : ℕ} (h : prog.Always RibPsSame)
    {p : Prefix W} {tbi : Meta.TBI M} {sel : Option Mui × Option Mui} (hk : k ≤ n)
    (hs : Selected S N O p tbi k n sel) :
    twp S N O (RibPsStep S x k) prog (fun _ m => Selected S N O p tbi k m sel) n := by
  have hat : ∀ m, n ≤ m → SelAt (fun j => (S j).cht.slots) p tbi k m sel := by
    obtain ⟨⟨a, k1, k2, h1, h2, h3, h4⟩, _⟩ := hs
    exact fun m hm => ⟨a, k1, k2, h1, h2, h3.trans hm, h4⟩
  by_cases hq : Quiet (fun j => (S j).cht.slots) N O p.id k
  · refine twp_conseq (twp_carry (I := fun s => CurAt s.cht.slots p tbi sel)
      (fun l h1 h2 h3 hc => hc.keep (hq l (by omega) h2 h3))
      (fun j s' hc hg => hc.keep (PsSame.keep hg)) (fun _ _ _ _ h => PsStep.of_same h) h (hs.2 hq)) ?_
    exact fun _ m hm hc => ⟨hat m hm, fun _ => hc⟩
  · exact twp_conseq (twp_same h) fun _ m hm _ => ⟨hat m hm, fun c => absurd c hq⟩

/-- A sane run of the store. -/
structure SaneRun (T : PrefixId W → Mui → Prop) (S : ℕ → Rib M W) (N : ℕ) : Prop where
  sane : ∀ j, j ≤ N → Sane T (S j)
  grow : ∀ i j, i ≤ j → j ≤ N → Grow T (S i) (S j)

variable (hS : SaneRun T S N)
include hS

theorem SaneRun.entry {n : ℕ} {a : Addr} {p : PrefixId W} (h : EntryAt (S n).cht.slots a p) :
    ∀ j, n ≤ j → j ≤ N → EntryAt (S j).cht.slots a p :=
  fun j h1 h2 => h.ext (hS.grow n j h1 h2).recs.ext

theorem twp_retrieve [Fam W] (p : Prefix W) {n : ℕ} (hn : n ≤ N) :
    twp S N O (RibPsStep S x k) (onRecs (retrievePrefix (M := M) p.id))
      (fun r m => ∀ sp, r = some sp → EntryAt (S m).cht.slots sp.addr p.id) n := by
  refine twp_conseq (twp_of_wp (R := Grow T) (Gw := Grow T) (D := False)
    (fun i j h1 h2 h3 => hS.grow i j h2 h3)
    (G' := RibPsSame) (fun _ _ _ _ h => PsStep.of_same h)
    (ribPs_onRecs (psSame_readOnly (readOnly_retrievePrefix _)))
    (wp_onRecs (fun _ _ h => h) (wp_ro_recs (wp_retrieve (proj_recs (fun _ _ h => h)) p.clean
      (hS.sane n hn).recs)))) ?_
  rintro r m hm ⟨_, _, hr⟩ sp rfl
  exact hr

theorem twp_ribCalcBest [Fam W] {p : Prefix W} {tbi : Meta.TBI M} (hk : k ≤ N) :
    twp S N O (RibPsStep S (.calcBest p tbi) k) (ribCalcBest p.id tbi)
      (fun r m => ∀ sel, r = .ok sel → Selected S N O p tbi k m sel) k := by
  unfold ribCalcBest
  rw [twp_bind]
  refine twp_conseq (twp_retrieve hS p hk) fun r m hm hr => ?_
  cases r with
  | none => intro sel h; cases h
  | some sp => exact twp_onRecs (twp_calculateAndStore hm ⟨rfl, rfl⟩ rfl (hS.entry (hr sp rfl)))

/-- `best_path` answers with the record, at one moment, of the id that was stored as the
best path at an earlier one. -/
theorem twp_ribBestPath [Fam W] {p : Prefix W} (hk : k ≤ N) :
    twp S N O (RibPsStep S x k) (ribBestPath p.id)
      (fun r m => ∀ rec, r = some (.ok rec) → ∃ a k1 k2, k ≤ k1 ∧ k1 ≤ k2 ∧ k2 ≤ m ∧
        ∃ b, (∃ e, (S k1).cht.slots a = some e ∧ e.id = p.id ∧ e.ps.val.1 = some b) ∧
        ∃ e, (S k2).cht.slots a = some e ∧ e.id = p.id ∧ getRecordForMui e.recs b false = some rec) k := by
  have hrefl : ∀ j, PsStep (fun j => (S j).cht.slots) x k j (S j).cht.slots :=
    fun j => PsStep.of_same (PsSame.rfl' _)
  unfold ribBestPath
  rw [twp_bind]
  refine twp_conseq (twp_retrieve hS p hk) fun r m hm hr => ?_
  cases r with
  | none => intro rec h; cases h
  | some sp =>
    have hE := hS.entry (hr sp rfl)
    dsimp only
    rw [twp_bind]
    refine twp_onRecs (twp_readAt hrefl hE fun j e hj hN _ he hid _ => ?_)
    cases hv : e.ps.val.1 with
    | none => intro rec h; cases h
    | some b =>
      dsimp only
      rw [twp_bind]
      refine twp_onRecs (twp_readAt hrefl (fun j' h1 h2 => hE j' (by omega) h2)
        fun j1 e1 hj1 hN1 _ he1 hid1 _ => ?_)
      cases hg : getRecordForMui e1.recs b false with
      | none => intro rec h; cases h
      | some rec1 =>
        intro rec h
        cases h
        exact ⟨sp.addr, j, j1, by omega, by omega, by omega, b, ⟨e, he, hid, hv⟩, e1, he1, hid1, hg⟩

theorem twp_pchtUpsert [Fam W] {p : Prefix W} {r : Record M} {tbi : Option (Meta.TBI M)} {n : ℕ}
    (hk : k ≤ n) (hn : n ≤ N) :
    twp S N O (RibPsStep S (.insert p r tbi) k) ((pchtUpsert p.id r tbi).zoom Rib.chtL)
      (fun res m => ∀ t, tbi = some t → Has (S n).cht.slots p.id → (∃ v, res = .ok v) →
        ∃ sel, Selected S N O p t k m sel) n := by
  have hcnt : ∀ {α : Type} {f : PCht M W → α × PCht M W}, (∀ t, (f t).2.slots = t.slots) →
      ((Prog.atomic f).zoom Rib.chtL).Always RibPsSame := fun h =>
    Always.zoom (G' := fun a b : PCht M W => b.slots = a.slots)
      (fun s t h => by
        change PsSame s.cht.slots t.slots
        rw [h]; exact PsSame.rfl' _) (always_atomic h)
  have hup : ∀ {a : Addr} {n : ℕ} {Q : Option (MMV M × Nat) → ℕ → Prop},
      (∀ j, n ≤ j → j ≤ N → EntryAt (S j).cht.slots a p.id) → (∀ o m, n ≤ m → Q o m) →
      twp S N O (RibPsStep S (.insert p r tbi) k) (onRecs (upsertRecordAt a r)) Q n := by
    intro a n Q hE hQ
    refine twp_onRecs (twp_access hE fun j e hj hN _ he hid => ⟨PsStep.set he rfl hid rfl (.inl rfl),
      fun _ => hQ _ _ (by omega)⟩)
  unfold pchtUpsert
  simp only [zoom_bind, twp_bind]
  refine twp_conseq (twp_of_wp (R := Grow T) (Gw := Grow T) (D := False)
    (fun i j h1 h2 h3 => hS.grow i j h2 h3)
    (G' := RibPsSame) (fun _ _ _ _ h => PsStep.of_same h)
    (ribPs_onRecs (psSame_retrievePrefixMut _))
    (wp_onRecs (fun _ _ h => h) (wp_retrieveMut (proj_recs (fun _ _ h => h)) p.clean
      (hS.sane n hn).recs))) ?_
  rintro ⟨sp, found⟩ n1 hn1 ⟨_, _, he, _, hnew⟩
  have hE := hS.entry he
  dsimp only at hnew ⊢
  split
  · rename_i hf
    refine twp_conseq (Q := fun _ _ => True) ?_ (fun _ _ _ _ t _ hh => absurd hh (hnew hf))
    simp only [zoom_bind, twp_bind]
    refine hup hE fun old m hm => ?_
    cases old with
    | some v => trivial
    | none =>
      simp only [zoom_bind, twp_bind]
      refine twp_conseq (twp_same (hcnt fun _ => rfl)) fun _ m1 _ _ => ?_
      refine twp_conseq (twp_same (hcnt fun _ => rfl)) fun _ m2 _ _ => trivial
  · simp only [zoom_bind, twp_bind]
    refine twp_conseq (twp_same (ribPs_onRecs (psSame_setPsOutdated _))) fun _ n2 hn2 _ => ?_
    refine hup (fun j h1 h2 => hE j (by omega) h2) fun old n3 hn3 => ?_
    have hend : ∀ n4, n3 ≤ n4 → twp S N O (RibPsStep S (.insert p r tbi) k) ((do
          let sel ← match tbi with
            | some tbi => (calculateAndStore sp.addr tbi).zoom PCht.slotsL
            | none => pure (.ok (none, none))
          match sel with
          | .error e => return .error e
          | .ok _ => return .ok (⟨false, true, (old.map Prod.snd).getD 1⟩, old.map Prod.fst) :
            Prog (PCht M W) (Except StoreError (UpsertReport × Option (MMV M)))).zoom Rib.chtL)
        (fun res m => ∀ t, tbi = some t → Has (S n).cht.slots p.id → (∃ v, res = .ok v) →
          ∃ sel, Selected S N O p t k m sel) n4 := by
      intro n4 hn4
      cases tbi with
      | none => exact fun t ht => by cases ht
      | some t =>
        simp only [zoom_bind, twp_bind]
        refine twp_conseq (twp_onRecs (twp_calculateAndStore (x := .insert p r (some t)) (k := k)
          (p := p) (tbi := t) (n := n4) (by omega) ⟨rfl, rfl⟩ rfl
          (fun j h1 h2 => hE j (by omega) h2))) fun res m hm hres => ?_
        cases res with
        | error e => exact fun t' _ _ hv => by obtain ⟨v, hv⟩ := hv; cases hv
        | ok sel =>
          intro t' ht' _ _
          cases ht'
          exact ⟨sel, hres sel rfl⟩
    cases old with
    | none =>
      simp only [zoom_bind, twp_bind]
      exact twp_conseq (twp_same (hcnt fun _ => rfl)) fun _ m1 hm1 _ => hend m1 hm1
    | some v => exact hend n3 (Nat.le_refl _)

theorem twp_ribUpsert [Fam W] {st : Strategy} {F : Nat} {p : Prefix W} {r : Record M}
    {tbi : Option (Meta.TBI M)} {n : ℕ} (hk : k ≤ n) (hn : n ≤ N) :
    twp S N O (RibPsStep S (.insert p r tbi) k) (ribUpsert st F p.id r tbi)
      (fun res m => st.inMemory = true → ∀ t, tbi = some t → Has (S n).cht.slots p.id →
        (∃ v, res = .ok v) → ∃ sel, Selected S N O p t k m sel) n := by
  have hup := fun n (hk : k ≤ n) (hn : n ≤ N) =>
    twp_pchtUpsert (O := O) hS (p := p) (r := r) (tbi := tbi) (k := k) (n := n) hk hn
  unfold ribUpsert
  cases st with
  | writeAhead =>
    dsimp only
    rw [twp_bind]
    refine twp_conseq (twp_le hn (twp_same (ribPs_onLsm _))) fun _ n1 hn1 hN1 => ?_
    rw [twp_bind]
    refine twp_conseq (hup n1 (hk.trans hn1) hN1.1) fun res m _ hres => ?_
    have hg := fun hh : Has (S n).cht.slots p.id => hh.ext (hS.grow n n1 hn1 hN1.1).recs.ext
    cases res with
    | error e => exact fun _ _ _ _ hv => by obtain ⟨v, hv⟩ := hv; cases hv
    | ok x => exact fun _ t ht hh _ => hres t ht (hg hh) ⟨x, rfl⟩
  | persistHistory =>
    dsimp only
    rw [twp_bind]
    refine twp_conseq (hup n hk hn) fun res m hm hres => ?_
    match res, hres with
    | .error e, _ => exact fun _ _ _ _ hv => by obtain ⟨v, hv⟩ := hv; cases hv
    | .ok (rep, none), hres => exact fun _ t ht hh _ => hres t ht hh ⟨_, rfl⟩
    | .ok (rep, some old), hres =>
      dsimp only
      rw [twp_bind]
      by_cases hc : ∃ t, tbi = some t ∧ Has (S n).cht.slots p.id
      · obtain ⟨t, ht, hh⟩ := hc
        obtain ⟨sel, hsel⟩ := hres t ht hh ⟨_, rfl⟩
        refine twp_conseq (twp_selected (ribPs_onLsm _) (hk.trans hm) hsel) fun _ m1 _ h1 => ?_
        intro _ t' ht' _ _
        rw [ht] at ht'; cases ht'
        exact ⟨sel, h1⟩
      · exact twp_conseq (twp_same (ribPs_onLsm _)) fun _ m1 _ _ _ t' ht' hh _ =>
          absurd ⟨t', ht', hh⟩ hc
  | memoryOnly =>
    dsimp only
    rw [twp_bind]
    refine twp_conseq (hup n hk hn) fun res m _ hres => ?_
    cases res with
    | error e => exact fun _ _ _ _ hv => by obtain ⟨v, hv⟩ := hv; cases hv
    | ok x => exact fun _ t ht hh _ => hres t ht hh ⟨x, rfl⟩
  | persistOnly =>
    refine twp_conseq (Q := fun _ _ => True) (twp_same ?_) (fun _ _ _ _ c => by cases c)
    dsimp only
    refine Always.bind (ribPs_tree _) fun ex => ?_
    cases ex with
    | error e => trivial
    | ok b => exact Always.bind (ribPs_onLsm _) fun _ => trivial

theorem twp_ribInsert [Fam W] {st : Strategy} {F : Nat} {p : Prefix W} {r : Record M}
    {tbi : Option (Meta.TBI M)} (hk : k ≤ N) :
    twp S N O (RibPsStep S (.insert p r tbi) k) (ribInsert st F p.id r tbi)
      (fun res m => st.inMemory = true → ∀ t, tbi = some t → Has (S k).cht.slots p.id →
        (∃ v, res = .ok v) → ∃ sel, Selected S N O p t k m sel) k := by
  unfold ribInsert
  rw [twp_bind]
  refine twp_conseq (twp_le hk (twp_same (ribPs_tree _))) fun ex n hn hN => ?_
  cases ex with
  | error e => exact fun _ _ _ _ hv => by obtain ⟨v, hv⟩ := hv; cases hv
  | ok ex =>
    dsimp only
    rw [twp_bind]
    refine twp_conseq (twp_ribUpsert hS hn hN.1) fun res m hm hres => ?_
    have hg := fun hh : Has (S k).cht.slots p.id => hh.ext (hS.grow k n hn hN.1).recs.ext
    cases res with
    | error e => exact fun _ _ _ _ hv => by obtain ⟨v, hv⟩ := hv; cases hv
    | ok rep =>
      dsimp only
      have htail : (do
          if rep.muiNew then Rib.incRoutes
          if ex = false then
            Rib.incPrefixes p.id.len
            return .ok { rep with prefixNew := true }
          else return .ok rep : Prog (Rib M W) (Except StoreError UpsertReport)).Always RibPsSame := by
        always [ribPs_incRoutes, ribPs_incPrefixes _]
      by_cases hc : st.inMemory = true ∧ ∃ t, tbi = some t ∧ Has (S k).cht.slots p.id
      · obtain ⟨hmem, t, ht, hh⟩ := hc
        obtain ⟨sel, hsel⟩ := hres hmem t ht (hg hh) ⟨_, rfl⟩
        refine twp_conseq (twp_selected htail (hn.trans hm) hsel) fun _ m1 _ h1 => ?_
        intro _ t' ht' _ _
        rw [ht] at ht'; cases ht'
        exact ⟨sel, h1⟩
      · exact twp_conseq (twp_same htail) fun _ m1 _ _ hmem t' ht' hh _ =>
          absurd ⟨hmem, t', ht', hh⟩ hc

/-- What a call guarantees about path selections. -/
def Call.SelPost (st : Strategy) (S : ℕ → Rib M W) (N : ℕ) (O : ℕ → Prop) (k : ℕ) :
    (x : Call M W) → x.Ans → ℕ → Prop
  | .insert p _ tbi, res, m => st.inMemory = true → ∀ t, tbi = some t → Has (S k).cht.slots p.id →
      (∃ v, (res : Except StoreError UpsertReport) = .ok v) → ∃ sel, Selected S N O p t k m sel
  | .calcBest p tbi, res, m => ∀ sel, (res : Except StoreError (Option Mui × Option Mui)) = .ok sel →
      Selected S N O p tbi k m sel
  | .bestPath p, res, m => ∀ rec, (res : Option (Except StoreError (Record M))) = some (.ok rec) →
      ∃ a k1 k2, k ≤ k1 ∧ k1 ≤ k2 ∧ k2 ≤ m ∧
        ∃ b, (∃ e, (S k1).cht.slots a = some e ∧ e.id = p.id ∧ e.ps.val.1 = some b) ∧
        ∃ e, (S k2).cht.slots a = some e ∧ e.id = p.id ∧ getRecordForMui e.recs b false = some rec
  | _, _, _ => True

theorem Call.selTwp [Fam W] (x : Call M W) (st : Strategy) (F fuel : Nat) (hk : k ≤ N) :
    twp S N O (RibPsStep S x k) (x.prog st F fuel) (x.SelPost st S N O k) k := by
  have other : (∀ p, ¬ CallSelects p x) → (∀ a m, x.SelPost st S N O k a m) →
      twp S N O (RibPsStep S x k) (x.prog st F fuel) (x.SelPost st S N O k) k := fun h1 h2 =>
    twp_conseq (twp_same (ribPs_call x h1 st F fuel)) fun a m _ _ => h2 a m
  cases x with
  | insert p r tbi => exact twp_ribInsert hS hk
  | calcBest p tbi => exact twp_ribCalcBest hS hk
  | bestPath p => exact twp_ribBestPath hS hk
  | _ => exact other (fun _ c => c) (fun _ _ => trivial)

end

/-! ## Runs -/

section
variable {ι : Type} [DecidableEq ι] {calls : ι → Call M W} [Fam W] {st : Strategy} {F0 F fuel : Nat}
  (hF : 32 ≤ F) (hf : iterFuel W ≤ fuel) {h : History M W} {s : Rib M W}
  (hs : exec st F0 h = .ok () s)
include hF hf hs

theorem run_saneRun (t : List ι) :
    SaneRun (begunIds h calls t) (fun j => ((start st F fuel s calls).at t j).st) t.length := by
  have := run_span (calls := calls) hF hf hs t (Nat.le_refl t.length) (Prefix.root W) (C := False)
      (k := 0) (fun c => c.elim)
  rw [List.take_length] at this
  exact ⟨fun j hj => this.sane j (Nat.zero_le j) hj, fun i j hij hj => this.grow i j (Nat.zero_le i) hij hj⟩

/-- Every call of a run, from any moment before its first turn. -/
theorem run_twp (t : List ι) (i : ι) {k : ℕ} (hk : k ≤ t.length) (hi : i ∉ t.take k) :
    twp (fun j => ((start st F fuel s calls).at t j).st) t.length
      ((start st F fuel s calls).Others t i)
      (RibPsStep (fun j => ((start st F fuel s calls).at t j).st) (calls i) k)
      (((start st F fuel s calls).at t k).pool i)
      ((calls i).SelPost st (fun j => ((start st F fuel s calls).at t j).st) t.length
        ((start st F fuel s calls).Others t i) k) k := by
  have : ((start st F fuel s calls).at t k).pool i = (calls i).prog st F fuel := by
    unfold Conf.at
    rw [Conf.exec_idle _ hi]; rfl
  rw [this]
  exact Call.selTwp (run_saneRun (calls := calls) hF hf hs t) (calls i) st F fuel hk

/-- The steps of a run. -/
theorem run_psStep (t : List ι) {n : ℕ} (hn : n < t.length) :
    PsStep (fun j => ((start st F fuel s calls).at t j).st.cht.slots) (calls t[n]) 0 n
      ((start st F fuel s calls).at t (n + 1)).st.cht.slots := by
  rcases Conf.twp_step (start st F fuel s calls) t (Nat.zero_le n) hn rfl
    (run_twp (calls := calls) hF hf hs t t[n] (Nat.zero_le _) (by simp)) with h | h
  · rw [h]
    exact PsStep.of_same (PsSame.rfl' _)
  · exact h

/-- Where the selections stored at some moment of a run come from. -/
theorem run_selections (t : List ι) {n : ℕ} (hn : n ≤ t.length) {a : Addr} {e : StoredPrefix M W}
    (he : ((start st F fuel s calls).at t n).st.cht.slots a = some e) :
    e.ps.val = (none, none) ∨
    (∃ e0, s.cht.slots a = some e0 ∧ e0.id = e.id ∧ e.ps.val = e0.ps.val) ∨
    ∃ i ∈ t.take n, ∃ (p : Prefix W) (tbi : Meta.TBI M), e.id = p.id ∧ CallStores p tbi (calls i) ∧
      ∃ l < n, ∃ e0, ((start st F fuel s calls).at t l).st.cht.slots a = some e0 ∧ e0.id = e.id ∧
        e.ps.val = bestBackup e0.recs tbi := by
  induction n generalizing e with
  | zero => exact .inr (.inl ⟨e, he, rfl, rfl⟩)
  | succ n ih =>
    have hn' : n < t.length := hn
    have hst := run_psStep (calls := calls) (fuel := fuel) (F := F) (st := st) hF hf hs t hn'
    have hmem : ∀ i, i ∈ t.take n → i ∈ t.take (n + 1) := fun i hi =>
      (List.take_prefix_take_left (by omega)).subset hi
    cases hold : ((start st F fuel s calls).at t n).st.cht.slots a with
    | none => exact .inl (hst.2 a e hold he)
    | some e1 =>
      obtain ⟨e2, h1, hid, _, hv⟩ := hst.1 a e1 hold
      rw [he] at h1; cases h1
      rcases hv with hv | ⟨p, tbi, hp, hc, l, _, hl, e0, h2, h3, h4⟩
      · rw [hv, hid]
        rcases ih hn'.le hold with h | h | ⟨i, hi, p, tbi, h5, h6, l, hl, h7⟩
        · exact .inl h
        · exact .inr (.inl h)
        · exact .inr (.inr ⟨i, hmem i hi, p, tbi, h5, h6, l, by omega, h7⟩)
      · refine .inr (.inr ⟨t[n], ?_, p, tbi, hid.trans hp, hc, l, by omega, e0, h2, h3.trans hid.symm, h4⟩)
        rw [List.take_succ_eq_append_getElem hn']
        exact List.mem_append_right _ (List.mem_singleton.2 rfl)

/-- If the others make no insert and no calculation for `p`, they leave its selection
alone. -/
theorem run_quiet (t : List ι) {i : ι} {p : Prefix W} {k : ℕ}
    (hq : ∀ m, k ≤ m → ∀ hm : m < t.length, t[m] = i ∨ ¬ CallSelects p (calls t[m])) :
    Quiet (fun j => ((start st F fuel s calls).at t j).st.cht.slots) t.length
      ((start st F fuel s calls).Others t i) p.id k := by
  intro l hkl hl hO
  rcases hO with hO | ⟨_, hO⟩
  · dsimp only
    rw [hO]
    exact (PsSame.rfl' _).keep
  · intro a e he hid
    obtain ⟨e', h1, h2, h3, _⟩ := (run_psStep (calls := calls) (fuel := fuel) (F := F) (st := st)
      hF hf hs t hl).1 a e he
    obtain ⟨h4, h5⟩ := h3 p hid ((hq l hkl hl).resolve_left hO)
    exact ⟨e', h1, h2.trans hid, h4, h5⟩

end

end Rotonda
