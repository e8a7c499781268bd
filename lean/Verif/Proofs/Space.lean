import Verif.Proofs.LinPersist
import Verif.Proofs.CountCalls
import Verif.Proofs.ConcRun
import Verif.Spec.Space
import Mathlib.Algebra.Order.BigOperators.Group.Finset
import Mathlib.Data.Set.Card
import Mathlib.Data.Finset.Card

/-!
# What the slots of the tables are filled with
-/

namespace Rotonda

open Prog Spec

variable {M : Type} {W : Nat} {K : PrefixId W → Prop}

/-- Every entry of the prefix table is for a prefix in `K`. -/
def OnlyFor (K : PrefixId W → Prop) (s : PSlots M W) : Prop := ∀ a e, s a = some e → K e.id

/-- A step that keeps it so. -/
def KeepsP (K : PrefixId W → Prop) (s s' : PSlots M W) : Prop := OnlyFor K s → OnlyFor K s'

/-- The same for the whole store. -/
def KeepsFor (K : PrefixId W → Prop) (s s' : Rib M W) : Prop :=
  OnlyFor K s.cht.slots → OnlyFor K s'.cht.slots

theorem keepsP_readOnly {α : Type} {p : Prog (PSlots M W) α} (h : p.ReadOnly) : p.Always (KeepsP K) :=
  ReadOnly.always (fun _ h => h) h

theorem keepsP_access {ρ : Type} {a : Addr} {f : StoredPrefix M W → ρ × StoredPrefix M W}
    (hf : ∀ e, (f e).2.id = e.id) : (accessAt a f).Always (KeepsP K) := by
  unfold accessAt
  refine Always.bind (always_atomic fun s => ?_) fun _ => always_ofOption _
  cases h : s a with
  | none => exact fun h => h
  | some e =>
    intro hk b e' he
    simp only at he
    by_cases hb : b = a
    · subst hb
      rw [Slots.set_same] at he; cases he
      rw [hf]; exact hk _ _ h
    · rw [Slots.set_other _ _ hb] at he
      exact hk _ _ he

theorem keepsP_sliceGetOrInit (b : Bucket) (i : Nat) {id : PrefixId W} (hid : K id) (n : Nat) :
    (sliceGetOrInit b i (StoredPrefix.new (M := M) id n)).Always (KeepsP K) := by
  have hcas : (casInit (b.slot i) (StoredPrefix.new (M := M) id n)).Always (KeepsP K) := by
    refine always_atomic fun s => ?_
    cases h : s (b.slot i) with
    | some e => exact fun h => h
    | none =>
      intro hk c e' he
      simp only at he
      by_cases hb : c = b.slot i
      · subst hb; rw [Slots.set_same] at he; cases he; exact hid
      · rw [Slots.set_other _ _ hb] at he
        exact hk _ _ he
  unfold sliceGetOrInit
  always [always_read (fun _ h => h) _, hcas]

theorem keepsP_retrievePrefixMutLoop {id : PrefixId W} (hid : K id) (fuel : Nat) : ∀ level b,
    (retrievePrefixMutLoop (M := M) id fuel level b).Always (KeepsP K) := by
  induction fuel with
  | zero => intros; exact always_panic
  | succ n ih =>
    intro level b
    unfold retrievePrefixMutLoop
    have h1 := fun b i => keepsP_readOnly (K := K) (readOnly_sliceGet (E := StoredPrefix M W) b i)
    have h2 := fun b i => keepsP_sliceGetOrInit (M := M) b i hid
    have hf := fun b => ih (level + 1) b
    always [h1 _ _, h2 _ _ _, hf _]

theorem keepsP_retrievePrefixMut {id : PrefixId W} (hid : K id) :
    (retrievePrefixMut (M := M) id).Always (KeepsP K) :=
  Always.bind (always_ofOption _) fun _ => keepsP_retrievePrefixMutLoop hid _ _ _

theorem keepsP_setPathSelections (a : Addr) (v : Option Mui × Option Mui) :
    (setPathSelections (M := M) (W := W) a v).Always (KeepsP K) := by
  unfold setPathSelections
  have h1 := fun f => keepsP_readOnly (K := K) (readOnly_readAt (E := StoredPrefix M W) (ρ := PsCell) a f)
  refine Always.bind (h1 _) fun cur => ?_
  split
  · trivial
  · refine keepsP_access fun e => ?_
    split <;> rfl

theorem keepsP_calculateAndStore [Meta M] (a : Addr) (tbi : Meta.TBI M) :
    (calculateAndStore (W := W) a tbi).Always (KeepsP K) := by
  unfold calculateAndStore
  have h1 := keepsP_readOnly (K := K)
    (readOnly_readAt (E := StoredPrefix M W) a fun e => bestBackup e.recs tbi)
  always [h1, keepsP_setPathSelections _ _]

/-! ## The store -/

theorem keepsFor_onRecs {α : Type} {p : Prog (PSlots M W) α} (h : p.Always (KeepsP K)) :
    (onRecs p).Always (KeepsFor K) :=
  Always.zoom (G' := fun a b : PCht M W => KeepsP K a.slots b.slots)
    (fun _ _ h => h) (Always.zoom (fun _ _ h => h) h)

theorem keepsFor_onTree {α : Type} (p : Prog (Tree W) α) :
    (p.zoom Rib.treeL : Prog (Rib M W) α).Always (KeepsFor K) :=
  Always.zoom (G' := fun _ _ => True) (fun _ _ _ h => h) (always_true p)

theorem keepsFor_readOnly {α : Type} {p : Prog (Rib M W) α} (h : p.ReadOnly) :
    p.Always (KeepsFor K) := ReadOnly.always (fun _ h => h) h

theorem keepsFor_onLsm (f : Lsm → Lsm) : (onLsm (M := M) (W := W) f).Always (KeepsFor K) :=
  always_atomic fun _ h => h

theorem keepsFor_upsert [Meta M] {p : PrefixId W} (hp : K p) (r : Record M) (upd : Option (Meta.TBI M)) :
    ((pchtUpsert p r upd).zoom Rib.chtL).Always (KeepsFor (M := M) K) := by
  refine Always.zoom (G' := fun a b : PCht M W => KeepsP K a.slots b.slots) (fun _ _ h => h) ?_
  have z : ∀ {α : Type} {p : Prog (PSlots M W) α}, p.Always (KeepsP K) →
      (p.zoom PCht.slotsL).Always (fun a b : PCht M W => KeepsP K a.slots b.slots) :=
    fun h => Always.zoom (fun _ _ h => h) h
  have h1 := z (keepsP_retrievePrefixMut (M := M) hp)
  have h2 : ∀ a, ((upsertRecordAt (W := W) a r).zoom PCht.slotsL).Always
      (fun a b : PCht M W => KeepsP K a.slots b.slots) := fun a => z (keepsP_access fun _ => rfl)
  have h3 : ∀ a, ((setPsOutdated (M := M) (W := W) a).zoom PCht.slotsL).Always
      (fun a b : PCht M W => KeepsP K a.slots b.slots) := fun a => z (keepsP_access fun _ => rfl)
  have h4 : ∀ a tbi, ((calculateAndStore (M := M) (W := W) a tbi).zoom PCht.slotsL).Always
      (fun a b : PCht M W => KeepsP K a.slots b.slots) := fun a tbi => z (keepsP_calculateAndStore a tbi)
  have h5 : (PCht.incRoutes (M := M) (W := W)).Always
      (fun a b : PCht M W => KeepsP K a.slots b.slots) := always_atomic fun _ h => h
  have h6 : ∀ n, (PCht.incPrefixes (M := M) (W := W) n).Always
      (fun a b : PCht M W => KeepsP K a.slots b.slots) := fun n => always_atomic fun _ h => h
  unfold pchtUpsert
  refine Always.bind h1 fun q => ?_
  obtain ⟨sp, found⟩ := q
  dsimp only
  cases found with
  | false =>
    refine Always.bind (h2 _) fun old => ?_
    rcases old with _ | ⟨v, n⟩
    · exact Always.bind h5 fun _ => Always.bind (h6 _) fun _ => trivial
    · trivial
  | true =>
    refine Always.bind (h3 _) fun _ => Always.bind (h2 _) fun old => ?_
    have jp : ∀ u : Except StoreError (Option Mui × Option Mui), Always
        (fun a b : PCht M W => KeepsP K a.slots b.slots) (match u with
          | .error e => (pure (.error e) : Prog (PCht M W) (Except StoreError (UpsertReport × Option (MMV M))))
          | .ok _ => pure (.ok (⟨false, true, (old.map Prod.snd).getD 1⟩, old.map Prod.fst))) := by
      intro u; cases u <;> trivial
    rcases old with _ | ⟨v, n⟩ <;> cases upd with
    | none => first
      | exact Always.bind h5 fun _ => jp (.ok (none, none))
      | exact jp (.ok (none, none))
    | some tbi => first
      | exact Always.bind h5 fun _ => Always.bind (h4 _ _) fun u => jp u
      | exact Always.bind (h4 _ _) fun u => jp u

theorem keepsFor_ribUpsert [Meta M] (st : Strategy) (F : Nat) {p : PrefixId W}
    (hp : st ≠ .persistOnly → K p) (r : Record M) (upd : Option (Meta.TBI M)) :
    (ribUpsert st F p r upd).Always (KeepsFor (M := M) K) := by
  cases st with
  | persistOnly => unfold ribUpsert; always [keepsFor_onTree _, keepsFor_onLsm _]
  | writeAhead =>
    have := keepsFor_upsert (hp (by decide)) r upd
    unfold ribUpsert; always [this, keepsFor_onLsm _]
  | persistHistory =>
    have := keepsFor_upsert (hp (by decide)) r upd
    unfold ribUpsert; always [this, keepsFor_onLsm _]
  | memoryOnly =>
    have := keepsFor_upsert (hp (by decide)) r upd
    unfold ribUpsert; always [this, keepsFor_onLsm _]

theorem keepsFor_ribInsert [Meta M] (st : Strategy) (F : Nat) {p : PrefixId W}
    (hp : st ≠ .persistOnly → K p) (r : Record M) (upd : Option (Meta.TBI M)) :
    (ribInsert st F p r upd).Always (KeepsFor (M := M) K) := by
  have h1 : (Rib.incRoutes (M := M) (W := W)).Always (KeepsFor K) := always_atomic fun _ h => h
  have h2 : ∀ n, (Rib.incPrefixes (M := M) (W := W) n).Always (KeepsFor K) :=
    fun n => always_atomic fun _ h => h
  unfold ribInsert
  refine Always.bind (keepsFor_onTree _) fun ex => ?_
  cases ex with
  | error e => trivial
  | ok ex =>
    refine Always.bind (keepsFor_ribUpsert st F hp r upd) fun rep => ?_
    cases rep with
    | error e => trivial
    | ok rep => dsimp only; always [h1, h2 _]

theorem keepsFor_ribMarkMem {p : PrefixId W} (hp : K p) (m : Mui) (l : LTime) (rs : RouteStatus) :
    (ribMarkMem (M := M) p m l rs).Always (KeepsFor K) := by
  unfold ribMarkMem
  refine Always.bind (keepsFor_onRecs (keepsP_retrievePrefixMut hp)) fun q => ?_
  obtain ⟨sp, found⟩ := q
  dsimp only
  split
  · trivial
  · exact Always.bind (keepsFor_onRecs (keepsP_access fun _ => rfl)) fun _ => trivial

theorem keepsFor_ribPersistMarker (sp : Ref W) (p : PrefixId W) (m : Mui) (l : LTime) :
    (ribPersistMarker (M := M) sp p m l).Always (KeepsFor K) := by
  unfold ribPersistMarker
  refine Always.bind (keepsFor_onRecs (keepsP_readOnly (readOnly_readAt _ _))) fun o => ?_
  cases o with
  | none => trivial
  | some _ => exact keepsFor_onLsm _

theorem keepsFor_rewriteAll (t : LTime) (rs : RouteStatus) :
    ∀ bs : List Bytes, (rewriteAll (M := M) W t rs bs).Always (KeepsFor K) := by
  intro bs
  induction bs with
  | nil => trivial
  | cons b bs ih =>
    unfold rewriteAll
    refine Always.bind (always_atomic fun s => ?_) fun ok => ?_
    · cases rewriteHeader W s.lsm t rs b <;> exact fun h => h
    · split
      · exact ih
      · trivial

theorem keepsFor_withdrawFor (st : Strategy) {p : PrefixId W} (hp : st ≠ .persistOnly → K p)
    (m : Mui) (t : LTime) : (ribMarkWithdrawnForPrefix (M := M) st p m t).Always (KeepsFor K) := by
  cases st <;> unfold ribMarkWithdrawnForPrefix
  case persistOnly =>
    refine Always.bind (keepsFor_readOnly (readOnly_read _)) fun _ =>
      Always.bind (keepsFor_rewriteAll _ _ _) fun _ => ?_
    split <;> trivial
  all_goals
    refine Always.bind (keepsFor_ribMarkMem (hp (by decide)) _ _ _) fun o => ?_
    cases o with
    | none => trivial
    | some sp => first
      | trivial
      | exact Always.bind (keepsFor_ribPersistMarker _ _ _ _) fun _ => trivial

theorem keepsFor_activateFor (st : Strategy) {p : PrefixId W} (hp : st ≠ .persistOnly → K p)
    (m : Mui) (t : LTime) : (ribMarkActiveForPrefix (M := M) st p m t).Always (KeepsFor K) := by
  cases st <;> unfold ribMarkActiveForPrefix
  case persistOnly =>
    refine Always.bind (keepsFor_readOnly (readOnly_read _)) fun o => ?_
    cases o with
    | none => trivial
    | some b =>
      refine Always.bind (keepsFor_rewriteAll _ _ _) fun _ => ?_
      split <;> trivial
  all_goals
    refine Always.bind (keepsFor_ribMarkMem (hp (by decide)) _ _ _) fun o => ?_
    cases o with
    | none => trivial
    | some sp => first
      | trivial
      | exact Always.bind (keepsFor_ribPersistMarker _ _ _ _) fun _ => trivial

variable [Meta M]

theorem keepsFor_ribCalcBest (p : PrefixId W) (tbi : Meta.TBI M) :
    (ribCalcBest p tbi).Always (KeepsFor (M := M) K) := by
  unfold ribCalcBest
  have h1 : ∀ q, (onRecs (retrievePrefix (M := M) q)).Always (KeepsFor (W := W) K) :=
    fun q => keepsFor_onRecs (keepsP_readOnly (readOnly_retrievePrefix _))
  have h2 : ∀ a, (onRecs (calculateAndStore (W := W) a tbi)).Always (KeepsFor K) :=
    fun a => keepsFor_onRecs (keepsP_calculateAndStore a tbi)
  always [h1 _, h2 _]

/-- Every action of a call keeps the table as it is but for an entry for the call's own prefix. -/
theorem keepsFor_call {st : Strategy} (F fuel : Nat) (x : Call M W)
    (hx : ∀ p, x.entry st = some p → K p.id) : (x.prog st F fuel).Always (KeepsFor K) := by
  have own : ∀ {p : Prefix W}, x.entry st = (if st = .persistOnly then none else some p) →
      st ≠ .persistOnly → K p.id := fun h hne => hx _ (by rw [h, if_neg hne])
  cases x with
  | insert q r tbi => exact keepsFor_ribInsert st F (own rfl) r tbi
  | withdrawFor q m t => exact keepsFor_withdrawFor st (own rfl) m t
  | activateFor q m t => exact keepsFor_activateFor st (own rfl) m t
  | withdraw m => exact keepsFor_onTree _
  | activate m => exact keepsFor_onTree _
  | calcBest q tbi => exact keepsFor_ribCalcBest q.id tbi
  | contains p mui => exact keepsFor_readOnly (readOnly_ribContains _ _)
  | getRecords p mui iw => exact keepsFor_readOnly (readOnly_ribGetValue _ _ _ _)
  | matchPrefix p o => exact keepsFor_readOnly (readOnly_ribMatchPrefix _ _ _ _)
  | moreFrom p mui iw => exact keepsFor_readOnly (readOnly_ribMoreSpecificsFrom _ _ _ _ _)
  | lessFrom p mui iw => exact keepsFor_readOnly (readOnly_ribLessSpecificsFrom _ _ _ _)
  | moreIter p mui iw => exact keepsFor_readOnly (readOnly_ribMoreSpecificsIter _ _ _ _ _)
  | lessIter p mui iw => exact keepsFor_readOnly (readOnly_ribLessSpecificsIter _ _ _ _)
  | prefixesIter => exact keepsFor_readOnly (readOnly_ribPrefixesIter _ _)
  | persistPrefixesIter => exact keepsFor_readOnly (readOnly_ribPersistPrefixesIter _)
  | recordsForMui m iw => exact keepsFor_readOnly (readOnly_ribIterRecordsForMui _ _ _ _)
  | bestPath p => exact keepsFor_readOnly (readOnly_ribBestPath _)
  | isPsOutdated p => exact keepsFor_readOnly (readOnly_ribIsPsOutdated _)
  | muiIsWithdrawn m => exact keepsFor_readOnly (readOnly_ribMuiIsWithdrawn _)
  | isMuiActive m => exact keepsFor_readOnly (readOnly_ribIsMuiActive _)
  | prefixesCount => exact keepsFor_readOnly readOnly_ribPrefixesCount
  | routesCount => exact keepsFor_readOnly readOnly_ribRoutesCount
  | prefixesCountForLen l => exact keepsFor_readOnly (readOnly_ribPrefixesCountForLen _)
  | nodesCount => exact keepsFor_readOnly (readOnly_read _)

theorem keepsFor_op {st : Strategy} (F : Nat) (x : Op M W)
    (hx : ∀ p, x.entry st = some p → K p.id) : (x.prog st F).Always (KeepsFor K) := by
  have own : ∀ {p : Prefix W}, x.entry st = (if st = .persistOnly then none else some p) →
      st ≠ .persistOnly → K p.id := fun h hne => hx _ (by rw [h, if_neg hne])
  cases x with
  | insert q r tbi => exact Always.bind (keepsFor_ribInsert st F (own rfl) r tbi) fun _ => trivial
  | withdrawFor q m t => exact Always.bind (keepsFor_withdrawFor st (own rfl) m t) fun _ => trivial
  | activateFor q m t => exact Always.bind (keepsFor_activateFor st (own rfl) m t) fun _ => trivial
  | withdraw m => exact keepsFor_onTree _
  | activate m => exact keepsFor_onTree _
  | calcBest q tbi => exact Always.bind (keepsFor_ribCalcBest q.id tbi) fun _ => trivial

theorem KeepsFor.steps {s s' : Rib M W} (h : Relation.ReflTransGen (KeepsFor K) s s') :
    KeepsFor K s s' := by
  induction h with
  | refl => exact fun h => h
  | tail _ h ih => exact fun h0 => h (ih h0)

theorem onlyFor_exec {st : Strategy} {F : Nat} : ∀ {h : History M W} {s : Rib M W},
    exec st F h = .ok () s → (∀ x ∈ h, ∀ p, x.entry st = some p → K p.id) → OnlyFor K s.cht.slots := by
  intro h
  induction h with
  | nil =>
    intro s hs _
    have hA : (do let _ ← ribNew F : Prog (Rib M W) Unit).Always (KeepsFor K) :=
      Always.bind (keepsFor_onTree _) fun _ => trivial
    exact KeepsFor.steps (hA.run hs) fun a e he => nomatch he
  | cons x h ih =>
    intro s hs hK
    simp only [exec] at hs
    cases h1 : exec st F h with
    | ok u s1 =>
      rw [h1] at hs
      exact KeepsFor.steps ((keepsFor_op F x (hK x (by simp))).run hs)
        (ih h1 fun y hy => hK y (List.mem_cons_of_mem _ hy))
    | panic => rw [h1] at hs; cases hs
    | diverge => rw [h1] at hs; cases hs

variable {ι : Type} [DecidableEq ι]

/-- Whatever the schedule, entries are for prefixes of calls that make entries. -/
theorem onlyFor_run {st : Strategy} {F0 F fuel : Nat} {h : History M W} {s : Rib M W}
    (hs : exec st F0 h = .ok () s) (calls : ι → Call M W) (t : List ι) :
    OnlyFor (fun q => ∃ p ∈ entries st h calls t, q = p.id)
      ((start st F fuel s calls).exec t).st.cht.slots := by
  refine Conf.exec_always (I := fun s : Rib M W =>
    OnlyFor (fun q => ∃ p ∈ entries st h calls t, q = p.id) s.cht.slots)
    (G := fun _ => KeepsFor (fun q => ∃ p ∈ entries st h calls t, q = p.id)) t
    (start st F fuel s calls) (fun _ _ _ _ h0 h => h h0) (fun i hi => ?_) ?_
  · refine keepsFor_call F fuel (calls i) fun p hp => ⟨p, ?_, rfl⟩
    simp only [entries, List.mem_toFinset, List.mem_append, List.mem_filterMap]
    exact .inr ⟨i, hi, hp⟩
  · refine onlyFor_exec hs fun x hx p hp => ⟨p, ?_, rfl⟩
    simp only [entries, List.mem_toFinset, List.mem_append, List.mem_filterMap]
    exact .inl ⟨x, hx, hp⟩

end Rotonda
