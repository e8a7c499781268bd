import Verif.Proofs.ConcAll
import Verif.Proofs.Ghost

/-!
# Actions that change no record
-/

namespace Rotonda

open Prog Spec

variable {M : Type} {W : Nat}

/-- The entries keep their records; new ones have none. -/
def SameRecs (s s' : PSlots M W) : Prop :=
  (∀ a e, s a = some e → ∃ e', s' a = some e' ∧ e'.id = e.id ∧ e'.recs = e.recs) ∧
  ∀ a e', s a = none → s' a = some e' → e'.recs = []

theorem SameRecs.rfl' (s : PSlots M W) : SameRecs s s :=
  ⟨fun _ e he => ⟨e, he, rfl, rfl⟩, fun _ _ h h' => by rw [h] at h'; cases h'⟩

/-- A step that changes neither the records in memory, nor the set of withdrawn
muis, nor (under the condition `po`) the persisted records. -/
structure Silent (po : Prop) (s s' : Rib M W) : Prop where
  recs : SameRecs s.cht.slots s'.cht.slots
  wd : s'.tree.wd = s.tree.wd
  lsm : po → s'.lsm = s.lsm

variable {po : Prop}

theorem Silent.rfl' (s : Rib M W) : Silent po s s := ⟨SameRecs.rfl' _, rfl, fun _ => rfl⟩

theorem ReadOnly.always {σ α : Type} {G : σ → σ → Prop} (hG : ∀ s, G s s) {p : Prog σ α}
    (h : p.ReadOnly) : p.Always G := by
  induction p with
  | ret a => trivial
  | act f k ih => exact ⟨fun s => by rw [h.1]; exact hG s, fun a => ih a (h.2 a)⟩
  | panic => trivial
  | diverge => trivial

theorem silent_readOnly {α : Type} {p : Prog (Rib M W) α} (h : p.ReadOnly) : p.Always (Silent po) :=
  ReadOnly.always Silent.rfl' h

/-! ## The prefix table -/

theorem sameRecs_readOnly {α : Type} {p : Prog (PSlots M W) α} (h : p.ReadOnly) :
    p.Always SameRecs := ReadOnly.always SameRecs.rfl' h

theorem sameRecs_access {ρ : Type} {a : Addr} {f : StoredPrefix M W → ρ × StoredPrefix M W}
    (hf : ∀ e, (f e).2.id = e.id ∧ (f e).2.recs = e.recs) : (accessAt a f).Always SameRecs := by
  unfold accessAt
  refine Always.bind (always_atomic fun s => ?_) fun _ => always_ofOption _
  cases h : s a with
  | none => simpa using SameRecs.rfl' s
  | some e =>
    simp only
    refine ⟨fun b e' he => ?_, fun b e' h1 h2 => ?_⟩
    · by_cases hb : b = a
      · subst hb
        rw [h] at he; cases he
        exact ⟨_, Slots.set_same _ _ _, hf e⟩
      · exact ⟨e', by rw [Slots.set_other _ _ hb]; exact he, rfl, rfl⟩
    · by_cases hb : b = a
      · subst hb; rw [h] at h1; cases h1
      · rw [Slots.set_other _ _ hb, h1] at h2; cases h2

theorem sameRecs_sliceGetOrInit (b : Bucket) (i : Nat) (id : PrefixId W) (n : Nat) :
    (sliceGetOrInit b i (StoredPrefix.new (M := M) id n)).Always SameRecs := by
  have hcas : (casInit (b.slot i) (StoredPrefix.new (M := M) id n)).Always SameRecs := by
    refine always_atomic fun s => ?_
    cases h : s (b.slot i) with
    | some e => simpa using SameRecs.rfl' s
    | none =>
      simp only
      refine ⟨fun c e' he => ?_, fun c e' h1 h2 => ?_⟩
      · have hb : c ≠ b.slot i := by rintro rfl; rw [h] at he; cases he
        exact ⟨e', by rw [Slots.set_other _ _ hb]; exact he, rfl, rfl⟩
      · by_cases hb : c = b.slot i
        · subst hb; rw [Slots.set_same] at h2; cases h2; rfl
        · rw [Slots.set_other _ _ hb, h1] at h2; cases h2
  unfold sliceGetOrInit
  always [always_read SameRecs.rfl' _, hcas]

theorem sameRecs_retrievePrefixMutLoop (id : PrefixId W) (fuel : Nat) : ∀ level b,
    (retrievePrefixMutLoop (M := M) id fuel level b).Always SameRecs := by
  induction fuel with
  | zero => intros; exact always_panic
  | succ n ih =>
    intro level b
    unfold retrievePrefixMutLoop
    have h1 := fun b i => sameRecs_readOnly (readOnly_sliceGet (E := StoredPrefix M W) b i)
    have h2 := fun b i => sameRecs_sliceGetOrInit (M := M) (W := W) b i
    have hf := fun b => ih (level + 1) b
    always [h1 _ _, h2 _ _ _ _, hf _]

theorem sameRecs_retrievePrefixMut (id : PrefixId W) :
    (retrievePrefixMut (M := M) id).Always SameRecs :=
  Always.bind (always_ofOption _) fun _ => sameRecs_retrievePrefixMutLoop _ _ _ _

theorem sameRecs_setPsOutdated (a : Addr) : (setPsOutdated (M := M) (W := W) a).Always SameRecs :=
  sameRecs_access fun _ => ⟨rfl, rfl⟩

theorem sameRecs_setPathSelections (a : Addr) (v : Option Mui × Option Mui) :
    (setPathSelections (M := M) (W := W) a v).Always SameRecs := by
  unfold setPathSelections
  have h1 := fun f => sameRecs_readOnly (readOnly_readAt (E := StoredPrefix M W) (ρ := PsCell) a f)
  refine Always.bind (h1 _) fun cur => ?_
  split
  · trivial
  · refine sameRecs_access fun e => ?_
    split <;> exact ⟨rfl, rfl⟩

theorem sameRecs_calculateAndStore [Meta M] (a : Addr) (tbi : Meta.TBI M) :
    (calculateAndStore (W := W) a tbi).Always SameRecs := by
  unfold calculateAndStore
  have h1 := sameRecs_readOnly (readOnly_readAt (E := StoredPrefix M W) a fun e => bestBackup e.recs tbi)
  always [h1, sameRecs_setPathSelections _ _]

/-! ## The store -/

theorem silent_onRecs {α : Type} {p : Prog (PSlots M W) α} (h : p.Always SameRecs) :
    (onRecs p).Always (Silent po) :=
  Always.zoom (G' := fun a b : PCht M W => SameRecs a.slots b.slots)
    (fun _ _ h => ⟨h, rfl, fun _ => rfl⟩) (Always.zoom (fun _ _ h => h) h)

theorem silent_slots {α : Type} {p : Prog (PSlots M W) α} (h : p.Always SameRecs) :
    ((p.zoom PCht.slotsL).zoom Rib.chtL).Always (Silent po) := silent_onRecs h

theorem silent_counters {α : Type} {f : PCht M W → α × PCht M W} (h : ∀ t, (f t).2.slots = t.slots) :
    ((Prog.atomic f).zoom Rib.chtL).Always (Silent po) :=
  Always.zoom (G' := fun a b : PCht M W => b.slots = a.slots)
    (fun s t h => ⟨by
      change SameRecs s.cht.slots t.slots
      rw [h]; exact SameRecs.rfl' _, rfl, fun _ => rfl⟩) (always_atomic h)

theorem silent_onTree {α : Type} {p : Prog (Tree W) α}
    (h : p.Always fun t t' => t'.wd = t.wd) : (p.zoom Rib.treeL : Prog (Rib M W) α).Always (Silent po) :=
  Always.zoom (fun _ _ h => ⟨SameRecs.rfl' _, h, fun _ => rfl⟩) h

theorem silent_atomic {α : Type} {f : Rib M W → α × Rib M W} (h : ∀ s, Silent po s (f s).2) :
    (Prog.atomic f).Always (Silent po) := always_atomic h

theorem always_slots {α : Type} (p : Prog (NSlots W) α) :
    (p.zoom Tree.slotsL).Always fun t t' => t'.wd = t.wd := by
  refine Always.zoom (G' := fun _ _ => True) (fun _ _ _ => rfl) ?_
  induction p with
  | ret a => trivial
  | act f k ih => exact ⟨fun _ => trivial, fun a => ih a⟩
  | panic => trivial
  | diverge => trivial

theorem wd_storeNode (F : Nat) (id : NodeId W) (m : Mui) (ptr : BitVec 16) (pfx : BitVec 32) :
    (storeNode F id m ptr pfx).Always fun t t' => t'.wd = t.wd := by
  unfold storeNode
  refine Always.bind (always_atomic fun _ => rfl) fun _ => ?_
  always [always_slots _]

theorem wd_setPrefixExistsLoop (F : Nat) (p : PrefixId W) (m : Mui) (fuel : Nat) : ∀ a b,
    (setPrefixExistsLoop F p m fuel a b).Always fun t t' => t'.wd = t.wd := by
  induction fuel with
  | zero => intros; first | exact always_panic | exact always_diverge
  | succ n ih =>
    intro a b
    unfold setPrefixExistsLoop
    dsimp only
    always [always_slots _, wd_storeNode _ _ _ _ _, ih _ _]

theorem wd_setPrefixExists (F : Nat) (p : PrefixId W) (m : Mui) :
    (setPrefixExists F p m).Always fun t t' => t'.wd = t.wd := by
  unfold setPrefixExists
  have h1 : (updateDefaultRoute (W := W) m).Always fun t t' => t'.wd = t.wd := by
    unfold updateDefaultRoute
    have := fun k => @always_atomic (Tree W) Unit (fun t t' => t'.wd = t.wd)
      (fun t => ((), { t with rootRbm := muiInsert t.rootRbm k })) (fun _ => rfl)
    always [always_slots _, this _]
  have h2 : (Prog.atomic fun t : Tree W => (t.defaultExists, { t with defaultExists := true })).Always
      fun t t' => t'.wd = t.wd := always_atomic fun _ => rfl
  always [h1, h2, wd_setPrefixExistsLoop _ _ _ _ _ _]

end Rotonda
