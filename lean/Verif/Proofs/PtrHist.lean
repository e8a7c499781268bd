import Verif.Proofs.PtrCalls
import Verif.Proofs.PtrThreads
import Verif.Proofs.ConcRun

/-!
# Calls alone and one after another, on the heap
-/

namespace Rotonda

open Prog

section
variable {σ α : Type}

/-- One call alone. -/
def aloneConf (p : Prog σ α) (s : σ) : Conf σ Unit fun _ => α := ⟨s, fun _ => p⟩

theorem Conf.unit_eta (c : Conf σ Unit fun _ => α) : c = aloneConf (c.pool ()) c.st := rfl

theorem alone_step (p : Prog σ α) (s : σ) :
    (aloneConf p s).step () = aloneConf (p.step1 s).2 (p.step1 s).1 := by
  obtain ⟨h1, h2⟩ := Conf.step_step1 (aloneConf p s) ()
  rw [Conf.unit_eta ((aloneConf p s).step ()), h1, h2]
  simp [aloneConf]

theorem run_step1 (p : Prog σ α) (s : σ) : (p.step1 s).2.run (p.step1 s).1 = p.run s := by
  cases p <;> rfl

theorem alone_run (p : Prog σ α) (s : σ) (u : List Unit) :
    (((aloneConf p s).exec u).pool ()).run ((aloneConf p s).exec u).st = p.run s := by
  induction u generalizing p s with
  | nil => rfl
  | cons x u ih =>
    show ((((aloneConf p s).step ()).exec u).pool ()).run (((aloneConf p s).step ()).exec u).st = _
    rw [alone_step, ih, run_step1]

theorem alone_ends (p : Prog σ α) (s : σ) :
    ∃ u : List Unit, ¬ (((aloneConf p s).exec u).pool ()).IsAct := by
  induction p generalizing s with
  | act f k ih =>
    obtain ⟨u, hu⟩ := ih (f s).1 (f s).2
    refine ⟨() :: u, ?_⟩
    show ¬ ((((aloneConf (.act f k) s).step ()).exec u).pool ()).IsAct
    rw [alone_step]
    exact hu
  | _ => exact ⟨[], fun h => h.elim⟩

end

variable {M : Type} {W : Nat}

theorem PtrSim.follows {ι : Type} [DecidableEq ι] {R : ι → Type} {A : PtrAlloc M W}
    {c : Conf (PtrRib M W) ι R} {a : Conf (Rib M W) ι R} {ts : ∀ i, TSt M W (R i)} (h : PtrSim A c a ts) :
    Follows c a :=
  ⟨h.st, fun i => (h.over i).1, fun i => (h.over i).2.1, fun i => (h.over i).2.2.1⟩

/-- A call alone does the same on the heap. -/
theorem Calm.alone {α : Type} {A : PtrAlloc M W} {s : PtrRib M W} (hs : Calm s) {t : PtrProg M W α}
    {p : Prog (Rib M W) α} (ht : t.Runs p) :
    match (t.start A).run s with
    | .ok x z => p.run s.view = .ok x z.view ∧ Calm z
    | .panic => p.run s.view = .panic
    | .diverge => p.run s.view = .diverge := by
  obtain ⟨u, hu⟩ := alone_ends (t.start A) s
  obtain ⟨u', ts', -, hsim⟩ := (PtrSim.start (ι := Unit) (A := A) hs (fun _ => t) (fun _ => p) fun _ => ht).run u
  have h1 := alone_run (t.start A) s u
  have h2 := alone_run p s.view u'
  have hf : Follows ((aloneConf (t.start A) s).exec u) ((aloneConf p s.view).exec u') := hsim.follows
  have hc := hsim.calm fun _ => hu
  rw [← h1, ← h2]
  cases hp : ((aloneConf (t.start A) s).exec u).pool () with
  | act f k => rw [hp] at hu; exact (hu trivial).elim
  | ret x =>
    simp only [Prog.run]
    rw [hf.ret _ _ hp]
    exact ⟨by rw [hf.view]; rfl, hc⟩
  | panic => simp only [Prog.run]; rw [hf.panic _ hp]; rfl
  | diverge => simp only [Prog.run]; rw [hf.diverge _ hp]; rfl

theorem free_op [Meta M] (st : Strategy) (F : Nat) (op : Op M W) : Free (op.prog st F) := by
  cases op with
  | insert p r tbi => exact .bind (free_ribInsert _ _ _ _ _) fun _ => free_pure _
  | withdrawFor p m t => exact .bind (free_ribMarkWithdrawnForPrefix _ _ _ _) fun _ => free_pure _
  | activateFor p m t => exact .bind (free_ribMarkActiveForPrefix _ _ _ _) fun _ => free_pure _
  | withdraw m => exact free_treeMarkWithdrawn _ _
  | activate m => exact free_treeMarkActive _ _
  | calcBest p tbi => exact .bind (free_ribCalcBest _ _) fun _ => free_pure _

theorem free_new (F : Nat) : Free (M := M) (W := W) (do let _ ← ribNew F) :=
  .bind (free_ribNew F) fun _ => free_pure _

theorem down_empty {E : Type} (r : Nat) (i : Nat) (q : List Nat) :
    (TabHeap.empty : TabHeap E).down r (i :: q) = none := by
  induction q generalizing i with
  | nil => rfl
  | cons j q ih =>
    rw [TabHeap.down, ih]
    rfl

theorem toSlots_empty {E : Type} : (TabHeap.empty : TabHeap E).toSlots = fun _ => none := by
  funext a
  rw [TabHeap.toSlots, TabHeap.locAt]
  cases h : a.path.reverse with
  | nil => rfl
  | cons i q => rw [down_empty]

theorem view_empty : (PtrRib.empty : PtrRib M W).view = Rib.empty := by
  show Rib.withTables Rib.empty (TabHeap.empty : TabHeap (StoredNode W)).toSlots
    (TabHeap.empty : TabHeap (StoredPrefix M W)).toSlots = Rib.empty
  rw [toSlots_empty, toSlots_empty]
  rfl

variable [Meta M] {A : PtrAlloc M W} {st : Strategy} {F : Nat} {h : History M W}

theorem PtrHistory.calm {z : PtrRib M W} (hz : PtrHistory A st F h z) :
    Calm z ∧ exec st F h = .ok () z.view := by
  induction hz with
  | new ht hz =>
    have := Calm.alone (A := A) Calm.empty ht
    rw [hz, view_empty] at this
    exact ⟨this.2, this.1⟩
  | call hy ht hz ih =>
    have := Calm.alone (A := A) ih.1 ht
    rw [hz] at this
    refine ⟨this.2, ?_⟩
    rw [exec, ih.2]
    exact this.1

theorem PtrHistory.of_exec {s : Rib M W} (hs : exec st F h = .ok () s) :
    ∃ z, PtrHistory A st F h z := by
  induction h generalizing s with
  | nil =>
    obtain ⟨t, ht⟩ := (free_new (M := M) (W := W) F).runs
    have h1 := Calm.alone (A := A) Calm.empty ht
    rw [view_empty] at h1
    rw [exec] at hs
    rw [hs] at h1
    cases hr : (t.start A).run PtrRib.empty with
    | ok x z => exact ⟨z, .new ht hr⟩
    | panic => rw [hr] at h1; cases h1
    | diverge => rw [hr] at h1; cases h1
  | cons op h ih =>
    rw [exec] at hs
    cases ho : exec st F h with
    | ok x y =>
      obtain ⟨z, hz⟩ := ih ho
      obtain ⟨t, ht⟩ := (free_op st F op).runs
      have h1 := Calm.alone (A := A) hz.calm.1 ht
      have hv := hz.calm.2
      rw [hv] at hs
      have hs' : (op.prog st F).run z.view = .ok () s := hs
      rw [hs'] at h1
      cases hr : (t.start A).run z with
      | ok x y => exact ⟨y, .call hz ht hr⟩
      | panic => rw [hr] at h1; cases h1
      | diverge => rw [hr] at h1; cases h1
    | panic => rw [ho] at hs; cases hs
    | diverge => rw [ho] at hs; cases hs

end Rotonda
