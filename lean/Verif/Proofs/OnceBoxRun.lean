import Verif.Proofs.OnceBox
import Verif.Proofs.Ghost

/-!
# Runs of calls on one slice
-/

namespace Rotonda

open Prog BoxHeap

variable {T ι : Type} [DecidableEq ι] {A : Alloc T} {size : Nat} {calls : ι → BoxCall T}

/-- The most turns a call still needs. -/
def Pc.rank : Pc T → Nat
  | get _ => 2
  | getLoad _ _ => 1
  | init _ _ => 8
  | mkSlice _ _ => 7
  | casSlice _ _ _ => 6
  | dropSlice _ _ _ _ => 5
  | load _ _ _ => 4
  | mkBox _ _ _ => 3
  | casBox _ _ _ _ => 2
  | dropBox _ _ _ _ => 1
  | done _ | failed => 0

theorem Pc.rank_next (h : BoxHeap T) (pc : Pc T) : (pc.next A size h).2.rank ≤ pc.rank - 1 := by
  cases pc <;> simp only [Pc.next] <;> (try split) <;> (try split) <;> (try split) <;> simp [Pc.rank]

theorem Pc.done_of_rank {c : BoxCall T} {pc : Pc T} (hof : pc.Of c) (h : pc.rank = 0) : ∃ a, pc = .done a := by
  cases pc with
  | done a => exact ⟨a, rfl⟩
  | failed => cases c <;> simp [Pc.Of] at hof
  | _ => simp [Pc.rank] at h

theorem Pc.ret_iff {c : BoxCall T} {pc : Pc T} (hof : pc.Of c) {a : BoxAns} (hr : ∀ idx v, c = .init idx v → idx < size)
    (h : pc.prog A size = .ret a) : pc = .done a := by
  cases pc with
  | done b => simp only [Pc.prog, Prog.ret.injEq] at h; rw [h]
  | load idx v x =>
    have hlt := hr _ _ hof.load
    simp only [Pc.prog, Pc.after, if_pos hlt] at h
    change Prog.act _ _ = _ at h
    cases h
  | failed => cases h
  | _ => change Prog.act _ _ = _ at h; cases h

/-- A step of a call is a step of its control point. -/
theorem boxStep {c : Conf (BoxHeap T) ι (fun _ => BoxAns)} {pcs : ι → Pc T}
    (hp : ∀ i, c.pool i = (pcs i).prog A size) (i : ι) :
    (c.step i).st = ((pcs i).next A size c.st).1 ∧
      ∀ j, (c.step i).pool j = (Function.update pcs i ((pcs i).next A size c.st).2 j).prog A size := by
  have hs := Pc.step1_prog (A := A) (size := size) c.st (pcs i)
  rw [← hp i] at hs
  have key : (c.step i).st = ((c.pool i).step1 c.st).1 ∧
      ∀ j, (c.step i).pool j = if j = i then ((c.pool i).step1 c.st).2 else c.pool j := by
    cases hq : c.pool i with
    | act f k =>
      rw [Conf.step_act hq]
      exact ⟨rfl, fun j => by simp [Function.update_apply, Prog.step1]⟩
    | ret a => rw [Conf.step_ret hq]; exact ⟨rfl, fun j => by by_cases h : j = i <;> simp [h, hq, Prog.step1]⟩
    | panic => rw [Conf.step_panic hq]; exact ⟨rfl, fun j => by by_cases h : j = i <;> simp [h, hq, Prog.step1]⟩
    | diverge => rw [Conf.step_diverge hq]; exact ⟨rfl, fun j => by by_cases h : j = i <;> simp [h, hq, Prog.step1]⟩
  rw [hs] at key
  refine ⟨key.1, fun j => ?_⟩
  rw [key.2 j, Function.update_apply]
  split
  · rfl
  · exact hp j

/-- Every state of a run. -/
theorem box_run (hr : InRange size calls) (t : List ι) : ∃ pcs : ι → Pc T,
    BoxInv size calls ((boxStart A size calls).exec t).st pcs ∧
    (∀ i, ((boxStart A size calls).exec t).pool i = (pcs i).prog A size) ∧
    (∀ i, (pcs i).rank ≤ 8 - t.count i) ∧ ∀ i, i ∉ t → pcs i = (calls i).pc := by
  induction t using List.reverseRecOn with
  | nil =>
    refine ⟨fun i => (calls i).pc, BoxInv.start, fun i => ?_, fun i => ?_, fun i _ => rfl⟩
    · have : ∀ x : BoxCall T, x.prog A size = x.pc.prog A size := by intro x; cases x <;> rfl
      exact this _
    · have : ∀ x : BoxCall T, x.pc.rank ≤ 8 := by intro x; cases x <;> simp [BoxCall.pc, Pc.rank]
      exact this _
  | append_singleton t i ih =>
    obtain ⟨pcs, h1, h2, h3, h4⟩ := ih
    obtain ⟨hs, hp⟩ := boxStep h2 i
    rw [Conf.exec_append]
    refine ⟨_, ?_, hp, fun j => ?_, fun j hj => ?_⟩
    · have := h1.step (A := A) hr i
      rw [← hs] at this
      exact this
    · have := Pc.rank_next (A := A) (size := size) ((boxStart A size calls).exec t).st (pcs i)
      have := h3 j
      rw [List.count_append, List.count_singleton, Function.update_apply]
      split
      · rename_i e; subst e; simp; omega
      · rename_i e; rw [if_neg (by simpa using Ne.symm e)]; exact this
    · simp only [List.mem_append, List.mem_singleton, not_or] at hj
      rw [Function.update_of_ne hj.2]; exact h4 j hj.1

/-- The control point of a call that has returned. -/
theorem box_returned (hr : InRange size calls) {t : List ι} {pcs : ι → Pc T}
    (hi : BoxInv size calls ((boxStart A size calls).exec t).st pcs)
    (hp : ∀ i, ((boxStart A size calls).exec t).pool i = (pcs i).prog A size) {i : ι} {a : BoxAns}
    (h : ((boxStart A size calls).exec t).pool i = .ret a) : pcs i = .done a :=
  Pc.ret_iff (hi.of i) (fun idx v => hr i idx v) ((hp i).symm.trans h)

/-- A call that starts when the box is full finds the pointer. -/
theorem box_late (hr : InRange size calls) {t : List ι} {i k : ι} {idx : Nat} {v : T} {b : Option Nat}
    (hc : calls i = .init idx v)
    (hw : ((boxStart A size calls).exec t).pool i = .ret (b, true)) (hk : calls k = .get idx)
    (hkt : k ∉ t) (u : List ι) :
    ∀ us, ((boxStart A size calls).exec (t ++ u)).pool k ≠ .ret (none, us) := by
  induction u using List.reverseRecOn with
  | nil =>
    intro us h
    rw [List.append_nil, Conf.exec_idle _ hkt] at h
    change (calls k).prog A size = _ at h
    rw [hk] at h
    change Prog.act _ _ = _ at h
    cases h
  | append_singleton u j ih =>
    intro us h
    obtain ⟨pcs, h1, h2, _⟩ := box_run (A := A) hr (t ++ u)
    have hwin : ((boxStart A size calls).exec (t ++ u)).pool i = .ret (b, true) := by
      rw [Conf.exec_append]; exact Conf.exec_ret hw u
    obtain ⟨b', rfl⟩ : ∃ b', b = some b' := by
      have := h1.of i
      rw [box_returned hr h1 h2 hwin, hc] at this
      exact Option.isSome_iff_exists.1 this
    have hcell := h1.found i b' (by rw [box_returned hr h1 h2 hwin]; rfl)
    rw [hc] at hcell
    simp only [BoxCall.idx] at hcell
    obtain ⟨hs, hp⟩ := boxStep h2 j
    rw [← List.append_assoc, Conf.exec_append] at h
    change (Conf.step _ j).pool k = _ at h
    rw [hp k, Function.update_apply] at h
    have hnot : ∀ us, pcs k ≠ .done (none, us) := by
      intro us' e
      exact ih us' (by rw [h2 k, e]; rfl)
    have hstay : ∀ us, (pcs k).prog A size ≠ .ret (none, us) := by
      intro us' e
      exact hnot us' (Pc.ret_iff (h1.of k) (fun idx v => hr k idx v) e)
    split at h
    · rename_i e; subst e
      have hof := h1.of k
      rw [hk] at hof
      cases hpc : pcs k with
      | get idx' =>
        rw [hpc] at h hof
        simp only [Pc.Of] at hof
        subst hof
        simp only [Pc.next] at h
        cases hptr : ((boxStart A size calls).exec (t ++ u)).st.ptr with
        | none => simp [BoxHeap.cell, hptr] at hcell
        | some x =>
          simp only [hptr, if_pos (h1.range _ _ hcell)] at h
          change Prog.act _ _ = _ at h
          cases h
      | getLoad idx' x =>
        rw [hpc] at h hof
        simp only [Pc.Of] at hof
        subst hof
        have hptr := h1.slice k x (by rw [hpc]; rfl)
        obtain ⟨cells, hx⟩ := h1.ptrLive x hptr
        simp only [BoxHeap.cell, hptr, hx] at hcell
        simp only [Pc.next, hx, hcell, Pc.prog] at h
        cases h
      | done a => exact hstay us (by rw [hpc] at h ⊢; exact h)
      | _ => rw [hpc] at hof; simp [Pc.Of] at hof
    · exact hstay us h

/-! ## Dropping the slice -/

theorem run_dropCells {x n : Nat} {h : BoxHeap T} {cells : Nat → Option Nat} (hx : h.slices x = some cells)
    (hlive : ∀ j < n, ∀ b, cells j = some b → ∃ v, h.boxes b = some v)
    (hinj : ∀ j k b, cells j = some b → cells k = some b → j = k) :
    ∃ h', (dropCells x n).run h = .ok () h' ∧ h'.ptr = h.ptr ∧ h'.slices = h.slices ∧
      (∀ b, h.boxes b = none → h'.boxes b = none) ∧
      (∀ j < n, ∀ b, cells j = some b → h'.boxes b = none) := by
  induction n generalizing h with
  | zero => exact ⟨h, rfl, rfl, rfl, fun _ hb => hb, fun j hj => absurd hj (Nat.not_lt_zero _)⟩
  | succ n ih =>
    simp only [dropCells, cellLoad, Prog.read, act_bind, ret_bind, Prog.run, hx, Option.map_some, Prog.ofOption]
    cases hc : cells n with
    | none =>
      obtain ⟨h', h1, h2, h3, h4, h5⟩ := ih hx (fun j hj => hlive j (by omega))
      refine ⟨h', h1, h2, h3, h4, fun j hj b hb => ?_⟩
      rcases Nat.lt_succ_iff_lt_or_eq.1 hj with hj | rfl
      · exact h5 j hj b hb
      · rw [hc] at hb; cases hb
    | some d =>
      obtain ⟨v, hv⟩ := hlive n (by omega) d hc
      simp only [freeBox, Prog.atomic, act_bind, ret_bind, Prog.run, hv, Prog.ofOption]
      obtain ⟨h', h1, h2, h3, h4, h5⟩ := ih (h := h.setBox d none) hx (fun j hj b hb => by
        obtain ⟨w, hw⟩ := hlive j (by omega) b hb
        refine ⟨w, ?_⟩
        simp only [setBox]
        rw [if_neg]
        · exact hw
        · rintro rfl; exact absurd (hinj _ _ _ hb hc) (by omega))
      refine ⟨h', h1, h2, h3, fun b hb => h4 b ?_, fun j hj b hb => ?_⟩
      · simp only [setBox]; split
        · rfl
        · exact hb
      · rcases Nat.lt_succ_iff_lt_or_eq.1 hj with hj | rfl
        · exact h5 j hj b hb
        · rw [hc] at hb; cases hb; exact h4 d (by simp [setBox])

end Rotonda
