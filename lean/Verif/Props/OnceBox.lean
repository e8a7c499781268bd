import Verif.Proofs.OnceBoxRefine
import Mathlib.Tactic.FinCases

/-!
# Racing initialisations of a slot: C47, and the memory they use: C50

Any number of calls `get` and `get_or_init` on one new `OnceBoxSlice`, interleaved by
any schedule; the slice itself is created by the first call that needs it.  The heap is
modelled, with any allocator.
-/

namespace Rotonda.Props

open Prog BoxHeap

variable {T ι : Type} [DecidableEq ι] {A : Alloc T} {size : Nat} {calls : ι → BoxCall T}

/-- C47: as soon as any `get_or_init` of an index has returned, exactly one call for this
index has been told that it won. -/
theorem slot_one_winner (hr : InRange size calls) {t : List ι} {i : ι} {idx : Nat} {v : T} {a : BoxAns}
    (hc : calls i = .init idx v) (h : ((boxStart A size calls).exec t).pool i = .ret a) :
    ∃! j, (∃ w, calls j = .init idx w) ∧
      ∃ b, ((boxStart A size calls).exec t).pool j = .ret (b, true) := by
  obtain ⟨pcs, h1, h2, _⟩ := box_run (A := A) hr t
  have hd := box_returned hr h1 h2 h
  have hof := h1.of i
  rw [hd, hc] at hof
  obtain ⟨b, hb⟩ := Option.isSome_iff_exists.1 hof
  have hcell := h1.found i b (by rw [hd]; exact hb)
  rw [hc] at hcell
  obtain ⟨j, w, hj, hjd, _⟩ := h1.winner idx b hcell
  refine ⟨j, ⟨⟨w, hj⟩, some b, by rw [h2 j, hjd]; rfl⟩, ?_⟩
  rintro k ⟨⟨w', hk⟩, b', hkd⟩
  exact h1.unique k j idx w' w _ _ hk hj (box_returned hr h1 h2 hkd) hjd

/-- C47: the value of the call that won is in the slot for ever: at every later time
every call for this index that has returned a pointer has returned the same one, and it
leads to that value; look-ups that start later do not miss it. -/
theorem slot_same_value (hr : InRange size calls) {t : List ι} {i : ι} {idx : Nat} {v : T} {b : Option Nat}
    (hc : calls i = .init idx v) (h : ((boxStart A size calls).exec t).pool i = .ret (b, true))
    (u : List ι) : ∃ p, b = some p ∧
      (deref p).run ((boxStart A size calls).exec (t ++ u)).st =
        .ok v ((boxStart A size calls).exec (t ++ u)).st ∧
      (∀ k q us, (calls k = .get idx ∨ ∃ w, calls k = .init idx w) →
        ((boxStart A size calls).exec (t ++ u)).pool k = .ret (some q, us) → q = p) ∧
      (∀ k us, calls k = .get idx → k ∉ t →
        ((boxStart A size calls).exec (t ++ u)).pool k ≠ .ret (none, us)) ∧
      ∀ k us, (∃ w, calls k = .init idx w) →
        ((boxStart A size calls).exec (t ++ u)).pool k ≠ .ret (none, us) := by
  obtain ⟨pcs, h1, h2, _⟩ := box_run (A := A) hr (t ++ u)
  have hi : ((boxStart A size calls).exec (t ++ u)).pool i = .ret (b, true) := by
    rw [Conf.exec_append]; exact Conf.exec_ret h u
  have hd := box_returned hr h1 h2 hi
  have hof := h1.of i
  rw [hd, hc] at hof
  obtain ⟨p, rfl⟩ := Option.isSome_iff_exists.1 hof
  have hcell := h1.found i p (by rw [hd]; rfl)
  rw [hc] at hcell
  simp only [BoxCall.idx] at hcell
  refine ⟨p, rfl, ?_, ?_, fun k us hk hkt => box_late hr hc h hk hkt u us, ?_⟩
  · obtain ⟨j, w, hj, hjd, hbox⟩ := h1.winner idx p hcell
    obtain rfl := h1.unique i j idx v w _ _ hc hj hd hjd
    rw [hc] at hj
    cases hj
    simp [deref, Prog.read, Prog.run, hbox, Prog.ofOption]
  · intro k q us hk hq
    have hf := h1.found k q (by rw [box_returned hr h1 h2 hq]; rfl)
    have : (calls k).idx = idx := by rcases hk with hk | ⟨w, hk⟩ <;> rw [hk] <;> rfl
    rw [this, hcell] at hf
    exact (Option.some.inj hf).symm
  · rintro k us ⟨w, hk⟩ hn
    have := h1.of k
    rw [box_returned hr h1 h2 hn, hk] at this
    simp [Pc.Of] at this

/-- C47: no call panics, and every call returns after at most eight turns of its own,
whatever the others do. -/
theorem slot_wait_free (hr : InRange size calls) (t : List ι) (i : ι) :
    ((boxStart A size calls).exec t).pool i ≠ .panic ∧
    ((boxStart A size calls).exec t).pool i ≠ .diverge ∧
    (8 ≤ t.count i → ∃ a, ((boxStart A size calls).exec t).pool i = .ret a) := by
  obtain ⟨pcs, h1, h2, h3, _⟩ := box_run (A := A) hr t
  have hof := h1.of i
  refine ⟨?_, ?_, fun h8 => ?_⟩
  · rw [h2 i]
    intro e
    cases hpc : pcs i with
    | load idx v x =>
      rw [hpc] at e hof
      simp only [Pc.prog, Pc.after, if_pos (hr i _ _ hof.load)] at e
      change Prog.act _ _ = _ at e
      cases e
    | done a => rw [hpc] at e; cases e
    | failed => rw [hpc] at hof; cases hc : calls i <;> simp [hc, Pc.Of] at hof
    | _ => rw [hpc] at e; change Prog.act _ _ = _ at e; cases e
  · rw [h2 i]
    intro e
    cases hpc : pcs i with
    | load idx v x =>
      rw [hpc] at e hof
      simp only [Pc.prog, Pc.after, if_pos (hr i _ _ hof.load)] at e
      change Prog.act _ _ = _ at e
      cases e
    | done a => rw [hpc] at e; cases e
    | failed => rw [hpc] at e; cases e
    | _ => rw [hpc] at e; change Prog.act _ _ = _ at e; cases e
  · have := h3 i
    obtain ⟨a, ha⟩ := Pc.done_of_rank hof (by omega)
    exact ⟨a, by rw [h2 i, ha]; rfl⟩

/-- C50: the losers of a race free what they allocated: when every call that was given a
turn has returned, dropping the slice leaves nothing allocated; no block is freed twice. -/
theorem slot_no_leak (hr : InRange size calls) {t : List ι}
    (hq : ∀ i ∈ t, ∃ a, ((boxStart A size calls).exec t).pool i = .ret a) :
    ∃ h, (dropSlice size).run ((boxStart A size calls).exec t).st = .ok () h ∧ h.ptr = none ∧
      (∀ x, h.slices x = none) ∧ ∀ b, h.boxes b = none := by
  obtain ⟨pcs, h1, h2, _, h4⟩ := box_run (A := A) hr t
  have hidle : ∀ i, (pcs i).ownSlice = none ∧ (pcs i).ownBox = none := by
    intro i
    by_cases hi : i ∈ t
    · obtain ⟨a, ha⟩ := hq i hi
      rw [box_returned hr h1 h2 ha]
      exact ⟨rfl, rfl⟩
    · rw [h4 i hi]
      cases calls i <;> exact ⟨rfl, rfl⟩
  generalize ((boxStart A size calls).exec t).st = h at *
  have hslices : ∀ x cells, h.slices x = some cells → h.ptr = some x := by
    intro x cells hx
    rcases h1.liveSlice x cells hx with e | ⟨i, hi⟩
    · exact e
    · rw [(hidle i).1] at hi; cases hi
  have hboxes : ∀ b v, h.boxes b = some v → ∃ idx, h.cell idx = some b := by
    intro b v hb
    rcases h1.liveBox b v hb with e | ⟨i, hi⟩
    · exact e
    · rw [(hidle i).2] at hi; cases hi
  simp only [dropSlice, Prog.atomic, act_bind, ret_bind, Prog.run]
  cases hp : h.ptr with
  | none =>
    refine ⟨_, rfl, rfl, fun x => ?_, fun b => ?_⟩
    · cases hx : h.slices x with
      | none => rfl
      | some cells => rw [hslices x cells hx] at hp; cases hp
    · cases hb : h.boxes b with
      | none => rfl
      | some v =>
        obtain ⟨idx, hi⟩ := hboxes b v hb
        simp [BoxHeap.cell, hp] at hi
  | some x =>
    obtain ⟨cells, hx⟩ := h1.ptrLive x hp
    have hcell : ∀ j, h.cell j = cells j := fun j => by simp [BoxHeap.cell, hp, hx]
    obtain ⟨h', g1, g2, g3, g4, g5⟩ := run_dropCells (n := size) (h := { h with ptr := none }) hx
      (fun j _ b hb => by
        obtain ⟨_, w, _, _, hw⟩ := h1.winner j b (by rw [hcell, hb])
        exact ⟨w, hw⟩)
      (fun j k b hj hk => h1.cellInj j k b (by rw [hcell, hj]) (by rw [hcell, hk]))
    have hx' : h'.slices x = some cells := by rw [g3]; exact hx
    simp only [run_bind, g1]
    refine ⟨h'.setSlice x none, ?_, ?_, fun y => ?_, fun b => ?_⟩
    · simp [freeSlice, Prog.atomic, Prog.run, hx', Prog.ofOption, Outcome.andThen]
    · exact g2
    · simp only [setSlice]
      split
      · rfl
      · rename_i e
        rw [g3]
        cases hy : h.slices y with
        | none => rfl
        | some cells' => rw [hslices y cells' hy] at hp; exact absurd (Option.some.inj hp) e
    · simp only [setSlice]
      cases hb : h.boxes b with
      | none => exact g4 b hb
      | some v =>
        obtain ⟨idx, hi⟩ := hboxes b v hb
        exact g5 idx (h1.range idx b hi) b (by rw [← hcell, hi])

/-- The slots of `Verif.Model.Slots`, on which the rest of the model is built, are the
content of the boxes: every run on the heap is a run on the slots, some turns left out,
with the same answers. -/
theorem heap_refines_slots {W : Nat} {E : Type} [Entry E W] {A : Alloc E} {B : Bucket}
    {calls : ι → BoxCall E} (hr : InRange B.size calls) (t : List ι) : ∃ t', t'.Sublist t ∧
      ∀ i b us, ((boxStart A B.size calls).exec t).pool i = .ret (b, us) →
        ∃ r : Option (Ref W), ((slotStart B calls).exec t').pool i = .ret (r, us) ∧
          ((b = none ∧ r = none) ∨ ∃ p e, b = some p ∧
            ((boxStart A B.size calls).exec t).st.boxes p = some e ∧
            ((slotStart (W := W) B calls).exec t').st (B.slot (calls i).idx) = some e ∧
            r = some (refOf (B.slot (calls i).idx) e)) := by
  obtain ⟨t', pcs, hsub, h1, h2, hv, hq⟩ := slot_run (W := W) (A := A) hr t
  refine ⟨t', hsub, fun i b us h => ?_⟩
  have hd := box_returned hr h1 h2 h
  have hqi := hq i
  rw [hd] at hqi
  simp only [Pc.slotProg, refAt] at hqi
  refine ⟨_, hqi, ?_⟩
  cases b with
  | none => exact .inl ⟨rfl, rfl⟩
  | some p =>
    have hcell := h1.found i p (by rw [hd]; rfl)
    obtain ⟨_, e, _, _, he⟩ := h1.winner _ p hcell
    refine .inr ⟨p, e, rfl, he, ?_, ?_⟩
    · rw [hv, BoxHeap.val, hcell]; exact he
    · rw [Option.bind_some, he]; rfl

/-! ## Examples -/

/-- An allocator that always proposes address 0, so that freed addresses are used again. -/
def zeros : Alloc Nat := ⟨fun _ => 0, fun _ => 0⟩

/-- Three calls race for the boxes of one new slice. -/
def racers : Fin 4 → BoxCall Nat
  | 0 => .init 1 10
  | 1 => .init 1 11
  | 2 => .init 1 12
  | 3 => .get 1

theorem racers_range : InRange 2 racers := by
  intro i idx v h
  fin_cases i <;> simp [racers] at h <;> omega

/-- Calls 0 and 1 both find no slice and no value; 1 wins both races. -/
def racing : List (Fin 4) := [0, 1, 0, 1, 1, 0, 0, 0, 1, 0, 1, 1, 0, 0]

example : ∃! j, (∃ w, racers j = .init 1 w) ∧
    ∃ b, ((boxStart zeros 2 racers).exec racing).pool j = .ret (b, true) :=
  slot_one_winner racers_range (i := 0) (v := 10) (a := (some 2, false)) rfl rfl

example (u : List (Fin 4)) : ∃ p, some 2 = some p ∧
    (deref p).run ((boxStart zeros 2 racers).exec (racing ++ u)).st =
      .ok 11 ((boxStart zeros 2 racers).exec (racing ++ u)).st := by
  obtain ⟨p, h1, h2, _⟩ := slot_same_value (A := zeros) racers_range (i := 1) (t := racing) (idx := 1) (v := 11)
    (b := some 2) rfl rfl u
  exact ⟨p, h1, h2⟩

example : ∃ h, (dropSlice 2).run ((boxStart zeros 2 racers).exec racing).st = .ok () h ∧ h.ptr = none ∧
    (∀ x, h.slices x = none) ∧ ∀ b, h.boxes b = none :=
  slot_no_leak racers_range (by
    intro i hi
    fin_cases i
    · exact ⟨(some 2, false), rfl⟩
    · exact ⟨(some 2, true), rfl⟩
    · simp [racing] at hi
    · simp [racing] at hi)

end Rotonda.Props
