import Verif.Proofs.OnceBoxRun
import Verif.Model.Slots
import Verif.Proofs.Wp

/-!
# The heap of one slice refines the slots of a bucket
-/

namespace Rotonda

open Prog BoxHeap

/-- The same call on the slots of a bucket (`Verif.Model.Slots`). -/
def BoxCall.slotProg {W : Nat} {E : Type} [Entry E W] (B : Bucket) :
    BoxCall E → Prog (Slots E) (Option (Ref W) × Bool)
  | .get idx => do
    let r ← sliceGet B idx
    return (r, false)
  | .init idx e => do
    let (r, us) ← sliceGetOrInit B idx e
    return (some r, us)

/-- All calls about to start on an empty bucket. -/
def slotStart {W : Nat} {E ι : Type} [Entry E W] (B : Bucket) (calls : ι → BoxCall E) :
    Conf (Slots E) ι (fun _ => Option (Ref W) × Bool) :=
  ⟨fun _ => none, fun i => (calls i).slotProg B⟩

section stable
variable {T ι : Type} [DecidableEq ι] {size : Nat} {calls : ι → BoxCall T}

/-- A full box and its value stay as they are. -/
theorem BoxInv.stable {h h' : BoxHeap T} {pcs pcs' : ι → Pc T} (hi : BoxInv size calls h pcs)
    (hi' : BoxInv size calls h' pcs') (hdone : ∀ i a, pcs i = .done a → pcs' i = .done a) {idx b : Nat}
    (hb : h.cell idx = some b) : h'.cell idx = some b ∧ h'.boxes b = h.boxes b := by
  obtain ⟨i, v, h1, h2, h3⟩ := hi.winner idx b hb
  have h2' := hdone i _ h2
  have hc' := hi'.found i b (by rw [h2']; rfl)
  rw [h1] at hc'
  simp only [BoxCall.idx] at hc'
  obtain ⟨j, w, j1, j2, j3⟩ := hi'.winner idx b hc'
  obtain rfl := hi'.unique i j idx v w _ _ h1 j1 h2' j2
  rw [h1] at j1
  cases j1
  exact ⟨hc', by rw [h3, j3]⟩

end stable

variable {W : Nat} {E ι : Type} [Entry E W] [DecidableEq ι] {A : Alloc E} {B : Bucket}
  {calls : ι → BoxCall E}

/-- The reference a pointer stands for. -/
def refAt (B : Bucket) (h : BoxHeap E) (idx : Nat) (b : Option Nat) : Option (Ref W) :=
  (b.bind h.boxes).map (refOf (B.slot idx))

/-- What is left of the call on the slots. -/
def Pc.slotProg (B : Bucket) (h : BoxHeap E) (c : BoxCall E) : Pc E → Prog (Slots E) (Option (Ref W) × Bool)
  | .mkBox idx v _ | .casBox idx v _ _ => casInit (B.slot idx) v >>= fun r => Prog.ret (some r.1, r.2)
  | .dropBox idx _ _ d => Prog.ret (refAt B h idx (some d), false)
  | .done a => Prog.ret (refAt B h c.idx a.1, a.2)
  | _ => c.slotProg B

/-- The content of a box. -/
def BoxHeap.val {T : Type} (h : BoxHeap T) (idx : Nat) : Option T := (h.cell idx).bind h.boxes

theorem slot_inj (B : Bucket) {j k : Nat} (h : B.slot j = B.slot k) : j = k := by
  simpa [Bucket.slot] using h

theorem get_slotProg {idx : Nat} (hlt : idx < B.size) : (BoxCall.get idx : BoxCall E).slotProg B =
    Prog.act (fun s : Slots E => ((s (B.slot idx)).map (refOf (B.slot idx)), s))
      (fun r => Prog.ret (r, false)) := by
  rw [BoxCall.slotProg, sliceGet, if_pos hlt]; rfl

theorem get_slotProg_out {idx : Nat} (hlt : ¬ idx < B.size) : (BoxCall.get idx : BoxCall E).slotProg B =
    Prog.ret (none, false) := by
  rw [BoxCall.slotProg, sliceGet, if_neg hlt]; rfl

theorem init_slotProg {idx : Nat} (e : E) (hlt : idx < B.size) : (BoxCall.init idx e).slotProg B =
    Prog.act (fun s : Slots E => ((s (B.slot idx)).map (refOf (B.slot idx)), s)) (fun
      | some r => Prog.ret (some r, false)
      | none => casInit (B.slot idx) e >>= fun r => Prog.ret (some r.1, r.2)) := by
  rw [BoxCall.slotProg, sliceGetOrInit, if_pos hlt, bind_assoc', Prog.read, act_bind]
  congr 1
  funext r
  cases r <;> rfl

theorem cas_slotProg {idx : Nat} (e : E) :
    (casInit (B.slot idx) e >>= fun r => Prog.ret (some r.1, r.2) : Prog (Slots E) (Option (Ref W) × Bool)) =
    Prog.act (fun s : Slots E => match s (B.slot idx) with
      | none => ((refOf (B.slot idx) e, true), s.set (B.slot idx) e)
      | some e' => ((refOf (B.slot idx) e', false), s)) (fun r => Prog.ret (some r.1, r.2)) := rfl

/-- One step: the slots are the content of the boxes, and the call either does
nothing on the slots or takes one step. -/
theorem slot_step {h : BoxHeap E} {pcs : ι → Pc E} (hi : BoxInv B.size calls h pcs)
    (hr : InRange B.size calls) {sl : Slots E} (hsl : ∀ idx, sl (B.slot idx) = h.val idx) (i : ι)
    {h' : BoxHeap E} {pc' : Pc E} (hn : (pcs i).next A B.size h = (h', pc'))
    (hi' : BoxInv B.size calls h' (Function.update pcs i pc')) :
    ((∀ idx, sl (B.slot idx) = h'.val idx) ∧
      (pcs i).slotProg B h (calls i) = pc'.slotProg (W := W) B h' (calls i)) ∨
    ∃ sl', ((pcs i).slotProg (W := W) B h (calls i)).step1 sl = (sl', pc'.slotProg B h' (calls i)) ∧
      ∀ idx, sl' (B.slot idx) = h'.val idx := by
  have hof := hi.of i
  cases hpc : pcs i with
  | get idx =>
    rw [hpc] at hof hn
    have hc := hof.get
    have hid := hsl idx
    simp only [Pc.next, Prod.mk.injEq] at hn
    obtain ⟨rfl, rfl⟩ := hn
    cases hp : h.ptr with
    | none =>
      refine .inr ⟨sl, ?_, hsl⟩
      simp only [BoxHeap.val, BoxHeap.cell, hp, Option.bind_none] at hid
      simp only [Pc.slotProg, hc]
      by_cases hlt : idx < B.size
      · rw [get_slotProg hlt]; simp [step1_act, hid, refAt]
      · rw [get_slotProg_out hlt]; simp [Prog.step1, refAt]
    | some x =>
      by_cases hlt : idx < B.size
      · refine .inl ⟨hsl, ?_⟩
        simp [Pc.slotProg, hlt]
      · refine .inl ⟨hsl, ?_⟩
        simp [Pc.slotProg, hlt, hc, get_slotProg_out hlt, refAt]
  | getLoad idx x =>
    rw [hpc] at hof hn
    have hc := hof.getLoad
    have hid := hsl idx
    have hp := hi.slice i x (by rw [hpc]; rfl)
    obtain ⟨cells, hs⟩ := hi.ptrLive x hp
    simp only [Pc.next, Prod.mk.injEq, hs] at hn
    obtain ⟨rfl, rfl⟩ := hn
    simp only [BoxHeap.val, BoxHeap.cell, hp, hs] at hid
    by_cases hlt : idx < B.size
    · refine .inr ⟨sl, ?_, hsl⟩
      simp only [Pc.slotProg, hc, get_slotProg hlt, step1_act, hid, refAt, BoxCall.idx]
    · refine .inl ⟨hsl, ?_⟩
      have : cells idx = none := by
        cases hcc : cells idx with
        | none => rfl
        | some b => exact absurd (hi.range idx b (by simp only [BoxHeap.cell, hp, hs, hcc])) hlt
      simp [Pc.slotProg, hc, get_slotProg_out hlt, refAt, this]
  | init idx v =>
    rw [hpc] at hof hn
    have hlt := hr i idx v hof.init
    simp only [Pc.next, Prod.mk.injEq, hlt, if_true] at hn
    obtain ⟨rfl, rfl⟩ := hn
    refine .inl ⟨hsl, ?_⟩
    cases h.ptr <;> rfl
  | mkSlice idx v =>
    rw [hpc] at hof hn
    have hfree := sliceAddr_free (A := A) hi.top
    simp only [Pc.next, Prod.mk.injEq] at hn
    obtain ⟨rfl, rfl⟩ := hn
    refine .inl ⟨fun j => ?_, rfl⟩
    rw [hsl j]
    simp only [BoxHeap.val, BoxHeap.cell, BoxHeap.setSlice]
    cases hp : h.ptr with
    | none => rfl
    | some x =>
      obtain ⟨cells, hx⟩ := hi.ptrLive x hp
      have : x ≠ h.sliceAddr A := by rintro rfl; rw [hfree] at hx; cases hx
      simp [this]
  | casSlice idx v s =>
    rw [hpc] at hof hn
    have hlt := hr i idx v hof.casSlice
    have hown := hi.ownSlice i s (by rw [hpc]; rfl)
    cases hp : h.ptr with
    | none =>
      simp only [Pc.next, hp, hlt, if_true, Prod.mk.injEq] at hn
      obtain ⟨rfl, rfl⟩ := hn
      refine .inl ⟨fun j => ?_, rfl⟩
      rw [hsl j]
      simp only [BoxHeap.val, BoxHeap.cell, hp, hown.1]
    | some y =>
      simp only [Pc.next, hp, Prod.mk.injEq] at hn
      obtain ⟨rfl, rfl⟩ := hn
      exact .inl ⟨hsl, rfl⟩
  | dropSlice idx v s x =>
    rw [hpc] at hof hn
    have hlt := hr i idx v hof.dropSlice
    have hp := hi.slice i x (by rw [hpc]; rfl)
    have hown := hi.ownSlice i s (by rw [hpc]; rfl)
    simp only [Pc.next, hown.1, hlt, if_true, Prod.mk.injEq] at hn
    obtain ⟨rfl, rfl⟩ := hn
    refine .inl ⟨fun j => ?_, rfl⟩
    rw [hsl j]
    have : x ≠ s := by rintro rfl; exact hown.2 hp
    simp only [BoxHeap.val, BoxHeap.cell, BoxHeap.setSlice, hp, if_neg this]
  | load idx v x =>
    rw [hpc] at hof hn
    have hc := hof.load
    have hlt := hr i idx v hc
    have hid := hsl idx
    have hp := hi.slice i x (by rw [hpc]; rfl)
    obtain ⟨cells, hs⟩ := hi.ptrLive x hp
    simp only [Pc.next, Prod.mk.injEq, hs, hlt, if_true] at hn
    obtain ⟨rfl, rfl⟩ := hn
    simp only [BoxHeap.val, BoxHeap.cell, hp, hs] at hid
    refine .inr ⟨sl, ?_, hsl⟩
    simp only [Pc.slotProg, hc, init_slotProg v hlt, step1_act]
    cases hcc : cells idx with
    | none => simp [hid, hcc]
    | some b =>
      obtain ⟨_, e, _, _, hb⟩ := hi.winner idx b (by simp only [BoxHeap.cell, hp, hs, hcc])
      simp [hid, hcc, hb, refAt, BoxCall.idx]
  | mkBox idx v x =>
    rw [hpc] at hof hn
    have hfree := boxAddr_free (A := A) hi.top
    simp only [Pc.next, Prod.mk.injEq] at hn
    obtain ⟨rfl, rfl⟩ := hn
    refine .inl ⟨fun j => ?_, rfl⟩
    rw [hsl j]
    change (h.cell j).bind h.boxes = (h.cell j).bind (h.setBox (h.boxAddr A) (some v)).boxes
    cases hcc : h.cell j with
    | none => rfl
    | some b =>
      obtain ⟨_, e, _, _, hb⟩ := hi.winner j b hcc
      have : b ≠ h.boxAddr A := by rintro rfl; rw [hfree] at hb; cases hb
      simp [BoxHeap.setBox, this]
  | casBox idx v x b =>
    rw [hpc] at hof hn
    have hc := hof.casBox
    have hid := hsl idx
    have hp := hi.slice i x (by rw [hpc]; rfl)
    obtain ⟨cells, hs⟩ := hi.ptrLive x hp
    obtain ⟨w, idx', hcw, hbox, hfree⟩ := hi.ownBox i b (by rw [hpc]; rfl)
    obtain ⟨rfl, rfl⟩ : idx = idx' ∧ v = w := by rw [hc] at hcw; injection hcw with h1 h2; exact ⟨h1, h2⟩
    simp only [BoxHeap.val, BoxHeap.cell, hp, hs] at hid
    cases hcc : cells idx with
    | none =>
      simp only [Pc.next, hs, hcc, Prod.mk.injEq] at hn
      obtain ⟨rfl, rfl⟩ := hn
      rw [hcc] at hid
      refine .inr ⟨sl.set (B.slot idx) v, ?_, fun j => ?_⟩
      · simp only [Pc.slotProg, cas_slotProg, step1_act, hc]
        simp [hid, refAt, BoxHeap.setSlice, hbox, BoxCall.idx]
      · have hj := hsl j
        simp only [BoxHeap.val, BoxHeap.cell, hp, hs] at hj
        simp only [BoxHeap.val, BoxHeap.cell, BoxHeap.setSlice, hp, if_true, Slots.set, setCell]
        by_cases e : j = idx
        · subst e; simp [hbox]
        · rw [if_neg e, if_neg fun e' => e (slot_inj B e'), hj]
    | some d =>
      simp only [Pc.next, hs, hcc, Prod.mk.injEq] at hn
      obtain ⟨rfl, rfl⟩ := hn
      obtain ⟨_, e, _, _, hb⟩ := hi.winner idx d (by simp only [BoxHeap.cell, hp, hs, hcc])
      rw [hcc, Option.bind_some, hb] at hid
      refine .inr ⟨sl, ?_, hsl⟩
      simp only [Pc.slotProg, cas_slotProg, step1_act]
      simp [hid, refAt, hb]
  | dropBox idx v b d =>
    rw [hpc] at hof hn
    have hc := hof.dropBox
    obtain ⟨w, idx', hcw, hbox, hfree⟩ := hi.ownBox i b (by rw [hpc]; rfl)
    have hd := hi.found i d (by rw [hpc]; rfl)
    simp only [Pc.next, hbox, Prod.mk.injEq] at hn
    obtain ⟨rfl, rfl⟩ := hn
    refine .inl ⟨fun j => ?_, ?_⟩
    · rw [hsl j]
      change (h.cell j).bind h.boxes = (h.cell j).bind (h.setBox b none).boxes
      cases hcc : h.cell j with
      | none => rfl
      | some b' =>
        have : b' ≠ b := by rintro rfl; exact hfree j hcc
        simp [BoxHeap.setBox, this]
    · have : d ≠ b := by rintro rfl; exact hfree _ hd
      simp [Pc.slotProg, refAt, hc, BoxCall.idx, BoxHeap.setBox, this]
  | done a =>
    rw [hpc] at hn
    simp only [Pc.next, Prod.mk.injEq] at hn
    obtain ⟨rfl, rfl⟩ := hn
    exact .inl ⟨hsl, rfl⟩
  | failed => rw [hpc] at hof; cases hc : calls i <;> simp [hc, Pc.Of] at hof

theorem Conf.step_step1 {σ : Type} {R : ι → Type} (c : Conf σ ι R) (i : ι) :
    (c.step i).st = ((c.pool i).step1 c.st).1 ∧
      ∀ j, (c.step i).pool j = Function.update c.pool i ((c.pool i).step1 c.st).2 j := by
  cases hq : c.pool i with
  | act f k => rw [Conf.step_act hq]; exact ⟨rfl, fun j => rfl⟩
  | ret a => rw [Conf.step_ret hq]; exact ⟨rfl, fun j => by simp only [Prog.step1]; rw [← hq, Function.update_eq_self]⟩
  | panic => rw [Conf.step_panic hq]; exact ⟨rfl, fun j => by simp only [Prog.step1]; rw [← hq, Function.update_eq_self]⟩
  | diverge => rw [Conf.step_diverge hq]; exact ⟨rfl, fun j => by simp only [Prog.step1]; rw [← hq, Function.update_eq_self]⟩

/-- Every run on the heap is a run on the slots, with some of the turns left out. -/
theorem slot_run (hr : InRange B.size calls) (t : List ι) : ∃ t' pcs,
    t'.Sublist t ∧ BoxInv B.size calls ((boxStart A B.size calls).exec t).st pcs ∧
    (∀ i, ((boxStart A B.size calls).exec t).pool i = (pcs i).prog A B.size) ∧
    (∀ idx, ((slotStart (W := W) B calls).exec t').st (B.slot idx) =
      ((boxStart A B.size calls).exec t).st.val idx) ∧
    ∀ i, ((slotStart (W := W) B calls).exec t').pool i =
      (pcs i).slotProg B ((boxStart A B.size calls).exec t).st (calls i) := by
  induction t using List.reverseRecOn with
  | nil =>
    refine ⟨[], fun i => (calls i).pc, List.Sublist.refl _, BoxInv.start, fun i => ?_, fun idx => rfl, fun i => ?_⟩
    · have : ∀ x : BoxCall E, x.prog A B.size = x.pc.prog A B.size := by intro x; cases x <;> rfl
      exact this _
    · have : ∀ (x : BoxCall E) (h : BoxHeap E), x.slotProg (W := W) B = x.pc.slotProg B h x := by
        intro x h; cases x <;> rfl
      exact this _ _
  | append_singleton t i ih =>
    obtain ⟨t', pcs, hsub, hi, hp, hv, hq⟩ := ih
    obtain ⟨hs1, hs2⟩ := boxStep hp i
    have hi' := hi.step (A := A) hr i
    obtain ⟨h', pc', hn⟩ : ∃ h' pc', (pcs i).next A B.size ((boxStart A B.size calls).exec t).st = (h', pc') :=
      ⟨_, _, rfl⟩
    rw [hn] at hs1 hi'
    simp only [hn] at hs2
    simp only at hs1 hi'
    have hdone : ∀ j a, pcs j = .done a → Function.update pcs i
        pc' j = .done a := by
      intro j a hj
      rw [Function.update_apply]
      split
      · rename_i e; subst e; rw [hj] at hn; cases hn; rfl
      · exact hj
    have hsame : ∀ j, j ≠ i → (pcs j).slotProg (W := W) B ((boxStart A B.size calls).exec t).st (calls j) =
        (pcs j).slotProg B h' (calls j) := by
      intro j hj
      cases hpc : pcs j with
      | dropBox idx v b d =>
        have hd := hi.found j d (by rw [hpc]; rfl)
        simp only [Pc.slotProg, refAt, Option.bind_some, (hi.stable hi' hdone hd).2]
      | done a =>
        simp only [Pc.slotProg, refAt]
        cases ha : a.1 with
        | none => rfl
        | some b =>
          have hd := hi.found j b (by rw [hpc]; exact ha)
          simp only [Option.bind_some, (hi.stable hi' hdone hd).2]
      | _ => rfl
    have hall : ∀ (P : ∀ j, Prog (Slots E) (Option (Ref W) × Bool)),
        P i = pc'.slotProg B
          h' (calls i) →
        (∀ j, j ≠ i → P j = (pcs j).slotProg B ((boxStart A B.size calls).exec t).st (calls j)) →
        ∀ j, P j = (Function.update pcs i
          pc' j).slotProg B
          h' (calls j) := by
      intro P h1 h2 j
      rw [Function.update_apply]
      split
      · rename_i e; subst e; exact h1
      · rename_i e; rw [h2 j e, hsame j e]
    rw [Conf.exec_append]
    rcases slot_step hi hr hv i (W := W) hn hi' with ⟨h1, h2⟩ | ⟨sl', h1, h2⟩
    · refine ⟨t', _, hsub.trans (List.sublist_append_left _ _), ?_, hs2, ?_, ?_⟩
      · rw [← hs1] at hi'; exact hi'
      · intro idx; rw [h1 idx, ← hs1]; rfl
      · have := hall _ (by rw [← h2]; exact hq i) (fun j _ => hq j)
        rw [← hs1] at this
        exact this
    · obtain ⟨g1, g2⟩ := Conf.step_step1 ((slotStart (W := W) B calls).exec t') i
      rw [hq i, h1] at g1 g2
      refine ⟨t' ++ [i], _, hsub.append (List.Sublist.refl _), ?_, hs2, ?_, ?_⟩
      · rw [← hs1] at hi'; exact hi'
      · intro idx
        rw [Conf.exec_append]
        refine (congrFun g1 (B.slot idx)).trans ?_
        simp only
        rw [h2 idx, ← hs1]; rfl
      · rw [Conf.exec_append]
        have := hall ((((slotStart (W := W) B calls).exec t').step i).pool) (by rw [g2 i, Function.update_self])
          (fun j hj => by rw [g2 j, Function.update_of_ne hj]; exact hq j)
        rw [← hs1] at this
        exact this

end Rotonda
