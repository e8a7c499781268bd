import Verif.Proofs.PtrOps

/-!
# One operation on a table, pointer by pointer: every step
-/

namespace Rotonda

open Prog TabHeap

variable {E : Type} {W : Nat} [Entry E W] {ρ : Type} {A : TabAlloc E} {m : Nat} {h : TabHeap E}
  {S B : Nat → Prop} {ds db : Nat → Nat} {D : Nat}

/-- An entry is put in its box: the table as a map has one entry more. -/
theorem KeyOk.toSlots_put {S B : Nat → Prop} {k : OKey} {x n : Nat} {e : E} {c : Nat → Option Nat} (hk : KeyOk m h k)
    (hi : TabInv (entryShape E m) h S B ds db D) (hx : h.ptr k.l = some (some x))
    (hs : h.slices x = some c) (hc : c k.idx = none) (hn : h.boxes n = some (e, none)) :
    (∀ a, (h.setSlice x (some (setCell c k.idx (some n)))).locAt a =
      if a = k.slot then some (.child n) else h.locAt a) ∧
    (h.setSlice x (some (setCell c k.idx (some n)))).toSlots = h.toSlots.set k.slot e := by
  have hl : ∀ a, (h.setSlice x (some (setCell c k.idx (some n)))).locAt a =
      if a = k.slot then some (.child n) else h.locAt a := by
    intro a
    have := hi.down_publishBox (q := k.b.path.reverse) (r := k.b.root) hk.1 hx hs hc
      (by simp [ptr, hn] : h.ptr (.child n) = some none) a.root a.path.reverse
    rw [locAt, this]
    have e1 : (a.root = k.b.root ∧ a.path.reverse = k.idx :: k.b.path.reverse) ↔ a = k.slot := by
      obtain ⟨r, p⟩ := a
      simp only [OKey.slot, Bucket.slot, Addr.mk.injEq]
      constructor
      · rintro ⟨rfl, h2⟩
        refine ⟨rfl, ?_⟩
        have := congrArg List.reverse h2
        simpa using this
      · rintro ⟨rfl, rfl⟩
        simp
    simp only [e1]
    rfl
  refine ⟨hl, funext fun a => ?_⟩
  simp only [toSlots, hl, Slots.set]
  by_cases ha : a = k.slot
  · rw [if_pos ha, if_pos ha]
    simp [valueAt, setSlice, hn]
  · rw [if_neg ha, if_neg ha]
    rfl

theorem OPc.step (pc : OPc E W ρ) (hnot : ¬ pc.Over)
    (hi : TabInv (entryShape E m) h (fun x => S x ∨ pc.ownSlice = some x)
      (fun b => B b ∨ pc.ownBox = some b) ds db D)
    (hS : ∀ x, pc.ownSlice = some x → ¬ S x) (hB : ∀ b, pc.ownBox = some b → ¬ B b)
    (hg : pc.Good m h) : ∃ h' pc', OStep A m h h' pc pc' S B := by
  cases pc with
  | getDone k o => exact (hnot trivial).elim
  | initDone k n us r => exact (hnot trivial).elim
  | accessDone r => exact (hnot trivial).elim
  | failed => exact (hnot trivial).elim
  | get k =>
    have hk : KeyOk m h k := hg
    have hact : ((OPc.get k : OPc E W _).prog A (entryShape E m)).IsAct := by
      rw [prog, ptrGet_eq]; trivial
    have hs : ((OPc.get k : OPc E W _).prog A (entryShape E m)).step1 h = (h, match h.ptr k.l with
        | none => .panic
        | some none => .ret (none, none)
        | some (some x) => if k.idx < k.b.size then tabCellLoad x k.idx >>= getFoundP k
          else Prog.ret (none, none)) := by
      rw [prog, ptrGet_eq]
      simp only [locLoad, Prog.read, act_bind, ret_bind, step1_act]
      rcases h.ptr k.l with _ | _ | x <;> rfl
    rcases hp : h.ptr k.l with _ | _ | x
    · exact (hi.locAt_ptr hk.1 hp).elim
    · refine ⟨h, .getDone k none, .still hi hS hB rfl rfl hact ?_ ?_ (fun _ _ h => by cases h) (fun _ _ _ h => h) (by intro _ h; first | exact h | cases h)⟩
      · rw [hs, hp]; rfl
      · have he := hk.empty (below_none (fun x hx => by rw [hp] at hx; cases hx) k.idx)
        simp only [OKey.slot] at he
        by_cases hlt : k.idx < k.b.size
        · right
          simp only [slotProg, sliceGet, if_pos hlt, Prog.read, step1_act, he]
          exact ⟨trivial, rfl⟩
        · left
          simp only [slotProg, sliceGet, if_neg hlt]; rfl
    · by_cases hlt : k.idx < k.b.size
      · refine ⟨h, .getLoad k x, .still hi hS hB rfl rfl hact ?_ (.inl rfl) ⟨hk, hp, hlt⟩ (fun _ _ _ h => h) (by intro _ h; first | exact h | cases h)⟩
        rw [hs, hp]; simp only [if_pos hlt]; rfl
      · refine ⟨h, .getDone k none, .still hi hS hB rfl rfl hact ?_ ?_ (fun _ _ h => by cases h) (fun _ _ _ h => h) (by intro _ h; first | exact h | cases h)⟩
        · rw [hs, hp]; simp only [if_neg hlt]; rfl
        · left
          simp only [slotProg, sliceGet, if_neg hlt]; rfl
  | getLoad k x =>
    obtain ⟨hk, hp, hlt⟩ := hg
    cases hc : h.slices x with
    | none => exact ((hi.ptrLive _ _ hp).1 hc).elim
    | some c =>
      have hs : ((OPc.getLoad k x : OPc E W _).prog A (entryShape E m)).step1 h =
          (h, getFoundP k (c k.idx)) := by
        simp only [prog, tabCellLoad, Prog.read, act_bind, ret_bind, step1_act, hc]
        rfl
      have hcell : h.cell x k.idx = c k.idx := cell_of_some hc _
      cases hn : c k.idx with
      | none =>
        refine ⟨h, .getDone k none, .still hi hS hB rfl rfl trivial ?_ (.inr ?_) (fun _ _ h => by cases h)
          (fun _ _ _ h => h) (by intro _ h; first | exact h | cases h)⟩
        · rw [hs, hn]; rfl
        · have he := hk.empty (by rw [below_of hp, hcell, hn]; rfl)
          simp only [OKey.slot] at he
          simp only [slotProg, sliceGet, if_pos hlt, Prog.read, step1_act, he]
          exact ⟨trivial, rfl⟩
      | some n =>
        obtain ⟨r, hr1, hr2⟩ := hk.found (W := W) hi hp (hcell.trans hn)
        refine ⟨h, .getLook k n r, .still hi hS hB rfl rfl trivial ?_ (.inr ?_) hr1 (fun _ _ _ h => h) (by intro _ h; first | exact h | cases h)⟩
        · rw [hs, hn]; rfl
        · simp only [OKey.slot] at hr2
          simp only [slotProg, sliceGet, if_pos hlt, Prog.read, step1_act, hr2]
          exact ⟨trivial, trivial⟩
  | getLook k n r =>
    obtain ⟨h1, e, h2, h3⟩ := id hg
    refine ⟨h, .getDone k (some (n, r)), .still hi hS hB rfl rfl trivial ?_ (.inl rfl) ?_ (fun _ _ _ h => h) (by intro _ h; first | exact h | cases h)⟩
    · simp only [valueAt] at h2
      simp only [prog, getLookP, tabDeref, Prog.read, act_bind, ret_bind, step1_act, h2, Prog.ofOption, h3,
        Option.map_some]
    · rintro n' r' e'
      injection e' with e'
      injection e' with e1 e2
      subst e1 e2
      exact hg
  | init k e =>
    have hk : KeyOk m h k := hg
    have hact : ((OPc.init k e : OPc E W _).prog A (entryShape E m)).IsAct := by
      rw [prog, ptrInit_eq]; trivial
    have hs : ((OPc.init k e : OPc E W _).prog A (entryShape E m)).step1 h = (h, match h.ptr k.l with
        | none => .panic
        | some none => tabNewSlice A >>= fun s => locCas k.l s >>= casSliceP A (entryShape E m) k e s
        | some (some x) => foundP A (entryShape E m) k e x) := by
      rw [prog, ptrInit_eq]
      simp only [locLoad, Prog.read, act_bind, ret_bind, step1_act]
      rcases h.ptr k.l with _ | _ | x <;> rfl
    rcases hp : h.ptr k.l with _ | _ | x
    · exact (hi.locAt_ptr hk.1 hp).elim
    · refine ⟨h, .mkSlice k e, .still hi hS hB rfl rfl hact ?_ (.inl rfl) hk (fun _ _ _ h => h) (by intro _ h; first | exact h | cases h)⟩
      rw [hs, hp]; rfl
    · by_cases hlt : k.idx < k.b.size
      · refine ⟨h, .load k e x, .still hi hS hB rfl rfl hact ?_ (.inl rfl) ⟨hk, hp, hlt⟩ (fun _ _ _ h => h) (by intro _ h; first | exact h | cases h)⟩
        rw [hs, hp]; simp only [foundP, if_pos hlt]; rfl
      · refine ⟨h, .failed, .still hi hS hB rfl rfl hact ?_ (.inl ?_) trivial (fun _ _ _ h => h.elim) (by intro _ h; first | exact h | cases h)⟩
        · rw [hs, hp]; simp only [foundP, if_neg hlt]; rfl
        · simp only [slotProg, sliceGetOrInit, if_neg hlt]
  | mkSlice k e =>
    have hk : KeyOk m h k := hg
    have hf := sliceAddr_free (A := A) hi.top
    have hb := TabInv.below_allocSlice hf (max h.top (h.sliceAddr A + 1))
    have hS' : ¬ S (h.sliceAddr A) := fun hs => hi.heldS _ (.inl hs) hf
    have hkeep : PtrKeeps h { h.setSlice (h.sliceAddr A) (some fun _ => none) with
        top := max h.top (h.sliceAddr A + 1) } :=
      .of_below hb (fun l x e => by cases l <;> exact e) fun _ _ _ _ => rfl
    refine ⟨_, .casSlice k e (h.sliceAddr A), trivial, rfl, .inl ⟨rfl, toSlots_congr hb fun _ _ _ _ => rfl⟩,
      ⟨_, _, _, (hi.allocSlice hf).congr (fun y => ?_) (fun y => Iff.rfl)⟩,
      ⟨hk.mono hkeep, ?_⟩, hkeep, fun x hx => ?_, fun _ _ => rfl, fun x hx => ?_, (fun _ hx => nomatch hx),
      fun _ _ _ h => h, fun _ => .inl, (by intro _ h; first | exact h | cases h)⟩
    · simp only [ownSlice, Option.some.injEq, reduceCtorEq, or_false]
      exact or_congr Iff.rfl eq_comm
    · simp [setSlice]
    · simp only [setSlice]
      rw [if_neg]
      rintro rfl
      exact hS' hx
    · cases hx; exact hS'
  | casSlice k e s =>
    obtain ⟨hk, hs⟩ := hg
    have hstep : ((OPc.casSlice k e s : OPc E W _).prog A (entryShape E m)).step1 h = match h.ptr k.l with
        | none => (h, .panic)
        | some none => (h.setPtr k.l (some s), foundP A (entryShape E m) k e s)
        | some (some y) => (h, tabFreeSlice s >>= fun _ => foundP A (entryShape E m) k e y) := by
      simp only [prog, locCas, Prog.atomic, act_bind, ret_bind, step1_act]
      rcases h.ptr k.l with _ | _ | x <;> rfl
    rcases hp : h.ptr k.l with _ | _ | y
    · exact (hi.locAt_ptr hk.1 hp).elim
    · have hb := TabInv.below_publishSlice hp hs
      have hptr : (h.setPtr k.l (some s)).ptr k.l = some (some s) := by rw [ptr_setPtr, if_pos rfl, hp]; rfl
      have hval : ∀ b, (h.setPtr k.l (some s)).valueAt b = h.valueAt b := fun b => boxes_setPtr _ _ _
      have hkeep : PtrKeeps h (h.setPtr k.l (some s)) :=
        .of_below hb (fun l x hl => by
          rw [ptr_setPtr, if_neg]
          · exact hl
          · rintro rfl; rw [hp] at hl; cases hl) fun _ _ n _ => hval n
      have hnS : ¬ S s := hS s rfl
      have hinv := (hi.publishSlice hp (.inr rfl) hs).congr
        (S' := fun x => S x ∨ (none : Option Nat) = some x) (B' := fun b => B b ∨ (none : Option Nat) = some b)
        (fun y => by
          simp only [ownSlice, Option.some.injEq, reduceCtorEq, or_false]
          constructor
          · rintro ⟨h1 | h1, h2⟩
            · exact h1
            · exact (h2 h1.symm).elim
          · intro h1
            exact ⟨.inl h1, fun e => hnS (e ▸ h1)⟩) (fun y => Iff.rfl)
      have hbox : ∀ b, B b → (h.setPtr k.l (some s)).boxes b = h.boxes b := by
        intro b hb'
        cases hl : k.l with
        | root r => rfl
        | child a =>
          have h1 := hk.1
          rw [hl] at h1
          obtain ⟨x, i, hc⟩ := locAt_cell h1
          simp only [setPtr]
          rw [if_neg]
          rintro rfl
          exact (hi.cellLive _ _ _ hc).2 (.inl hb')
      have hroots : ∀ r, (h.setPtr k.l (some s)).roots r ≠ none → h.roots r ≠ none ∨
          (OPc.casSlice k e s : OPc E W _).rootOf = some r := by
        intro r hr
        cases hl : k.l with
        | root q =>
          obtain ⟨h1, h2⟩ := hk.root hl
          rw [hl] at hr
          simp only [setPtr] at hr
          split at hr
          · next e => exact .inr (by rw [rootOf, if_pos h1, h2, e])
          · exact .inl hr
        | child a =>
          rw [hl] at hr
          exact .inl hr
      by_cases hlt : k.idx < k.b.size
      · refine ⟨_, .load k e s, trivial, by rw [hstep, hp]; simp only [foundP, if_pos hlt]; rfl,
          .inl ⟨rfl, toSlots_congr hb fun _ _ n _ => hval n⟩, ⟨_, _, _, hinv⟩, ⟨hk.mono hkeep, hptr, hlt⟩,
          hkeep, fun x _ => by rw [slices_setPtr], hbox, (fun _ hx => nomatch hx), (fun _ hx => nomatch hx),
          fun _ _ _ h => h, hroots, (by intro _ h; first | exact h | cases h)⟩
      · refine ⟨_, .failed, trivial, by rw [hstep, hp]; simp only [foundP, if_neg hlt]; rfl,
          .inl ⟨?_, toSlots_congr hb fun _ _ n _ => hval n⟩, ⟨_, _, _, hinv⟩, trivial,
          hkeep, fun x _ => by rw [slices_setPtr], hbox, (fun _ hx => nomatch hx), (fun _ hx => nomatch hx),
          fun _ _ _ h => h.elim, hroots, (by intro _ h; first | exact h | cases h)⟩
        simp only [slotProg, sliceGetOrInit, if_neg hlt]
    · refine ⟨h, .dropSlice k e s y, .still hi hS hB rfl rfl trivial ?_ (.inl rfl) ⟨hk, hs, hp⟩ (fun _ _ _ h => h) (by intro _ h; first | exact h | cases h)⟩
      rw [hstep, hp]; rfl
  | dropSlice k e s x =>
    obtain ⟨hk, hs, hp⟩ := hg
    have hstep : ((OPc.dropSlice k e s x : OPc E W _).prog A (entryShape E m)).step1 h =
        (h.setSlice s none, foundP A (entryShape E m) k e x) := by
      simp only [prog, tabFreeSlice, Prog.atomic, act_bind, ret_bind, step1_act, hs]
      rfl
    have hb := TabInv.below_freeSlice hs
    have hkeep : PtrKeeps h (h.setSlice s none) :=
      .of_below hb (fun l x hl => by rw [ptr_setSlice]; exact hl) fun _ _ _ _ => rfl
    have hnS : ¬ S s := hS s rfl
    have hinv := (hi.freeSlice (.inr rfl) hs fun _ => rfl).congr
      (S' := fun x => S x ∨ (none : Option Nat) = some x) (B' := fun b => B b ∨ (none : Option Nat) = some b)
      (fun y => by
        simp only [ownSlice, Option.some.injEq, reduceCtorEq, or_false]
        constructor
        · rintro ⟨h1 | h1, h2⟩
          · exact h1
          · exact (h2 h1.symm).elim
        · intro h1
          exact ⟨.inl h1, fun e => hnS (e ▸ h1)⟩) (fun y => Iff.rfl)
    have hold : ∀ y, S y → (h.setSlice s none).slices y = h.slices y := by
      intro y hy
      simp only [setSlice]
      rw [if_neg]
      rintro rfl
      exact hnS hy
    by_cases hlt : k.idx < k.b.size
    · refine ⟨_, .load k e x, trivial, by rw [hstep]; simp only [foundP, if_pos hlt]; rfl,
        .inl ⟨rfl, toSlots_congr hb fun _ _ _ _ => rfl⟩, ⟨_, _, _, hinv⟩,
        ⟨hk.mono hkeep, hkeep.ptr _ _ hp, hlt⟩,
        hkeep, hold, fun _ _ => rfl, (fun _ hx => nomatch hx), (fun _ hx => nomatch hx), fun _ _ _ h => h, fun _ => .inl, (by intro _ h; first | exact h | cases h)⟩
    · refine ⟨_, .failed, trivial, by rw [hstep]; simp only [foundP, if_neg hlt]; rfl,
        .inl ⟨?_, toSlots_congr hb fun _ _ _ _ => rfl⟩, ⟨_, _, _, hinv⟩, trivial,
        hkeep, hold, fun _ _ => rfl, (fun _ hx => nomatch hx), (fun _ hx => nomatch hx), fun _ _ _ h => h.elim, fun _ => .inl, (by intro _ h; first | exact h | cases h)⟩
      simp only [slotProg, sliceGetOrInit, if_neg hlt]
  | load k e x =>
    obtain ⟨hk, hp, hlt⟩ := hg
    cases hc : h.slices x with
    | none => exact ((hi.ptrLive _ _ hp).1 hc).elim
    | some c =>
      have hs : ((OPc.load k e x : OPc E W _).prog A (entryShape E m)).step1 h =
          (h, loadP A (entryShape E m) k e x (c k.idx)) := by
        simp only [prog, tabCellLoad, Prog.read, act_bind, ret_bind, step1_act, hc]
        rfl
      have hcell : h.cell x k.idx = c k.idx := cell_of_some hc _
      cases hn : c k.idx with
      | none =>
        refine ⟨h, .mkBox k e x, .still hi hS hB rfl rfl trivial ?_ (.inr ?_) ⟨hk, hp, hlt⟩
          (fun _ _ _ h => h) (by intro _ h; first | exact h | cases h)⟩
        · rw [hs, hn]; rfl
        · have he := hk.empty (by rw [below_of hp, hcell, hn]; rfl)
          simp only [OKey.slot] at he
          simp only [slotProg, sliceGetOrInit, if_pos hlt, Prog.read, act_bind, ret_bind, step1_act, he]
          exact ⟨trivial, rfl⟩
      | some n =>
        obtain ⟨r, hr1, hr2⟩ := hk.found (W := W) hi hp (hcell.trans hn)
        refine ⟨h, .initLook k n false r, .still hi hS hB rfl rfl trivial ?_ (.inr ?_) hr1 (fun _ _ _ h => h) (by intro _ h; first | exact h | cases h)⟩
        · rw [hs, hn]; rfl
        · simp only [OKey.slot] at hr2
          simp only [slotProg, sliceGetOrInit, if_pos hlt, Prog.read, act_bind, ret_bind, step1_act, hr2]
          exact ⟨trivial, rfl⟩
  | mkBox k e x =>
    obtain ⟨hk, hp, hlt⟩ := hg
    have hf := boxAddr_free (A := A) hi.top
    have hb : ∀ l i, ({ h.setBox (h.boxAddr A) (some (e, none)) with
        top := max h.top (h.boxAddr A + 1), atoms := h.atoms + (entryShape E m).atoms } : TabHeap E).below l i =
        h.below l i := by
      intro l i
      refine (show _ = (h.setBox (h.boxAddr A) (some (e, none))).below l i by cases l <;> rfl).trans
        (TabInv.below_setBox ?_ ?_ l i)
      · intro e' he'; cases he'; rfl
      · intro y hy
        rw [ptr_child_none.2 hf] at hy; cases hy
    have hval : ∀ y i n, h.cell y i = some n → ({ h.setBox (h.boxAddr A) (some (e, none)) with
        top := max h.top (h.boxAddr A + 1), atoms := h.atoms + (entryShape E m).atoms } :
        TabHeap E).valueAt n = h.valueAt n := by
      intro y i n hc
      refine (valueAt_setBox (h := h) (h.boxAddr A) n (some (e, none))).trans ?_
      rw [if_neg]
      rintro rfl
      exact (hi.cellLive _ _ _ hc).1 hf
    have hB' : ¬ B (h.boxAddr A) := fun hs => hi.heldB _ (.inl hs) hf
    have hkeep : PtrKeeps h { h.setBox (h.boxAddr A) (some (e, none)) with
        top := max h.top (h.boxAddr A + 1), atoms := h.atoms + (entryShape E m).atoms } := by
      refine .of_below hb (fun l y hl => ?_) hval
      refine (show _ = (h.setBox (h.boxAddr A) (some (e, none))).ptr l by cases l <;> rfl).trans ?_
      rw [ptr_setBox, if_neg]
      · exact hl
      · rintro rfl; rw [ptr_child_none.2 hf] at hl; cases hl
    refine ⟨_, .casBox k e x (h.boxAddr A), trivial, rfl, .inl ⟨rfl, toSlots_congr hb hval⟩,
      ⟨_, _, _, (hi.allocBox e _ hf).congr (fun y => Iff.rfl) (fun y => ?_)⟩,
      ⟨⟨hk.mono hkeep, hkeep.ptr _ _ hp, hlt⟩, ?_⟩, hkeep, fun _ _ => rfl, fun x hx => ?_,
      (fun _ hx => nomatch hx), fun x hx => ?_, fun _ _ _ h => h, fun _ => .inl, (by intro _ h; first | exact h | cases h)⟩
    · simp only [ownBox, Option.some.injEq, reduceCtorEq, or_false]
      exact or_congr Iff.rfl eq_comm
    · simp [setBox]
    · simp only [setBox]
      rw [if_neg]
      rintro rfl
      exact hB' hx
    · cases hx; exact hB'
  | casBox k e x n =>
    obtain ⟨⟨hk, hp, hlt⟩, hn⟩ := hg
    cases hc : h.slices x with
    | none => exact ((hi.ptrLive _ _ hp).1 hc).elim
    | some c =>
      have hcell : h.cell x k.idx = c k.idx := cell_of_some hc _
      cases hd : c k.idx with
      | none =>
        obtain ⟨hl, ht⟩ := hk.toSlots_put hi hp hc hd hn
        have hnone : h.below k.l k.idx = none := by rw [below_of hp, hcell, hd]; rfl
        have he := hk.empty hnone
        have hkeep : PtrKeeps h (h.setSlice x (some (setCell c k.idx (some n)))) := by
          refine ⟨fun a l ha => ?_, fun l y hl => by rw [ptr_setSlice]; exact hl,
            fun _ _ _ e _ h => ⟨e, h, rfl, rfl⟩⟩
          rw [hl, if_neg]
          · exact ha
          · rintro rfl; rw [hk.slot, hnone] at ha; cases ha
        have hnB : ¬ B n := hB n rfl
        refine ⟨_, .initLook k n true (refOf k.slot e), trivial, ?_, .inr ⟨trivial, ?_⟩,
          ⟨_, _, _, (hi.publishBox hc hd (.inr rfl) (by simp [ptr, hn]) ?_).congr (fun y => Iff.rfl)
            (fun y => ?_)⟩, ⟨?_, e, ?_, rfl⟩, hkeep, fun y hy => ?_, fun _ _ => rfl,
          (fun _ hx => nomatch hx), (fun _ hx => nomatch hx), fun _ _ _ h => h, fun _ => .inl, (by intro _ h; first | exact h | cases h)⟩
        · simp only [prog, tabCellCas, Prog.atomic, act_bind, ret_bind, step1_act, hc, hd]
          rfl
        · simp only [slotProg, casInit, Prog.atomic, step1_act, he, ht]
        · intro l sz h1 h2
          obtain rfl := hi.ptrInj _ _ _ hp h1
          rw [hk.2] at h2
          injection h2 with h2
          exact h2 ▸ hlt
        · simp only [ownBox, Option.some.injEq, reduceCtorEq, or_false]
          constructor
          · rintro ⟨h1 | h1, h2⟩
            · exact h1
            · exact (h2 h1.symm).elim
          · intro h1
            exact ⟨.inl h1, fun e => hnB (e ▸ h1)⟩
        · rw [hl, if_pos rfl]
        · simp [valueAt, setSlice, hn]
        · simp only [setSlice]
          rw [if_neg]
          rintro rfl
          exact (hi.ptrLive _ _ hp).2 (.inl hy)
      | some d =>
        obtain ⟨r, hr1, hr2⟩ := hk.found (W := W) hi hp (hcell.trans hd)
        refine ⟨h, .dropBox k n d r, .still hi hS hB rfl rfl trivial ?_ (.inr ⟨trivial, ?_⟩)
          ⟨⟨e, hn⟩, hr1⟩ (fun _ _ _ h => h) (by intro _ h; first | exact h | cases h)⟩
        · simp only [prog, tabCellCas, Prog.atomic, act_bind, ret_bind, step1_act, hc, hd]
          rfl
        · simp only [slotProg, casInit, Prog.atomic, step1_act]
          cases ho : h.toSlots k.slot with
          | none => rw [ho] at hr2; cases hr2
          | some e' =>
            rw [ho] at hr2
            simp only [Option.map_some, Option.some.injEq] at hr2
            simp only [hr2]
  | dropBox k n d r =>
    obtain ⟨⟨v, hn⟩, hr⟩ := hg
    have hb : ∀ l i, (h.setBox n none).below l i = h.below l i :=
      TabInv.below_setBox (by simp) (fun y hy => by simp [ptr, hn] at hy)
    have hnB : ¬ B n := hB n rfl
    have hval : ∀ y i n', h.cell y i = some n' → (h.setBox n none).valueAt n' = h.valueAt n' := by
      intro y i n' hc
      rw [valueAt_setBox, if_neg]
      rintro rfl
      exact (hi.cellLive _ _ _ hc).2 (.inr rfl)
    have hkeep : PtrKeeps h (h.setBox n none) :=
      .of_below hb (fun l y hl => by
        rw [ptr_setBox, if_neg]
        · exact hl
        · rintro rfl; simp [ptr, hn] at hl) hval
    refine ⟨_, .initLook k d false r, trivial, ?_, .inl ⟨rfl, toSlots_congr hb hval⟩,
      ⟨_, _, _, (hi.freeBox (.inr rfl) (by simp [ptr, hn])).congr (fun y => Iff.rfl) (fun y => ?_)⟩,
      PtrAt.mono hr hkeep, hkeep, fun _ _ => rfl, fun y hy => ?_, (fun _ hx => nomatch hx),
      (fun _ hx => nomatch hx), fun _ _ _ h => h, fun _ => .inl, (by intro _ h; first | exact h | cases h)⟩
    · simp only [prog, tabFreeBox, Prog.atomic, act_bind, ret_bind, step1_act, hn]
      rfl
    · simp only [ownBox, Option.some.injEq, reduceCtorEq, or_false]
      constructor
      · rintro ⟨h1 | h1, h2⟩
        · exact h1
        · exact (h2 h1.symm).elim
      · intro h1
        exact ⟨.inl h1, fun e => hnB (e ▸ h1)⟩
    · simp only [setBox]
      rw [if_neg]
      rintro rfl
      exact hnB hy
  | initLook k n us r =>
    obtain ⟨h1, e, h2, h3⟩ := id hg
    refine ⟨h, .initDone k n us r, .still hi hS hB rfl rfl trivial ?_ (.inl rfl) hg (fun _ _ _ h => h) (by intro _ h; first | exact h | cases h)⟩
    simp only [valueAt] at h2
    simp only [prog, lookP, tabDeref, Prog.read, act_bind, ret_bind, step1_act, h2, Prog.ofOption, h3,
      Option.map_some]
  | access a n f =>
    obtain ⟨⟨r, h1, e, h2, h3⟩, hf⟩ := hg
    cases hb : h.boxes n with
    | none => simp [valueAt, hb] at h2
    | some ep =>
      obtain ⟨e', p⟩ := ep
      have : e' = e := by simp [valueAt, hb] at h2; exact h2
      subst this
      obtain ⟨x, i, hc⟩ := locAt_cell h1
      have hbel : ∀ l i, (h.setBox n (some ((f e').2, p))).below l i = h.below l i := below_write hb
      have hts : (h.setBox n (some ((f e').2, p))).toSlots = h.toSlots.set a (f e').2 := by
        funext a'
        simp only [Slots.set]
        by_cases ha : a' = a
        · subst ha
          rw [if_pos rfl, toSlots_of (n := n) (by rw [locAt_congr hbel]; exact h1), valueAt_setBox, if_pos rfl]
          rfl
        · rw [if_neg ha]
          simp only [toSlots, locAt_congr hbel]
          cases hl : h.locAt a' with
          | none => rfl
          | some l =>
            cases l with
            | root r => rfl
            | child n' =>
              simp only
              rw [valueAt_setBox, if_neg]
              rintro rfl
              obtain ⟨h5, h6⟩ := hi.down_inj hl h1
              apply ha
              obtain ⟨r1, p1⟩ := a
              obtain ⟨r2, p2⟩ := a'
              simp only at h5 h6
              rw [h5, List.reverse_inj.1 h6]
      refine ⟨h.setBox n (some ((f e').2, p)), .accessDone (f e').1, trivial, ?_, .inr ⟨trivial, ?_⟩,
        ⟨ds, db, D, hi.write hb (hf e').2⟩, trivial, ⟨fun a l ha => (locAt_congr hbel a).trans ha,
          fun l y hl => (ptr_write hb l).trans hl, fun y j n' e'' hc' hv => ?_⟩, fun _ _ => rfl, fun y hy => ?_,
        (fun _ hx => nomatch hx), (fun _ hx => nomatch hx), fun _ _ _ h => h, fun _ => .inl, (by intro _ h; first | exact h | cases h)⟩
      · simp only [prog, tabAccess, Prog.atomic, bind_assoc', act_bind, ret_bind, step1_act, hb]
        rfl
      · have : h.toSlots a = some e' := by rw [toSlots_of h1, h2]
        simp only [slotProg, accessAt, Prog.atomic, act_bind, ret_bind, step1_act, this, hts]
        rfl
      · rw [valueAt_setBox]
        split
        · rename_i en
          subst en
          rw [h2] at hv
          injection hv with hv
          subst hv
          exact ⟨(f e').2, rfl, (hf e').1, (hf e').2⟩
        · exact ⟨e'', hv, rfl, rfl⟩
      · simp only [setBox]
        rw [if_neg]
        rintro rfl
        exact (hi.cellLive _ _ _ hc).2 (.inl hy)

end Rotonda
