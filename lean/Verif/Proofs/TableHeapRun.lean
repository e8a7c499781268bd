import Verif.Proofs.TableHeapInv
import Verif.Proofs.Ghost

/-!
# Runs of calls on one table, and dropping it
-/

namespace Rotonda

open Prog TabHeap

variable {T ι : Type} {A : TabAlloc T} {Z : TabShape T} {h h' : TabHeap T} {levels : Nat}

section Run
variable [DecidableEq ι] {calls : ι → Walk T}

theorem TPc.ret_iff {c : Walk T} {pc : TPc} {a : Option Nat} (h : pc.prog A Z c = .ret a) : pc = .done a := by
  cases pc with
  | done b => simp only [TPc.prog, Prog.ret.injEq] at h; rw [h]
  | failed => cases h
  | _ => change Prog.act _ _ = _ at h; cases h

theorem TPc.not_panic {c : Walk T} {pc : TPc} (hg : pc ≠ .failed) : pc.prog A Z c ≠ .panic := by
  intro h
  cases pc with
  | done b => cases h
  | failed => exact hg rfl
  | _ => change Prog.act _ _ = _ at h; cases h

/-- A step of a call is a step of its control point. -/
theorem tabStep {c : Conf (TabHeap T) ι (fun _ => Option Nat)} {pcs : ι → TPc}
    (hp : ∀ i, c.pool i = (pcs i).prog A Z (calls i)) (i : ι) :
    (c.step i).st = ((pcs i).next A Z (calls i) c.st).1 ∧
      ∀ j, (c.step i).pool j =
        (Function.update pcs i ((pcs i).next A Z (calls i) c.st).2 j).prog A Z (calls j) := by
  have hs := TPc.step1_prog (A := A) (Z := Z) (calls i) c.st (pcs i)
  rw [← hp i] at hs
  have key : (c.step i).st = ((c.pool i).step1 c.st).1 ∧
      ∀ j, (c.step i).pool j = if j = i then ((c.pool i).step1 c.st).2 else c.pool j := by
    cases hq : c.pool i with
    | act f k =>
      rw [Conf.step_act hq]
      exact ⟨rfl, fun j => by simp [Function.update_apply, Prog.step1]⟩
    | ret a => rw [Conf.step_ret hq]; exact ⟨rfl, fun j => by by_cases h : j = i <;> simp [h, hq, Prog.step1]⟩
    | panic => rw [Conf.step_panic hq]; exact ⟨rfl, fun j => by by_cases h : j = i <;> simp [h, hq, Prog.step1]⟩
    | diverge => rw [Conf.step_diverge hq]; exact ⟨rfl, fun j => by by_cases h : j = i <;> simp [h, hq, Prog.step1]⟩
  rw [hs] at key
  refine ⟨key.1, fun j => ?_⟩
  rw [key.2 j, Function.update_apply]
  split
  · rename_i e; rw [e]
  · exact hp j

/-- Every state of a run. -/
theorem tab_run (calls : ι → Walk T) (t : List ι) : ∃ (pcs : ι → TPc) (ds db : Nat → Nat),
    RunInv Z levels calls ((tabStart A Z levels calls).exec t).st pcs ds db ∧
    (∀ i, ((tabStart A Z levels calls).exec t).pool i = (pcs i).prog A Z (calls i)) ∧
    (∀ i, (pcs i).rank ≤ 11 * levels - t.count i) ∧ ∀ i, i ∉ t → pcs i = (calls i).pc Z levels := by
  induction t using List.reverseRecOn with
  | nil =>
    refine ⟨fun i => (calls i).pc Z levels, _, _, RunInv.start calls, fun i => ?_, fun i => ?_, fun i _ => rfl⟩
    · exact (TPc.prog_enter _ _ _ _ _).symm
    · exact (TPc.rank_enter _ _ _ _).le
  | append_singleton t i ih =>
    obtain ⟨pcs, ds, db, h1, h2, h3, h4⟩ := ih
    obtain ⟨hs, hp⟩ := tabStep h2 i
    obtain ⟨ds', db', h5, -⟩ := h1.step (A := A) i
    rw [Conf.exec_append]
    refine ⟨_, ds', db', ?_, hp, fun j => ?_, fun j hj => ?_⟩
    · rw [← hs] at h5; exact h5
    · have := TPc.rank_next (A := A) (Z := Z) (calls i) ((tabStart A Z levels calls).exec t).st (pcs i)
      have := h3 j
      rw [List.count_append, List.count_singleton, Function.update_apply]
      split
      · rename_i e; subst e; simp; omega
      · rename_i e; rw [if_neg (by simpa using Ne.symm e)]; exact this
    · simp only [List.mem_append, List.mem_singleton, not_or] at hj
      rw [Function.update_of_ne hj.2]; exact h4 j hj.1

/-- The heap only grows. -/
theorem tab_grow (calls : ι → Walk T) (t u : List ι) :
    TabGrow ((tabStart A Z levels calls).exec t).st ((tabStart A Z levels calls).exec (t ++ u)).st := by
  induction u using List.reverseRecOn with
  | nil => rw [List.append_nil]; exact TabGrow.refl
  | append_singleton u i ih =>
    obtain ⟨pcs, ds, db, h1, h2, -⟩ := tab_run (A := A) (Z := Z) (levels := levels) calls (t ++ u)
    obtain ⟨hs, -⟩ := tabStep h2 i
    obtain ⟨ds', db', -, h5⟩ := h1.step (A := A) i
    rw [← List.append_assoc, Conf.exec_append]
    refine ih.trans ?_
    rw [← hs] at h5
    exact h5

/-- When no call is under way, nothing is held. -/
theorem tab_quiet {t : List ι}
    (hq : ∀ i ∈ t, ∃ a, ((tabStart A Z levels calls).exec t).pool i = .ret a) :
    ∃ ds db, TabInv Z ((tabStart A Z levels calls).exec t).st (fun _ => False) (fun _ => False) ds db
      levels := by
  obtain ⟨pcs, ds, db, h1, h2, -, h4⟩ := tab_run (A := A) (Z := Z) (levels := levels) calls t
  have hown : ∀ i, (pcs i).ownSlice = none ∧ (pcs i).ownBox = none := by
    intro i
    by_cases hi : i ∈ t
    · obtain ⟨a, ha⟩ := hq i hi
      rw [TPc.ret_iff ((h2 i).symm.trans ha)]
      exact ⟨rfl, rfl⟩
    · rw [h4 i hi]; exact Walk.pc_own _
  exact ⟨ds, db, h1.heap.congr (fun x => by simp [hown]) (fun x => by simp [hown])⟩

end Run

/-! ## Dropping the table -/

variable {S B : Nat → Prop} {ds db : Nat → Nat} {D : Nat}

/-- Pointers only disappear. -/
structure TabShrink (h h' : TabHeap T) : Prop where
  ptr : ∀ l x, h'.ptr l = some (some x) → h.ptr l = some (some x)
  cell : ∀ x i b, h'.cell x i = some b → h.cell x i = some b
  atoms : h'.atoms = h.atoms

theorem TabShrink.refl : TabShrink h h := ⟨fun _ _ e => e, fun _ _ _ e => e, rfl⟩

theorem TabShrink.trans {h'' : TabHeap T} (h1 : TabShrink h h') (h2 : TabShrink h' h'') : TabShrink h h'' :=
  ⟨fun l x e => h1.ptr l x (h2.ptr l x e), fun x i b e => h1.cell x i b (h2.cell x i b e),
    h2.atoms.trans h1.atoms⟩

theorem TabShrink.cell_none (hs : TabShrink h h') {x i : Nat} (hc : h.cell x i = none) : h'.cell x i = none := by
  cases e : h'.cell x i with
  | none => rfl
  | some b => rw [hs.cell _ _ _ e] at hc; cases hc

theorem TabShrink.root_none (hs : TabShrink h h') {r : Nat} (hc : h.roots r = none) : h'.roots r = none := by
  cases e : h'.roots r with
  | none => rfl
  | some x =>
    have := hs.ptr (.root r) x (by simp [TabHeap.ptr, e])
    simp [TabHeap.ptr, hc] at this

/-- Dropping one place. -/
def DropsLoc (Z : TabShape T) (ds db : Nat → Nat) (D n : Nat) : Prop :=
  ∀ (S B : Nat → Prop) (h : TabHeap T) (l : Loc) (size : Nat), TabInv Z h S B ds db D →
    (∀ b, l = .child b → B b) → h.sizeAt Z l = some size → l.depth db ≤ D + 1 → D + 1 < n + l.depth db →
    ∃ h', (tabDropLoc Z n l size).run h = .ok () h' ∧ TabInv Z h' S B ds db D ∧
      h'.ptr l = some none ∧ TabShrink h h'

theorem run_dropCells' {n : Nat} (ih : DropsLoc Z ds db D n) {x : Nat} (hx : S x) (hr : ds x ≤ D)
    (hn : D < n + ds x) (k : Nat) (h : TabHeap T) (hi : TabInv Z h S B ds db D)
    (hk : ∀ i, k ≤ i → h.cell x i = none) :
    ∃ h', (tabDropCells (fun b => do
        let e ← tabDeref b
        tabDropLoc Z n (.child b) (Z.next e)
        tabFreeBox b) x k).run h = .ok () h' ∧ TabInv Z h' S B ds db D ∧
      (∀ i, h'.cell x i = none) ∧ TabShrink h h' := by
  induction k generalizing h with
  | zero => exact ⟨h, rfl, hi, fun i => hk i (Nat.zero_le _), TabShrink.refl⟩
  | succ k ihk =>
    obtain ⟨cells, hc⟩ := Option.ne_none_iff_exists'.1 (hi.heldS x hx)
    have hcell : ∀ y j, (h.setSlice x (some (setCell cells k none))).cell y j =
        if y = x ∧ j = k then none else h.cell y j := by
      intro y j
      rw [cell_setSlice]
      by_cases hy : y = x
      · subst hy
        by_cases hj : j = k
        · simp [setCell, hj]
        · simp [setCell, hj, cell_of_some hc]
      · simp [hy]
    have hsh : TabShrink h (h.setSlice x (some (setCell cells k none))) := by
      refine ⟨fun l y e => by rw [ptr_setSlice] at e; exact e, fun y j b e => ?_, rfl⟩
      rw [hcell] at e
      split at e
      · cases e
      · exact e
    have hk' : ∀ i, k ≤ i → (h.setSlice x (some (setCell cells k none))).cell x i = none := by
      intro i hki
      rw [hcell]
      split
      · rfl
      · rename_i hne
        exact hk i (by have : i ≠ k := fun e => hne ⟨rfl, e⟩; omega)
    simp only [tabDropCells, tabCellSwap, Prog.atomic, act_bind, ret_bind, Prog.run, hc, Prog.ofOption]
    cases hb : cells k with
    | none =>
      have hsame : h.setSlice x (some (setCell cells k none)) = h := by
        have : setCell cells k none = cells := by
          funext j; simp only [setCell]; split
          · rename_i e; rw [e, hb]
          · rfl
        rw [this]
        simp only [setSlice]
        congr 1
        funext y
        split
        · rename_i e; rw [e, hc]
        · rfl
      rw [hsame] at hk' ⊢
      exact ihk h hi hk'
    | some b =>
      have hT := hi.unlinkBox hc hb
      have hdb : db b = ds x := hi.rankB _ _ _ (by rw [cell_of_some hc, hb])
      have hlive : h.boxes b ≠ none := (hi.cellLive _ _ _ (by rw [cell_of_some hc, hb])).1
      obtain ⟨e, he⟩ := Option.ne_none_iff_exists'.1 hlive
      obtain ⟨h1, h2, h3, h4, h5⟩ := ih S (fun y => B y ∨ y = b) (h.setSlice x (some (setCell cells k none)))
        (.child b) (Z.next e.1) hT
        (fun d hd => by injection hd with hd; exact .inr hd.symm) (by simp [sizeAt, setSlice, he])
        (by simp only [Loc.depth]; omega) (by simp only [Loc.depth]; omega)
      obtain ⟨e', he'⟩ := Option.ne_none_iff_exists'.1 (h3.heldB b (.inr rfl))
      have hfree := h3.freeBox (.inr rfl) h4
      have hB : ∀ y, ((B y ∨ y = b) ∧ y ≠ b) ↔ B y := by
        intro y
        constructor
        · rintro ⟨h6 | h6, h7⟩
          · exact h6
          · exact (h7 h6).elim
        · intro h6
          refine ⟨.inl h6, ?_⟩
          rintro rfl
          exact (hi.cellLive _ _ _ (show h.cell x k = some y by rw [cell_of_some hc, hb])).2 h6
      have hfree' := hfree.congr (fun _ => Iff.rfl) hB
      have hsh2 : TabShrink h1 (h1.setBox b none) := by
        refine ⟨fun l y e => ?_, fun y j d e => e, rfl⟩
        rw [ptr_setBox] at e
        split at e
        · cases e
        · exact e
      obtain ⟨h6, h7, h8, h9, h10⟩ := ihk (h1.setBox b none) hfree' (fun i hki =>
        (h5.trans hsh2).cell_none (hk' i hki))
      refine ⟨h6, ?_, h8, h9, ((hsh.trans h5).trans hsh2).trans h10⟩
      simp only [bind_assoc']
      have hde : (h.setSlice x (some (setCell cells k none))).boxes b = some e := he
      simp only [tabDeref, Prog.read, act_bind, ret_bind, Prog.run, hde, Option.map_some, Prog.ofOption]
      rw [Prog.run_bind, h2]
      rw [Outcome.andThen, tabFreeBox]
      simp only [Prog.atomic, act_bind, ret_bind, Prog.run, he', Prog.ofOption]
      exact h7

theorem run_dropLoc (n : Nat) : DropsLoc Z ds db D n := by
  induction n with
  | zero =>
    intro S B h l size hi hB hs h1 h2
    omega
  | succ n ih =>
    intro S B h l size hi hB hs h1 h2
    simp only [tabDropLoc, locSwap, Prog.atomic, act_bind, ret_bind, Prog.run]
    have hne : h.ptr l ≠ none := by
      intro e
      cases l with
      | root r => cases e
      | child b => simp [sizeAt, ptr_child_none.1 e] at hs
    obtain ⟨p, hp⟩ := Option.ne_none_iff_exists'.1 hne
    rw [hp]
    cases p with
    | none =>
      refine ⟨h, ?_, hi, hp, TabShrink.refl⟩
      simp only [Prog.ofOption, ret_bind, hi.unlinkNone hp]
      rfl
    | some x =>
      simp only [Prog.ofOption, ret_bind]
      have hT := hi.unlinkSlice hp
      have hrank := hi.rankS _ _ hp
      have hnS : ¬ S x := (hi.ptrLive _ _ hp).2
      obtain ⟨h3, h4, h5, h6, h7⟩ := run_dropCells' (S := fun y => S y ∨ y = x) (B := B) ih (.inr rfl)
        hrank.2 (by omega) size (h.setPtr l none) hT (fun i hki => by
          rw [cell_setPtr]
          cases hc : h.cell x i with
          | none => rfl
          | some b =>
            have := hi.range _ _ _ _ _ hp hc hs
            omega)
      obtain ⟨cells, hc⟩ := Option.ne_none_iff_exists'.1 (h5.heldS x (.inr rfl))
      have hfree := h5.freeSlice (.inr rfl) hc (fun i => by rw [← cell_of_some hc]; exact h6 i)
      have hS : ∀ y, ((S y ∨ y = x) ∧ y ≠ x) ↔ S y := by
        intro y
        constructor
        · rintro ⟨h8 | h8, h9⟩
          · exact h8
          · exact (h9 h8).elim
        · intro h8
          exact ⟨.inl h8, fun e => hnS (e ▸ h8)⟩
      have hsh1 : TabShrink h (h.setPtr l none) := by
        refine ⟨fun l' y e => ?_, fun y j b e => by rw [cell_setPtr] at e; exact e, atoms_setPtr _ _⟩
        rw [ptr_setPtr] at e
        split at e
        · rw [hp] at e; cases e
        · exact e
      have hsh2 : TabShrink h3 (h3.setSlice x none) := by
        refine ⟨fun l' y e => by rw [ptr_setSlice] at e; exact e, fun y j b e => ?_, rfl⟩
        rw [cell_setSlice] at e
        split at e
        · cases e
        · exact e
      refine ⟨h3.setSlice x none, ?_, hfree.congr hS (fun _ => Iff.rfl), ?_, (hsh1.trans h7).trans hsh2⟩
      · rw [Prog.run_bind, h4]
        simp only [tabFreeSlice, Prog.atomic, act_bind, ret_bind, Prog.run, hc, Prog.ofOption, Outcome.andThen]
      · rw [ptr_setSlice]
        have hl' : h3.ptr l ≠ none := by
          cases l with
          | root r => simp [TabHeap.ptr]
          | child b =>
            intro e
            exact h5.heldB b (hB b rfl) (ptr_child_none.1 e)
        obtain ⟨q, hq⟩ := Option.ne_none_iff_exists'.1 hl'
        rw [hq]
        cases q with
        | none => rfl
        | some y =>
          have := h7.ptr _ _ hq
          rw [ptr_setPtr, if_pos rfl, hp] at this
          cases this

theorem run_tabDrop {fuel : Nat} (hf : D + 1 < fuel) (R : Nat) (h : TabHeap T)
    (hi : TabInv Z h (fun _ => False) (fun _ => False) ds db D) :
    ∃ h', (tabDrop Z fuel R).run h = .ok () h' ∧
      TabInv Z h' (fun _ => False) (fun _ => False) ds db D ∧
      (∀ r < R, h'.roots r = none) ∧ TabShrink h h' := by
  induction R generalizing h with
  | zero => exact ⟨h, rfl, hi, fun r hr => absurd hr (Nat.not_lt_zero _), TabShrink.refl⟩
  | succ R ih =>
    obtain ⟨h1, h2, h3, h4, h5⟩ := run_dropLoc (ds := ds) (db := db) (D := D) (Z := Z) fuel
      (fun _ => False) (fun _ => False) h (.root R) (Z.rootSize R) hi (fun b hb => by cases hb) rfl
      (Nat.zero_le _) (by simp only [Loc.depth]; omega)
    obtain ⟨h6, h7, h8, h9, h10⟩ := ih h1 h3
    refine ⟨h6, ?_, h8, fun r hr => ?_, h5.trans h10⟩
    · rw [tabDrop, Prog.run_bind, h2]; exact h7
    · rcases Nat.lt_succ_iff_lt_or_eq.1 hr with hr | rfl
      · exact h9 r hr
      · exact h10.root_none (by simpa [TabHeap.ptr] using h4)

/-! ## Searches that start when the entry is there -/

theorem entryAt_le {r : Nat} {idx : Nat → Nat} {n b : Nat} (hb : h.entryAt r idx n = some b)
    {m : Nat} (hm : m ≤ n) : ∃ a, h.entryAt r idx m = some a := by
  induction n generalizing b with
  | zero =>
    obtain rfl : m = 0 := by omega
    exact ⟨b, hb⟩
  | succ n ih =>
    rcases Nat.lt_or_ge m (n + 1) with h1 | h1
    · obtain ⟨a, -, h2, -⟩ := entryAt_succ.1 hb
      exact ih h2 (by omega)
    · obtain rfl : m = n + 1 := by omega
      exact ⟨b, hb⟩

/-- The box on the path of a call. -/
theorem TKey.At.slot {c : Walk T} {k : TKey} (ha : k.At Z levels h c) {a : Nat}
    (hb : h.entryAt c.root c.idx k.lvl = some a) :
    ∃ x, h.ptr k.loc = some (some x) ∧ h.cell x (c.idx k.lvl) = some a := by
  cases hl : k.loc with
  | root r =>
    obtain ⟨h1, rfl⟩ := ha.root r hl
    rw [h1] at hb ⊢
    exact entryAt_zero.1 hb
  | child d =>
    obtain ⟨m, h1, h2⟩ := ha.child d hl
    rw [h1] at hb ⊢
    obtain ⟨d', x, h3, h4, h5⟩ := entryAt_succ.1 hb
    rw [h2] at h3
    cases h3
    exact ⟨x, h4, h5⟩

/-- The control points of a search that meets no gap. -/
def TPc.Late (levels n b : Nat) : TPc → Prop
  | get k | getLoad k _ => k.lvl ≤ n ∧ k.lvl + k.n + 1 = levels
  | look k _ f => f = false ∧ k.lvl ≤ n ∧ k.lvl + k.n + 1 = levels
  | done a => a = some b
  | _ => False

theorem TPc.Late.next {c : Walk T} {pc : TPc} {n b : Nat} (hl : pc.Late levels n b)
    (hg : pc.Good Z levels h c) (hi : TabInv Z h S B ds db D) (hn : n < levels)
    (hb : h.entryAt c.root c.idx n = some b)
    (hs : ∀ m ≤ n, ∀ a e, h.entryAt c.root c.idx m = some a → h.valueAt a = some e →
      (c.stop false e = true ↔ m = n)) : (pc.next A Z c h).2.Late levels n b := by
  cases pc with
  | get k =>
    obtain ⟨a, h1⟩ := entryAt_le hb hl.1
    obtain ⟨x, h2, h3⟩ := TKey.At.slot hg h1
    have := hi.range _ _ _ _ _ h2 h3 hg.size
    simp only [TPc.next, h2, if_pos this]
    exact hl
  | getLoad k x =>
    obtain ⟨a, h1⟩ := entryAt_le hb hl.1
    obtain ⟨y, h2, h3⟩ := TKey.At.slot hg.1 h1
    rw [hg.2.1] at h2
    cases h2
    obtain ⟨cells, hc⟩ := Option.ne_none_iff_exists'.1 (hi.ptrLive _ _ hg.2.1).1
    rw [cell_of_some hc] at h3
    simp only [TPc.next, hc, h3]
    exact ⟨rfl, hl⟩
  | look k a f =>
    obtain ⟨rfl, h1, h2⟩ := hl
    obtain ⟨e, he⟩ := hi.entry_live hg.2
    have h3 := hs k.lvl h1 a e.1 hg.2 (by simp [valueAt, he])
    simp only [TPc.next, he]
    split
    · rename_i h4
      have := h3.1 h4
      have h5 := hg.2
      rw [this, hb] at h5
      exact h5.symm
    · rename_i h4
      have : k.lvl ≠ n := fun e => h4 (h3.2 e)
      cases hn : k.n with
      | zero => omega
      | succ m => exact ⟨by simp only; omega, by simp only; omega⟩
  | done a => exact hl
  | _ => exact hl.elim

section Late
variable [DecidableEq ι] {calls : ι → Walk T} {pcs : ι → TPc}

/-- Paths are no longer than the number of levels. -/
theorem RunInv.path_lt (hi : RunInv Z levels calls h pcs ds db) {r : Nat} {idx : Nat → Nat} {n b : Nat}
    (hb : h.entryAt r idx n = some b) : n < levels ∧ ∃ j, (calls j).create = true ∧
      (calls j).root = r ∧ (∀ m ≤ n, (calls j).idx m = idx m) ∧ h.valueAt b = some ((calls j).val n) := by
  obtain ⟨x, i, h1⟩ := entryAt_cell hb
  obtain ⟨j, n', h2, h3, h4, h5⟩ := hi.made _ _ _ h1
  obtain ⟨h6, rfl, h7⟩ := hi.heap.path_inj h4 hb
  exact ⟨h3, j, h2, h6, h7, h5⟩

/-- A search that starts when its path is there finds the entry. -/
theorem tab_late {t : List ι} {k : ι} {n b : Nat} (hk : k ∉ t)
    (hb : ((tabStart A Z levels calls).exec t).st.entryAt (calls k).root (calls k).idx n = some b)
    (hs : ∀ m ≤ n, ∀ a e,
      ((tabStart A Z levels calls).exec t).st.entryAt (calls k).root (calls k).idx m = some a →
      ((tabStart A Z levels calls).exec t).st.valueAt a = some e →
      ((calls k).stop false e = true ↔ m = n)) (u : List ι) :
    ∃ (pcs : ι → TPc) (ds db : Nat → Nat),
      RunInv Z levels calls ((tabStart A Z levels calls).exec (t ++ u)).st pcs ds db ∧
      (∀ i, ((tabStart A Z levels calls).exec (t ++ u)).pool i = (pcs i).prog A Z (calls i)) ∧
      (pcs k).Late levels n b := by
  induction u using List.reverseRecOn with
  | nil =>
    obtain ⟨pcs, ds, db, h1, h2, -, h4⟩ := tab_run (A := A) (Z := Z) (levels := levels) calls t
    rw [List.append_nil]
    refine ⟨pcs, ds, db, h1, h2, ?_⟩
    rw [h4 k hk]
    have hlt := (h1.path_lt hb).1
    unfold Walk.pc
    cases levels with
    | zero => exact absurd hlt (Nat.not_lt_zero _)
    | succ m => exact ⟨Nat.zero_le _, by simp⟩
  | append_singleton u i ih =>
    obtain ⟨pcs, ds, db, h1, h2, h3⟩ := ih
    have hgrow := tab_grow (A := A) (Z := Z) (levels := levels) calls t u
    obtain ⟨hst, hp⟩ := tabStep h2 i
    obtain ⟨ds', db', h5, -⟩ := h1.step (A := A) i
    rw [← List.append_assoc, Conf.exec_append]
    refine ⟨_, ds', db', by rw [← hst] at h5; exact h5, hp, ?_⟩
    rw [Function.update_apply]
    split
    · rename_i e; subst e
      have hb' := hgrow.entryAt hb
      refine h3.next (h1.good k) h1.heap (h1.path_lt hb').1 hb' fun m hm a e ha he => ?_
      obtain ⟨a', ha'⟩ := entryAt_le hb hm
      have := hgrow.entryAt ha'
      rw [ha] at this
      cases this
      obtain ⟨x, j, hx⟩ := entryAt_cell ha'
      exact hs m hm a e ha' ((hgrow.value _ _ _ hx).symm.trans he)
    · exact h3

end Late

end Rotonda
