import Verif.Spec.Pointers
import Verif.Proofs.TableHeap
import Verif.Proofs.OnceBox

/-!
# Paths of pointers in a table
-/

namespace Rotonda

open TabHeap

variable {E : Type} {Z : TabShape E} {h h' : TabHeap E}

namespace TabHeap

theorem below_eq (l : Loc) (i : Nat) : h.below l i = match h.ptr l with
    | some (some x) => (h.cell x i).map .child
    | _ => none := rfl

theorem below_some {l m : Loc} {i : Nat} : h.below l i = some m ↔
    ∃ x n, h.ptr l = some (some x) ∧ h.cell x i = some n ∧ m = .child n := by
  rw [below_eq]
  rcases h.ptr l with _ | _ | x
  · simp
  · simp
  · simp only [Option.map_eq_some_iff, Option.some.injEq]
    constructor
    · rintro ⟨n, h1, rfl⟩; exact ⟨x, n, rfl, h1, rfl⟩
    · rintro ⟨_, n, rfl, h1, rfl⟩; exact ⟨n, h1, rfl⟩

theorem below_of {l : Loc} {x : Nat} (hl : h.ptr l = some (some x)) (i : Nat) :
    h.below l i = (h.cell x i).map .child := by
  rw [below_eq, hl]

theorem below_none {l : Loc} (hl : ∀ x, h.ptr l ≠ some (some x)) (i : Nat) : h.below l i = none := by
  rw [below_eq]
  rcases hp : h.ptr l with _ | _ | x
  · rfl
  · rfl
  · exact (hl x hp).elim

theorem locAt_slot (b : Bucket) (i : Nat) :
    h.locAt (b.slot i) = (h.locAt ⟨b.root, b.path⟩).bind fun l => h.below l i := by
  simp [locAt, Bucket.slot, down]

theorem locAt_root (r : Nat) : h.locAt ⟨r, []⟩ = some (.root r) := rfl

theorem down_congr (hb : ∀ l i, h'.below l i = h.below l i) (r : Nat) (q : List Nat) :
    h'.down r q = h.down r q := by
  induction q with
  | nil => rfl
  | cons i q ih => simp only [down, ih, hb]

theorem locAt_congr (hb : ∀ l i, h'.below l i = h.below l i) (a : Addr) : h'.locAt a = h.locAt a :=
  down_congr hb _ _

/-- An entry that is found is in a slice. -/
theorem down_cell {r n : Nat} {q : List Nat} (hd : h.down r q = some (.child n)) :
    ∃ x i, h.cell x i = some n := by
  cases q with
  | nil => cases hd
  | cons i q =>
    simp only [down, Option.bind_eq_some_iff] at hd
    obtain ⟨l, -, h1⟩ := hd
    obtain ⟨x, m, -, h2, h3⟩ := below_some.1 h1
    injection h3 with h3
    exact ⟨x, i, h3 ▸ h2⟩

theorem locAt_cell {a : Addr} {n : Nat} (hd : h.locAt a = some (.child n)) :
    ∃ x i, h.cell x i = some n := down_cell hd

theorem toSlots_of {a : Addr} {n : Nat} (ha : h.locAt a = some (.child n)) :
    h.toSlots a = h.valueAt n := by
  simp [toSlots, ha]

theorem toSlots_congr (hb : ∀ l i, h'.below l i = h.below l i)
    (hv : ∀ x i n, h.cell x i = some n → h'.valueAt n = h.valueAt n) : h'.toSlots = h.toSlots := by
  funext a
  simp only [toSlots, locAt_congr hb]
  cases ha : h.locAt a with
  | none => rfl
  | some l =>
    cases l with
    | root r => rfl
    | child n =>
      obtain ⟨x, i, hc⟩ := locAt_cell ha
      exact hv x i n hc

end TabHeap

variable {S B : Nat → Prop} {ds db : Nat → Nat} {D : Nat}

/-- Different paths lead to different places. -/
theorem TabInv.down_inj (hi : TabInv Z h S B ds db D) {r r' : Nat} {q q' : List Nat} {l : Loc}
    (h1 : h.down r q = some l) (h2 : h.down r' q' = some l) : r = r' ∧ q = q' := by
  induction q generalizing q' l with
  | nil =>
    cases q' with
    | nil => cases h1; cases h2; exact ⟨rfl, rfl⟩
    | cons i q' =>
      cases h1
      simp only [down, Option.bind_eq_some_iff] at h2
      obtain ⟨l, -, h2⟩ := h2
      obtain ⟨x, m, -, -, h3⟩ := below_some.1 h2
      cases h3
  | cons i q ih =>
    simp only [down, Option.bind_eq_some_iff] at h1
    obtain ⟨l1, h1, h3⟩ := h1
    obtain ⟨x, m, h4, h5, rfl⟩ := below_some.1 h3
    cases q' with
    | nil => cases h2
    | cons i' q' =>
      simp only [down, Option.bind_eq_some_iff] at h2
      obtain ⟨l2, h2, h6⟩ := h2
      obtain ⟨x', m', h7, h8, h9⟩ := below_some.1 h6
      injection h9 with h9
      subst h9
      obtain ⟨rfl, rfl⟩ := hi.cellInj _ _ _ _ _ h5 h8
      obtain rfl := hi.ptrInj _ _ _ h4 h7
      obtain ⟨rfl, rfl⟩ := ih h1 h2
      exact ⟨rfl, rfl⟩

/-- A place that is found is allocated. -/
theorem TabInv.locAt_ptr (hi : TabInv Z h S B ds db D) {a : Addr} {l : Loc}
    (ha : h.locAt a = some l) : h.ptr l ≠ none := by
  cases l with
  | root r => simp [ptr]
  | child n =>
    obtain ⟨x, i, hc⟩ := locAt_cell ha
    intro h1
    exact (hi.cellLive _ _ _ hc).1 (ptr_child_none.1 h1)

/-! ## What a call that runs next to others can rely on -/

variable {W : Nat} [Entry E W]

/-- Pointers that are not null stay, and so do the fixed fields of the entries found. -/
structure PtrKeeps (h h' : TabHeap E) : Prop where
  loc : ∀ a l, h.locAt a = some l → h'.locAt a = some l
  ptr : ∀ l x, h.ptr l = some (some x) → h'.ptr l = some (some x)
  fixed : ∀ x i n e, h.cell x i = some n → h.valueAt n = some e →
    ∃ e', h'.valueAt n = some e' ∧ Entry.id e' = Entry.id e ∧ Entry.next e' = Entry.next e

theorem PtrKeeps.refl : PtrKeeps h h := ⟨fun _ _ e => e, fun _ _ e => e, fun _ _ _ e _ h => ⟨e, h, rfl, rfl⟩⟩

/-- Changes that leave the entries found alone. -/
theorem PtrKeeps.of_below (hb : ∀ l i, h'.below l i = h.below l i)
    (hp : ∀ l x, h.ptr l = some (some x) → h'.ptr l = some (some x))
    (hv : ∀ x i n, h.cell x i = some n → h'.valueAt n = h.valueAt n) : PtrKeeps h h' :=
  ⟨fun a l e => (locAt_congr hb a).trans e, hp,
    fun x i n e hc he => ⟨e, (hv x i n hc).trans he, rfl, rfl⟩⟩

/-! ## Single changes -/

theorem TabInv.below_allocSlice {n : Nat} (hn : h.slices n = none) (k : Nat) (l : Loc) (i : Nat) :
    ({ h.setSlice n (some fun _ => none) with top := k } : TabHeap E).below l i = h.below l i := by
  have hp : ({ h.setSlice n (some fun _ => none) with top := k } : TabHeap E).ptr l = h.ptr l := by
    cases l <;> rfl
  have hc : ∀ x, ({ h.setSlice n (some fun _ => none) with top := k } : TabHeap E).cell x i =
      h.cell x i := by
    intro x
    refine (cell_setSlice n _ x i).trans ?_
    split
    · rename_i e; rw [e, cell_of_none hn]; rfl
    · rfl
  simp only [below_eq, hp, hc]

theorem TabInv.below_publishSlice {l : Loc} {s : Nat} (hl : h.ptr l = some none)
    (hc : h.slices s = some fun _ => none) (l' : Loc) (i : Nat) :
    (h.setPtr l (some s)).below l' i = h.below l' i := by
  simp only [below_eq, ptr_setPtr, cell_setPtr]
  by_cases e : l' = l
  · subst e
    simp [hl, cell_of_some hc]
  · rw [if_neg e]

theorem TabInv.below_freeSlice {s : Nat} (hc : h.slices s = some fun _ => none) (l : Loc) (i : Nat) :
    (h.setSlice s none).below l i = h.below l i := by
  have hcell : ∀ x, (h.setSlice s none).cell x i = h.cell x i := by
    intro x
    rw [cell_setSlice]
    split
    · rename_i e; rw [e, cell_of_some hc]; rfl
    · rfl
  simp only [below_eq, ptr_setSlice, hcell]

/-- An entry that is not in a slice and has no next slice is written. -/
theorem TabInv.below_setBox {n : Nat} {v : Option (E × Option Nat)} (hv : ∀ e, v = some e → e.2 = none)
    (hn : ∀ x, h.ptr (.child n) ≠ some (some x)) (l : Loc) (i : Nat) :
    (h.setBox n v).below l i = h.below l i := by
  by_cases e : l = .child n
  · subst e
    rw [below_none hn, below_none]
    intro x hx
    rw [ptr_setBox, if_pos rfl] at hx
    cases v with
    | none => cases hx
    | some v =>
      have := hv v rfl
      simp only [Option.map_some, Option.some.injEq] at hx
      rw [this] at hx
      cases hx
  · simp only [below_eq, ptr_setBox, if_neg e]
    rfl

theorem TabHeap.valueAt_setBox (n m : Nat) (v : Option (E × Option Nat)) :
    (h.setBox n v).valueAt m = if m = n then v.map Prod.fst else h.valueAt m := by
  simp only [valueAt, setBox]
  split <;> rfl

/-- The mutable part of an entry is written. -/
theorem TabHeap.below_write {n : Nat} {e e' : E} {p : Option Nat} (hn : h.boxes n = some (e, p)) (l : Loc)
    (i : Nat) : (h.setBox n (some (e', p))).below l i = h.below l i := by
  have hp : (h.setBox n (some (e', p))).ptr l = h.ptr l := by
    rw [ptr_setBox]
    split
    · rename_i e; subst e; simp [ptr, hn]
    · rfl
  simp only [below_eq, hp]
  rfl

theorem TabHeap.ptr_write {n : Nat} {e e' : E} {p : Option Nat} (hn : h.boxes n = some (e, p)) (l : Loc) :
    (h.setBox n (some (e', p))).ptr l = h.ptr l := by
  rw [ptr_setBox]
  split
  · rename_i e; subst e; simp [ptr, hn]
  · rfl

theorem TabInv.write {k : Nat} (hi : TabInv (entryShape E k) h S B ds db D) {n : Nat} {e e' : E}
    {p : Option Nat} (hn : h.boxes n = some (e, p)) (he : Entry.next e' = Entry.next e) :
    TabInv (entryShape E k) (h.setBox n (some (e', p))) S B ds db D := by
  have hz : ∀ l, (h.setBox n (some (e', p))).sizeAt (entryShape E k) l = h.sizeAt (entryShape E k) l := by
    intro l
    rw [sizeAt_setBox]
    split
    · rename_i e; subst e; simp [sizeAt, hn, entryShape, he]
    · cases l <;> rfl
  have hb : ∀ m, (h.setBox n (some (e', p))).boxes m = none ↔ h.boxes m = none := by
    intro m
    simp only [setBox]
    split
    · rename_i e; subst e; simp [hn]
    · rfl
  constructor
  case top =>
    intro m hm
    exact ⟨(hb m).2 (hi.top m hm).1, (hi.top m hm).2⟩
  all_goals
    try simp only [ptr_write hn, cell_setBox, hz, ne_eq, hb]
  case ptrLive => exact hi.ptrLive
  case ptrInj => exact hi.ptrInj
  case cellLive => exact hi.cellLive
  case cellInj => exact hi.cellInj
  case heldS => exact hi.heldS
  case heldB => exact hi.heldB
  case liveS => exact hi.liveS
  case liveB => exact hi.liveB
  case rankS => exact hi.rankS
  case rankB => exact hi.rankB
  case range => exact hi.range

/-- An entry is put in an empty box of a slice that is in its place. -/
theorem TabInv.down_publishBox (hi : TabInv Z h S B ds db D) {x i n r : Nat} {q : List Nat} {l : Loc}
    {c : Nat → Option Nat} (hq : h.down r q = some l) (hl : h.ptr l = some (some x))
    (hx : h.slices x = some c) (hc : c i = none) (hp : h.ptr (.child n) = some none) (r' : Nat)
    (q' : List Nat) : (h.setSlice x (some (setCell c i (some n)))).down r' q' =
      if r' = r ∧ q' = i :: q then some (.child n) else h.down r' q' := by
  have hce : h.cell x i = none := by rw [cell_of_some hx, hc]
  have hcell : ∀ y j, (h.setSlice x (some (setCell c i (some n)))).cell y j =
      if y = x ∧ j = i then some n else h.cell y j := by
    intro y j
    rw [cell_setSlice]
    by_cases hy : y = x
    · subst hy
      by_cases hj : j = i
      · simp [setCell, hj]
      · simp [setCell, hj, cell_of_some hx]
    · simp [hy]
  have hnone : h.down r (i :: q) = none := by
    simp [down, hq, below_of hl, hce]
  induction q' with
  | nil => rw [if_neg (by simp)]; rfl
  | cons j q' ih =>
    simp only [down]
    rw [ih]
    by_cases h1 : r' = r ∧ q' = i :: q
    · obtain ⟨rfl, rfl⟩ := h1
      rw [if_pos ⟨rfl, rfl⟩, if_neg (by
        rintro ⟨-, e⟩
        have := congrArg List.length e
        simp at this), hnone]
      simp only [Option.bind_some, Option.bind_none]
      apply below_none
      intro y
      rw [ptr_setSlice, hp]
      simp
    · rw [if_neg h1]
      cases hd : h.down r' q' with
      | none =>
        simp only [Option.bind_none]
        rw [if_neg]
        rintro ⟨rfl, e⟩
        injection e with e1 e2
        subst e2
        rw [hq] at hd; cases hd
      | some m =>
        simp only [Option.bind_some]
        by_cases h2 : r' = r ∧ j :: q' = i :: q
        · rw [if_pos h2]
          obtain ⟨rfl, e⟩ := h2
          injection e with e1 e2
          subst e1 e2
          rw [hq] at hd
          injection hd with hd
          subst hd
          rw [below_of (by rw [ptr_setSlice]; exact hl), hcell]
          simp
        · rw [if_neg h2]
          simp only [below_eq, ptr_setSlice, hcell]
          rcases hm : h.ptr m with _ | _ | y
          · rfl
          · rfl
          · simp only
            rw [if_neg]
            rintro ⟨rfl, rfl⟩
            obtain rfl := hi.ptrInj _ _ _ hl hm
            obtain ⟨rfl, rfl⟩ := hi.down_inj hq hd
            exact h2 ⟨rfl, rfl⟩

end Rotonda
