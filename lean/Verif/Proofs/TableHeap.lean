import Verif.Spec.TableHeap
import Verif.Proofs.ConcSound
import Mathlib.Data.Nat.Basic

/-!
# The heap of a chained hash table

What every single change of the heap keeps: each allocated block is referred to once, or
held by someone who has just made it or is about to free it.
-/

namespace Rotonda

open TabHeap

variable {T : Type} {Z : TabShape T} {h : TabHeap T}

/-- The size of the slice at a place. -/
def TabHeap.sizeAt (Z : TabShape T) (h : TabHeap T) : Loc → Option Nat
  | .root r => some (Z.rootSize r)
  | .child b => (h.boxes b).map fun e => Z.next e.1

/-- What a box of a slice points to. -/
def TabHeap.cell (h : TabHeap T) (x i : Nat) : Option Nat := (h.slices x).bind fun c => c i

/-- How far down a place is, given this for the entries. -/
def Loc.depth (db : Nat → Nat) : Loc → Nat
  | .root _ => 0
  | .child b => db b + 1

/-- The blocks form trees: every allocated block has one owner.  `S` and `B` are the slices
and entries that are held outside of the heap, `ds` and `db` the levels of the others. -/
structure TabInv (Z : TabShape T) (h : TabHeap T) (S B : Nat → Prop) (ds db : Nat → Nat)
    (D : Nat) : Prop where
  ptrLive : ∀ l x, h.ptr l = some (some x) → h.slices x ≠ none ∧ ¬ S x
  ptrInj : ∀ l l' x, h.ptr l = some (some x) → h.ptr l' = some (some x) → l = l'
  cellLive : ∀ x i b, h.cell x i = some b → h.boxes b ≠ none ∧ ¬ B b
  cellInj : ∀ x i x' i' b, h.cell x i = some b → h.cell x' i' = some b → x = x' ∧ i = i'
  heldS : ∀ x, S x → h.slices x ≠ none
  heldB : ∀ b, B b → h.boxes b ≠ none
  liveS : ∀ x, h.slices x ≠ none → S x ∨ ∃ l, h.ptr l = some (some x)
  liveB : ∀ b, h.boxes b ≠ none → B b ∨ ∃ x i, h.cell x i = some b
  rankS : ∀ l x, h.ptr l = some (some x) → ds x = l.depth db ∧ ds x ≤ D
  rankB : ∀ x i b, h.cell x i = some b → db b = ds x
  range : ∀ l x i b n, h.ptr l = some (some x) → h.cell x i = some b →
    h.sizeAt Z l = some n → i < n
  top : ∀ n, h.top ≤ n → h.boxes n = none ∧ h.slices n = none

variable {S B : Nat → Prop} {ds db : Nat → Nat} {D : Nat}

theorem TabInv.congr {S' B' : Nat → Prop} (hi : TabInv Z h S B ds db D) (hS : ∀ x, S x ↔ S' x)
    (hB : ∀ b, B b ↔ B' b) : TabInv Z h S' B' ds db D := by
  have e1 : S = S' := funext fun x => propext (hS x)
  have e2 : B = B' := funext fun x => propext (hB x)
  rw [← e1, ← e2]; exact hi

theorem TabInv.empty : TabInv Z (TabHeap.empty : TabHeap T) (fun _ => False) (fun _ => False)
    (fun _ => 0) (fun _ => 0) 0 := by
  have hp : ∀ l x, (TabHeap.empty : TabHeap T).ptr l ≠ some (some x) := by
    intro l x
    cases l <;> simp [TabHeap.empty, TabHeap.ptr]
  constructor <;> intros <;> simp_all [TabHeap.empty, TabHeap.cell]

theorem TabHeap.sliceAddr_free {A : TabAlloc T}
    (ht : ∀ n, h.top ≤ n → h.boxes n = none ∧ h.slices n = none) :
    h.slices (h.sliceAddr A) = none := by
  unfold TabHeap.sliceAddr
  split
  · exact Option.isNone_iff_eq_none.1 ‹_›
  · exact (ht _ (Nat.le_refl _)).2

theorem TabHeap.boxAddr_free {A : TabAlloc T}
    (ht : ∀ n, h.top ≤ n → h.boxes n = none ∧ h.slices n = none) :
    h.boxes (h.boxAddr A) = none := by
  unfold TabHeap.boxAddr
  split
  · exact Option.isNone_iff_eq_none.1 ‹_›
  · exact (ht _ (Nat.le_refl _)).1

theorem TabHeap.ptr_setSlice (x : Nat) (c : Option (Nat → Option Nat)) (l : Loc) :
    (h.setSlice x c).ptr l = h.ptr l := by cases l <;> rfl

theorem TabHeap.sizeAt_setSlice (x : Nat) (c : Option (Nat → Option Nat)) (l : Loc) :
    (h.setSlice x c).sizeAt Z l = h.sizeAt Z l := by cases l <;> rfl

theorem TabHeap.ptr_setPtr (l l' : Loc) (p : Option Nat) :
    (h.setPtr l p).ptr l' = if l' = l then (h.ptr l).map fun _ => p else h.ptr l' := by
  cases l <;> cases l' <;> simp only [setPtr, ptr, Loc.root.injEq, Loc.child.injEq, reduceCtorEq,
    if_false]
  · split <;> simp_all
  · split
    · rename_i e; subst e; simp [Option.map_map]; rfl
    · rfl

theorem TabHeap.sizeAt_setPtr (l l' : Loc) (p : Option Nat) :
    (h.setPtr l p).sizeAt Z l' = h.sizeAt Z l' := by
  cases l <;> cases l' <;> simp only [setPtr, sizeAt]
  split
  · rename_i e; subst e; simp [Option.map_map]; rfl
  · rfl

theorem TabHeap.cell_setPtr (l : Loc) (p : Option Nat) (x i : Nat) :
    (h.setPtr l p).cell x i = h.cell x i := by
  cases l <;> rfl

theorem TabHeap.cell_setBox (b : Nat) (v : Option (T × Option Nat)) (x i : Nat) :
    (h.setBox b v).cell x i = h.cell x i := rfl

theorem TabHeap.cell_setSlice (x : Nat) (c : Option (Nat → Option Nat)) (y i : Nat) :
    (h.setSlice x c).cell y i = if y = x then c.bind fun c => c i else h.cell y i := by
  simp only [cell, setSlice]
  split <;> rfl

theorem TabHeap.cell_of_none {x : Nat} (hx : h.slices x = none) (i : Nat) : h.cell x i = none := by
  simp [cell, hx]

theorem TabHeap.cell_of_some {x : Nat} {c : Nat → Option Nat} (hx : h.slices x = some c)
    (i : Nat) : h.cell x i = c i := by
  simp [cell, hx]

theorem TabHeap.slices_setPtr (l : Loc) (p : Option Nat) : (h.setPtr l p).slices = h.slices := by
  cases l <;> rfl

theorem TabHeap.top_setPtr (l : Loc) (p : Option Nat) : (h.setPtr l p).top = h.top := by
  cases l <;> rfl

theorem TabHeap.atoms_setPtr (l : Loc) (p : Option Nat) : (h.setPtr l p).atoms = h.atoms := by
  cases l <;> rfl

theorem TabHeap.boxes_setPtr (l : Loc) (p : Option Nat) (b : Nat) :
    ((h.setPtr l p).boxes b).map Prod.fst = (h.boxes b).map Prod.fst := by
  cases l with
  | root r => rfl
  | child a =>
    simp only [setPtr]
    split
    · rename_i e; subst e; simp [Option.map_map]; rfl
    · rfl

theorem TabHeap.boxes_setPtr_none (l : Loc) (p : Option Nat) (b : Nat) :
    (h.setPtr l p).boxes b = none ↔ h.boxes b = none := by
  have := boxes_setPtr (h := h) l p b
  rw [← Option.map_eq_none_iff (f := Prod.fst), this, Option.map_eq_none_iff]

theorem TabHeap.ptr_setBox (b : Nat) (v : Option (T × Option Nat)) (l : Loc) :
    (h.setBox b v).ptr l = if l = .child b then v.map Prod.snd else h.ptr l := by
  cases l with
  | root r => rfl
  | child a =>
    simp only [setBox, ptr, Loc.child.injEq]
    split <;> rfl

theorem TabHeap.sizeAt_setBox (b : Nat) (v : Option (T × Option Nat)) (l : Loc) :
    (h.setBox b v).sizeAt Z l =
      if l = .child b then v.map (fun e => Z.next e.1) else h.sizeAt Z l := by
  cases l with
  | root r => rfl
  | child a =>
    simp only [setBox, sizeAt, Loc.child.injEq]
    split <;> rfl

/-- The next bucket of an entry that is not allocated. -/
theorem TabHeap.ptr_child_none {b : Nat} : h.ptr (.child b) = none ↔ h.boxes b = none :=
  Option.map_eq_none_iff

/-- A slice is made. -/
theorem TabInv.allocSlice (hi : TabInv Z h S B ds db D) {n : Nat} (hn : h.slices n = none) :
    TabInv Z { h.setSlice n (some fun _ => none) with top := max h.top (n + 1) }
      (fun y => S y ∨ y = n) B ds db D := by
  have hp : ∀ l, ({ h.setSlice n (some fun _ => none) with top := max h.top (n + 1) } :
      TabHeap T).ptr l = h.ptr l := fun l => by cases l <;> rfl
  have hz : ∀ l, ({ h.setSlice n (some fun _ => none) with top := max h.top (n + 1) } :
      TabHeap T).sizeAt Z l = h.sizeAt Z l := fun l => by cases l <;> rfl
  have hc : ∀ x i, ({ h.setSlice n (some fun _ => none) with top := max h.top (n + 1) } :
      TabHeap T).cell x i = h.cell x i := by
    intro x i
    refine (cell_setSlice n _ x i).trans ?_
    split
    · rename_i e; rw [e, cell_of_none hn]; rfl
    · rfl
  constructor
  case top =>
    intro m hm
    have := hi.top m (by simp only at hm; omega)
    simp only [TabHeap.setSlice] at hm ⊢
    rw [if_neg (by omega)]; exact this
  all_goals
    try simp only [hp, hz, hc]
    try simp only [TabHeap.setSlice]
    grind [TabInv]

/-- A slice is put where there was none. -/
theorem TabInv.publishSlice (hi : TabInv Z h S B ds db D) {l : Loc} {s : Nat}
    (hl : h.ptr l = some none) (hs : S s) (hc : h.slices s = some fun _ => none) :
    TabInv Z (h.setPtr l (some s)) (fun y => S y ∧ y ≠ s) B
      (Function.update ds s (l.depth db)) db (max D (l.depth db)) := by
  have hce : ∀ i, h.cell s i = none := fun i => by rw [cell_of_some hc]
  constructor
  all_goals
    try simp only [TabHeap.ptr_setPtr, TabHeap.sizeAt_setPtr, TabHeap.slices_setPtr, TabHeap.cell_setPtr,
      TabHeap.top_setPtr, TabHeap.boxes_setPtr_none, hl, Option.map_some, ne_eq,
      Function.update_apply]
    grind [TabInv]

/-- A slice that is held is freed. -/
theorem TabInv.freeSlice (hi : TabInv Z h S B ds db D) {s : Nat} {c : Nat → Option Nat} (hs : S s)
    (hc : h.slices s = some c) (he : ∀ i, c i = none) :
    TabInv Z (h.setSlice s none) (fun y => S y ∧ y ≠ s) B ds db D := by
  have hcell : ∀ x i, (h.setSlice s none).cell x i = h.cell x i := by
    intro x i
    rw [cell_setSlice]
    split
    · rename_i e; rw [e, cell_of_some hc, he]; rfl
    · rfl
  constructor
  all_goals
    try simp only [TabHeap.ptr_setSlice, TabHeap.sizeAt_setSlice, hcell]
    try simp only [TabHeap.setSlice]
    grind [TabInv]

/-- A slice is taken away from its place. -/
theorem TabInv.unlinkSlice (hi : TabInv Z h S B ds db D) {l : Loc} {x : Nat}
    (hl : h.ptr l = some (some x)) :
    TabInv Z (h.setPtr l none) (fun y => S y ∨ y = x) B ds db D := by
  constructor
  all_goals
    try simp only [TabHeap.ptr_setPtr, TabHeap.sizeAt_setPtr, TabHeap.slices_setPtr, TabHeap.cell_setPtr,
      TabHeap.top_setPtr, TabHeap.boxes_setPtr_none, hl, Option.map_some, ne_eq]
    grind [TabInv]

/-- An entry is made. -/
theorem TabInv.allocBox (hi : TabInv Z h S B ds db D) {n : Nat} (v : T) (k : Nat)
    (hn : h.boxes n = none) :
    TabInv Z { h.setBox n (some (v, none)) with top := max h.top (n + 1), atoms := k } S
      (fun y => B y ∨ y = n) ds db D := by
  have hp : ∀ l, ({ h.setBox n (some (v, none)) with top := max h.top (n + 1), atoms := k } :
      TabHeap T).ptr l = if l = .child n then some none else h.ptr l :=
    fun l => (show _ = (h.setBox n (some (v, none))).ptr l by cases l <;> rfl).trans (ptr_setBox _ _ _)
  have hz : ∀ l, ({ h.setBox n (some (v, none)) with top := max h.top (n + 1), atoms := k } :
      TabHeap T).sizeAt Z l = if l = .child n then some (Z.next v) else h.sizeAt Z l :=
    fun l => (show _ = (h.setBox n (some (v, none))).sizeAt Z l by cases l <;> rfl).trans
      (sizeAt_setBox _ _ _)
  have hn' := ptr_child_none.2 hn
  have hc : ∀ x i, ({ h.setBox n (some (v, none)) with top := max h.top (n + 1), atoms := k } :
      TabHeap T).cell x i = h.cell x i := fun _ _ => rfl
  constructor
  case top =>
    intro m hm
    have := hi.top m (by simp only at hm; omega)
    simp only [TabHeap.setBox] at hm ⊢
    rw [if_neg (by omega)]; exact this
  all_goals
    try simp only [hp, hz, hc]
    try simp only [TabHeap.setBox]
    grind [TabInv]

/-- An entry is put in a slice. -/
theorem TabInv.publishBox (hi : TabInv Z h S B ds db D) {x i b : Nat} {c : Nat → Option Nat}
    (hx : h.slices x = some c) (hc : c i = none) (hb : B b) (hp : h.ptr (.child b) = some none)
    (hr : ∀ l n, h.ptr l = some (some x) → h.sizeAt Z l = some n → i < n) :
    TabInv Z (h.setSlice x (some (setCell c i (some b)))) S (fun y => B y ∧ y ≠ b) ds
      (Function.update db b (ds x)) D := by
  have hd : ∀ l, h.ptr l ≠ some none → l.depth (Function.update db b (ds x)) = l.depth db := by
    intro l hl
    cases l with
    | root r => rfl
    | child a =>
      have : a ≠ b := by rintro rfl; exact hl hp
      simp [Loc.depth, this]
  have hce : h.cell x i = none := by rw [cell_of_some hx, hc]
  have hcell : ∀ y j, (h.setSlice x (some (setCell c i (some b)))).cell y j =
      if y = x ∧ j = i then some b else h.cell y j := by
    intro y j
    rw [cell_setSlice]
    by_cases hy : y = x
    · subst hy
      by_cases hj : j = i
      · simp [setCell, hj]
      · simp [setCell, hj, cell_of_some hx]
    · simp [hy]
  constructor
  case rankS =>
    intro l y hl
    rw [ptr_setSlice] at hl
    rw [hd l (by rw [hl]; simp)]
    exact hi.rankS l y hl
  all_goals
    try simp only [TabHeap.ptr_setSlice, TabHeap.sizeAt_setSlice, Function.update_apply, hcell]
    try simp only [TabHeap.setSlice]
    grind [TabInv]

/-- An entry that is held is freed. -/
theorem TabInv.freeBox (hi : TabInv Z h S B ds db D) {b : Nat} (hb : B b)
    (hp : h.ptr (.child b) = some none) :
    TabInv Z (h.setBox b none) S (fun y => B y ∧ y ≠ b) ds db D := by
  constructor
  all_goals
    try simp only [TabHeap.ptr_setBox, TabHeap.sizeAt_setBox, TabHeap.cell_setBox]
    try simp only [TabHeap.setBox]
    grind [TabInv]

/-- An entry is taken out of a slice. -/
theorem TabInv.unlinkBox (hi : TabInv Z h S B ds db D) {x i b : Nat} {c : Nat → Option Nat}
    (hx : h.slices x = some c) (hc : c i = some b) :
    TabInv Z (h.setSlice x (some (setCell c i none))) S (fun y => B y ∨ y = b) ds db D := by
  have hce : h.cell x i = some b := by rw [cell_of_some hx, hc]
  have hcell : ∀ y j, (h.setSlice x (some (setCell c i none))).cell y j =
      if y = x ∧ j = i then none else h.cell y j := by
    intro y j
    rw [cell_setSlice]
    by_cases hy : y = x
    · subst hy
      by_cases hj : j = i
      · simp [setCell, hj]
      · simp [setCell, hj, cell_of_some hx]
    · simp [hy]
  constructor
  all_goals
    try simp only [TabHeap.ptr_setSlice, TabHeap.sizeAt_setSlice, hcell]
    try simp only [TabHeap.setSlice]
    grind [TabInv]

/-- Writing a null pointer over a null pointer. -/
theorem TabInv.unlinkNone (hi : TabInv Z h S B ds db D) {l : Loc} (hl : h.ptr l = some none) :
    h.setPtr l none = h := by
  cases l with
  | root r =>
    simp only [ptr, Option.some.injEq] at hl
    simp only [setPtr]
    congr 1
    funext y
    split
    · rename_i e; rw [e, hl]
    · rfl
  | child b =>
    simp only [setPtr]
    congr 1
    funext y
    split
    · rename_i e
      subst e
      simp only [ptr] at hl
      cases hb : h.boxes y with
      | none => rfl
      | some e => rw [hb] at hl; simp at hl; simp [← hl]
    · rfl

/-- If all roots are empty and nothing is held, nothing is allocated. -/
theorem TabInv.clean (hi : TabInv Z h (fun _ => False) (fun _ => False) ds db D)
    (hr : ∀ r, h.roots r = none) : h.Clean := by
  have key : ∀ d, (∀ x, h.slices x ≠ none → ds x = d → False) := by
    intro d
    induction d with
    | zero =>
      intro x hx hd
      rcases hi.liveS x hx with h1 | ⟨l, h1⟩
      · exact h1
      · cases l with
        | root r => simp [ptr, hr] at h1
        | child b => have := (hi.rankS _ _ h1).1; simp [Loc.depth] at this; omega
    | succ d ih =>
      intro x hx hd
      rcases hi.liveS x hx with h1 | ⟨l, h1⟩
      · exact h1
      · cases l with
        | root r => simp [ptr, hr] at h1
        | child b =>
          have hk := (hi.rankS _ _ h1).1
          have hb : h.boxes b ≠ none := by
            intro e
            rw [ptr_child_none.2 e] at h1
            cases h1
          rcases hi.liveB b hb with h2 | ⟨y, i, h2⟩
          · exact h2
          · have := hi.rankB _ _ _ h2
            simp only [Loc.depth] at hk
            exact ih y (fun e => by rw [cell_of_none e] at h2; cases h2) (by omega)
  have hS : ∀ x, h.slices x = none := fun x => by
    by_contra hx
    exact key _ x hx rfl
  refine ⟨hS, fun b => ?_⟩
  by_contra hb
  rcases hi.liveB b hb with h2 | ⟨y, i, h2⟩
  · exact h2
  · rw [cell_of_none (hS y)] at h2; cases h2

end Rotonda
