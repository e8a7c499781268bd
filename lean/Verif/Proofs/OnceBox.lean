import Verif.Spec.OnceBox
import Verif.Proofs.ConcSound
import Mathlib.Data.Nat.Basic

/-!
# Racing initialisations of a slice

The control points of the calls are named (`Pc`); an invariant over the heap and the
control points of all calls is kept by every step.
-/

namespace Rotonda

open Prog BoxHeap

variable {T ι : Type} [DecidableEq ι] {A : Alloc T} {size : Nat} {calls : ι → BoxCall T}

/-- Where a call is.  `x` is the slice it found, `b` its own allocation. -/
inductive Pc (T : Type)
  | get (idx : Nat)
  | getLoad (idx x : Nat)
  | init (idx : Nat) (v : T)
  | mkSlice (idx : Nat) (v : T)
  | casSlice (idx : Nat) (v : T) (s : Nat)
  | dropSlice (idx : Nat) (v : T) (s x : Nat)
  | load (idx : Nat) (v : T) (x : Nat)
  | mkBox (idx : Nat) (v : T) (x : Nat)
  | casBox (idx : Nat) (v : T) (x b : Nat)
  | dropBox (idx : Nat) (v : T) (b c : Nat)
  | done (a : BoxAns)
  | failed

namespace Pc

/-- A call after the slice was found. -/
def after (idx : Nat) (v : T) (x : Nat) (A : Alloc T) (size : Nat) : Prog (BoxHeap T) BoxAns :=
  (if idx < size then boxGetOrInit A x idx v else Prog.panic) >>= fun r => Prog.ret (some r.1, r.2)

/-- The rest of the program at a control point. -/
def prog (A : Alloc T) (size : Nat) : Pc T → Prog (BoxHeap T) BoxAns
  | get idx => (BoxCall.get idx).prog A size
  | getLoad idx x => cellLoad x idx >>= fun b => Prog.ret (b, false)
  | init idx v => (BoxCall.init idx v).prog A size
  | mkSlice idx v => newSlice A >>= fun s => ptrCas s >>= fun
    | .ok current => if current.isNone then after idx v s A size else Prog.panic
    | .error none => Prog.panic
    | .error (some y) => freeSlice s >>= fun _ => after idx v y A size
  | casSlice idx v s => ptrCas s >>= fun
    | .ok current => if current.isNone then after idx v s A size else Prog.panic
    | .error none => Prog.panic
    | .error (some y) => freeSlice s >>= fun _ => after idx v y A size
  | dropSlice idx v s y => freeSlice s >>= fun _ => after idx v y A size
  | load idx v x => after idx v x A size
  | mkBox idx v x => newBox A v >>= fun b => cellCas x idx b >>= fun
    | .ok current => if current.isNone then Prog.ret (some b, true) else Prog.panic
    | .error none => Prog.panic
    | .error (some c) => freeBox b >>= fun _ => Prog.ret (some c, false)
  | casBox idx _ x b => cellCas x idx b >>= fun
    | .ok current => if current.isNone then Prog.ret (some b, true) else Prog.panic
    | .error none => Prog.panic
    | .error (some c) => freeBox b >>= fun _ => Prog.ret (some c, false)
  | dropBox _ _ b c => freeBox b >>= fun _ => Prog.ret (some c, false)
  | done a => Prog.ret a
  | failed => Prog.panic

/-- One step from a control point: the new heap and the new control point. -/
def next (A : Alloc T) (size : Nat) (h : BoxHeap T) : Pc T → BoxHeap T × Pc T
  | get idx => (h, match h.ptr with
    | none => done (none, false)
    | some x => if idx < size then getLoad idx x else done (none, false))
  | getLoad idx x => (h, match h.slices x with
    | none => failed
    | some cells => done (cells idx, false))
  | init idx v => (h, match h.ptr with
    | none => mkSlice idx v
    | some x => if idx < size then load idx v x else failed)
  | mkSlice idx v =>
    ({ h.setSlice (h.sliceAddr A) (some fun _ => none) with top := max h.top (h.sliceAddr A + 1) },
      casSlice idx v (h.sliceAddr A))
  | casSlice idx v s => match h.ptr with
    | none => ({ h with ptr := some s }, if idx < size then load idx v s else failed)
    | some y => (h, dropSlice idx v s y)
  | dropSlice idx v s y => match h.slices s with
    | none => (h, failed)
    | some _ => (h.setSlice s none, if idx < size then load idx v y else failed)
  | load idx v x => (h, if idx < size then
    match h.slices x with
    | none => failed
    | some cells => match cells idx with
      | some b => done (some b, false)
      | none => mkBox idx v x
    else failed)
  | mkBox idx v x =>
    ({ h.setBox (h.boxAddr A) (some v) with top := max h.top (h.boxAddr A + 1) },
      casBox idx v x (h.boxAddr A))
  | casBox idx v x b => match h.slices x with
    | none => (h, failed)
    | some cells => match cells idx with
      | none => (h.setSlice x (some (setCell cells idx b)), done (some b, true))
      | some c => (h, dropBox idx v b c)
  | dropBox _ _ b c => match h.boxes b with
    | none => (h, failed)
    | some _ => (h.setBox b none, done (some c, false))
  | done a => (h, done a)
  | failed => (h, failed)

end Pc

/-- What a step of a program does to the shared state and to itself. -/
def Prog.step1 {σ α : Type} (p : Prog σ α) (s : σ) : σ × Prog σ α :=
  match p with
  | .act f k => ((f s).2, k (f s).1)
  | p => (s, p)

theorem getOrMakeSlice_bind {β : Type} (k : Nat → Prog (BoxHeap T) β) :
    getOrMakeSlice A >>= k = (Prog.read fun h : BoxHeap T => h.ptr) >>= fun
      | some x => k x
      | none => newSlice A >>= fun s => ptrCas s >>= fun
        | .ok current => if current.isNone then k s else Prog.panic
        | .error none => Prog.panic
        | .error (some y) => freeSlice s >>= fun _ => k y := by
  rw [getOrMakeSlice, bind_assoc']
  congr 1
  funext r
  cases r with
  | some x => rfl
  | none =>
    simp only [bind_assoc']
    congr 1
    funext s
    congr 1
    funext r
    cases r with
    | ok c => cases c <;> rfl
    | error c => cases c <;> simp only [bind_assoc'] <;> rfl

theorem boxGetOrInit_bind {β : Type} (x idx : Nat) (v : T) (k : Nat × Bool → Prog (BoxHeap T) β) :
    boxGetOrInit A x idx v >>= k = cellLoad x idx >>= fun
      | some b => k (b, false)
      | none => newBox A v >>= fun b => cellCas x idx b >>= fun
        | .ok current => if current.isNone then k (b, true) else Prog.panic
        | .error none => Prog.panic
        | .error (some c) => freeBox b >>= fun _ => k (c, false) := by
  rw [boxGetOrInit, bind_assoc']
  congr 1
  funext r
  cases r with
  | some x => rfl
  | none =>
    simp only [bind_assoc']
    congr 1
    funext s
    congr 1
    funext r
    cases r with
    | ok c => cases c <;> rfl
    | error c => cases c <;> simp only [bind_assoc'] <;> rfl

theorem init_prog (idx : Nat) (v : T) : (BoxCall.init idx v).prog A size =
    getOrMakeSlice A >>= fun x => Pc.after idx v x A size := by
  rw [BoxCall.prog, obsGetOrInit, bind_assoc']
  rfl

theorem step1_act {σ α ρ : Type} (f : σ → ρ × σ) (k : ρ → Prog σ α) (s : σ) :
    (Prog.act f k).step1 s = ((f s).2, k (f s).1) := rfl

theorem Pc.step1_prog (h : BoxHeap T) (pc : Pc T) :
    (pc.prog A size).step1 h = ((pc.next A size h).1, (pc.next A size h).2.prog A size) := by
  cases pc with
  | get idx =>
    simp only [prog, next, BoxCall.prog, obsGet, Prog.read, Prog.step1, act_bind, ret_bind]
    cases hp : h.ptr with
    | none => rfl
    | some x => simp only; split <;> rfl
  | getLoad idx x =>
    simp only [prog, next, cellLoad, Prog.read, Prog.step1, act_bind, ret_bind]
    cases hp : h.slices x <;> rfl
  | init idx v =>
    simp only [next]
    rw [prog, init_prog, getOrMakeSlice_bind]
    simp only [Prog.read, act_bind, ret_bind, step1_act]
    cases hp : h.ptr with
    | none => rfl
    | some x =>
      simp only
      split
      · rfl
      · rename_i hs; simp only [after, if_neg hs, prog]; rfl
  | mkSlice idx v => rfl
  | casSlice idx v s =>
    by_cases hs : idx < size <;>
    · simp only [prog, next, ptrCas, Prog.atomic, act_bind, ret_bind, step1_act, after, hs, if_true, if_false]
      cases hp : h.ptr <;> simp [hs, freeSlice, Prog.atomic] <;> rfl
  | dropSlice idx v s y =>
    by_cases hs : idx < size <;>
    · simp only [prog, next, freeSlice, Prog.atomic, act_bind, ret_bind, step1_act, after, hs, if_true, if_false]
      cases hp : h.slices s <;> simp [hs, Prog.ofOption] <;> rfl
  | load idx v x =>
    simp only [prog, next, after]
    split
    · rw [boxGetOrInit_bind]
      simp only [cellLoad, Prog.read, act_bind, ret_bind, step1_act]
      cases hp : h.slices x with
      | none => rfl
      | some cells =>
        simp only [Option.map_some, Prog.ofOption, ret_bind]
        cases hc : cells idx <;> rfl
    · rfl
  | mkBox idx v x => rfl
  | casBox idx v x b =>
    simp only [prog, next, cellCas, Prog.atomic, act_bind, ret_bind, step1_act]
    cases hp : h.slices x with
    | none => rfl
    | some cells =>
      simp only
      cases hc : cells idx <;> rfl
  | dropBox idx v b c =>
    simp only [prog, next, freeBox, Prog.atomic, act_bind, ret_bind, step1_act]
    cases hp : h.boxes b <;> rfl
  | done a => rfl
  | failed => rfl

/-! ## The invariant -/

namespace Pc

/-- The slice allocated by the call and not given away. -/
def ownSlice : Pc T → Option Nat
  | casSlice _ _ s | dropSlice _ _ s _ => some s
  | _ => none

/-- The box allocated by the call and not given away. -/
def ownBox : Pc T → Option Nat
  | casBox _ _ _ b | dropBox _ _ b _ => some b
  | _ => none

/-- The common slice as the call knows it. -/
def slice : Pc T → Option Nat
  | getLoad _ x | dropSlice _ _ _ x | load _ _ x | mkBox _ _ x | casBox _ _ x _ => some x
  | _ => none

/-- The pointer the call found. -/
def found : Pc T → Option Nat
  | dropBox _ _ _ c => some c
  | done a => a.1
  | _ => none

/-- The control points of a call. -/
def Of : BoxCall T → Pc T → Prop
  | .get j, get idx | .get j, getLoad idx _ => idx = j
  | .get _, done a => a.2 = false
  | .init j w, init idx v | .init j w, mkSlice idx v | .init j w, casSlice idx v _ |
    .init j w, dropSlice idx v _ _ | .init j w, load idx v _ | .init j w, mkBox idx v _ |
    .init j w, casBox idx v _ _ | .init j w, dropBox idx v _ _ => idx = j ∧ v = w
  | .init _ _, done a => a.1.isSome
  | _, _ => False

end Pc

/-- The index a call is about. -/
def BoxCall.idx : BoxCall T → Nat
  | get idx => idx
  | init idx _ => idx

/-- The pointer in the box `idx` of the slice in use. -/
def BoxHeap.cell (h : BoxHeap T) (idx : Nat) : Option Nat :=
  match h.ptr with
  | none => none
  | some x => match h.slices x with
    | none => none
    | some cells => cells idx

omit [DecidableEq ι] in
/-- The invariant of the heap and the control points of all calls. -/
structure BoxInv (size : Nat) (calls : ι → BoxCall T) (h : BoxHeap T) (pcs : ι → Pc T) : Prop where
  of : ∀ i, (pcs i).Of (calls i)
  ptrLive : ∀ x, h.ptr = some x → ∃ cells, h.slices x = some cells
  slice : ∀ i x, (pcs i).slice = some x → h.ptr = some x
  ownSlice : ∀ i s, (pcs i).ownSlice = some s → h.slices s = some (fun _ => none) ∧ h.ptr ≠ some s
  ownSliceInj : ∀ i j s, (pcs i).ownSlice = some s → (pcs j).ownSlice = some s → i = j
  liveSlice : ∀ s cells, h.slices s = some cells → h.ptr = some s ∨ ∃ i, (pcs i).ownSlice = some s
  winner : ∀ idx b, h.cell idx = some b →
    ∃ i v, calls i = .init idx v ∧ pcs i = .done (some b, true) ∧ h.boxes b = some v
  unique : ∀ i j idx v w b c, calls i = .init idx v → calls j = .init idx w →
    pcs i = .done (b, true) → pcs j = .done (c, true) → i = j
  found : ∀ i b, (pcs i).found = some b → h.cell (calls i).idx = some b
  ownBox : ∀ i b, (pcs i).ownBox = some b → ∃ v idx, calls i = .init idx v ∧ h.boxes b = some v ∧
    ∀ idx, h.cell idx ≠ some b
  ownBoxInj : ∀ i j b, (pcs i).ownBox = some b → (pcs j).ownBox = some b → i = j
  cellInj : ∀ idx idx' b, h.cell idx = some b → h.cell idx' = some b → idx = idx'
  liveBox : ∀ b v, h.boxes b = some v → (∃ idx, h.cell idx = some b) ∨ ∃ i, (pcs i).ownBox = some b
  range : ∀ idx b, h.cell idx = some b → idx < size
  top : ∀ n, h.top ≤ n → h.boxes n = none ∧ h.slices n = none

/-- The first control point of a call. -/
def BoxCall.pc : BoxCall T → Pc T
  | get idx => .get idx
  | init idx v => .init idx v

omit [DecidableEq ι] in
theorem BoxInv.start : BoxInv size calls BoxHeap.empty (fun i => (calls i).pc) := by
  have key : ∀ i, (calls i).pc.Of (calls i) ∧ (calls i).pc.ownSlice = none ∧ (calls i).pc.ownBox = none ∧
      (calls i).pc.found = none ∧ (calls i).pc.slice = none ∧ ∀ a, (calls i).pc ≠ .done a := by
    intro i
    cases calls i <;> simp [BoxCall.pc, Pc.Of, Pc.ownSlice, Pc.ownBox, Pc.found, Pc.slice]
  constructor
  all_goals
    try simp only [BoxHeap.empty, BoxHeap.cell]
    grind

/-- A step that leaves the heap alone. -/
theorem BoxInv.move {h : BoxHeap T} {pcs : ι → Pc T} (hi : BoxInv size calls h pcs) (i : ι) {pc : Pc T}
    (hof : pc.Of (calls i)) (hs : ∀ x, pc.slice = some x → h.ptr = some x)
    (h1 : pc.ownSlice = (pcs i).ownSlice) (h2 : pc.ownBox = (pcs i).ownBox)
    (hf : ∀ b, pc.found = some b → h.cell (calls i).idx = some b)
    (h3 : ∀ b, pc ≠ .done (b, true)) (h4 : ∀ a, pcs i ≠ .done a) :
    BoxInv size calls h (Function.update pcs i pc) := by
  constructor
  all_goals
    try simp only [Function.update_apply]
    grind [BoxInv]

theorem Pc.Of.get {c : BoxCall T} {idx : Nat} (h : (Pc.get idx).Of c) : c = .get idx := by
  cases c <;> simp_all [Pc.Of]

theorem Pc.Of.getLoad {c : BoxCall T} {idx x : Nat} (h : (Pc.getLoad idx x).Of c) : c = .get idx := by
  cases c <;> simp_all [Pc.Of]

theorem Pc.Of.init {c : BoxCall T} {idx : Nat} {v : T} (h : (Pc.init idx v).Of c) : c = .init idx v := by
  cases c <;> simp_all [Pc.Of]

theorem Pc.Of.mkSlice {c : BoxCall T} {idx : Nat} {v : T} (h : (Pc.mkSlice idx v).Of c) :
    c = .init idx v := by
  cases c <;> simp_all [Pc.Of]

theorem Pc.Of.casSlice {c : BoxCall T} {idx s : Nat} {v : T} (h : (Pc.casSlice idx v s).Of c) :
    c = .init idx v := by
  cases c <;> simp_all [Pc.Of]

theorem Pc.Of.dropSlice {c : BoxCall T} {idx s x : Nat} {v : T} (h : (Pc.dropSlice idx v s x).Of c) :
    c = .init idx v := by
  cases c <;> simp_all [Pc.Of]

theorem Pc.Of.load {c : BoxCall T} {idx x : Nat} {v : T} (h : (Pc.load idx v x).Of c) :
    c = .init idx v := by
  cases c <;> simp_all [Pc.Of]

theorem Pc.Of.mkBox {c : BoxCall T} {idx x : Nat} {v : T} (h : (Pc.mkBox idx v x).Of c) :
    c = .init idx v := by
  cases c <;> simp_all [Pc.Of]

theorem Pc.Of.casBox {c : BoxCall T} {idx x b : Nat} {v : T} (h : (Pc.casBox idx v x b).Of c) :
    c = .init idx v := by
  cases c <;> simp_all [Pc.Of]

theorem Pc.Of.dropBox {c : BoxCall T} {idx b d : Nat} {v : T} (h : (Pc.dropBox idx v b d).Of c) :
    c = .init idx v := by
  cases c <;> simp_all [Pc.Of]

theorem BoxHeap.sliceAddr_free {h : BoxHeap T} (ht : ∀ n, h.top ≤ n → h.boxes n = none ∧ h.slices n = none) :
    h.slices (h.sliceAddr A) = none := by
  unfold BoxHeap.sliceAddr
  split
  · exact Option.isNone_iff_eq_none.1 ‹_›
  · exact (ht _ (Nat.le_refl _)).2

theorem BoxHeap.boxAddr_free {h : BoxHeap T} (ht : ∀ n, h.top ≤ n → h.boxes n = none ∧ h.slices n = none) :
    h.boxes (h.boxAddr A) = none := by
  unfold BoxHeap.boxAddr
  split
  · exact Option.isNone_iff_eq_none.1 ‹_›
  · exact (ht _ (Nat.le_refl _)).1

/-- The step that puts a value. -/
theorem BoxInv.install {h : BoxHeap T} {pcs : ι → Pc T} (hi : BoxInv size calls h pcs) {i : ι}
    {idx : Nat} {v : T} {x b : Nat} {cells : Nat → Option Nat} (hpc : pcs i = .casBox idx v x b)
    (hc : calls i = .init idx v) (hlt : idx < size) (hp : h.ptr = some x) (hs : h.slices x = some cells)
    (hno : cells idx = none) :
    BoxInv size calls (h.setSlice x (some (setCell cells idx b)))
      (Function.update pcs i (.done (some b, true))) := by
  have hold : h.cell idx = none := by simp only [BoxHeap.cell, hp, hs, hno]
  have hcell : ∀ j, (h.setSlice x (some (setCell cells idx b))).cell j =
      if j = idx then some b else h.cell j := by
    intro j
    simp only [BoxHeap.cell, BoxHeap.setSlice, hp, hs, if_true, setCell]
  obtain ⟨w, idx', hcw, hbox, hfree⟩ := hi.ownBox i b (by rw [hpc]; rfl)
  obtain ⟨rfl, rfl⟩ : idx = idx' ∧ v = w := by rw [hc] at hcw; injection hcw with h1 h2; exact ⟨h1, h2⟩
  have hwin : ∀ j w d, calls j = .init idx w → pcs j ≠ .done (some d, true) := fun j w d hj hd => by
    have := hi.found j d (by rw [hd]; rfl)
    rw [hj] at this
    simp [BoxCall.idx, hold] at this
  have hsome : ∀ j a w, calls j = .init idx w → pcs j = .done (a, true) → False := fun j a w hj ha => by
    have := hi.of j
    rw [ha, hj] at this
    cases a with
    | none => simp [Pc.Of] at this
    | some d => exact hwin j w d hj ha
  constructor
  case winner =>
    intro j d hd
    rw [hcell] at hd
    by_cases hj : j = idx
    · subst hj
      rw [if_pos rfl] at hd
      cases hd
      exact ⟨i, v, hc, by simp, hbox⟩
    · rw [if_neg hj] at hd
      obtain ⟨k, w, h1, h2, h3⟩ := hi.winner j d hd
      refine ⟨k, w, h1, ?_, h3⟩
      rw [Function.update_apply, if_neg]
      · exact h2
      · rintro rfl; rw [hpc] at h2; cases h2
  case unique => 
    intro j k idx' w w' a a' hj hk h1 h2
    simp only [Function.update_apply] at h1 h2
    split at h1 <;> split at h2 <;> rename_i e1 e2
    · rw [e1, e2]
    · rw [e1, hc] at hj
      injection hj with hj1
      exact (hsome k _ _ (hj1 ▸ hk) h2).elim
    · rw [e2, hc] at hk
      injection hk with hk1
      exact (hsome j _ _ (hk1 ▸ hj) h1).elim
    · exact hi.unique j k _ _ _ _ _ hj hk h1 h2
  case found =>
    intro j d hd
    rw [hcell]
    simp only [Function.update_apply] at hd
    split at hd
    · rename_i e; subst e
      rw [hc]
      simpa [Pc.found, BoxCall.idx] using hd
    · have := hi.found j d hd
      rw [if_neg]
      · exact this
      · intro e; rw [e, hold] at this; cases this
  case cellInj =>
    intro j k d
    rw [hcell, hcell]
    have := hfree k
    have := hfree j
    have := hi.cellInj j k d
    grind
  all_goals
    try simp only [Function.update_apply, hcell]
    try simp only [BoxHeap.setSlice]
    grind [BoxInv, Pc.Of, Pc.slice, Pc.ownSlice, Pc.ownBox, Pc.found, BoxCall.idx]

set_option maxHeartbeats 1000000 in
theorem BoxInv.step (hr : InRange size calls) {h : BoxHeap T} {pcs : ι → Pc T}
    (hi : BoxInv size calls h pcs) (i : ι) :
    BoxInv size calls ((pcs i).next A size h).1
      (Function.update pcs i ((pcs i).next A size h).2) := by
  have hof := hi.of i
  cases hpc : pcs i with
  | get idx =>
    rw [hpc] at hof
    have hc := hof.get
    cases hp : h.ptr with
    | none =>
      simp only [Pc.next, hp]
      refine hi.move i ?_ ?_ ?_ ?_ ?_ ?_ ?_ <;> simp [hpc, hc, Pc.Of, Pc.slice, Pc.ownSlice, Pc.ownBox, Pc.found]
    | some x =>
      simp only [Pc.next, hp]
      split <;>
        refine hi.move i ?_ ?_ ?_ ?_ ?_ ?_ ?_ <;>
          simp [hpc, hc, Pc.Of, Pc.slice, Pc.ownSlice, Pc.ownBox, Pc.found, hp]
  | getLoad idx x =>
    rw [hpc] at hof
    have hc := hof.getLoad
    have hp := hi.slice i x (by rw [hpc]; rfl)
    obtain ⟨cells, hs⟩ := hi.ptrLive x hp
    simp only [Pc.next, hs]
    refine hi.move i ?_ ?_ ?_ ?_ ?_ ?_ ?_ <;>
      simp [hpc, hc, Pc.Of, Pc.slice, Pc.ownSlice, Pc.ownBox, Pc.found, BoxHeap.cell, hp, hs, BoxCall.idx]
  | init idx v =>
    rw [hpc] at hof
    have hc := hof.init
    have hlt := hr i idx v hc
    cases hp : h.ptr <;> simp only [Pc.next, hp, hlt, if_true] <;>
      refine hi.move i ?_ ?_ ?_ ?_ ?_ ?_ ?_ <;>
        simp [hpc, hc, Pc.Of, Pc.slice, Pc.ownSlice, Pc.ownBox, Pc.found, hp]
  | mkSlice idx v =>
    rw [hpc] at hof
    have hc := hof.mkSlice
    have hfree := sliceAddr_free (A := A) hi.top
    simp only [Pc.next]
    generalize h.sliceAddr A = n at *
    have hcell : ∀ j, ({ h.setSlice n (some fun _ => none) with top := max h.top (n + 1) } : BoxHeap T).cell j =
        h.cell j := by
      intro j
      simp only [BoxHeap.cell, BoxHeap.setSlice]
      cases hp : h.ptr with
      | none => rfl
      | some x =>
        obtain ⟨cells, hx⟩ := hi.ptrLive x hp
        have : x ≠ n := by rintro rfl; rw [hfree] at hx; cases hx
        simp [this]
    constructor
    case top =>
      intro m hm
      have := hi.top m (by simp only at hm; omega)
      simp only [BoxHeap.setSlice] at hm ⊢
      rw [if_neg (by omega)]; exact this
    all_goals
      try simp only [Function.update_apply, hcell]
      try simp only [BoxHeap.setSlice]
      grind [BoxInv, Pc.Of, Pc.slice, Pc.ownSlice, Pc.ownBox, Pc.found]
  | casSlice idx v s =>
    rw [hpc] at hof
    have hc := hof.casSlice
    have hlt := hr i idx v hc
    cases hp : h.ptr with
    | some y =>
      simp only [Pc.next, hp]
      refine hi.move i ?_ ?_ ?_ ?_ ?_ ?_ ?_ <;>
        simp [hpc, hc, Pc.Of, Pc.slice, Pc.ownSlice, Pc.ownBox, Pc.found, hp]
    | none =>
      simp only [Pc.next, hp, hlt, if_true]
      have hown := hi.ownSlice i s (by rw [hpc]; rfl)
      have hcell : ∀ j, ({ h with ptr := some s } : BoxHeap T).cell j = h.cell j := by
        intro j
        simp only [BoxHeap.cell, hp, hown.1]
      constructor
      all_goals
        try simp only [Function.update_apply, hcell]
        grind [BoxInv, Pc.Of, Pc.slice, Pc.ownSlice, Pc.ownBox, Pc.found]
  | dropSlice idx v s x =>
    rw [hpc] at hof
    have hc := hof.dropSlice
    have hlt := hr i idx v hc
    have hp := hi.slice i x (by rw [hpc]; rfl)
    have hown := hi.ownSlice i s (by rw [hpc]; rfl)
    simp only [Pc.next, hown.1, hlt, if_true]
    have hcell : ∀ j, (h.setSlice s none).cell j = h.cell j := by
      intro j
      have : x ≠ s := by rintro rfl; exact hown.2 hp
      simp only [BoxHeap.cell, BoxHeap.setSlice, hp, if_neg this]
    constructor
    all_goals
      try simp only [Function.update_apply, hcell]
      try simp only [BoxHeap.setSlice]
      grind [BoxInv, Pc.Of, Pc.slice, Pc.ownSlice, Pc.ownBox, Pc.found]
  | load idx v x =>
    rw [hpc] at hof
    have hc := hof.load
    have hlt := hr i idx v hc
    have hp := hi.slice i x (by rw [hpc]; rfl)
    obtain ⟨cells, hs⟩ := hi.ptrLive x hp
    simp only [Pc.next, hs, hlt, if_true]
    cases hcell : cells idx <;>
      refine hi.move i ?_ ?_ ?_ ?_ ?_ ?_ ?_ <;>
        simp [hpc, hc, Pc.Of, Pc.slice, Pc.ownSlice, Pc.ownBox, Pc.found, BoxHeap.cell, hp, hs, BoxCall.idx, hcell]
  | mkBox idx v x =>
    rw [hpc] at hof
    have hc := hof.mkBox
    have hfree := boxAddr_free (A := A) hi.top
    simp only [Pc.next]
    generalize h.boxAddr A = n at *
    have hcell : ∀ j, ({ h.setBox n (some v) with top := max h.top (n + 1) } : BoxHeap T).cell j =
        h.cell j := fun j => rfl
    constructor
    case top =>
      intro m hm
      have := hi.top m (by simp only at hm; omega)
      simp only [BoxHeap.setBox] at hm ⊢
      rw [if_neg (by omega)]; exact this
    all_goals
      try simp only [Function.update_apply, hcell]
      try simp only [BoxHeap.setBox]
      grind [BoxInv, Pc.Of, Pc.slice, Pc.ownSlice, Pc.ownBox, Pc.found]
  | casBox idx v x b =>
    rw [hpc] at hof
    have hc := hof.casBox
    have hlt := hr i idx v hc
    have hp := hi.slice i x (by rw [hpc]; rfl)
    obtain ⟨cells, hs⟩ := hi.ptrLive x hp
    simp only [Pc.next, hs]
    cases hcell : cells idx with
    | some d =>
      refine hi.move i ?_ ?_ ?_ ?_ ?_ ?_ ?_ <;>
        simp [hpc, hc, Pc.Of, Pc.slice, Pc.ownSlice, Pc.ownBox, Pc.found, BoxHeap.cell, hp, hs, BoxCall.idx, hcell]
    | none =>
      exact hi.install hpc hc hlt hp hs hcell
  | dropBox idx v b c =>
    rw [hpc] at hof
    have hc := hof.dropBox
    obtain ⟨v', idx', hc', hb, hno⟩ := hi.ownBox i b (by rw [hpc]; rfl)
    have hfound := hi.found i c (by rw [hpc]; rfl)
    simp only [Pc.next, hb]
    have hcell : ∀ j, (h.setBox b none).cell j = h.cell j := fun j => rfl
    constructor
    all_goals
      try simp only [Function.update_apply, hcell]
      try simp only [BoxHeap.setBox]
      grind [BoxInv, Pc.Of, Pc.slice, Pc.ownSlice, Pc.ownBox, Pc.found]
  | done a => simp only [Pc.next]; rw [← hpc, Function.update_eq_self]; exact hi
  | failed => rw [hpc] at hof; cases hc : calls i <;> simp [hc, Pc.Of] at hof

end Rotonda
