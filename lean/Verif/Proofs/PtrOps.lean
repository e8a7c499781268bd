import Verif.Proofs.PtrPaths
import Verif.Spec.Pointers
import Verif.Proofs.TableHeapPc

/-!
# One operation on a table, pointer by pointer: control points and single steps
-/

namespace Rotonda

open Prog TabHeap

/-- A box of a bucket: the place of the slice pointer, the bucket and the index. -/
structure OKey where
  l : Loc
  b : Bucket
  idx : Nat

def OKey.slot (k : OKey) : Addr := k.b.slot k.idx

variable {E : Type} {W : Nat} [Entry E W] {ρ : Type}

/-- Where an operation is.  `x`, `n` and `d` are what it has found or allocated, `r` what the
entry found says. -/
inductive OPc (E : Type) (W : Nat) : Type → Type 1
  | get (k : OKey) : OPc E W (Option (Ref W))
  | getLoad (k : OKey) (x : Nat) : OPc E W (Option (Ref W))
  | getLook (k : OKey) (n : Nat) (r : Ref W) : OPc E W (Option (Ref W))
  | getDone (k : OKey) (o : Option (Nat × Ref W)) : OPc E W (Option (Ref W))
  | init (k : OKey) (e : E) : OPc E W (Ref W × Bool)
  | mkSlice (k : OKey) (e : E) : OPc E W (Ref W × Bool)
  | casSlice (k : OKey) (e : E) (s : Nat) : OPc E W (Ref W × Bool)
  | dropSlice (k : OKey) (e : E) (s x : Nat) : OPc E W (Ref W × Bool)
  | load (k : OKey) (e : E) (x : Nat) : OPc E W (Ref W × Bool)
  | mkBox (k : OKey) (e : E) (x : Nat) : OPc E W (Ref W × Bool)
  | casBox (k : OKey) (e : E) (x n : Nat) : OPc E W (Ref W × Bool)
  | dropBox (k : OKey) (n d : Nat) (r : Ref W) : OPc E W (Ref W × Bool)
  | initLook (k : OKey) (n : Nat) (us : Bool) (r : Ref W) : OPc E W (Ref W × Bool)
  | initDone (k : OKey) (n : Nat) (us : Bool) (r : Ref W) : OPc E W (Ref W × Bool)
  | access {ρ : Type} (a : Addr) (n : Nat) (f : E → ρ × E) : OPc E W ρ
  | accessDone {ρ : Type} (r : ρ) : OPc E W ρ
  | failed {ρ : Type} : OPc E W ρ

namespace OPc

/-! ## The rest of the program on the heap -/

/-- An entry was found by `get`. -/
def getLookP (k : OKey) (n : Nat) : Prog (TabHeap E) (Option (Ref W) × Option (Addr × Nat)) :=
  tabDeref n >>= fun e => Prog.ret (some (refOf k.slot e), some (k.slot, n))

/-- After the load of the box pointer by `get`. -/
def getFoundP (k : OKey) : Option Nat → Prog (TabHeap E) (Option (Ref W) × Option (Addr × Nat))
  | none => Prog.ret (none, none)
  | some n => getLookP k n

/-- An entry was found or put by `get_or_init`. -/
def lookP (k : OKey) (n : Nat) (us : Bool) :
    Prog (TabHeap E) ((Ref W × Bool) × Option (Addr × Nat)) :=
  tabDeref n >>= fun e => Prog.ret ((refOf k.slot e, us), some (k.slot, n))

/-- After the attempt to put an entry. -/
def casBoxP (k : OKey) (n : Nat) :
    Except Nat Unit → Prog (TabHeap E) ((Ref W × Bool) × Option (Addr × Nat))
  | .ok () => lookP k n true
  | .error d => tabFreeBox n >>= fun _ => lookP k d false

/-- After the load of the box pointer by `get_or_init`. -/
def loadP (A : TabAlloc E) (Z : TabShape E) (k : OKey) (e : E) (x : Nat) :
    Option Nat → Prog (TabHeap E) ((Ref W × Bool) × Option (Addr × Nat))
  | some n => lookP k n false
  | none => tabNewBox A Z e >>= fun n => tabCellCas x k.idx n >>= casBoxP k n

/-- A slice was found or made. -/
def foundP (A : TabAlloc E) (Z : TabShape E) (k : OKey) (e : E) (x : Nat) :
    Prog (TabHeap E) ((Ref W × Bool) × Option (Addr × Nat)) :=
  if k.idx < k.b.size then tabCellLoad x k.idx >>= loadP A Z k e x else Prog.panic

/-- After the attempt to put a slice. -/
def casSliceP (A : TabAlloc E) (Z : TabShape E) (k : OKey) (e : E) (s : Nat) :
    Except Nat Unit → Prog (TabHeap E) ((Ref W × Bool) × Option (Addr × Nat))
  | .ok () => foundP A Z k e s
  | .error y => tabFreeSlice s >>= fun _ => foundP A Z k e y

/-- The rest of the program at a control point. -/
def prog (A : TabAlloc E) (Z : TabShape E) : OPc E W ρ → Prog (TabHeap E) (ρ × Option (Addr × Nat))
  | get k => ptrGet k.l k.b k.idx
  | getLoad k x => tabCellLoad x k.idx >>= getFoundP k
  | getLook k n _ => getLookP k n
  | getDone k o => .ret (o.map Prod.snd, o.map fun o => (k.slot, o.1))
  | init k e => ptrInit A Z k.l k.b k.idx e
  | mkSlice k e => tabNewSlice A >>= fun s => locCas k.l s >>= casSliceP A Z k e s
  | casSlice k e s => locCas k.l s >>= casSliceP A Z k e s
  | dropSlice k e s x => tabFreeSlice s >>= fun _ => foundP A Z k e x
  | load k e x => tabCellLoad x k.idx >>= loadP A Z k e x
  | mkBox k e x => tabNewBox A Z e >>= fun n => tabCellCas x k.idx n >>= casBoxP k n
  | casBox k _ x n => tabCellCas x k.idx n >>= casBoxP k n
  | dropBox k n d _ => tabFreeBox n >>= fun _ => lookP k d false
  | initLook k n us _ => lookP k n us
  | initDone k n us r => .ret ((r, us), some (k.slot, n))
  | access _ n f => tabAccess n f >>= fun r => .ret (r, none)
  | accessDone r => .ret (r, none)
  | failed => .panic

/-- The rest of the program on the table as a map. -/
def slotProg : OPc E W ρ → Prog (Slots E) ρ
  | get k | getLoad k _ => sliceGet k.b k.idx
  | getLook _ _ r => .ret (some r)
  | getDone _ o => .ret (o.map Prod.snd)
  | init k e | mkSlice k e | casSlice k e _ | dropSlice k e _ _ | load k e _ =>
    sliceGetOrInit k.b k.idx e
  | mkBox k e _ | casBox k e _ _ => casInit k.slot e
  | dropBox _ _ _ r => .ret (r, false)
  | initLook _ _ us r | initDone _ _ us r => .ret (r, us)
  | access a _ f => accessAt a f
  | accessDone r => .ret r
  | failed => .panic

/-- The operation has ended. -/
def Over : OPc E W ρ → Prop
  | getDone .. | initDone .. | accessDone _ | failed => True
  | _ => False

/-- The slice allocated by the operation and not given away. -/
def ownSlice : OPc E W ρ → Option Nat
  | casSlice _ _ s | dropSlice _ _ s _ => some s
  | _ => none

/-- The entry allocated by the operation and not given away. -/
def ownBox : OPc E W ρ → Option Nat
  | casBox _ _ _ n | dropBox _ n _ _ => some n
  | _ => none

/-- The root at which the operation may put a slice. -/
def rootOf : OPc E W ρ → Option Nat
  | init k _ | mkSlice k _ | casSlice k _ _ => if k.b.path = [] then some k.b.root else none
  | _ => none

theorem ptrGet_eq (k : OKey) : (ptrGet k.l k.b k.idx :
    Prog (TabHeap E) (Option (Ref W) × Option (Addr × Nat))) = locLoad k.l >>= fun r => match r with
      | none => Prog.ret (none, none)
      | some x => if k.idx < k.b.size then tabCellLoad x k.idx >>= getFoundP k
        else Prog.ret (none, none) := by
  rw [ptrGet, tabGet, bind_assoc']
  congr 1
  funext r
  cases r with
  | none => rfl
  | some x =>
    simp only
    split
    · congr 1
      funext o
      cases o with
      | none => rfl
      | some n =>
        simp only [tabRef, bind_assoc']
        rfl
    · rfl

theorem ptrInit_eq (A : TabAlloc E) (Z : TabShape E) (k : OKey) (e : E) :
    (ptrInit A Z k.l k.b k.idx e : Prog (TabHeap E) ((Ref W × Bool) × Option (Addr × Nat))) =
      locLoad k.l >>= fun r => match r with
      | some x => foundP A Z k e x
      | none => tabNewSlice A >>= fun s => locCas k.l s >>= casSliceP A Z k e s := by
  have hl : ∀ n us, (tabRef (k.b.slot k.idx) n >>= fun r =>
      Prog.ret ((r, us), some (k.b.slot k.idx, n))) = lookP (E := E) (W := W) k n us := by
    intro n us
    rw [tabRef, bind_assoc']
    rfl
  have hf : ∀ x, (if k.idx < k.b.size then do
        let (n, us) ← tabBoxInit A Z x k.idx e
        let r ← tabRef (k.b.slot k.idx) n
        return ((r, us), some (k.b.slot k.idx, n))
      else Prog.panic) = foundP (W := W) A Z k e x := by
    intro x
    unfold foundP
    split
    · rw [tabBoxInit, bind_assoc']
      congr 1
      funext o
      cases o with
      | some n => exact hl n false
      | none =>
        simp only [bind_assoc']
        unfold loadP
        simp only
        congr 1
        funext n
        congr 1
        funext r
        cases r with
        | ok u => exact hl n true
        | error d =>
          simp only [bind_assoc', casBoxP]
          congr 1
          funext u
          exact hl d false
    · rfl
  rw [ptrInit, TPc.getOrMakeSlice_bind']
  congr 1
  funext r
  cases r with
  | some x => exact hf x
  | none =>
    simp only
    congr 1
    funext s
    congr 1
    funext r
    cases r with
    | ok u => exact hf s
    | error y =>
      simp only [casSliceP]
      congr 1
      funext u
      exact hf y

end OPc

/-! ## What an operation knows -/

section Known

variable {m : Nat} {h h' : TabHeap E}

/-- The pointer to the entry at an address, and what the entry says. -/
def PtrAt (h : TabHeap E) (a : Addr) (n : Nat) (r : Ref W) : Prop :=
  h.locAt a = some (.child n) ∧ ∃ e, h.valueAt n = some e ∧ refOf a e = r

/-- The place of the slice pointer of a bucket. -/
def KeyOk (m : Nat) (h : TabHeap E) (k : OKey) : Prop :=
  h.locAt ⟨k.b.root, k.b.path⟩ = some k.l ∧ h.sizeAt (entryShape E m) k.l = some k.b.size

theorem PtrAt.mono {a : Addr} {n : Nat} {r : Ref W} (he : PtrAt h a n r) (hk : PtrKeeps h h') :
    PtrAt h' a n r := by
  obtain ⟨h1, e, h2, h3⟩ := he
  obtain ⟨x, i, hc⟩ := locAt_cell h1
  obtain ⟨e', h4, h5, h6⟩ := hk.fixed x i n e hc h2
  refine ⟨hk.loc _ _ h1, e', h4, ?_⟩
  rw [← h3]
  simp only [refOf, h5, h6]

theorem KeyOk.mono {k : OKey} (hx : KeyOk m h k) (hk : PtrKeeps h h') : KeyOk m h' k := by
  refine ⟨hk.loc _ _ hx.1, ?_⟩
  have h1 := hx.2
  cases hl : k.l with
  | root r => rw [hl] at h1; exact h1
  | child n =>
    have h2 := hx.1
    rw [hl] at h1 h2
    obtain ⟨x, i, hc⟩ := locAt_cell h2
    simp only [sizeAt, Option.map_eq_some_iff] at h1
    obtain ⟨e, h3, h4⟩ := h1
    obtain ⟨e', h5, -, h6⟩ := hk.fixed x i n e.1 hc (by simp [valueAt, h3])
    simp only [valueAt, Option.map_eq_some_iff] at h5
    obtain ⟨e2, h7, h8⟩ := h5
    simp only [sizeAt, h7, Option.map_some]
    rw [← h4, h8]
    simp only [entryShape, h6]

end Known

namespace OPc

/-- What an operation knows at a control point. -/
def Good (m : Nat) (h : TabHeap E) : OPc E W ρ → Prop
  | get k | init k _ | mkSlice k _ => KeyOk m h k
  | getLoad k x | load k _ x | mkBox k _ x =>
    KeyOk m h k ∧ h.ptr k.l = some (some x) ∧ k.idx < k.b.size
  | getLook k n r | initLook k n _ r | initDone k n _ r => PtrAt h k.slot n r
  | getDone k o => ∀ n r, o = some (n, r) → PtrAt h k.slot n r
  | casSlice k _ s => KeyOk m h k ∧ h.slices s = some fun _ => none
  | dropSlice k _ s x => KeyOk m h k ∧ (h.slices s = some fun _ => none) ∧ h.ptr k.l = some (some x)
  | casBox k e x n =>
    (KeyOk m h k ∧ h.ptr k.l = some (some x) ∧ k.idx < k.b.size) ∧ h.boxes n = some (e, none)
  | dropBox k n d r => (∃ v, h.boxes n = some (v, none)) ∧ PtrAt h k.slot d r
  | access a n f => (∃ r : Ref W, PtrAt h a n r) ∧
    ∀ e, Entry.id (f e).2 = Entry.id e ∧ Entry.next (f e).2 = Entry.next e
  | accessDone _ | failed => True

theorem Good.mono {m : Nat} {h h' : TabHeap E} {pc : OPc E W ρ} (hp : pc.Good m h) (hk : PtrKeeps h h')
    (hS : ∀ s, pc.ownSlice = some s → h'.slices s = h.slices s)
    (hB : ∀ b, pc.ownBox = some b → h'.boxes b = h.boxes b) : pc.Good m h' := by
  cases pc with
  | get k => exact KeyOk.mono hp hk
  | init k e => exact KeyOk.mono hp hk
  | mkSlice k e => exact KeyOk.mono hp hk
  | getLoad k x => exact ⟨hp.1.mono hk, hk.ptr _ _ hp.2.1, hp.2.2⟩
  | load k e x => exact ⟨hp.1.mono hk, hk.ptr _ _ hp.2.1, hp.2.2⟩
  | mkBox k e x => exact ⟨hp.1.mono hk, hk.ptr _ _ hp.2.1, hp.2.2⟩
  | getLook k n r => exact PtrAt.mono hp hk
  | initLook k n us r => exact PtrAt.mono hp hk
  | initDone k n us r => exact PtrAt.mono hp hk
  | getDone k o => exact fun n r ho => (hp n r ho).mono hk
  | casSlice k e s => exact ⟨hp.1.mono hk, (hS s rfl).trans hp.2⟩
  | dropSlice k e s x => exact ⟨hp.1.mono hk, (hS s rfl).trans hp.2.1, hk.ptr _ _ hp.2.2⟩
  | casBox k e x n => exact ⟨⟨hp.1.1.mono hk, hk.ptr _ _ hp.1.2.1, hp.1.2.2⟩, (hB n rfl).trans hp.2⟩
  | dropBox k n d r =>
    obtain ⟨⟨v, hv⟩, h2⟩ := hp
    exact ⟨⟨v, (hB n rfl).trans hv⟩, h2.mono hk⟩
  | access a n f =>
    obtain ⟨⟨r, hr⟩, h2⟩ := hp
    exact ⟨⟨r, hr.mono hk⟩, h2⟩
  | accessDone r => trivial
  | failed => trivial

end OPc

/-- What is known after an operation. -/
def OPc.Post : OPc E W ρ → (Addr → Nat → Prop) → (Addr → Nat → Prop) → ρ → Prop
  | get k, K, K', o | getLoad k _, K, K', o | getLook k _ _, K, K', o | getDone k _, K, K', o =>
    GetPost k.slot K K' o
  | init k _, K, K', r | mkSlice k _, K, K', r | casSlice k _ _, K, K', r | dropSlice k _ _ _, K, K', r
  | load k _ _, K, K', r | mkBox k _ _, K, K', r | casBox k _ _ _, K, K', r | dropBox k _ _ _, K, K', r
  | initLook k _ _ _, K, K', r | initDone k _ _ _, K, K', r => InitPost k.slot K K' r
  | access _ _ _, K, K', _ | accessDone _, K, K', _ => K' = K
  | failed, _, _, _ => False

/-- The program is about to do an action. -/
def Prog.IsAct {σ α : Type} : Prog σ α → Prop
  | .act _ _ => True
  | _ => False

/-- What a step of an operation does.  `S` and `B` is what others hold. -/
structure OStep (A : TabAlloc E) (m : Nat) (h h' : TabHeap E) (pc pc' : OPc E W ρ) (S B : Nat → Prop) :
    Prop where
  act : (pc.prog A (entryShape E m)).IsAct
  step : (pc.prog A (entryShape E m)).step1 h = (h', pc'.prog A (entryShape E m))
  slot : (pc'.slotProg = pc.slotProg ∧ h'.toSlots = h.toSlots) ∨
    (pc.slotProg.IsAct ∧ pc.slotProg.step1 h.toSlots = (h'.toSlots, pc'.slotProg))
  inv : ∃ ds db D, TabInv (entryShape E m) h' (fun x => S x ∨ pc'.ownSlice = some x)
    (fun b => B b ∨ pc'.ownBox = some b) ds db D
  good : pc'.Good m h'
  keeps : PtrKeeps h h'
  heldS : ∀ x, S x → h'.slices x = h.slices x
  heldB : ∀ b, B b → h'.boxes b = h.boxes b
  ownS : ∀ x, pc'.ownSlice = some x → ¬ S x
  ownB : ∀ b, pc'.ownBox = some b → ¬ B b
  post : ∀ K K' r, pc'.Post K K' r → pc.Post K K' r
  roots : ∀ r, h'.roots r ≠ none → h.roots r ≠ none ∨ pc.rootOf = some r
  rootOf : ∀ r, pc'.rootOf = some r → pc.rootOf = some r

section Step

variable {A : TabAlloc E} {m : Nat} {h : TabHeap E} {S B : Nat → Prop} {ds db : Nat → Nat} {D : Nat}

/-- A step that leaves the heap alone. -/
theorem OStep.still {pc pc' : OPc E W ρ}
    (hi : TabInv (entryShape E m) h (fun x => S x ∨ pc.ownSlice = some x)
      (fun b => B b ∨ pc.ownBox = some b) ds db D)
    (hS : ∀ x, pc.ownSlice = some x → ¬ S x) (hB : ∀ b, pc.ownBox = some b → ¬ B b)
    (e1 : pc'.ownSlice = pc.ownSlice) (e2 : pc'.ownBox = pc.ownBox)
    (act : (pc.prog A (entryShape E m)).IsAct)
    (step : (pc.prog A (entryShape E m)).step1 h = (h, pc'.prog A (entryShape E m)))
    (slot : pc'.slotProg = pc.slotProg ∨
      (pc.slotProg.IsAct ∧ pc.slotProg.step1 h.toSlots = (h.toSlots, pc'.slotProg)))
    (good : pc'.Good m h) (post : ∀ K K' r, pc'.Post K K' r → pc.Post K K' r)
    (rootOf : ∀ r, pc'.rootOf = some r → pc.rootOf = some r) :
    OStep A m h h pc pc' S B :=
  ⟨act, step, slot.imp (fun e => ⟨e, rfl⟩) id,
    ⟨ds, db, D, hi.congr (fun x => by rw [e1]) (fun x => by rw [e2])⟩, good, .refl,
    fun _ _ => rfl, fun _ _ => rfl, fun x hx => hS x (e1 ▸ hx), fun x hx => hB x (e2 ▸ hx), post,
    fun _ => .inl, rootOf⟩

/-- The place is a root only for the bucket at the root. -/
theorem KeyOk.root {k : OKey} (hk : KeyOk m h k) {r : Nat} (hr : k.l = .root r) :
    k.b.path = [] ∧ k.b.root = r := by
  have h1 := hk.1
  rw [hr, locAt] at h1
  simp only at h1
  cases hq : k.b.path.reverse with
  | nil =>
    rw [hq] at h1
    simp only [down, Option.some.injEq, Loc.root.injEq] at h1
    exact ⟨by simpa using hq, h1⟩
  | cons i q =>
    rw [hq] at h1
    simp only [down, Option.bind_eq_some_iff] at h1
    obtain ⟨l, -, h2⟩ := h1
    obtain ⟨x, n, -, -, h3⟩ := below_some.1 h2
    cases h3

theorem KeyOk.slot {k : OKey} (hk : KeyOk m h k) : h.locAt k.slot = h.below k.l k.idx := by
  rw [OKey.slot, locAt_slot, hk.1]; rfl

theorem KeyOk.found {S B : Nat → Prop} {k : OKey} {x n : Nat} (hk : KeyOk m h k)
    (hi : TabInv (entryShape E m) h S B ds db D)
    (hx : h.ptr k.l = some (some x)) (hn : h.cell x k.idx = some n) :
    ∃ r : Ref W, PtrAt h k.slot n r ∧ (h.toSlots k.slot).map (refOf k.slot) = some r := by
  have h1 : h.locAt k.slot = some (.child n) := by rw [hk.slot, below_of hx, hn]; rfl
  cases hb : h.boxes n with
  | none => exact ((hi.cellLive _ _ _ hn).1 hb).elim
  | some e =>
    have hv : h.valueAt n = some e.1 := by simp [valueAt, hb]
    refine ⟨refOf k.slot e.1, ⟨h1, e.1, hv, rfl⟩, ?_⟩
    rw [toSlots_of h1, hv]; rfl

theorem KeyOk.empty {k : OKey} (hk : KeyOk m h k) (hx : h.below k.l k.idx = none) :
    h.toSlots k.slot = none := by
  simp only [toSlots, hk.slot, hx]

end Step

end Rotonda
