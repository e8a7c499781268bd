import Verif.Model.Pointers
import Verif.Spec.TableHeap

/-!
# What the pointers of the tables mean
-/

namespace Rotonda

namespace TabHeap
variable {E : Type}

/-- The next slice pointer: through the slice at a place and its box `i`. -/
def below (h : TabHeap E) (l : Loc) (i : Nat) : Option Loc :=
  match h.ptr l with
  | some (some x) => ((h.slices x).bind fun c => c i).map .child
  | _ => none

/-- The place that the pointers lead to; the indices are given from the last to the first. -/
def down (h : TabHeap E) (r : Nat) : List Nat → Option Loc
  | [] => some (.root r)
  | i :: q => (h.down r q).bind fun l => h.below l i

/-- The place that the pointers lead to. -/
def locAt (h : TabHeap E) (a : Addr) : Option Loc := h.down a.root a.path.reverse

/-- The table as a map: the entry that the pointers lead to. -/
def toSlots (h : TabHeap E) : Slots E := fun a =>
  match h.locAt a with
  | some (.child n) => h.valueAt n
  | _ => none

end TabHeap

variable {M : Type} {W : Nat}

/-- Replace both tables. -/
def Rib.withTables (s : Rib M W) (n : NSlots W) (p : PSlots M W) : Rib M W :=
  { s with tree := { s.tree with slots := n }, cht := { s.cht with slots := p } }

/-- The store with its tables as maps. -/
def PtrRib.view (s : PtrRib M W) : Rib M W := s.rest.withTables s.nodes.toSlots s.recs.toSlots

/-! ## Which pointers a call may follow

A call may use a pointer only after it has found it: `K a n` says that the call has found the
entry at `a`, whose next bucket has `n` boxes. -/

/-- An entry has been found: its address and the size of its next bucket are known. -/
def addKnown (K : Addr → Nat → Prop) (a : Addr) (sz : Nat) : Addr → Nat → Prop :=
  fun a' s' => K a' s' ∨ (a' = a ∧ s' = sz)

/-- What is known after an operation that may find an entry at an address. -/
def GetPost (a : Addr) (K K' : Addr → Nat → Prop) (o : Option (Ref W)) : Prop :=
  (o = none ∧ K' = K) ∨ ∃ id nx, o = some ⟨a, id, nx⟩ ∧ K' = addKnown K a nx

/-- What is known after an operation that finds or makes an entry at an address. -/
def InitPost (a : Addr) (K K' : Addr → Nat → Prop) (r : Ref W × Bool) : Prop :=
  ∃ id nx, r.1 = ⟨a, id, nx⟩ ∧ K' = addKnown K a nx

/-- The bucket is one of the `R` roots, or hangs off an entry that was found. -/
def Knows (R : Nat) (K : Addr → Nat → Prop) (b : Bucket) : Prop :=
  (b.path = [] ∧ b.root < R ∧ b.size = slotsForP2 4) ∨ (b.path ≠ [] ∧ K ⟨b.root, b.path⟩ b.size)

/-- The pointers an operation needs have been found; the fixed part of an entry is not
written. -/
def TabOp.Pre {E ρ : Type} [Entry E W] (R : Nat) (K : Addr → Nat → Prop) : TabOp E W ρ → Prop
  | .get b _ | .init b _ _ => Knows R K b
  | .access a f => (∃ n, K a n) ∧ ∀ e, Entry.id (f e).2 = Entry.id e ∧ Entry.next (f e).2 = Entry.next e

/-- What has been found after an operation. -/
def TabOp.Post {E ρ : Type} : TabOp E W ρ → (Addr → Nat → Prop) → (Addr → Nat → Prop) → ρ → Prop
  | .get b idx, K, K', o => GetPost (b.slot idx) K K' o
  | .init b idx _, K, K', r => InitPost (b.slot idx) K K' r
  | .access _ _, K, K', _ => K' = K

/-- The action neither reads nor writes the tables. -/
def FrameOk {ρ : Type} (f : Rib M W → ρ × Rib M W) : Prop :=
  ∀ s n p, f (s.withTables n p) = ((f s).1, (f s).2.withTables n p)

/-- The call only follows pointers that it has found. -/
def PtrProg.Scoped {α : Type} : PtrProg M W α → (Addr → Nat → Prop) → (Addr → Nat → Prop) → Prop
  | .ret _, _, _ | .panic, _, _ | .diverge, _, _ => True
  | .raw _, _, _ => False
  | .nodes op k, K, Kr => op.Pre (nodeRoots W) K ∧ ∀ K' r, op.Post K K' r → (k r).Scoped K' Kr
  | .recs op k, K, Kr => op.Pre (prefixRoots W) Kr ∧ ∀ K' r, op.Post Kr K' r → (k r).Scoped K K'
  | .frame f k, K, Kr => FrameOk f ∧ ∀ r, (k r).Scoped K Kr

/-- The program does its work on the tables pointer by pointer: it is the reading, on tables
that are maps, of a call that starts without any pointer and only follows pointers that it has
found. -/
def PtrProg.Runs {α : Type} (t : PtrProg M W α) (p : Prog (Rib M W) α) : Prop :=
  t.onSlots = p ∧ t.Scoped (fun _ _ => False) fun _ _ => False

/-! ## Runs -/

/-- The state after the calls of a history, one after another, on the heap. -/
inductive PtrHistory [Meta M] (A : PtrAlloc M W) (st : Strategy) (F : Nat) :
    History M W → PtrRib M W → Prop
  | new {t : PtrProg M W Unit} {z : PtrRib M W}
      (ht : t.Runs (do let _ ← ribNew F)) (hz : (t.start A).run PtrRib.empty = .ok () z) :
      PtrHistory A st F [] z
  | call {h : History M W} {y z : PtrRib M W} {op : Op M W} {t : PtrProg M W Unit}
      (hy : PtrHistory A st F h y) (ht : t.Runs (op.prog st F))
      (hz : (t.start A).run y = .ok () z) : PtrHistory A st F (op :: h) z

/-- The run on tables that are maps has the same content and, when a call has ended on the
heap, the same end of the call. -/
structure Follows {ι : Type} {R : ι → Type} (c : Conf (PtrRib M W) ι R) (a : Conf (Rib M W) ι R) :
    Prop where
  view : a.st = c.st.view
  ret : ∀ i r, c.pool i = .ret r → a.pool i = .ret r
  panic : ∀ i, c.pool i = .panic → a.pool i = .panic
  diverge : ∀ i, c.pool i = .diverge → a.pool i = .diverge

/-- Calls about to start on the heap. -/
def ptrStart {ι : Type} {R : ι → Type} (A : PtrAlloc M W) (s : PtrRib M W)
    (t : ∀ i, PtrProg M W (R i)) : Conf (PtrRib M W) ι R :=
  ⟨s, fun i => (t i).start A⟩

/-- The call `i` is `x` and has returned `a` on the heap. -/
def PtrReturned [Meta M] {ι : Type} {calls : ι → Call M W}
    (c : Conf (PtrRib M W) ι fun i => (calls i).Ans) (i : ι) (x : Call M W) (a : x.Ans) : Prop :=
  ∃ h : calls i = x, c.pool i = .ret (h ▸ a)

end Rotonda
