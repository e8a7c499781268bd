import Verif.Model.Conc
import Verif.Model.Epoch

/-!
# Concurrent use of one epoch-managed pointer

Any number of calls on the same pointer, interleaved by a schedule.
-/

namespace Rotonda

variable {τ V ι : Type}

/-- One call: read the value, read the tag, change the value, set the value, set the
tag. -/
inductive CellCall (τ V : Type)
  | read
  | tag
  | modify (F : Nat) (f : V → V)
  | set (same : V → Bool) (w : V)
  | mark (t : τ)

variable [DecidableEq τ]

/-- The call with its heap; a swapped pointer gets the tag `t0`. -/
def CellCall.heapProg (A : EpochAlloc τ V) (t0 : τ) : CellCall τ V → Prog (EpochHeap τ V) (CellAns τ V)
  | .read => heapRead
  | .tag => heapTag
  | .modify F f => heapModify A t0 F f
  | .set same w => heapSet A t0 same w
  | .mark t => heapMark t

/-- The call on version numbers. -/
def CellCall.verProg (t0 : τ) : CellCall τ V → Prog (VerCell τ V) (CellAns τ V)
  | .read => verRead
  | .tag => verTag
  | .modify F f => verModify t0 F f
  | .set same w => verSet t0 same w
  | .mark t => verMark t

/-! ## The two cells of the store -/

/-- The bitmap of withdrawn muis as a cell; its pointer has no tags. -/
def wdCell {W : Nat} : Lens (Tree W) (VerCell Unit (Mui → Bool)) :=
  ⟨fun t => ⟨t.wd.ver, (), t.wd.set⟩, fun t c => { t with wd := ⟨c.ver, c.val⟩ }⟩

/-- The path selections of a prefix as a cell. -/
def psCell {M : Type} {W : Nat} : Lens (StoredPrefix M W) (VerCell Bool (Option Mui × Option Mui)) :=
  ⟨fun e => ⟨e.ps.ver, e.ps.tag, e.ps.val⟩, fun e c => { e with ps := ⟨c.ver, c.tag, c.val⟩ }⟩

/-- Run a program on a component of the entry in one slot. -/
def Prog.inSlot {E σ α : Type} (a : Addr) (L : Lens E σ) : Prog σ α → Prog (Slots E) α
  | .ret x => .ret x
  | .act f k => accessAt a (fun e => ((f (L.get e)).1, L.set e (f (L.get e)).2)) >>= fun r => (k r).inSlot a L
  | .panic => .panic
  | .diverge => .diverge

/-- Two programs that do the same, step by step; what they remember between the steps may
be represented differently. -/
inductive Prog.Same {σ α : Type} : Prog σ α → Prog σ α → Prop
  | ret (a : α) : Prog.Same (.ret a) (.ret a)
  | panic : Prog.Same .panic .panic
  | diverge : Prog.Same .diverge .diverge
  | act {ρ ρ' : Type} (f : σ → ρ × σ) (k : ρ → Prog σ α) (g : σ → ρ' × σ) (l : ρ' → Prog σ α)
    (hst : ∀ s, (f s).2 = (g s).2) (hk : ∀ s, Prog.Same (k (f s).1) (l (g s).1)) :
    Prog.Same (.act f k) (.act g l)

/-! ## Runs -/

/-- All calls about to start on a new pointer to `v`. -/
def heapStart (A : EpochAlloc τ V) (t0 : τ) (v : V) (calls : ι → CellCall τ V) :
    Conf (EpochHeap τ V) ι (fun _ => CellAns τ V) :=
  ⟨EpochHeap.init t0 v, fun i => (calls i).heapProg A t0⟩

/-- The same on version numbers. -/
def verStart (t0 : τ) (v : V) (calls : ι → CellCall τ V) :
    Conf (VerCell τ V) ι (fun _ => CellAns τ V) :=
  ⟨⟨0, t0, v⟩, fun i => (calls i).verProg t0⟩

end Rotonda
