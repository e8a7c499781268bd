import Verif.Model.Weak
import Verif.Spec.Epoch

/-!
# One epoch-managed pointer with its memory orderings

`Verif.Model.Epoch` models the bitmap of withdrawn muis and the path selections of a
prefix with sequentially consistent atomics.  Here the same code is modelled on the machine
of `Verif.Model.Weak`, with the orderings that are written in the code.

The content of a block is one word, written before the pointer to it is published.
Simplifications as in `Verif.Model.Epoch`: the pointer is never null, `Guard`s have no
effect; besides, the weak compare-and-swap in `fetch_update` does not fail spuriously, and
the addresses of freed blocks are not used again (`Verif.Model.Epoch` has both any content
and reuse).  A retry loop that used up its fuel ends in `panic`.
-/

namespace Rotonda.Weak

/-- A pointer of `crossbeam_epoch`: the tag is in the lowest bit. -/
def tagged (p : Nat) (t : Bool) : Word := some (2 * p + t.toNat)

/-- The address in a pointer. -/
def addrOf (q : Word) : Nat := q.getD 0 / 2

/-- `Shared::tag`. -/
def tagOf (q : Word) : Bool := q.getD 0 % 2 == 1

/-- The orderings of the load of a value that is read, of the load before a swap, of a
successful and of a failing swap, of a successful and a failing (or first) attempt to set
the tag, and of the load of the tag. -/
structure CellOrders where
  get : MemOrd
  cur : MemOrd
  ok : MemOrd
  err : MemOrd
  mark : MemOrd
  retry : MemOrd
  tag : MemOrd

/-- The orderings of `src/tree_bitmap/mod.rs` 521 (`withdrawn_muis_bmin`), 531 and 546
(`mark_mui_as_active`, `mark_mui_as_withdrawn`), 567 and 568
(`update_withdrawn_muis_bmin`).  Its tag is not used. -/
def statusOrders : CellOrders := ⟨.acquire, .acquire, .acqRel, .acquire, .acquire, .acquire, .acquire⟩

/-- The orderings of `src/prefix_cht/cht.rs` 425 (`get_path_selections`), 440, 452 and 453
(`set_path_selections`), 465 (`set_ps_outdated`) and 473 (`is_ps_outdated`). -/
def selectionOrders : CellOrders := ⟨.acquire, .seqCst, .acqRel, .acquire, .acquire, .acquire, .acquire⟩

/-- The pointer, and its first block. -/
def cellLoc : Loc := 0
def firstBlock : Loc := 1

section
variable (o : CellOrders)

/-- `src/tree_bitmap/mod.rs` 515-524, `withdrawn_muis_bmin`; `src/prefix_cht/cht.rs`
423-433, `get_path_selections`. -/
def cellRead : WProg (CellAns Bool Word) := do
  let q ← WProg.load cellLoc o.get .ret
  let v ← WProg.plain (addrOf q) .ret
  return .val v

/-- `src/prefix_cht/cht.rs` 472-474, `is_ps_outdated`. -/
def cellTag : WProg (CellAns Bool Word) := do
  let q ← WProg.load cellLoc o.tag .ret
  return .tag (tagOf q)

/-- `src/tree_bitmap/mod.rs` 557-579, `update_withdrawn_muis_bmin`. -/
def cellLoop (cur : Word) : Nat → Word → WProg (CellAns Bool Word)
  | 0, _ => .panic
  | fuel + 1, new => do
    let x ← WProg.alloc [new] .ret
    match ← WProg.cas cellLoc cur (tagged x false) o.ok o.err .ret with
    | .ok _ => return .ok
    | .error q =>
      let found ← WProg.plain (addrOf q) .ret
      WProg.free x 1 (.ret ())
      cellLoop cur fuel found

/-- `src/tree_bitmap/mod.rs` 526-555, `mark_mui_as_active`, `mark_mui_as_withdrawn`. -/
def cellModify (F : Nat) (f : Word → Word) : WProg (CellAns Bool Word) := do
  let cur ← WProg.load cellLoc o.cur .ret
  let v ← WProg.plain (addrOf cur) .ret
  cellLoop o cur (F + 1) (f v)

/-- `src/prefix_cht/cht.rs` 435-458, `set_path_selections`. -/
def cellSet (same : Word → Bool) (w : Word) : WProg (CellAns Bool Word) := do
  let cur ← WProg.load cellLoc o.cur .ret
  let v ← WProg.plain (addrOf cur) .ret
  if same v then return .ok
  else
    let x ← WProg.alloc [w] .ret
    match ← WProg.cas cellLoc cur (tagged x false) o.ok o.err .ret with
    | .ok _ => return .ok
    | .error _ =>
      WProg.free x 1 (.ret ())
      return .refused

/-- The loop of `Atomic::fetch_update` (`crossbeam_epoch`) that sets the tag. -/
def cellMarkLoop (t : Bool) : Nat → Word → WProg (CellAns Bool Word)
  | 0, _ => .panic
  | fuel + 1, prev => do
    match ← WProg.cas cellLoc prev (tagged (addrOf prev) t) o.mark o.retry .ret with
    | .ok _ => return .ok
    | .error q => cellMarkLoop t fuel q

/-- `src/prefix_cht/cht.rs` 460-470, `set_ps_outdated`; `G` bounds the attempts. -/
def cellMark (G : Nat) (t : Bool) : WProg (CellAns Bool Word) := do
  let prev ← WProg.load cellLoc o.retry .ret
  cellMarkLoop o t G prev

end

/-- The program of a call. -/
def cellProg (o : CellOrders) (G : Nat) : CellCall Bool Word → WProg (CellAns Bool Word)
  | .read => cellRead o
  | .tag => cellTag o
  | .modify F f => cellModify o F f
  | .set same w => cellSet o same w
  | .mark t => cellMark o G t

/-- A thread makes calls one after the other. -/
def cellThread (o : CellOrders) (G : Nat) : List (CellCall Bool Word) → WProg (List (CellAns Bool Word))
  | [] => return []
  | c :: cs => do
    let a ← cellProg o G c
    let as ← cellThread o G cs
    return a :: as

/-- A new pointer to a block with content `v` is handed to all threads. -/
def cellStart {ι : Type} (o : CellOrders) (G : Nat) (v : Word) (calls : ι → List (CellCall Bool Word)) :
    Mach ι (List (CellAns Bool Word)) where
  mem a := if a = cellLoc then [⟨tagged firstBlock false, false, .none⟩]
    else if a = firstBlock then [⟨v, false, .none⟩] else []
  top := 2
  know _ := (Know.none.add (firstBlock, 0)).add (cellLoc, 0)
  pool i := cellThread o G (calls i)
  races := []

/-- The same threads on the cell that the rest of the model has (`Verif.Model.Epoch`). -/
def verThread : List (CellCall Bool Word) → Prog (VerCell Bool Word) (List (CellAns Bool Word))
  | [] => return []
  | c :: cs => do
    let a ← c.verProg false
    let as ← verThread cs
    return a :: as

/-- Their start, under sequentially consistent atomics. -/
def verThreads {ι : Type} (v : Word) (calls : ι → List (CellCall Bool Word)) :
    Conf (VerCell Bool Word) ι (fun _ => List (CellAns Bool Word)) :=
  ⟨⟨0, false, v⟩, fun i => verThread (calls i)⟩

end Rotonda.Weak
