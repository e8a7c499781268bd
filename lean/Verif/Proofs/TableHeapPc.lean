import Verif.Proofs.TableHeap
import Verif.Proofs.OnceBox

/-!
# Calls walking down a table: control points
-/

namespace Rotonda

open Prog TabHeap

variable {T ι : Type} {A : TabAlloc T} {Z : TabShape T}

/-- The level a call is at: the levels left after it, the place of the slice, its size. -/
structure TKey where
  n : Nat
  loc : Loc
  size : Nat
  lvl : Nat

/-- Where a call is.  `x` is the slice it found, `s` and `b` its own allocations. -/
inductive TPc
  | get (k : TKey)
  | getLoad (k : TKey) (x : Nat)
  | init (k : TKey)
  | mkSlice (k : TKey)
  | casSlice (k : TKey) (s : Nat)
  | dropSlice (k : TKey) (s x : Nat)
  | load (k : TKey) (x : Nat)
  | mkBox (k : TKey) (x : Nat)
  | casBox (k : TKey) (x b : Nat)
  | dropBox (k : TKey) (b d : Nat)
  | look (k : TKey) (b : Nat) (fresh : Bool)
  | done (a : Option Nat)
  | failed

namespace TPc

/-- An entry was found. -/
def lookP (A : TabAlloc T) (Z : TabShape T) (c : Walk T) (k : TKey) (b : Nat) (fresh : Bool) :
    Prog (TabHeap T) (Option Nat) :=
  tabDeref b >>= fun e => if c.stop fresh e = true then Prog.ret (some b)
    else walk A Z c k.n (.child b) (Z.next e) (k.lvl + 1)

/-- The box in the slice. -/
def loadP (A : TabAlloc T) (Z : TabShape T) (c : Walk T) (k : TKey) (x : Nat) :
    Prog (TabHeap T) (Option Nat) :=
  tabBoxGetOrInit A Z x (c.idx k.lvl) (c.val k.lvl) >>= fun b => lookP A Z c k b true

/-- A slice was found or made. -/
def foundP (A : TabAlloc T) (Z : TabShape T) (c : Walk T) (k : TKey) (x : Nat) :
    Prog (TabHeap T) (Option Nat) :=
  if c.idx k.lvl < k.size then loadP A Z c k x else Prog.ret none

/-- The slice is to be made if there is none. -/
def initP (A : TabAlloc T) (Z : TabShape T) (c : Walk T) (k : TKey) : Prog (TabHeap T) (Option Nat) :=
  tabGetOrMakeSlice A k.loc >>= fun x => foundP A Z c k x

/-- Nothing was found. -/
def missP (A : TabAlloc T) (Z : TabShape T) (c : Walk T) (k : TKey) : Prog (TabHeap T) (Option Nat) :=
  if c.create = true then initP A Z c k else Prog.ret none

/-- After the attempt to put a slice. -/
def casSliceP (A : TabAlloc T) (Z : TabShape T) (c : Walk T) (k : TKey) (s : Nat) :
    Except Nat Unit → Prog (TabHeap T) (Option Nat)
  | .ok () => foundP A Z c k s
  | .error y => tabFreeSlice s >>= fun _ => foundP A Z c k y

/-- After the attempt to put an entry. -/
def casBoxP (A : TabAlloc T) (Z : TabShape T) (c : Walk T) (k : TKey) (b : Nat) :
    Except Nat Unit → Prog (TabHeap T) (Option Nat)
  | .ok () => lookP A Z c k b true
  | .error d => tabFreeBox b >>= fun _ => lookP A Z c k d true

/-- After the load of a box pointer by `get`. -/
def getP (A : TabAlloc T) (Z : TabShape T) (c : Walk T) (k : TKey) :
    Option Nat → Prog (TabHeap T) (Option Nat)
  | some b => lookP A Z c k b false
  | none => missP A Z c k

/-- The rest of the program at a control point. -/
def prog (A : TabAlloc T) (Z : TabShape T) (c : Walk T) : TPc → Prog (TabHeap T) (Option Nat)
  | get k => walk A Z c (k.n + 1) k.loc k.size k.lvl
  | getLoad k x => tabCellLoad x (c.idx k.lvl) >>= getP A Z c k
  | init k => initP A Z c k
  | mkSlice k => tabNewSlice A >>= fun s => locCas k.loc s >>= casSliceP A Z c k s
  | casSlice k s => locCas k.loc s >>= casSliceP A Z c k s
  | dropSlice k s y => tabFreeSlice s >>= fun _ => foundP A Z c k y
  | load k x => loadP A Z c k x
  | mkBox k x => tabNewBox A Z (c.val k.lvl) >>= fun b =>
    tabCellCas x (c.idx k.lvl) b >>= casBoxP A Z c k b
  | casBox k x b => tabCellCas x (c.idx k.lvl) b >>= casBoxP A Z c k b
  | dropBox k b d => tabFreeBox b >>= fun _ => lookP A Z c k d true
  | look k b fresh => lookP A Z c k b fresh
  | done a => Prog.ret a
  | failed => Prog.panic

/-- The first control point of a level. -/
def enter (l : Loc) (size lvl : Nat) : Nat → TPc
  | 0 => done none
  | n + 1 => get ⟨n, l, size, lvl⟩

/-- Nothing was found. -/
def miss (c : Walk T) (k : TKey) : TPc := if c.create = true then init k else done none

/-- A slice was found or made. -/
def found (c : Walk T) (k : TKey) (x : Nat) : TPc :=
  if c.idx k.lvl < k.size then load k x else done none

/-- One step from a control point: the new heap and the new control point. -/
def next (A : TabAlloc T) (Z : TabShape T) (c : Walk T) (h : TabHeap T) : TPc → TabHeap T × TPc
  | get k => (h, match h.ptr k.loc with
    | none => failed
    | some none => miss c k
    | some (some x) => if c.idx k.lvl < k.size then getLoad k x else miss c k)
  | getLoad k x => (h, match h.slices x with
    | none => failed
    | some cells => match cells (c.idx k.lvl) with
      | some b => look k b false
      | none => miss c k)
  | init k => (h, match h.ptr k.loc with
    | none => failed
    | some none => mkSlice k
    | some (some x) => found c k x)
  | mkSlice k =>
    ({ h.setSlice (h.sliceAddr A) (some fun _ => none) with top := max h.top (h.sliceAddr A + 1) },
      casSlice k (h.sliceAddr A))
  | casSlice k s => match h.ptr k.loc with
    | none => (h, failed)
    | some none => (h.setPtr k.loc (some s), found c k s)
    | some (some y) => (h, dropSlice k s y)
  | dropSlice k s y => match h.slices s with
    | none => (h, failed)
    | some _ => (h.setSlice s none, found c k y)
  | load k x => (h, match h.slices x with
    | none => failed
    | some cells => match cells (c.idx k.lvl) with
      | some b => look k b true
      | none => mkBox k x)
  | mkBox k x =>
    ({ h.setBox (h.boxAddr A) (some (c.val k.lvl, none)) with
        top := max h.top (h.boxAddr A + 1), atoms := h.atoms + Z.atoms }, casBox k x (h.boxAddr A))
  | casBox k x b => match h.slices x with
    | none => (h, failed)
    | some cells => match cells (c.idx k.lvl) with
      | none => (h.setSlice x (some (setCell cells (c.idx k.lvl) (some b))), look k b true)
      | some d => (h, dropBox k b d)
  | dropBox k b d => match h.boxes b with
    | none => (h, failed)
    | some _ => (h.setBox b none, look k d true)
  | look k b fresh => (h, match h.boxes b with
    | none => failed
    | some e => if c.stop fresh e.1 = true then done (some b)
      else enter (.child b) (Z.next e.1) (k.lvl + 1) k.n)
  | done a => (h, done a)
  | failed => (h, failed)

theorem prog_enter (c : Walk T) (l : Loc) (size lvl n : Nat) :
    (enter l size lvl n).prog A Z c = walk A Z c n l size lvl := by
  cases n <;> rfl

theorem prog_miss (c : Walk T) (k : TKey) : (miss c k).prog A Z c = missP A Z c k := by
  unfold miss missP; split <;> rfl

theorem prog_found (c : Walk T) (k : TKey) (x : Nat) : (found c k x).prog A Z c = foundP A Z c k x := by
  unfold found foundP; split <;> rfl

theorem getOrMakeSlice_bind' {β : Type} (l : Loc) (k : Nat → Prog (TabHeap T) β) :
    tabGetOrMakeSlice A l >>= k = locLoad l >>= fun r => match r with
      | some x => k x
      | none => tabNewSlice A >>= fun s => locCas l s >>= fun r => match r with
        | .ok () => k s
        | .error y => tabFreeSlice s >>= fun _ => k y := by
  rw [tabGetOrMakeSlice, bind_assoc']
  congr 1
  funext r
  cases r with
  | some x => rfl
  | none =>
    simp only [bind_assoc']
    congr 1
    funext s
    congr 1
    funext r
    cases r with
    | ok c => rfl
    | error c => simp only [bind_assoc']; rfl

theorem boxGetOrInit_bind' {β : Type} (x idx : Nat) (v : T) (k : Nat → Prog (TabHeap T) β) :
    tabBoxGetOrInit A Z x idx v >>= k = tabCellLoad x idx >>= fun r => match r with
      | some b => k b
      | none => tabNewBox A Z v >>= fun b => tabCellCas x idx b >>= fun r => match r with
        | .ok () => k b
        | .error d => tabFreeBox b >>= fun _ => k d := by
  rw [tabBoxGetOrInit, bind_assoc']
  congr 1
  funext r
  cases r with
  | some x => rfl
  | none =>
    simp only [bind_assoc']
    congr 1
    funext s
    congr 1
    funext r
    cases r with
    | ok c => rfl
    | error c => simp only [bind_assoc']; rfl

theorem walk_succ (c : Walk T) (k : TKey) : walk A Z c (k.n + 1) k.loc k.size k.lvl =
    locLoad k.loc >>= fun r => match r with
      | none => missP A Z c k
      | some x => if c.idx k.lvl < k.size then tabCellLoad x (c.idx k.lvl) >>= getP A Z c k
        else missP A Z c k := by
  have hmiss : (if c.create = true then do
        match ← tabGetOrInit A Z k.loc k.size (c.idx k.lvl) (c.val k.lvl) with
        | none => Prog.ret none
        | some b => do
          let e ← tabDeref b
          if c.stop true e = true then Prog.ret (some b)
          else walk A Z c k.n (.child b) (Z.next e) (k.lvl + 1)
      else Prog.ret none) = missP A Z c k := by
    unfold missP
    split
    · rw [initP, tabGetOrInit, bind_assoc']
      congr 1
      funext x
      unfold foundP
      split
      · rw [bind_assoc']; rfl
      · rfl
    · rfl
  rw [walk, tabGet, bind_assoc']
  congr 1
  funext r
  cases r with
  | none => exact hmiss
  | some x =>
    simp only
    split
    · congr 1
      funext r
      cases r with
      | none => exact hmiss
      | some b => rfl
    · exact hmiss

theorem step1_prog (c : Walk T) (h : TabHeap T) (pc : TPc) :
    (pc.prog A Z c).step1 h = ((pc.next A Z c h).1, (pc.next A Z c h).2.prog A Z c) := by
  cases pc with
  | get k =>
    simp only [next]
    rw [prog, walk_succ]
    simp only [locLoad, Prog.read, act_bind, ret_bind, step1_act]
    cases hp : h.ptr k.loc with
    | none => rfl
    | some r =>
      cases r with
      | none => simp only [Prog.ofOption, ret_bind, prog_miss]
      | some x =>
        simp only [Prog.ofOption, ret_bind]
        split
        · rfl
        · rw [prog_miss]
  | getLoad k x =>
    simp only [next]
    rw [prog]
    simp only [tabCellLoad, Prog.read, act_bind, ret_bind, step1_act]
    cases hp : h.slices x with
    | none => rfl
    | some cells =>
      simp only [Option.map_some, Prog.ofOption, ret_bind]
      cases hc : cells (c.idx k.lvl) with
      | none => simp only [getP, prog_miss]
      | some b => rfl
  | init k =>
    simp only [next]
    rw [prog, initP, getOrMakeSlice_bind']
    simp only [locLoad, Prog.read, act_bind, ret_bind, step1_act]
    cases hp : h.ptr k.loc with
    | none => rfl
    | some r =>
      cases r with
      | none =>
        simp only [Prog.ofOption, ret_bind, prog]
        rfl
      | some x => simp only [Prog.ofOption, ret_bind, prog_found]
  | mkSlice k => rfl
  | casSlice k s =>
    simp only [next]
    rw [prog]
    simp only [locCas, Prog.atomic, act_bind, ret_bind, step1_act]
    cases hp : h.ptr k.loc with
    | none => rfl
    | some r =>
      cases r with
      | none => simp only [Prog.ofOption, casSliceP, prog_found, ret_bind]
      | some y => rfl
  | dropSlice k s y =>
    simp only [next]
    rw [prog]
    simp only [tabFreeSlice, Prog.atomic, act_bind, ret_bind, step1_act]
    cases hp : h.slices s with
    | none => rfl
    | some r => simp [Prog.ofOption, prog_found]
  | load k x =>
    simp only [next]
    rw [prog, loadP, boxGetOrInit_bind']
    simp only [tabCellLoad, Prog.read, act_bind, ret_bind, step1_act]
    cases hp : h.slices x with
    | none => rfl
    | some cells =>
      simp only [Option.map_some, Prog.ofOption, ret_bind]
      cases hc : cells (c.idx k.lvl) with
      | some b => rfl
      | none =>
        rfl
  | mkBox k x => rfl
  | casBox k x b =>
    simp only [next]
    rw [prog]
    simp only [tabCellCas, Prog.atomic, act_bind, ret_bind, step1_act]
    cases hp : h.slices x with
    | none => rfl
    | some cells =>
      simp only
      cases hc : cells (c.idx k.lvl) <;> rfl
  | dropBox k b d =>
    simp only [next]
    rw [prog]
    simp only [tabFreeBox, Prog.atomic, act_bind, ret_bind, step1_act]
    cases hp : h.boxes b with
    | none => rfl
    | some r => rfl
  | look k b fresh =>
    simp only [next]
    rw [prog, lookP]
    simp only [tabDeref, Prog.read, act_bind, ret_bind, step1_act]
    cases hp : h.boxes b with
    | none => rfl
    | some e =>
      simp only [Option.map_some, Prog.ofOption, ret_bind]
      split
      · rfl
      · rw [prog_enter]
  | done a => rfl
  | failed => rfl

/-- The most turns a call still needs. -/
def rank : TPc → Nat
  | get k => 11 * k.n + 11
  | getLoad k _ => 11 * k.n + 10
  | init k => 11 * k.n + 9
  | mkSlice k => 11 * k.n + 8
  | casSlice k _ => 11 * k.n + 7
  | dropSlice k _ _ => 11 * k.n + 6
  | load k _ => 11 * k.n + 5
  | mkBox k _ => 11 * k.n + 4
  | casBox k _ _ => 11 * k.n + 3
  | dropBox k _ _ => 11 * k.n + 2
  | look k _ _ => 11 * k.n + 1
  | done _ | failed => 0

theorem rank_enter (l : Loc) (size lvl n : Nat) : (enter l size lvl n).rank = 11 * n := by
  cases n <;> simp [enter, rank]; omega

theorem rank_miss (c : Walk T) (k : TKey) : (miss c k).rank ≤ 11 * k.n + 9 := by
  unfold miss; split <;> simp [rank]

theorem rank_found (c : Walk T) (k : TKey) (x : Nat) : (found c k x).rank ≤ 11 * k.n + 5 := by
  unfold found; split <;> simp [rank]

theorem rank_get (k : TKey) : (get k).rank = 11 * k.n + 11 := rfl
theorem rank_getLoad (k : TKey) (x : Nat) : (getLoad k x).rank = 11 * k.n + 10 := rfl
theorem rank_init (k : TKey) : (init k).rank = 11 * k.n + 9 := rfl
theorem rank_mkSlice (k : TKey) : (mkSlice k).rank = 11 * k.n + 8 := rfl
theorem rank_casSlice (k : TKey) (x : Nat) : (casSlice k x).rank = 11 * k.n + 7 := rfl
theorem rank_dropSlice (k : TKey) (x : Nat) (y : Nat) : (dropSlice k x y).rank = 11 * k.n + 6 := rfl
theorem rank_load (k : TKey) (x : Nat) : (load k x).rank = 11 * k.n + 5 := rfl
theorem rank_mkBox (k : TKey) (x : Nat) : (mkBox k x).rank = 11 * k.n + 4 := rfl
theorem rank_casBox (k : TKey) (x : Nat) (y : Nat) : (casBox k x y).rank = 11 * k.n + 3 := rfl
theorem rank_dropBox (k : TKey) (x : Nat) (y : Nat) : (dropBox k x y).rank = 11 * k.n + 2 := rfl
theorem rank_look (k : TKey) (b : Nat) (f : Bool) : (look k b f).rank = 11 * k.n + 1 := rfl
theorem rank_done (a : Option Nat) : (done a).rank = 0 := rfl
theorem rank_failed : failed.rank = 0 := rfl

theorem rank_next (c : Walk T) (h : TabHeap T) (pc : TPc) :
    (pc.next A Z c h).2.rank ≤ pc.rank - 1 := by
  have h1 := rank_miss c
  have h2 := rank_found c
  cases pc with
  | get k => have := h1 k; simp only [next]; split <;> (try split) <;> simp only [rank_get, rank_getLoad, rank_init, rank_mkSlice, rank_casSlice,
      rank_dropSlice, rank_load, rank_mkBox, rank_casBox, rank_dropBox, rank_look, rank_done, rank_failed] <;> omega
  | getLoad k x => have := h1 k; simp only [next]; split <;> (try split) <;> simp only [rank_get, rank_getLoad, rank_init, rank_mkSlice, rank_casSlice,
      rank_dropSlice, rank_load, rank_mkBox, rank_casBox, rank_dropBox, rank_look, rank_done, rank_failed] <;> omega
  | init k =>
    simp only [next]
    split
    · simp only [rank_get, rank_getLoad, rank_init, rank_mkSlice, rank_casSlice,
      rank_dropSlice, rank_load, rank_mkBox, rank_casBox, rank_dropBox, rank_look, rank_done, rank_failed]; omega
    · simp only [rank_get, rank_getLoad, rank_init, rank_mkSlice, rank_casSlice,
      rank_dropSlice, rank_load, rank_mkBox, rank_casBox, rank_dropBox, rank_look, rank_done, rank_failed]; omega
    · rename_i x _; have := h2 k x; simp only [rank_get, rank_getLoad, rank_init, rank_mkSlice, rank_casSlice,
      rank_dropSlice, rank_load, rank_mkBox, rank_casBox, rank_dropBox, rank_look, rank_done, rank_failed]; omega
  | casSlice k s =>
    simp only [next]
    split
    · simp only [rank_get, rank_getLoad, rank_init, rank_mkSlice, rank_casSlice,
      rank_dropSlice, rank_load, rank_mkBox, rank_casBox, rank_dropBox, rank_look, rank_done, rank_failed]; omega
    · have := h2 k s; simp only [rank_get, rank_getLoad, rank_init, rank_mkSlice, rank_casSlice,
      rank_dropSlice, rank_load, rank_mkBox, rank_casBox, rank_dropBox, rank_look, rank_done, rank_failed]; omega
    · simp only [rank_get, rank_getLoad, rank_init, rank_mkSlice, rank_casSlice,
      rank_dropSlice, rank_load, rank_mkBox, rank_casBox, rank_dropBox, rank_look, rank_done, rank_failed]; omega
  | dropSlice k s y => have := h2 k y; simp only [next]; split <;> simp only [rank_get, rank_getLoad, rank_init, rank_mkSlice, rank_casSlice,
      rank_dropSlice, rank_load, rank_mkBox, rank_casBox, rank_dropBox, rank_look, rank_done, rank_failed] <;> omega
  | look k b f => simp only [next]; split <;> (try split) <;> simp only [rank_enter, rank_get, rank_getLoad, rank_init, rank_mkSlice, rank_casSlice,
      rank_dropSlice, rank_load, rank_mkBox, rank_casBox, rank_dropBox, rank_look, rank_done, rank_failed] <;> omega
  | _ => simp only [next] <;> (try split) <;> (try split) <;> simp only [rank_get, rank_getLoad, rank_init, rank_mkSlice, rank_casSlice,
      rank_dropSlice, rank_load, rank_mkBox, rank_casBox, rank_dropBox, rank_look, rank_done, rank_failed] <;> omega

end TPc

end Rotonda
