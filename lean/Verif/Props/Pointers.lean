import Verif.Proofs.PtrHist
import Verif.Proofs.TableHeapRun
import Verif.Props.Concurrent

/-!
# The store pointer by pointer: C78

The calls of the store are modelled on tables that are maps from addresses to entries.  Here
the same calls run on heaps of slices and entries, in which every table operation is a sequence
of atomic actions of its own.
-/

namespace Rotonda.Props

open Prog

variable {M : Type} [Meta M] {W : Nat} {A : PtrAlloc M W} {st : Strategy} {F0 F fuel : Nat}
  {h : History M W} {z : PtrRib M W}

/-- C78: every call works pointer by pointer: it starts without any pointer, each bucket it
opens is a root or hangs off an entry that it has found before, each entry it reads or writes
it has found before, and it never writes the id or the size of the next bucket of an entry. -/
theorem pointer_calls (c : Call M W) : ∃ t : PtrProg M W c.Ans, t.Runs (c.prog st F fuel) :=
  (free_call st F fuel c).runs

/-- C78: so does making a new store. -/
theorem pointer_new : ∃ t : PtrProg M W Unit, t.Runs (do let _ ← ribNew F) := (free_new F).runs

/-- C78: calls one after another on the heap give the content they give on maps. -/
theorem pointer_history (hz : PtrHistory A st F0 h z) : exec st F0 h = .ok () z.view := hz.calm.2

/-- C78: each history that can be run on maps can be run on the heap. -/
theorem pointer_history_runs {s : Rib M W} (hs : exec st F0 h = .ok () s) :
    ∃ z, PtrHistory A st F0 h z ∧ z.view = s := by
  obtain ⟨z, hz⟩ := PtrHistory.of_exec (A := A) hs
  have := hz.calm.2
  rw [hs] at this
  cases this
  exact ⟨z, hz, rfl⟩

section
variable {ι : Type} [DecidableEq ι] {R : ι → Type} {t : ∀ i, PtrProg M W (R i)}
  {p : ∀ i, Prog (Rib M W) (R i)}

/-- C78: any calls at the same time on the heap do what the same calls do on maps, in the same
order: for each schedule, each part of it has a schedule on maps with some of the turns left out,
after which the content is the same and the calls that have ended on the heap have ended in the
same way. -/
theorem pointer_refines (hz : PtrHistory A st F0 h z) (ht : ∀ i, (t i).Runs (p i)) (u : List ι) :
    ∃ u', u'.Sublist u ∧ Follows ((ptrStart A z t).exec u) ((⟨z.view, p⟩ : Conf _ ι R).exec u') ∧
      ∀ v : List ι, ∃ v', v'.Sublist v ∧
        Follows ((ptrStart A z t).exec (u ++ v)) ((⟨z.view, p⟩ : Conf _ ι R).exec (u' ++ v')) := by
  obtain ⟨u', ts, h1, h2⟩ := (PtrSim.start (A := A) hz.calm.1 t p ht).run u
  refine ⟨u', h1, h2.follows, fun v => ?_⟩
  obtain ⟨v', ts', h3, h4⟩ := h2.run v
  refine ⟨v', h3, ?_⟩
  have := h4.follows
  simp only [Conf.exec] at this
  simp only [Conf.exec, List.foldl_append]
  exact this

/-- C78: when all calls have ended, dropping the store on the heap frees every slice and every
entry of both tables, and none twice. -/
theorem pointer_drop (hz : PtrHistory A st F0 h z) (ht : ∀ i, (t i).Runs (p i)) {u : List ι}
    (hq : ∀ i, ((ptrStart A z t).exec u).pool i = .panic ∨ ((ptrStart A z t).exec u).pool i = .diverge ∨
      ∃ a, ((ptrStart A z t).exec u).pool i = .ret a) :
    ∃ n, ∀ fuel, n < fuel → ∃ y : PtrRib M W, (ptrDrop fuel).run ((ptrStart A z t).exec u).st = .ok () y ∧
      y.nodes.Clean ∧ y.recs.Clean := by
  obtain ⟨u', ts, -, h2⟩ := (PtrSim.start (A := A) hz.calm.1 t p ht).run u
  obtain ⟨⟨⟨ds, db, D, i1⟩, -, -, r1⟩, ⟨⟨ds', db', D', i2⟩, -, -, r2⟩⟩ := h2.calm fun i ha => by
    have ha' : (((ptrStart A z t).exec u).pool i).IsAct := ha
    rcases hq i with e | e | ⟨a, e⟩ <;> · rw [e] at ha'; exact ha'
  have e1 : TabInv (entryShape (StoredNode W) 0) ((ptrStart A z t).exec u).st.nodes (fun _ => False)
      (fun _ => False) ds db D := i1.congr (by simp) (by simp)
  have e2 : TabInv (entryShape (StoredPrefix M W) 1) ((ptrStart A z t).exec u).st.recs (fun _ => False)
      (fun _ => False) ds' db' D' := i2.congr (by simp) (by simp)
  refine ⟨D + D' + 1, fun fuel hf => ?_⟩
  obtain ⟨n1, n2, n3, n4, n5⟩ := run_tabDrop (fuel := fuel) (by omega) (nodeRoots W) _ e1
  obtain ⟨m1, m2, m3, m4, m5⟩ := run_tabDrop (fuel := fuel) (by omega) (prefixRoots W) _ e2
  refine ⟨⟨n1, m1, ((ptrStart A z t).exec u).st.rest⟩, ?_, n3.clean fun r => ?_, m3.clean fun r => ?_⟩
  · rw [ptrDrop, run_bind, run_zoom ⟨fun _ _ => rfl, fun _ => rfl, fun _ _ _ => rfl⟩]
    rw [show PtrRib.nodesL.get ((ptrStart A z t).exec u).st = ((ptrStart A z t).exec u).st.nodes from rfl, n2]
    show (zoom PtrRib.recsL _).run _ = _
    rw [run_zoom ⟨fun _ _ => rfl, fun _ => rfl, fun _ _ _ => rfl⟩]
    rw [show ∀ y : PtrRib M W, PtrRib.recsL.get y = y.recs from fun _ => rfl]
    show ((tabDrop _ _ _).run ((ptrStart A z t).exec u).st.recs).mapState _ = _
    rw [m2]
    rfl
  · by_cases hr : r < nodeRoots W
    · exact n4 r hr
    · exact n5.root_none (by by_contra hn; exact hr (r1 r hn))
  · by_cases hr : r < prefixRoots W
    · exact m4 r hr
    · exact m5.root_none (by by_contra hn; exact hr (r2 r hn))

end

section
variable {ι : Type} [DecidableEq ι] {calls : ι → Call M W} {t : ∀ i, PtrProg M W (calls i).Ans}

/-- C78: no call reads or writes through a pointer that it does not have or that was freed,
frees anything twice, or goes out of the bounds of a slice, and none panics for another reason,
whatever the others do.  (On the heap all of these are panics.) -/
theorem pointer_no_panic [Fam W] (hF : 32 ≤ F) (hf : iterFuel W ≤ fuel) (hz : PtrHistory A st F0 h z)
    (ht : ∀ i, (t i).Runs ((calls i).prog st F fuel)) (u : List ι) (i : ι) :
    ((ptrStart A z t).exec u).pool i ≠ .panic := by
  intro hp
  obtain ⟨u', -, h2, -⟩ := pointer_refines (st := st) hz ht u
  exact (concurrent_no_panic (calls := calls) hF hf hz.calm.2 u' i).1 (h2.panic i hp)

/-- C78: every call on the heap, except the two global status changes, returns when it is given
enough turns, whatever the others do. -/
theorem pointer_calls_return [Fam W] (hF : 32 ≤ F) (hf : iterFuel W ≤ fuel)
    (hz : PtrHistory A st F0 h z) (ht : ∀ i, (t i).Runs ((calls i).prog st F fuel)) (sched : Nat → ι)
    {i : ι} (h1 : ∀ m, calls i ≠ .withdraw m) (h2 : ∀ m, calls i ≠ .activate m)
    (hfair : ∀ n, ∃ m, n ≤ m ∧ sched m = i) :
    ∃ n a, ((ptrStart A z t).exec ((List.range n).map sched)).pool i = .ret a := by
  obtain ⟨n, hn⟩ := Conf.ends (ptrStart A z t) sched i hfair
  refine ⟨n, ?_⟩
  cases hp : ((ptrStart A z t).exec ((List.range n).map sched)).pool i with
  | ret a => exact ⟨a, rfl⟩
  | act f k => rw [hp] at hn; exact hn.elim
  | panic => exact (pointer_no_panic hF hf hz ht _ i hp).elim
  | diverge =>
    obtain ⟨u', -, h3, -⟩ := pointer_refines (st := st) hz ht ((List.range n).map sched)
    exact ((concurrent_no_panic (calls := calls) hF hf hz.calm.2 u' i).2 h1 h2 (h3.diverge i hp)).elim

/-- C78: what is shown of calls on maps carries over, here: after an insert has returned on the
heap, a `contains` that starts later does not miss its prefix.  Partial: not for the default
route, see `contains_default_conc`. -/
theorem pointer_contains_partial [Fam W] (hF : 32 ≤ F) (hf : iterFuel W ≤ fuel)
    (hz : PtrHistory A st F0 h z) (ht : ∀ i, (t i).Runs ((calls i).prog st F fuel)) {u v : List ι} {i j : ι}
    {q : Prefix W} {r : Record M} {tbi : Option (Meta.TBI M)} (h0 : 0 < q.len)
    {a : Except StoreError UpsertReport} (ha : PtrReturned ((ptrStart A z t).exec u) i (.insert q r tbi) a)
    {b : Bool} (hj : j ∉ u) (hb : PtrReturned ((ptrStart A z t).exec (u ++ v)) j (.contains q none) b) :
    b = true := by
  obtain ⟨u', h1, h2, h3⟩ := pointer_refines (st := st) hz ht u
  obtain ⟨v', -, h4⟩ := h3 v
  obtain ⟨ei, ha⟩ := ha
  obtain ⟨ej, hb⟩ := hb
  exact concurrent_contains_complete_partial (calls := calls) (t := u') (u := v') hF hf hz.calm.2
    (fun hm => hj (h1.subset hm)) h0 (.inr ⟨i, r, tbi, a, ⟨ei, h2.ret i _ ha⟩, rfl⟩) ⟨ej, h4.ret j _ hb⟩

end

/-! ## Examples -/

namespace PtrDemo

open Demo

/-- An allocator that proposes the same addresses again and again. -/
def alloc (M : Type) (W : Nat) : PtrAlloc M W := ⟨⟨fun _ => 3, fun _ => 3⟩, ⟨fun _ => 5, fun _ => 5⟩⟩

/-- The hypotheses of the theorems hold for a store with five routes and two calls at the same
time. -/
example : ∃ (z : PtrRib Md 32) (t : ∀ i : Bool, PtrProg Md 32
      (if i then .insert host (rec1 1 2 3) none else .contains host none : Call Md 32).Ans),
    PtrHistory (alloc Md 32) .memoryOnly 32 hist z ∧
      (∀ i, (t i).Runs ((if i then .insert host (rec1 1 2 3) none else .contains host none :
        Call Md 32).prog .memoryOnly 32 (iterFuel 32))) ∧
      ∀ u i, ((ptrStart (alloc Md 32) z t).exec u).pool i ≠ .panic := by
  obtain ⟨s, hs, -⟩ := after_ok (o := exec .memoryOnly 32 hist) (chk := fun _ => true) (by decide +kernel)
  obtain ⟨z, hz, -⟩ := pointer_history_runs (A := alloc Md 32) hs
  choose t ht using fun i : Bool => pointer_calls (st := .memoryOnly) (F := 32) (fuel := iterFuel 32)
    (if i then .insert host (rec1 1 2 3) none else .contains host none : Call Md 32)
  exact ⟨z, t, hz, ht, fun u i => pointer_no_panic (Nat.le_refl _) (Nat.le_refl _) hz ht u i⟩

/-- Make the root node, or find it, then count in it. -/
def count (b : Nat) : PtrProg Unit 32 (BitVec 16) :=
  .nodes (.init ⟨b, [], 16⟩ 2 ⟨⟨0#32, 0⟩, 0#16, 0#32, 16, fun _ => false⟩) fun r =>
    .nodes (.access r.1.addr fun e : StoredNode 32 => (e.ptr, { e with ptr := e.ptr + 1 })) .ret

/-- It only follows pointers that it has found. -/
theorem count_runs (b : Nat) (hb : b < nodeRoots 32) : (count b).Runs (count b).onSlots := by
  refine ⟨rfl, .inl ⟨rfl, hb, rfl⟩, fun K r h => ?_⟩
  obtain ⟨id, nx, e, rfl⟩ := h
  refine ⟨⟨⟨nx, ?_⟩, fun e => ⟨rfl, rfl⟩⟩, fun _ _ _ => trivial⟩
  rw [e]
  exact .inr ⟨rfl, rfl⟩

/-- Two calls race to make the slice and the entry. -/
def race : Conf (PtrRib Unit 32) Bool fun _ => BitVec 16 :=
  (ptrStart (alloc Unit 32) PtrRib.empty fun _ => count 3).exec (List.replicate 14 [true, false]).flatten

/-- Both have counted, in the same entry. -/
example : ansIs (· == 0#16) (race.pool true) = true ∧ ansIs (· == 1#16) (race.pool false) = true ∧
    (race.st.view.tree.slots ⟨3, [2]⟩).map (·.ptr) = some 2#16 ∧
    (race.st.view.tree.slots ⟨3, [1]⟩).map (·.ptr) = none := by
  decide +kernel

/-- What the second call had made and freed is not there any more. -/
example : (race.st.nodes.boxes 3).isSome ∧ race.st.nodes.top = 6 ∧
    ∀ b < 6, b ≠ 3 → (race.st.nodes.boxes b).isNone ∧ (race.st.nodes.slices b).isNone := by
  decide +kernel

theorem first_then (n k : Nat) : (List.range (n + k)).map (fun k => decide (k < n)) =
    List.replicate n true ++ List.replicate k false := by
  rw [List.range_add, List.map_append, List.map_map]
  refine congrArg₂ (· ++ ·) ?_ ?_
  · refine List.eq_replicate_iff.2 ⟨by simp, fun x hx => ?_⟩
    obtain ⟨y, hy, rfl⟩ := List.mem_map.1 hx
    simpa using hy
  · refine List.eq_replicate_iff.2 ⟨by simp, fun x hx => ?_⟩
    obtain ⟨y, hy, rfl⟩ := List.mem_map.1 hx
    simp

/-- Both calls, the second after the first: they return, the second finds what the first has
inserted, and dropping the store then frees everything. -/
example : ∃ (z : PtrRib Md 32) (t : ∀ i : Bool, PtrProg Md 32
      (if i then .insert host (rec1 1 2 3) none else .contains host none : Call Md 32).Ans) (n m : Nat),
    PtrHistory (alloc Md 32) .memoryOnly 32 hist z ∧
      PtrReturned (calls := fun i => if i then .insert host (rec1 1 2 3) none else .contains host none)
        ((ptrStart (alloc Md 32) z t).exec (List.replicate n true ++ List.replicate m false)) false
        (.contains host none) true ∧
      ∃ d, ∀ fuel, d < fuel → ∃ y : PtrRib Md 32, (ptrDrop fuel).run ((ptrStart (alloc Md 32) z t).exec
        (List.replicate n true ++ List.replicate m false)).st = .ok () y ∧ y.nodes.Clean ∧ y.recs.Clean := by
  obtain ⟨s, hs, -⟩ := after_ok (o := exec .memoryOnly 32 hist) (chk := fun _ => true) (by decide +kernel)
  obtain ⟨z, hz, -⟩ := pointer_history_runs (A := alloc Md 32) hs
  choose t ht using fun i : Bool => pointer_calls (st := .memoryOnly) (F := 32) (fuel := iterFuel 32)
    (if i then .insert host (rec1 1 2 3) none else .contains host none : Call Md 32)
  obtain ⟨n, a, hn⟩ := pointer_calls_return (Nat.le_refl _) (Nat.le_refl _) hz ht (fun _ => true)
    (i := true) (fun _ e => by cases e) (fun _ e => by cases e) (fun k => ⟨k, Nat.le_refl _, rfl⟩)
  obtain ⟨m, b, hm⟩ := pointer_calls_return (Nat.le_refl _) (Nat.le_refl _) hz ht (fun k => decide (k < n))
    (i := false) (fun _ e => by cases e) (fun _ e => by cases e)
    (fun k => ⟨k + n, Nat.le_add_right _ _, by simp⟩)
  have e1 : (List.range n).map (fun _ => true) = List.replicate n true := by simp
  have e2 := first_then n
  rw [e1] at hn
  have hm' : ((ptrStart (alloc Md 32) z t).exec (List.replicate n true ++ List.replicate m false)).pool false =
      .ret b := by
    have e3 := e2 m
    rw [Nat.add_comm n m, List.range_add, List.map_append] at e3
    rw [← e3, Conf.exec_append]
    exact Conf.exec_ret hm _
  have hn' : ((ptrStart (alloc Md 32) z t).exec (List.replicate n true ++ List.replicate m false)).pool true =
      .ret a := by
    rw [Conf.exec_append]
    exact Conf.exec_ret hn _
  have hb : b = true := pointer_contains_partial (i := true) (j := false) (Nat.le_refl _) (Nat.le_refl _) hz ht
    (u := List.replicate n true) (v := List.replicate m false) (q := host) (r := rec1 1 2 3) (tbi := none)
    (a := a) (by decide) ⟨rfl, hn⟩ (fun h => by cases (List.mem_replicate.1 h).2) ⟨rfl, hm'⟩
  refine ⟨z, t, n, m, hz, ⟨rfl, ?_⟩, pointer_drop hz ht fun i => ?_⟩
  · exact hm'.trans (congrArg Prog.ret hb)
  · cases i with
    | true => exact .inr (.inr ⟨a, hn'⟩)
    | false => exact .inr (.inr ⟨b, hm'⟩)

end PtrDemo

end Rotonda.Props
