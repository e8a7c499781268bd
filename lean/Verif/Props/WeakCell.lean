import Verif.Proofs.WeakCellSim

/-!
# C60: the epoch-managed pointers under the memory model of Rust

Any number of threads make any calls on one pointer: the bitmap of withdrawn muis
(`StatusCall`s) or the path selections of a prefix (`SelectionCall`s).  `o.Sync c` says
which orderings call `c` needs.
-/

namespace Rotonda.Props
open Rotonda.Weak

variable {ι : Type} [DecidableEq ι] {o : CellOrders} {G : Nat} {v : Word}
  {calls : ι → List (CellCall Bool Word)}

/-- When every call has the orderings it needs, no execution has a data race. -/
theorem cell_race_free (h : ∀ i, ∀ c ∈ calls i, o.Sync c) (t : List (ι × Nat)) :
    ((cellStart o G v calls).exec t).races = [] := by
  obtain ⟨_, _, _, hc⟩ := cell_inv (o := o) (G := G) v calls t
  exact hc.races h

/-- Whatever the orderings, no thread uses a block that is not allocated. -/
theorem cell_no_dangling (t : List (ι × Nat)) : ((cellStart o G v calls).exec t).NoDangling := by
  obtain ⟨_, _, _, hc⟩ := cell_inv (o := o) (G := G) v calls t
  exact hc.dangling

/-- Whatever the orderings, the answers of all finished threads, the content and the tag
are those of an execution with sequentially consistent atomics, on the cell that the rest
of the model has. -/
theorem cell_sequentially_consistent (t : List (ι × Nat)) : ∃ t' : List ι,
    (∀ i as, ((cellStart o G v calls).exec t).pool i = .ret as →
      ((verThreads v calls).exec t').pool i = .ret as) ∧
    ∃ q x, (((cellStart o G v calls).exec t).mem cellLoc).getLast? = some q ∧
      ((cellStart o G v calls).exec t).mem (addrOf q.val) = [x] ∧
      ((verThreads v calls).exec t').st.val = x.val ∧ ((verThreads v calls).exec t').st.tag = tagOf q.val := by
  obtain ⟨H, own, segs, hc⟩ := cell_inv (o := o) (G := G) v calls t
  refine ⟨segs.flatten, fun i as hi => ?_, ?_⟩
  · have := hc.sims i
    rw [hi] at this
    exact this.2
  · obtain ⟨e, he⟩ := hc.last
    have hl := last_get he
    obtain ⟨q, hq, hqv, -⟩ := hc.msg _ e hl
    obtain ⟨hb, -⟩ := hc.blocks _ e hl
    have hst := hc.segsSt _ e hl
    rw [Nat.sub_add_cancel hc.pos, ← hc.segsLen, List.take_length] at hst
    refine ⟨q, ⟨e.st.val, false, .none⟩, ?_, ?_, ?_, ?_⟩
    · rw [List.getLast?_eq_getElem?, hc.len]; exact hq
    · rw [hqv, addrOf_word]; exact hb
    · rw [hst]
    · rw [hst, hqv, tagOf_word]

/-- The orderings in the code of the bitmap of withdrawn muis suffice. -/
theorem status_race_free (h : ∀ i, ∀ c ∈ calls i, StatusCall c) (t : List (ι × Nat)) :
    ((cellStart statusOrders G v calls).exec t).races = [] := by
  refine cell_race_free (fun i c hc => ?_) t
  have := h i c hc
  cases c with
  | read => rfl
  | modify => exact ⟨rfl, rfl, rfl⟩
  | tag | set | mark => exact this.elim

/-- The orderings in the code of the path selections suffice. -/
theorem selection_race_free (h : ∀ i, ∀ c ∈ calls i, SelectionCall c) (t : List (ι × Nat)) :
    ((cellStart selectionOrders G v calls).exec t).races = [] := by
  refine cell_race_free (fun i c hc => ?_) t
  have := h i c hc
  cases c with
  | read => rfl
  | tag | mark => trivial
  | set => exact ⟨rfl, rfl⟩
  | modify => exact this.elim

/-! ## The orderings that are needed -/

section
private abbrev ords : List MemOrd := [.relaxed, .acquire, .release, .acqRel, .seqCst]

private theorem mem_ords (m : MemOrd) : m ∈ ords := by cases m <;> decide

private abbrev pair (c d : CellCall Bool Word) : Bool → List (CellCall Bool Word) := fun b =>
  if b then [c] else [d]

/-- The `true` thread changes the pointer, then the other one follows it. -/
private abbrev after : List (Bool × Nat) := List.replicate 4 (true, 0) ++ List.replicate 2 (false, 1)

/-- The `true` thread changes the pointer when the other one is about to. -/
private abbrev meanwhile : List (Bool × Nat) :=
  List.replicate 3 (false, 0) ++ List.replicate 4 (true, 0) ++ List.replicate 2 (false, 1)

private abbrev change : CellCall Bool Word := .modify 0 fun _ => none

private abbrev assign : CellCall Bool Word := .set (fun _ => false) none

private theorem need_modify : ∀ g ∈ ords, ∀ c ∈ ords, ∀ ok ∈ ords, ∀ err ∈ ords,
    (¬ (g.acquires = true ∧ ok.releases = true) →
      ((cellStart ⟨g, c, ok, err, .relaxed, .relaxed, .relaxed⟩ 0 none (pair change .read)).exec after).races ≠ []) ∧
    (c.acquires = false →
      ((cellStart ⟨g, c, ok, err, .relaxed, .relaxed, .relaxed⟩ 0 none (pair change change)).exec after).races ≠ []) ∧
    (err.acquires = false →
      ((cellStart ⟨g, c, ok, err, .relaxed, .relaxed, .relaxed⟩ 0 none (pair change change)).exec meanwhile).races ≠ []) := by
  decide +kernel

private theorem need_set : ∀ g ∈ ords, ∀ c ∈ ords, ∀ ok ∈ ords, ∀ err ∈ ords,
    (¬ (g.acquires = true ∧ ok.releases = true) →
      ((cellStart ⟨g, c, ok, err, .relaxed, .relaxed, .relaxed⟩ 0 none (pair assign .read)).exec after).races ≠ []) ∧
    (c.acquires = false →
      ((cellStart ⟨g, c, ok, err, .relaxed, .relaxed, .relaxed⟩ 0 none (pair assign assign)).exec after).races ≠ []) := by
  decide +kernel

private theorem start_modify (o : CellOrders) {c : CellCall Bool Word} (hc : c = .read ∨ c = change) :
    cellStart o 0 none (pair change c) =
      cellStart ⟨o.get, o.cur, o.ok, o.err, .relaxed, .relaxed, .relaxed⟩ 0 none (pair change c) := by
  unfold cellStart
  congr 1
  funext b
  cases b <;> rcases hc with rfl | rfl <;> rfl

private theorem start_set (o : CellOrders) {c : CellCall Bool Word} (hc : c = .read ∨ c = assign) :
    cellStart o 0 none (pair assign c) =
      cellStart ⟨o.get, o.cur, o.ok, o.err, .relaxed, .relaxed, .relaxed⟩ 0 none (pair assign c) := by
  unfold cellStart
  congr 1
  funext b
  cases b <;> rcases hc with rfl | rfl <;> rfl

private theorem pair_all {P : CellCall Bool Word → Prop} {c d : CellCall Bool Word} (hc : P c) (hd : P d) :
    ∀ b, ∀ e ∈ pair c d b, P e := by
  intro b e he
  cases b
  · rw [List.mem_singleton.1 he]; exact hd
  · rw [List.mem_singleton.1 he]; exact hc

end

/-- What the bitmap of withdrawn muis needs: acquiring loads, a releasing
compare-and-swap, and an acquiring failure of it.  For every other choice two threads
race. -/
theorem status_race_free_iff :
    (∀ (G : Nat) (v : Word) (calls : Bool → List (CellCall Bool Word)), (∀ i, ∀ c ∈ calls i, StatusCall c) →
      ∀ t, ((cellStart o G v calls).exec t).races = []) ↔
    (o.get.acquires = true ∧ o.cur.acquires = true ∧ o.ok.releases = true ∧ o.err.acquires = true) := by
  constructor
  · intro h
    obtain ⟨n1, n2, n3⟩ := need_modify o.get (mem_ords _) o.cur (mem_ords _) o.ok (mem_ords _) o.err (mem_ords _)
    have r1 := h 0 none (pair change .read) (pair_all trivial trivial) after
    have r2 := h 0 none (pair change change) (pair_all trivial trivial) after
    have r3 := h 0 none (pair change change) (pair_all trivial trivial) meanwhile
    rw [start_modify o (.inl rfl)] at r1
    rw [start_modify o (.inr rfl)] at r2 r3
    have h1 := not_not.1 (mt n1 (not_not.2 r1))
    have h2 := mt n2 (not_not.2 r2)
    have h3 := mt n3 (not_not.2 r3)
    exact ⟨h1.1, by simpa using h2, h1.2, by simpa using h3⟩
  · rintro ⟨h1, h2, h3, h4⟩ G v calls hc t
    refine cell_race_free (fun i c hic => ?_) t
    have := hc i c hic
    cases c with
    | read => exact h1
    | modify => exact ⟨h2, h3, h4⟩
    | tag | set | mark => exact this.elim

/-- What the path selections of a prefix need: acquiring loads of the selections and a
releasing compare-and-swap that replaces them.  The orderings of setting and reading the
tag do not matter, nor that of a failing replacement. -/
theorem selection_race_free_iff :
    (∀ (G : Nat) (v : Word) (calls : Bool → List (CellCall Bool Word)), (∀ i, ∀ c ∈ calls i, SelectionCall c) →
      ∀ t, ((cellStart o G v calls).exec t).races = []) ↔
    (o.get.acquires = true ∧ o.cur.acquires = true ∧ o.ok.releases = true) := by
  constructor
  · intro h
    obtain ⟨n1, n2⟩ := need_set o.get (mem_ords _) o.cur (mem_ords _) o.ok (mem_ords _) o.err (mem_ords _)
    have r1 := h 0 none (pair assign .read) (pair_all trivial trivial) after
    have r2 := h 0 none (pair assign assign) (pair_all trivial trivial) after
    rw [start_set o (.inl rfl)] at r1
    rw [start_set o (.inr rfl)] at r2
    have h1 := not_not.1 (mt n1 (not_not.2 r1))
    have h2 := mt n2 (not_not.2 r2)
    exact ⟨h1.1, by simpa using h2, h1.2⟩
  · rintro ⟨h1, h2, h3⟩ G v calls hc t
    refine cell_race_free (fun i c hic => ?_) t
    have := hc i c hic
    cases c with
    | read => exact h1
    | tag | mark => trivial
    | set => exact ⟨h2, h3⟩
    | modify => exact this.elim

/-! ## Examples -/

/-- Three threads on the path selections: one replaces them, one marks them outdated and
replaces them, one reads. -/
def cellCalls : Nat → List (CellCall Bool Word)
  | 0 => [.set (· == some 5) (some 5), .tag]
  | 1 => [.mark true, .set (· == some 7) (some 7), .read]
  | 2 => [.read, .tag, .read]
  | _ => []

theorem cellCalls_selection : ∀ i, ∀ c ∈ cellCalls i, SelectionCall c := by
  intro i c hc
  match i with
  | 0 => simp [cellCalls] at hc; rcases hc with rfl | rfl <;> trivial
  | 1 => simp [cellCalls] at hc; rcases hc with rfl | rfl | rfl <;> trivial
  | 2 => simp [cellCalls] at hc; rcases hc with rfl | rfl | rfl <;> trivial
  | _ + 3 => cases hc

/-- An interleaving: the third thread reads the first selection after it was replaced. -/
def cellTrace : List (Nat × Nat) :=
  [(0, 0), (1, 0), (0, 0), (1, 0), (0, 1), (0, 9), (1, 9), (1, 9), (1, 9), (0, 9), (0, 9), (0, 9), (2, 0), (2, 0),
    (1, 9), (2, 1), (2, 2), (2, 2), (1, 9), (1, 9), (0, 9), (0, 9), (0, 9)]

abbrev cellRun : Mach Nat (List (CellAns Bool Word)) :=
  (cellStart selectionOrders 4 (some 3) cellCalls).exec cellTrace

deriving instance DecidableEq for CellAns

/-- The answers of a finished thread. -/
def cellResult : WProg (List (CellAns Bool Word)) → Option (List (CellAns Bool Word))
  | .ret as => some as
  | _ => none

theorem eq_cellRet {p : WProg (List (CellAns Bool Word))} {as : List (CellAns Bool Word)}
    (h : cellResult p = some as) : p = .ret as := by
  cases p <;> simp [cellResult] at h
  rw [h]

/-- The first thread is refused; the third one reads the old selections and the new tag
after both were replaced. -/
theorem cellRun_result : cellRun.pool 0 = .ret [.refused, .tag true] ∧
    cellRun.pool 1 = .ret [.ok, .ok, .val (some 7)] ∧
    cellRun.pool 2 = .ret [.val (some 3), .tag true, .val (some 7)] :=
  ⟨eq_cellRet (by decide +kernel), eq_cellRet (by decide +kernel), eq_cellRet (by decide +kernel)⟩

example : cellRun.races = [] := selection_race_free cellCalls_selection cellTrace

example : cellRun.NoDangling := cell_no_dangling cellTrace

example : ∃ t', ((verThreads (some 3) cellCalls).exec t').pool 0 = .ret [.refused, .tag true] ∧
    ((verThreads (some 3) cellCalls).exec t').pool 2 = .ret [.val (some 3), .tag true, .val (some 7)] ∧
    ((verThreads (some 3) cellCalls).exec t').st.val = some 7 := by
  obtain ⟨t', h, q, x, hq, hx, hv, -⟩ := cell_sequentially_consistent (o := selectionOrders) (G := 4) (v := some 3)
    (calls := cellCalls) cellTrace
  refine ⟨t', h 0 _ cellRun_result.1, h 2 _ cellRun_result.2.2, hv.trans ?_⟩
  have h1 : (cellRun.mem cellLoc).getLast?.map (·.val) = some (some 8) := by decide +kernel
  have h2 : (cellRun.mem 4).map (·.val) = [some 7] := by decide +kernel
  rw [hq] at h1
  rw [show q.val = some 8 from Option.some.inj h1, show addrOf (some 8) = 4 from rfl] at hx
  rw [hx] at h2
  exact (List.cons.inj h2).1

/-- Two threads set bits of one bitmap; the second one has to retry. -/
def statusCalls : Bool → List (CellCall Bool Word) := fun b =>
  if b then [.modify 2 fun v => v.map (· + 1), .read] else [.modify 2 fun v => v.map (· + 2), .read]

example (t : List (Bool × Nat)) : ((cellStart statusOrders 0 (some 0) statusCalls).exec t).races = [] := by
  refine status_race_free (fun b c hc => ?_) t
  cases b <;> simp [statusCalls] at hc <;> rcases hc with rfl | rfl <;> trivial

/-- The same with the compare-and-swap of the code, but relaxed when it fails. -/
example : ¬ ∀ (G : Nat) (v : Word) (calls : Bool → List (CellCall Bool Word)),
    (∀ i, ∀ c ∈ calls i, StatusCall c) →
    ∀ t, ((cellStart { statusOrders with err := .relaxed } G v calls).exec t).races = [] := fun h =>
  absurd (status_race_free_iff.1 h).2.2.2 (by decide)

/-- For the path selections that is enough. -/
example (t : List (Nat × Nat)) :
    ((cellStart { selectionOrders with err := .relaxed } 4 (some 3) cellCalls).exec t).races = [] := by
  refine cell_race_free (fun i c hc => ?_) t
  have := cellCalls_selection i c hc
  cases c with
  | read => rfl
  | tag | mark => trivial
  | set => exact ⟨rfl, rfl⟩
  | modify => exact this.elim

example : ¬ ∀ (G : Nat) (v : Word) (calls : Bool → List (CellCall Bool Word)),
    (∀ i, ∀ c ∈ calls i, SelectionCall c) →
    ∀ t, ((cellStart { selectionOrders with get := .relaxed } G v calls).exec t).races = [] := fun h =>
  absurd (selection_race_free_iff.1 h).1 (by decide)

end Rotonda.Props
