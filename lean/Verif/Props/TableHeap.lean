import Verif.Proofs.TableHeapRun

/-!
# The memory of a whole chained hash table: C76

Any number of calls on one new table, interleaved by any schedule, with any allocator.  Each
call walks down a chain and makes the slices and entries that are not there, if it is a
creating one.  In the end the table is dropped.
-/

namespace Rotonda.Props

open Prog TabHeap

variable {T ι : Type} [DecidableEq ι] {A : TabAlloc T} {Z : TabShape T} {levels : Nat}
  {calls : ι → Walk T}

/-- C76: no call ever uses a block that is not allocated, or frees one twice. -/
theorem table_safe (t : List ι) (i : ι) : ((tabStart A Z levels calls).exec t).pool i ≠ .panic ∧
    ((tabStart A Z levels calls).exec t).pool i ≠ .diverge := by
  obtain ⟨pcs, ds, db, h1, h2, -⟩ := tab_run (A := A) (Z := Z) (levels := levels) calls t
  rw [h2 i]
  refine ⟨TPc.not_panic fun e => ?_, fun e => ?_⟩
  · have := h1.good i; rw [e] at this; exact this
  · cases hpc : pcs i with
    | done a => rw [hpc] at e; cases e
    | failed => rw [hpc] at e; cases e
    | _ => rw [hpc] at e; change Prog.act _ _ = _ at e; cases e

/-- C76: a call returns after at most eleven turns of its own for each level, whatever the
others do. -/
theorem table_wait_free {t : List ι} {i : ι} (ht : 11 * levels ≤ t.count i) :
    ∃ a, ((tabStart A Z levels calls).exec t).pool i = .ret a := by
  obtain ⟨pcs, ds, db, h1, h2, h3, -⟩ := tab_run (A := A) (Z := Z) (levels := levels) calls t
  have := h3 i
  cases hpc : pcs i with
  | done a => exact ⟨a, by rw [h2 i, hpc]; rfl⟩
  | failed => have hg := h1.good i; rw [hpc] at hg; exact hg.elim
  | _ => rw [hpc] at this; simp [TPc.rank] at this; omega

/-- C76: a reference that a call has returned is valid for ever: at all later times it leads
to the same entry, which is the one that the pointers lead to on the path of the call, and
the one that the call was looking for. -/
theorem table_reference {t : List ι} {i : ι} {b : Nat}
    (h : ((tabStart A Z levels calls).exec t).pool i = .ret (some b)) :
    ∃ n e fresh, n < levels ∧ (calls i).stop fresh e = true ∧ ∀ u,
      ((tabStart A Z levels calls).exec (t ++ u)).st.entryAt (calls i).root (calls i).idx n = some b ∧
      ((tabStart A Z levels calls).exec (t ++ u)).st.valueAt b = some e := by
  obtain ⟨pcs, ds, db, h1, h2, -⟩ := tab_run (A := A) (Z := Z) (levels := levels) calls t
  have hg := h1.good i
  rw [TPc.ret_iff ((h2 i).symm.trans h)] at hg
  obtain ⟨n, e, f, h3, h4, h5, h6⟩ := hg
  refine ⟨n, e, f, h3, h6, fun u => ?_⟩
  have hgrow := tab_grow (A := A) (Z := Z) (levels := levels) calls t u
  obtain ⟨x, j, hx⟩ := entryAt_cell h4
  exact ⟨hgrow.entryAt h4, (hgrow.value _ _ _ hx).trans h5⟩

/-- C76: an entry stays where it is, and is not made again. -/
theorem table_stays {t : List ι} {r n b : Nat} {idx : Nat → Nat}
    (h : ((tabStart A Z levels calls).exec t).st.entryAt r idx n = some b) (u : List ι) :
    ((tabStart A Z levels calls).exec (t ++ u)).st.entryAt r idx n = some b ∧
    ((tabStart A Z levels calls).exec (t ++ u)).st.valueAt b =
      ((tabStart A Z levels calls).exec t).st.valueAt b := by
  have hgrow := tab_grow (A := A) (Z := Z) (levels := levels) calls t u
  obtain ⟨x, j, hx⟩ := entryAt_cell h
  exact ⟨hgrow.entryAt h, hgrow.value _ _ _ hx⟩

/-- C76: different paths lead to different entries. -/
theorem table_apart {t : List ι} {r r' n n' b : Nat} {idx idx' : Nat → Nat}
    (h : ((tabStart A Z levels calls).exec t).st.entryAt r idx n = some b)
    (h' : ((tabStart A Z levels calls).exec t).st.entryAt r' idx' n' = some b) :
    r = r' ∧ n = n' ∧ ∀ m ≤ n, idx m = idx' m := by
  obtain ⟨pcs, ds, db, h1, -⟩ := tab_run (A := A) (Z := Z) (levels := levels) calls t
  exact h1.heap.path_inj h h'

/-- C76: every entry was made by a creating call with this path, for this level. -/
theorem table_made {t : List ι} {r n b : Nat} {idx : Nat → Nat}
    (h : ((tabStart A Z levels calls).exec t).st.entryAt r idx n = some b) :
    ∃ j, (calls j).create = true ∧ (calls j).root = r ∧ (∀ m ≤ n, (calls j).idx m = idx m) ∧
      ((tabStart A Z levels calls).exec t).st.valueAt b = some ((calls j).val n) := by
  obtain ⟨pcs, ds, db, h1, -⟩ := tab_run (A := A) (Z := Z) (levels := levels) calls t
  exact (h1.path_lt h).2

/-- C76: a call that starts when the entry it looks for is in the table returns this entry. -/
theorem table_found {t : List ι} {k : ι} {n b : Nat} (hk : k ∉ t)
    (hb : ((tabStart A Z levels calls).exec t).st.entryAt (calls k).root (calls k).idx n = some b)
    (hs : ∀ m ≤ n, ∀ a e,
      ((tabStart A Z levels calls).exec t).st.entryAt (calls k).root (calls k).idx m = some a →
      ((tabStart A Z levels calls).exec t).st.valueAt a = some e →
      ((calls k).stop false e = true ↔ m = n)) {u : List ι} {a : Option Nat}
    (ha : ((tabStart A Z levels calls).exec (t ++ u)).pool k = .ret a) : a = some b := by
  obtain ⟨pcs, ds, db, -, h2, h3⟩ := tab_late hk hb hs u
  rw [TPc.ret_iff ((h2 k).symm.trans ha)] at h3
  exact h3

/-- C76, full statement: once every call that was started has returned, dropping the table frees
all memory.  Proved for the slices and the entries, and nothing is freed twice; missing are the
epoch-managed blocks of the entries, for which it is false (`table_leaks`).  The
recursion goes no deeper than the number of levels. -/
theorem table_drop_partial {t : List ι} {R fuel : Nat}
    (hq : ∀ i ∈ t, ∃ a, ((tabStart A Z levels calls).exec t).pool i = .ret a)
    (hr : ∀ i, (calls i).root < R) (hf : levels + 1 < fuel) :
    ∃ h, (tabDrop Z fuel R).run ((tabStart A Z levels calls).exec t).st = .ok () h ∧ h.Clean := by
  obtain ⟨pcs, ds', db', h0, -⟩ := tab_run (A := A) (Z := Z) (levels := levels) calls t
  obtain ⟨ds, db, h1⟩ := tab_quiet hq
  obtain ⟨h, h2, h3, h4, h5⟩ := run_tabDrop hf R _ h1
  refine ⟨h, h2, h3.clean fun r => ?_⟩
  by_cases hR : r < R
  · exact h4 r hR
  · refine h5.root_none ?_
    by_contra hne
    obtain ⟨i, hi⟩ := h0.rooted r hne
    exact hR (hi ▸ hr i)

/-- C76: the epoch-managed blocks of the entries are not freed: there is at least one for
each entry of a table of prefixes, and dropping the table leaves all of them allocated. -/
theorem table_leaks {t : List ι} {R fuel : Nat}
    (hq : ∀ i ∈ t, ∃ a, ((tabStart A Z levels calls).exec t).pool i = .ret a)
    (hf : levels + 1 < fuel) {L : List Nat} (hL : L.Nodup)
    (hb : ∀ b ∈ L, ((tabStart A Z levels calls).exec t).st.boxes b ≠ none) :
    ∃ h, (tabDrop Z fuel R).run ((tabStart A Z levels calls).exec t).st = .ok () h ∧
      h.atoms = ((tabStart A Z levels calls).exec t).st.atoms ∧ Z.atoms * L.length ≤ h.atoms := by
  obtain ⟨pcs, ds', db', h0, -⟩ := tab_run (A := A) (Z := Z) (levels := levels) calls t
  obtain ⟨ds, db, h1⟩ := tab_quiet hq
  obtain ⟨h, h2, h3, h4, h5⟩ := run_tabDrop hf R _ h1
  exact ⟨h, h2, h5.atoms, h5.atoms ▸ h0.atoms L hL hb⟩

/-! ## Examples -/

namespace TableDemo

/-- The first two calls make the entries 1 and 2 on the same path, the third looks for 2. -/
def workers : Fin 3 → Walk Nat
  | 2 => ⟨0, fun _ => 1, false, fun _ => 0, fun _ e => e == 2⟩
  | _ => ⟨0, fun _ => 1, true, fun n => if n = 0 then 1 else 2, fun _ e => e == 2⟩

/-- Slices of two boxes, one epoch-managed block for each entry. -/
def shape : TabShape Nat := ⟨fun _ => 2, fun _ => 2, 1⟩

/-- An allocator that proposes the same address again and again. -/
def alloc : TabAlloc Nat := ⟨fun _ => 3, fun _ => 3⟩

/-- The first two calls race, turn by turn. -/
def race : List (Fin 3) := (List.replicate 22 [0, 1]).flatten

/-- The answer of a call. -/
def answer (i : Fin 3) (t : List (Fin 3)) : Option (Option Nat) :=
  match ((tabStart alloc shape 2 workers).exec t).pool i with
  | .ret a => some a
  | _ => none

theorem answer_ret {i : Fin 3} {t : List (Fin 3)} {a : Option Nat} (h : answer i t = some a) :
    ((tabStart alloc shape 2 workers).exec t).pool i = .ret a := by
  unfold answer at h
  split at h
  · rename_i e; rw [e]; cases h; rfl
  · cases h

/-- When no one is under way. -/
theorem race_quiet : ∀ i ∈ race, ∃ a, ((tabStart alloc shape 2 workers).exec race).pool i = .ret a := by
  intro i hi
  have : ∀ i ∈ race, answer i race = some (some 7) := by decide +kernel
  exact ⟨_, answer_ret (this i hi)⟩

end TableDemo

open TableDemo

/-- The two calls get the same entry.  Each of them has made two entries, two of them in
vain; these were freed, but not their epoch-managed blocks. -/
example : answer 0 race = some (some 7) ∧ answer 1 race = some (some 7) ∧
    ((tabStart alloc shape 2 workers).exec race).st.valueAt 7 = some 2 ∧
    ((tabStart alloc shape 2 workers).exec race).st.atoms = 4 := by decide +kernel

example (t : List (Fin 3)) : ((tabStart alloc shape 2 workers).exec t).pool 0 ≠ .panic :=
  (table_safe t 0).1

example : ∃ a, ((tabStart alloc shape 2 workers).exec race).pool 1 = .ret a :=
  table_wait_free (by decide +kernel)

example : ∃ n e fresh, n < 2 ∧ (workers 1).stop fresh e = true ∧ ∀ u,
    ((tabStart alloc shape 2 workers).exec (race ++ u)).st.entryAt 0 (fun _ => 1) n = some 7 ∧
    ((tabStart alloc shape 2 workers).exec (race ++ u)).st.valueAt 7 = some e :=
  table_reference (answer_ret (i := 1) (by decide +kernel))

example (u : List (Fin 3)) :
    ((tabStart alloc shape 2 workers).exec (race ++ u)).st.entryAt 0 (fun _ => 1) 1 = some 7 :=
  (table_stays (t := race) (by decide +kernel) u).1

example {idx : Nat → Nat}
    (h : ((tabStart alloc shape 2 workers).exec race).st.entryAt 0 idx 1 = some 7) : idx 0 = 1 :=
  (table_apart (t := race) (n := 1) (r' := 0) (n' := 1) (idx' := fun _ => 1) h
    (by decide +kernel)).2.2 0 (by decide)

example : ∃ j, (workers j).create = true ∧ (workers j).root = 0 ∧
    (∀ m ≤ 1, (workers j).idx m = 1) ∧
    ((tabStart alloc shape 2 workers).exec race).st.valueAt 7 = some ((workers j).val 1) :=
  table_made (n := 1) (idx := fun _ => 1) (by decide +kernel)

/-- The third call, when it starts after the race, finds the entry. -/
example (u : List (Fin 3)) (a : Option Nat)
    (ha : ((tabStart alloc shape 2 workers).exec (race ++ u)).pool 2 = .ret a) : a = some 7 := by
  refine table_found (n := 1) (by decide) (by decide +kernel) (fun m hm a e h1 h2 => ?_) ha
  have h3 : ∀ m ≤ 1, (((tabStart alloc shape 2 workers).exec race).st.entryAt 0 (fun _ => 1) m).bind
      ((tabStart alloc shape 2 workers).exec race).st.valueAt = some (if m = 1 then 2 else 1) := by
    decide +kernel
  have h4 := h3 m hm
  change (((tabStart alloc shape 2 workers).exec race).st.entryAt 0 (fun _ => 1) m) = _ at h1
  rw [h1, Option.bind_some, h2] at h4
  injection h4 with h4
  change (e == 2) = true ↔ _
  subst h4
  split <;> simp_all

/-- ... and there is a run in which it has returned. -/
example : answer 2 (race ++ List.replicate 22 2) = some (some 7) := by decide +kernel

example : ∃ h, (tabDrop shape 4 1).run ((tabStart alloc shape 2 workers).exec race).st = .ok () h ∧ h.Clean :=
  table_drop_partial race_quiet (by decide) (by decide)

/-- Two entries are in the table; after it is dropped at least two blocks are left. -/
example : ∃ h, (tabDrop shape 4 1).run ((tabStart alloc shape 2 workers).exec race).st = .ok () h ∧
    h.atoms = 4 ∧ shape.atoms * 2 ≤ h.atoms := by
  obtain ⟨h, h1, h2, h3⟩ := table_leaks (R := 1) (fuel := 4) race_quiet (by decide) (L := [3, 7])
    (by decide) (by
      have : ∀ b ∈ [3, 7], (((tabStart alloc shape 2 workers).exec race).st.boxes b).isSome := by
        decide +kernel
      intro b hb e
      have := this b hb
      rw [e] at this
      cases this)
  exact ⟨h, h1, h2.trans (by decide +kernel), h3⟩

end Rotonda.Props
