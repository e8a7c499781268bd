import Verif.Proofs.Epoch

/-!
# The memory of the status bitmap and of the path selections: C57

Any number of calls on one epoch-managed pointer (`TreeBitMap::withdrawn_muis_bmin` or
`StoredPrefix::path_selections`), interleaved by any schedule, with the heap and any
allocator.
-/

namespace Rotonda.Props

open Prog EpochHeap

variable {τ V ι : Type} [DecidableEq τ] [DecidableEq ι] {A : EpochAlloc τ V} {t0 : τ} {v : V}
  {calls : ι → CellCall τ V}

/-- C57: no call ever uses or frees a block that is not allocated. -/
theorem epoch_safe (t : List ι) (i : ι) : ((heapStart A t0 v calls).exec t).pool i ≠ .panic := by
  obtain ⟨_, _, _, pcs, _, hs, _⟩ := epoch_run A t0 v calls t
  rw [hs.heap i]
  exact EPc.no_panic

/-- C57: a reference obtained from the pointer at any time stays valid and its target
unchanged for ever. -/
theorem epoch_reference_valid (t u : List ι) :
    ∃ w, ((heapStart A t0 v calls).exec t).st.blocks ((heapStart A t0 v calls).exec t).st.ptr = some w ∧
      ((heapStart A t0 v calls).exec (t ++ u)).st.blocks ((heapStart A t0 v calls).exec t).st.ptr = some w := by
  obtain ⟨_, log, _, _, _, hs, _⟩ := epoch_run A t0 v calls t
  obtain ⟨_, _, _, _, _, _, _, hb, _⟩ := hs.run u
  have hm : ((heapStart A t0 v calls).exec t).st.ptr ∈ log := List.mem_of_getElem? hs.inv.last
  obtain ⟨w, hw⟩ := hs.inv.kept _ hm
  refine ⟨w, hw, ?_⟩
  rw [Conf.exec_append]
  exact (hb _ hm).trans hw

/-- A state with the heap and one with version numbers that agree: the value and the tag
are the same, and so are the answers. -/
def Agrees (ch : Conf (EpochHeap τ V) ι (fun _ => CellAns τ V))
    (cv : Conf (VerCell τ V) ι (fun _ => CellAns τ V)) : Prop :=
  ch.st.blocks ch.st.ptr = some cv.st.val ∧ ch.st.tag = cv.st.tag ∧
  ∀ i, (∀ a, ch.pool i = .ret a → cv.pool i = .ret a) ∧ (ch.pool i = .diverge → cv.pool i = .diverge)

omit [DecidableEq ι] in
theorem agrees_of_sim {ch : Conf (EpochHeap τ V) ι (fun _ => CellAns τ V)}
    {cv : Conf (VerCell τ V) ι (fun _ => CellAns τ V)} {log : List Nat} {who : List ι} {pcs : ι → EPc τ V}
    (hs : EpochSim A t0 calls ch cv log who pcs) : Agrees ch cv := by
  refine ⟨hs.inv.val, hs.inv.tag.symm, fun i => ⟨fun a ha => ?_, fun hd => ?_⟩⟩
  · rw [hs.heap i] at ha
    obtain ⟨s, e⟩ := EPc.ret_iff ha
    rw [hs.ver i, e]; rfl
  · rw [hs.heap i] at hd
    rw [hs.ver i, EPc.diverge_iff hd]; rfl

/-- C57: the version numbers that the rest of the model keeps for a pointer are as good as
the pointer: every run with the heap is a run on version numbers, with some of the turns
left out, and they agree at any two points of the run. -/
theorem epoch_refines_versions (t u : List ι) : ∃ t' u', t'.Sublist t ∧ u'.Sublist u ∧
    Agrees ((heapStart A t0 v calls).exec t) ((verStart t0 v calls).exec t') ∧
    Agrees ((heapStart A t0 v calls).exec (t ++ u)) ((verStart t0 v calls).exec (t' ++ u')) := by
  obtain ⟨t', _, _, _, h1, hs, _⟩ := epoch_run A t0 v calls t
  obtain ⟨u', _, _, _, h2, hs', _⟩ := hs.run u
  refine ⟨t', u', h1, h2, agrees_of_sim hs, ?_⟩
  rw [Conf.exec_append, Conf.exec_append]
  exact agrees_of_sim hs'

/-- C57: what is allocated when every call that was given a turn has returned: the block
in the pointer, and one block for each call that has swapped the pointer.  Every status
change that has returned has swapped it; the other calls that have are successful changes
of the path selections. -/
theorem epoch_blocks_partial {t : List ι}
    (hq : ∀ i ∈ t, ∃ a, ((heapStart A t0 v calls).exec t).pool i = .ret a) :
    ∃ (blocks : List Nat) (swapped : List ι), blocks.Nodup ∧ swapped.Nodup ∧
      (∀ x, x ∈ blocks ↔ ∃ w, ((heapStart A t0 v calls).exec t).st.blocks x = some w) ∧
      ((heapStart A t0 v calls).exec t).st.ptr ∈ blocks ∧
      blocks.length = swapped.length + 1 ∧
      (∀ i ∈ swapped, ((heapStart A t0 v calls).exec t).pool i = .ret .ok ∨
        ∃ F f, calls i = .modify F f) ∧
      (∀ i ∈ swapped, (∃ F f, calls i = .modify F f) ∨ ∃ same w, calls i = .set same w) ∧
      ∀ i F f a, calls i = .modify F f → ((heapStart A t0 v calls).exec t).pool i = .ret a → i ∈ swapped := by
  obtain ⟨_, log, who, pcs, _, hs, hidle⟩ := epoch_run A t0 v calls t
  have hnone : ∀ i, (pcs i).own = none := by
    intro i
    by_cases hi : i ∈ t
    · obtain ⟨a, ha⟩ := hq i hi
      rw [hs.heap i] at ha
      obtain ⟨s, e⟩ := EPc.ret_iff ha
      rw [e]; rfl
    · rw [hidle i hi]; rfl
  refine ⟨log, who, hs.inv.nodup, hs.inv.whoNodup, fun x => ⟨hs.inv.kept x, fun ⟨w, hw⟩ => ?_⟩,
    List.mem_of_getElem? hs.inv.last, by rw [hs.inv.len, hs.inv.whoLen], fun i hi => ?_, fun i hi => ?_,
    fun i F f a hc ha => ?_⟩
  · rcases hs.inv.live x w hw with e | ⟨i, hi⟩
    · exact e
    · rw [hnone i] at hi; cases hi
  · obtain ⟨a, ha⟩ := (hs.inv.whoIff i).1 hi
    have hof := hs.inv.of i
    rw [ha] at hof
    cases hc : calls i with
    | modify F f => exact .inr ⟨F, f, rfl⟩
    | set same w =>
      rw [hc] at hof
      have : a = .ok := hof rfl
      left; rw [hs.heap i, ha, this]; rfl
    | _ => rw [hc] at hof; cases hof
  · obtain ⟨a, ha⟩ := (hs.inv.whoIff i).1 hi
    have hof := hs.inv.of i
    rw [ha] at hof
    cases hc : calls i with
    | modify F f => exact .inl ⟨F, f, rfl⟩
    | set same w => exact .inr ⟨same, w, rfl⟩
    | _ => rw [hc] at hof; cases hof
  · rw [hs.heap i] at ha
    obtain ⟨s, e⟩ := EPc.ret_iff ha
    have hof := hs.inv.of i
    rw [e, hc] at hof
    have : s = true := hof
    rw [hs.inv.whoIff i, e, this]
    exact ⟨a, rfl⟩

/-- C57 is false in that blocks that were swapped out are never freed: each status change
that has returned leaves one block to which no pointer leads. -/
theorem epoch_leaks {t : List ι}
    (hq : ∀ i ∈ t, ∃ a, ((heapStart A t0 v calls).exec t).pool i = .ret a) (is : List ι) (hn : is.Nodup)
    (hi : ∀ i ∈ is, i ∈ t ∧ ∃ F f, calls i = .modify F f) :
    ∃ lost : List Nat, lost.Nodup ∧ is.length ≤ lost.length ∧
      ∀ x ∈ lost, x ≠ ((heapStart A t0 v calls).exec t).st.ptr ∧
        ∃ w, ((heapStart A t0 v calls).exec t).st.blocks x = some w := by
  obtain ⟨blocks, swapped, h1, h2, h3, h4, h5, _, _, h7⟩ := epoch_blocks_partial hq
  refine ⟨blocks.erase ((heapStart A t0 v calls).exec t).st.ptr, h1.erase _, ?_, fun x hx => ?_⟩
  · rw [List.length_erase_of_mem h4, h5]
    have hsub : is ⊆ swapped := by
      intro i him
      obtain ⟨hit, F, f, hc⟩ := hi i him
      obtain ⟨a, ha⟩ := hq i hit
      exact h7 i F f a hc ha
    have := (List.subperm_of_subset hn hsub).length_le
    omega
  · rw [h1.mem_erase_iff] at hx
    exact ⟨hx.1, (h3 x).1 hx.2⟩

/-! ## The cells of the store -/

theorem same_refl {σ α : Type} (p : Prog σ α) : Prog.Same p p := by
  induction p with
  | ret a => exact .ret a
  | panic => exact .panic
  | diverge => exact .diverge
  | act f k ih => exact .act f k f k (fun _ => rfl) fun s => ih _

theorem _root_.Rotonda.Prog.Same.step1 {σ α : Type} {p q : Prog σ α} (h : Prog.Same p q) {s : σ} :
    (p.step1 s).1 = (q.step1 s).1 ∧ Prog.Same (p.step1 s).2 (q.step1 s).2 := by
  cases h with
  | act f k g l h1 h2 => exact ⟨h1 s, h2 s⟩
  | ret a => exact ⟨rfl, .ret a⟩
  | panic => exact ⟨rfl, .panic⟩
  | diverge => exact ⟨rfl, .diverge⟩

/-- Programs that do the same can be exchanged: in every run the states are the same, and
so are the answers. -/
theorem same_runs {σ : Type} {R : ι → Type} {c d : Conf σ ι R} (hst : c.st = d.st)
    (hp : ∀ i, Prog.Same (c.pool i) (d.pool i)) (t : List ι) :
    (c.exec t).st = (d.exec t).st ∧ ∀ i a, (c.exec t).pool i = .ret a ↔ (d.exec t).pool i = .ret a := by
  suffices H : (c.exec t).st = (d.exec t).st ∧ ∀ i, Prog.Same ((c.exec t).pool i) ((d.exec t).pool i) by
    refine ⟨H.1, fun i a => ?_⟩
    have := H.2 i
    generalize (c.exec t).pool i = p at this
    generalize (d.exec t).pool i = q at this
    cases this <;> simp
  induction t generalizing c d with
  | nil => exact ⟨hst, hp⟩
  | cons i t ih =>
    refine ih ?_ ?_
    · rw [(Conf.step_step1 c i).1, (Conf.step_step1 d i).1, ← hst]
      exact (hp i).step1.1
    · intro j
      rw [(Conf.step_step1 c i).2, (Conf.step_step1 d i).2, ← hst]
      by_cases e : j = i
      · subst e
        rw [Function.update_self, Function.update_self]
        exact (hp j).step1.2
      · rw [Function.update_of_ne e, Function.update_of_ne e]
        exact hp j

/-- The status calls of the tree (`Verif.Model.Tree`) are calls on such a cell. -/
theorem status_cells {W : Nat} (F : Nat) (m : Mui) :
    Prog.Same (withdrawnMuis (W := W) >>= fun s => Prog.ret (CellAns.val (τ := Unit) s))
      (Prog.zoom wdCell (CellCall.read.verProg ())) ∧
    Prog.Same (treeMarkActive (W := W) F m >>= fun _ => Prog.ret (CellAns.ok (τ := Unit)))
      (Prog.zoom wdCell ((CellCall.modify F fun s => muiRemove s m).verProg ())) ∧
    Prog.Same (treeMarkWithdrawn (W := W) F m >>= fun _ => Prog.ret (CellAns.ok (τ := Unit)))
      (Prog.zoom wdCell ((CellCall.modify F fun s => muiInsert s m).verProg ())) := by
  have hloop : ∀ (k n : Nat) (new : Mui → Bool),
      (updateWithdrawnLoop (W := W) n k new >>= fun _ => Prog.ret (CellAns.ok (τ := Unit) (V := Mui → Bool))) =
      Prog.zoom wdCell (verLoop () (n, ()) k new >>= fun _ => Prog.ret .ok) := by
    intro k
    induction k with
    | zero => intro n new; rfl
    | succ k ih =>
      intro n new
      rw [verLoop_succ, updateWithdrawnLoop, Prog.atomic, bind_assoc', act_bind, Prog.zoom]
      congr 1
      · funext t
        simp only [wdCell, and_true]
        split <;> rfl
      · funext r
        cases r with
        | none => rfl
        | some found => exact ih n found
  refine ⟨.act _ _ _ _ (fun _ => rfl) fun _ => .ret _, .act _ _ _ _ (fun _ => rfl) fun t => ?_,
    .act _ _ _ _ (fun _ => rfl) fun t => ?_⟩
  · have := hloop (F + 1) t.wd.ver (muiRemove t.wd.set m)
    exact this ▸ same_refl _
  · have := hloop (F + 1) t.wd.ver (muiInsert t.wd.set m)
    exact this ▸ same_refl _

theorem set_self {E : Type} {s : Slots E} {a : Addr} {e : E} (h : s a = some e) : s.set a e = s := by
  funext b
  simp only [Slots.set]
  split
  · rename_i hb; rw [hb, h]
  · rfl

/-- What `set_path_selections` returns, as an answer. -/
def selAns : Except StoreError Unit → CellAns Bool (Option Mui × Option Mui)
  | .ok _ => .ok
  | .error _ => .refused

/-- The calls on the path selections of a prefix (`Verif.Model.PrefixCht`) are calls on
such a cell. -/
theorem selection_cells {M : Type} {W : Nat} [Meta M] (a : Addr) (ps : Option Mui × Option Mui) :
    Prog.Same (setPathSelections (M := M) (W := W) a ps >>= fun r => Prog.ret (selAns r))
      (((CellCall.set (fun v => decide (v = ps)) ps).verProg false).inSlot a psCell) ∧
    Prog.Same (setPsOutdated (M := M) (W := W) a >>= fun _ => Prog.ret CellAns.ok)
      (((CellCall.mark true : CellCall Bool (Option Mui × Option Mui)).verProg false).inSlot a psCell) ∧
    Prog.Same (isPsOutdatedAt (M := M) (W := W) a >>= fun b => Prog.ret (CellAns.tag b))
      (((CellCall.tag : CellCall Bool (Option Mui × Option Mui)).verProg false).inSlot a psCell) ∧
    Prog.Same (readAt a (fun e : StoredPrefix M W => e.ps.val) >>= fun v => Prog.ret (CellAns.val v))
      (((CellCall.read : CellCall Bool (Option Mui × Option Mui)).verProg false).inSlot a psCell) := by
  have hacc : ∀ {ρ β : Type} (g : StoredPrefix M W → ρ × StoredPrefix M W) (k : ρ → Prog (PSlots M W) β)
      {ρ' : Type} (f : VerCell Bool (Option Mui × Option Mui) → ρ' × VerCell Bool (Option Mui × Option Mui))
      (l : ρ' → Prog (VerCell Bool (Option Mui × Option Mui)) β),
      (∀ e, (g e).2 = psCell.set e (f (psCell.get e)).2) →
      (∀ e, Prog.Same (k (g e).1) ((l (f (psCell.get e)).1).inSlot a psCell)) →
      Prog.Same (accessAt a g >>= k) ((Prog.act f l).inSlot a psCell) := by
    intro ρ β g k ρ' f l hst hk
    simp only [Prog.inSlot, accessAt, Prog.atomic, bind_assoc', act_bind, ret_bind]
    refine .act _ _ _ _ (fun s => ?_) fun s => ?_
    · cases hs : s a with
      | none => rfl
      | some e => simp only [hst]
    · cases hs : s a with
      | none => exact .panic
      | some e => exact hk e
  have hread : ∀ {ρ β : Type} (g : StoredPrefix M W → ρ) (k : ρ → Prog (PSlots M W) β)
      {ρ' : Type} (f : VerCell Bool (Option Mui × Option Mui) → ρ')
      (l : ρ' → Prog (VerCell Bool (Option Mui × Option Mui)) β),
      (∀ e, Prog.Same (k (g e)) ((l (f (psCell.get e))).inSlot a psCell)) →
      Prog.Same (readAt a g >>= k) ((Prog.act (fun c => (f c, c)) l).inSlot a psCell) := by
    intro ρ β g k ρ' f l hk
    simp only [Prog.inSlot, readAt, accessAt, Prog.read, Prog.atomic, bind_assoc', act_bind, ret_bind]
    refine .act _ _ _ _ (fun s => ?_) fun s => ?_
    · cases hs : s a with
      | none => rfl
      | some e => exact (set_self hs).symm
    · cases hs : s a with
      | none => exact .panic
      | some e => exact hk e
  refine ⟨?_, hacc _ _ _ _ (fun _ => rfl) fun _ => .ret _, ?_, ?_⟩
  · rw [setPathSelections, bind_assoc']
    refine hread _ _ (fun c => c) (fun cur => if decide (cur.val = ps) = true then .ret .ok else
      EPc.verSwap false ps (cur.ver, cur.tag)) fun e => ?_
    by_cases he : e.ps.val = ps
    · rw [if_pos he, if_pos (by exact decide_eq_true he)]
      exact .ret _
    · rw [if_neg he, if_neg (by rw [decide_eq_true_eq]; exact he)]
      refine hacc _ _ _ _ (fun e' => ?_) fun e' => ?_
      · by_cases hc : e'.ps.ver = e.ps.ver ∧ e'.ps.tag = e.ps.tag <;> simp [psCell, hc]
      · by_cases hc : e'.ps.ver = e.ps.ver ∧ e'.ps.tag = e.ps.tag
        · rw [if_pos hc, if_pos (by exact hc)]; exact .ret _
        · rw [if_neg hc, if_neg (by exact hc)]; exact .ret _
  · exact hread _ _ (fun c => CellAns.tag c.tag) _ fun e => .ret _
  · exact hread _ _ (fun c => CellAns.val c.val) _ fun e => .ret _

/-! ## Examples -/

/-- An allocator that proposes the first address it knows to be free. -/
def firstFree (τ V : Type) : EpochAlloc τ V := fun h =>
  ((List.range h.top).find? fun x => (h.blocks x).isNone).getD h.top

/-- Two status changes one after the other. -/
def twoChanges : Conf (EpochHeap Unit Nat) Bool (fun _ => CellAns Unit Nat) :=
  (heapStart (firstFree Unit Nat) () 0 (fun _ : Bool => .modify 5 (· + 1))).exec
    (List.replicate 4 true ++ List.replicate 4 false)

/-- Three blocks are allocated, one is reachable. -/
example : twoChanges.pool true = .ret .ok ∧ twoChanges.pool false = .ret .ok ∧ twoChanges.st.ptr = 2 ∧
    twoChanges.st.blocks 0 = some 0 ∧ twoChanges.st.blocks 1 = some 1 ∧ twoChanges.st.blocks 2 = some 2 :=
  ⟨rfl, rfl, rfl, rfl, rfl, rfl⟩

/-- Three changes of path selections; the first one is overtaken by the second. -/
def threeSelections : Conf (EpochHeap Bool Nat) (Fin 3) (fun _ => CellAns Bool Nat) :=
  (heapStart (firstFree Bool Nat) false 0
    (fun i : Fin 3 => .set (· == i.val + 1) (i.val + 1))).exec
      [0, 0, 0, 1, 1, 1, 1, 0, 0, 2, 2, 2, 2]

/-- A refused change frees its block, whose address is used again. -/
example : threeSelections.pool 1 = .ret .ok ∧ threeSelections.pool 0 = .ret .refused ∧
    threeSelections.pool 2 = .ret .ok ∧ threeSelections.st.ptr = 1 ∧
    threeSelections.st.blocks 0 = some 0 ∧ threeSelections.st.blocks 1 = some 3 ∧
    threeSelections.st.blocks 2 = some 2 ∧ threeSelections.st.blocks 3 = none :=
  ⟨rfl, rfl, rfl, rfl, rfl, rfl, rfl, rfl⟩

/-- The hypotheses of `epoch_blocks_partial` and `epoch_leaks` are met. -/
example : ∃ lost : List Nat, lost.Nodup ∧ 2 ≤ lost.length ∧ ∀ x ∈ lost, x ≠ twoChanges.st.ptr ∧
    ∃ w, twoChanges.st.blocks x = some w := by
  have hq : ∀ i ∈ List.replicate 4 true ++ List.replicate 4 false, ∃ a, twoChanges.pool i = .ret a := by
    intro i _; cases i <;> exact ⟨.ok, rfl⟩
  exact epoch_leaks hq [true, false] (by decide) fun i _ => ⟨by cases i <;> decide, 5, _, rfl⟩

end Rotonda.Props
