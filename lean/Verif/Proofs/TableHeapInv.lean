import Verif.Proofs.TableHeapPc

/-!
# Calls walking down a table: the invariant
-/

namespace Rotonda

open Prog TabHeap

variable {T ι : Type} {A : TabAlloc T} {Z : TabShape T} {h h' : TabHeap T} {levels : Nat}

/-! ## Paths -/

/-- The pointers lead to an entry. -/
theorem entryAt_zero {r : Nat} {idx : Nat → Nat} {b : Nat} :
    h.entryAt r idx 0 = some b ↔ ∃ x, h.ptr (.root r) = some (some x) ∧ h.cell x (idx 0) = some b := by
  simp only [entryAt, ptr, cell, Option.some.injEq]
  cases h.roots r <;> simp

theorem entryAt_succ {r : Nat} {idx : Nat → Nat} {n b : Nat} :
    h.entryAt r idx (n + 1) = some b ↔ ∃ a x, h.entryAt r idx n = some a ∧
      h.ptr (.child a) = some (some x) ∧ h.cell x (idx (n + 1)) = some b := by
  simp only [entryAt, ptr, cell]
  cases h.entryAt r idx n with
  | none => simp
  | some a =>
    simp only [Option.bind_some, Option.some.injEq, exists_and_left, exists_eq_left']
    cases h.boxes a with
    | none => simp
    | some e =>
      obtain ⟨e, p⟩ := e
      cases p <;> simp

/-- An entry that pointers lead to is in a slice. -/
theorem entryAt_cell {r : Nat} {idx : Nat → Nat} {n b : Nat} (hb : h.entryAt r idx n = some b) :
    ∃ x i, h.cell x i = some b := by
  cases n with
  | zero => obtain ⟨x, -, h1⟩ := entryAt_zero.1 hb; exact ⟨x, _, h1⟩
  | succ n => obtain ⟨-, x, -, -, h1⟩ := entryAt_succ.1 hb; exact ⟨x, _, h1⟩

variable {S B : Nat → Prop} {ds db : Nat → Nat} {D : Nat}

/-- Different paths lead to different entries. -/
theorem TabInv.path_inj (hi : TabInv Z h S B ds db D) {r r' : Nat} {idx idx' : Nat → Nat}
    {n n' b : Nat} (h1 : h.entryAt r idx n = some b) (h2 : h.entryAt r' idx' n' = some b) :
    r = r' ∧ n = n' ∧ ∀ m ≤ n, idx m = idx' m := by
  induction n generalizing n' b with
  | zero =>
    obtain ⟨x, h3, h4⟩ := entryAt_zero.1 h1
    cases n' with
    | zero =>
      obtain ⟨y, h5, h6⟩ := entryAt_zero.1 h2
      obtain ⟨rfl, e⟩ := hi.cellInj _ _ _ _ _ h4 h6
      have := hi.ptrInj _ _ _ h3 h5
      injection this with this
      refine ⟨this, rfl, fun m hm => ?_⟩
      obtain rfl : m = 0 := by omega
      exact e
    | succ n' =>
      obtain ⟨a, y, -, h5, h6⟩ := entryAt_succ.1 h2
      obtain ⟨rfl, e⟩ := hi.cellInj _ _ _ _ _ h4 h6
      have := hi.ptrInj _ _ _ h3 h5
      cases this
  | succ n ih =>
    obtain ⟨a, x, h3, h4, h5⟩ := entryAt_succ.1 h1
    cases n' with
    | zero =>
      obtain ⟨y, h6, h7⟩ := entryAt_zero.1 h2
      obtain ⟨rfl, e⟩ := hi.cellInj _ _ _ _ _ h5 h7
      have := hi.ptrInj _ _ _ h4 h6
      cases this
    | succ n' =>
      obtain ⟨a', y, h6, h7, h8⟩ := entryAt_succ.1 h2
      obtain ⟨rfl, e⟩ := hi.cellInj _ _ _ _ _ h5 h8
      have := hi.ptrInj _ _ _ h4 h7
      injection this with this
      subst this
      obtain ⟨rfl, rfl, h9⟩ := ih h3 h6
      refine ⟨rfl, rfl, fun m hm => ?_⟩
      rcases Nat.lt_or_ge m (n + 1) with hm' | hm'
      · exact h9 m (by omega)
      · obtain rfl : m = n + 1 := by omega
        exact e

/-- The level of an entry that pointers lead to. -/
theorem TabInv.path_rank (hi : TabInv Z h S B ds db D) {r : Nat} {idx : Nat → Nat} {n b : Nat}
    (h1 : h.entryAt r idx n = some b) : db b = n := by
  induction n generalizing b with
  | zero =>
    obtain ⟨x, h3, h4⟩ := entryAt_zero.1 h1
    rw [hi.rankB _ _ _ h4, (hi.rankS _ _ h3).1]; rfl
  | succ n ih =>
    obtain ⟨a, x, h3, h4, h5⟩ := entryAt_succ.1 h1
    rw [hi.rankB _ _ _ h5, (hi.rankS _ _ h4).1]
    simp only [Loc.depth, ih h3]

/-! ## The heap only grows while calls run -/

/-- Pointers stay as they are once they are not null, and so do the entries that they lead to. -/
structure TabGrow (h h' : TabHeap T) : Prop where
  ptr : ∀ l x, h.ptr l = some (some x) → h'.ptr l = some (some x)
  cell : ∀ x i b, h.cell x i = some b → h'.cell x i = some b
  value : ∀ x i b, h.cell x i = some b → h'.valueAt b = h.valueAt b

theorem TabGrow.refl : TabGrow h h := ⟨fun _ _ e => e, fun _ _ _ e => e, fun _ _ _ _ => rfl⟩

theorem TabGrow.trans {h'' : TabHeap T} (h1 : TabGrow h h') (h2 : TabGrow h' h'') : TabGrow h h'' :=
  ⟨fun l x e => h2.ptr l x (h1.ptr l x e), fun x i b e => h2.cell x i b (h1.cell x i b e),
    fun x i b e => (h2.value x i b (h1.cell x i b e)).trans (h1.value x i b e)⟩

theorem TabGrow.entryAt (hg : TabGrow h h') {r : Nat} {idx : Nat → Nat} {n b : Nat}
    (hb : h.entryAt r idx n = some b) : h'.entryAt r idx n = some b := by
  induction n generalizing b with
  | zero =>
    obtain ⟨x, h1, h2⟩ := entryAt_zero.1 hb
    exact entryAt_zero.2 ⟨x, hg.ptr _ _ h1, hg.cell _ _ _ h2⟩
  | succ n ih =>
    obtain ⟨a, x, h1, h2, h3⟩ := entryAt_succ.1 hb
    exact entryAt_succ.2 ⟨a, x, ih h1, hg.ptr _ _ h2, hg.cell _ _ _ h3⟩

/-! ## What a call knows -/

/-- The place where a call is. -/
structure TKey.At (Z : TabShape T) (levels : Nat) (h : TabHeap T) (c : Walk T) (k : TKey) : Prop where
  size : h.sizeAt Z k.loc = some k.size
  levels : k.lvl + k.n < levels
  root : ∀ r, k.loc = .root r → k.lvl = 0 ∧ r = c.root
  child : ∀ b, k.loc = .child b → ∃ m, k.lvl = m + 1 ∧ h.entryAt c.root c.idx m = some b

theorem TKey.At.mono {c : Walk T} {k : TKey} (ha : k.At Z levels h c) (hg : TabGrow h h') :
    k.At Z levels h' c := by
  refine ⟨?_, ha.levels, ha.root, fun b hb => ?_⟩
  · have := ha.size
    cases hl : k.loc with
    | root r => rw [hl] at this; exact this
    | child b =>
      obtain ⟨m, -, h1⟩ := ha.child b hl
      obtain ⟨x, i, h2⟩ := entryAt_cell h1
      have h3 := hg.value x i b h2
      rw [hl] at this
      simp only [sizeAt] at this ⊢
      simp only [valueAt] at h3
      have e : ∀ o : Option (T × Option Nat), o.map (fun e => Z.next e.1) = (o.map Prod.fst).map Z.next :=
        fun o => by cases o <;> rfl
      rw [e, h3, ← e, this]
  · obtain ⟨m, h1, h2⟩ := ha.child b hb
    exact ⟨m, h1, hg.entryAt h2⟩

/-- The place of a call is at its level. -/
theorem TKey.At.depth {c : Walk T} {k : TKey} (ha : k.At Z levels h c)
    (hi : TabInv Z h S B ds db D) : k.loc.depth db = k.lvl := by
  cases hl : k.loc with
  | root r => rw [(ha.root r hl).1]; rfl
  | child b =>
    obtain ⟨m, h1, h2⟩ := ha.child b hl
    rw [h1, Loc.depth, hi.path_rank h2]

/-- An entry found by a call is on its path. -/
theorem TKey.At.entry {c : Walk T} {k : TKey} (ha : k.At Z levels h c) {x b : Nat}
    (hx : h.ptr k.loc = some (some x)) (hb : h.cell x (c.idx k.lvl) = some b) :
    h.entryAt c.root c.idx k.lvl = some b := by
  cases hl : k.loc with
  | root r =>
    obtain ⟨h1, rfl⟩ := ha.root r hl
    rw [h1] at hb ⊢
    exact entryAt_zero.2 ⟨x, by rw [← hl]; exact hx, hb⟩
  | child a =>
    obtain ⟨m, h1, h2⟩ := ha.child a hl
    rw [h1] at hb ⊢
    exact entryAt_succ.2 ⟨a, x, h2, by rw [← hl]; exact hx, hb⟩

namespace TPc

/-- The slice allocated by the call and not given away. -/
def ownSlice : TPc → Option Nat
  | casSlice _ s | dropSlice _ s _ => some s
  | _ => none

/-- The entry allocated by the call and not given away. -/
def ownBox : TPc → Option Nat
  | casBox _ _ b | dropBox _ b _ => some b
  | _ => none

/-- What a call knows at a control point. -/
def Good (Z : TabShape T) (levels : Nat) (h : TabHeap T) (c : Walk T) : TPc → Prop
  | get k => k.At Z levels h c
  | getLoad k x => k.At Z levels h c ∧ h.ptr k.loc = some (some x) ∧ c.idx k.lvl < k.size
  | init k | mkSlice k => k.At Z levels h c ∧ c.create = true
  | casSlice k s => k.At Z levels h c ∧ c.create = true ∧ h.slices s = some fun _ => none
  | dropSlice k s x => k.At Z levels h c ∧ c.create = true ∧ (h.slices s = some fun _ => none) ∧
    h.ptr k.loc = some (some x)
  | load k x | mkBox k x => k.At Z levels h c ∧ c.create = true ∧
    h.ptr k.loc = some (some x) ∧ c.idx k.lvl < k.size
  | casBox k x b => k.At Z levels h c ∧ c.create = true ∧
    h.ptr k.loc = some (some x) ∧ c.idx k.lvl < k.size ∧ h.boxes b = some (c.val k.lvl, none)
  | dropBox k b d => k.At Z levels h c ∧ c.create = true ∧ (∃ v, h.boxes b = some (v, none)) ∧
    h.entryAt c.root c.idx k.lvl = some d
  | look k b _ => k.At Z levels h c ∧ h.entryAt c.root c.idx k.lvl = some b
  | done none => True
  | done (some b) => ∃ n e f, n < levels ∧ h.entryAt c.root c.idx n = some b ∧ h.valueAt b = some e ∧
    c.stop f e = true
  | failed => False

theorem Good.mono {c : Walk T} {pc : TPc} (hp : pc.Good Z levels h c) (hg : TabGrow h h')
    (hS : ∀ s, pc.ownSlice = some s → h'.slices s = h.slices s)
    (hB : ∀ b, pc.ownBox = some b → h'.boxes b = h.boxes b) : pc.Good Z levels h' c := by
  cases pc with
  | get k => exact TKey.At.mono hp hg
  | getLoad k x => exact ⟨hp.1.mono hg, hg.ptr _ _ hp.2.1, hp.2.2⟩
  | init k => exact ⟨hp.1.mono hg, hp.2⟩
  | mkSlice k => exact ⟨hp.1.mono hg, hp.2⟩
  | casSlice k s => exact ⟨hp.1.mono hg, hp.2.1, (hS s rfl).trans hp.2.2⟩
  | dropSlice k s x => exact ⟨hp.1.mono hg, hp.2.1, (hS s rfl).trans hp.2.2.1, hg.ptr _ _ hp.2.2.2⟩
  | load k x => exact ⟨hp.1.mono hg, hp.2.1, hg.ptr _ _ hp.2.2.1, hp.2.2.2⟩
  | mkBox k x => exact ⟨hp.1.mono hg, hp.2.1, hg.ptr _ _ hp.2.2.1, hp.2.2.2⟩
  | casBox k x b =>
    exact ⟨hp.1.mono hg, hp.2.1, hg.ptr _ _ hp.2.2.1, hp.2.2.2.1, (hB b rfl).trans hp.2.2.2.2⟩
  | dropBox k b d =>
    obtain ⟨v, hv⟩ := hp.2.2.1
    exact ⟨hp.1.mono hg, hp.2.1, ⟨v, (hB b rfl).trans hv⟩, hg.entryAt hp.2.2.2⟩
  | look k b f => exact ⟨hp.1.mono hg, hg.entryAt hp.2⟩
  | done a =>
    cases a with
    | none => trivial
    | some b =>
      obtain ⟨n, e, f, h0, h1, h2, h3⟩ := hp
      obtain ⟨x, i, h4⟩ := entryAt_cell h1
      exact ⟨n, e, f, h0, hg.entryAt h1, (hg.value _ _ _ h4).trans h2, h3⟩
  | failed => exact hp

end TPc

/-! ## The invariant -/

/-- The invariant of the heap and the control points of all calls. -/
structure RunInv (Z : TabShape T) (levels : Nat) (calls : ι → Walk T) (h : TabHeap T)
    (pcs : ι → TPc) (ds db : Nat → Nat) : Prop where
  heap : TabInv Z h (fun x => ∃ i, (pcs i).ownSlice = some x) (fun b => ∃ i, (pcs i).ownBox = some b)
    ds db levels
  injS : ∀ i j s, (pcs i).ownSlice = some s → (pcs j).ownSlice = some s → i = j
  injB : ∀ i j b, (pcs i).ownBox = some b → (pcs j).ownBox = some b → i = j
  good : ∀ i, (pcs i).Good Z levels h (calls i)
  made : ∀ x i b, h.cell x i = some b → ∃ j n, (calls j).create = true ∧ n < levels ∧
    h.entryAt (calls j).root (calls j).idx n = some b ∧ h.valueAt b = some ((calls j).val n)
  rooted : ∀ r, h.roots r ≠ none → ∃ i, (calls i).root = r
  atoms : ∀ L : List Nat, L.Nodup → (∀ b ∈ L, h.boxes b ≠ none) → Z.atoms * L.length ≤ h.atoms

/-- The first control point of a call. -/
def Walk.pc (Z : TabShape T) (levels : Nat) (c : Walk T) : TPc :=
  .enter (.root c.root) (Z.rootSize c.root) 0 levels

theorem Walk.pc_own (c : Walk T) : (c.pc Z levels).ownSlice = none ∧ (c.pc Z levels).ownBox = none := by
  unfold Walk.pc
  cases levels <;> exact ⟨rfl, rfl⟩

theorem RunInv.start (calls : ι → Walk T) :
    RunInv Z levels calls TabHeap.empty (fun i => (calls i).pc Z levels) (fun _ => 0) (fun _ => 0) := by
  have hc : ∀ x i b, (TabHeap.empty : TabHeap T).cell x i ≠ some b := by
    intro x i b; simp [TabHeap.empty, TabHeap.cell]
  refine ⟨?_, ?_, ?_, fun i => ?_, fun x i b hb => (hc x i b hb).elim,
    fun r hr => (hr rfl).elim, fun L _ hL => ?_⟩
  · have := TabInv.empty (Z := Z)
    have h2 : TabInv Z (TabHeap.empty : TabHeap T) (fun _ => False) (fun _ => False)
        (fun _ => 0) (fun _ => 0) levels :=
      { this with
        rankS := fun l x hl => False.elim (by
          cases l <;> simp [TabHeap.empty, TabHeap.ptr] at hl) }
    exact h2.congr (fun x => by simp [Walk.pc_own]) (fun x => by simp [Walk.pc_own])
  · intro i j s h1; rw [(Walk.pc_own _).1] at h1; cases h1
  · intro i j s h1; rw [(Walk.pc_own _).2] at h1; cases h1
  · unfold Walk.pc
    cases levels with
    | zero => trivial
    | succ n =>
      exact ⟨rfl, by simp, fun r hr => ⟨rfl, by injection hr with hr; exact hr.symm⟩,
        fun b hb => by cases hb⟩
  · cases L with
    | nil => simp
    | cons b L => exact absurd rfl (hL b (by simp))

/-! ### Who holds what -/

section Own
variable [DecidableEq ι] {f : ι → Option Nat} {i : ι}

theorem own_same {v : Option Nat} (hv : v = f i) (s : Nat) :
    (∃ j, f j = some s) ↔ ∃ j, Function.update f i v j = some s := by
  subst hv; rw [Function.update_eq_self]

theorem own_add {n : Nat} (hf : f i = none) (s : Nat) :
    ((∃ j, f j = some s) ∨ s = n) ↔ ∃ j, Function.update f i (some n) j = some s := by
  constructor
  · rintro (⟨j, hj⟩ | rfl)
    · refine ⟨j, ?_⟩
      rw [Function.update_apply, if_neg]
      · exact hj
      · rintro rfl; rw [hf] at hj; cases hj
    · exact ⟨i, by simp⟩
  · rintro ⟨j, hj⟩
    rw [Function.update_apply] at hj
    split at hj
    · right; injection hj with hj; exact hj.symm
    · exact .inl ⟨j, hj⟩

theorem own_del {n : Nat} (hf : f i = some n) (hinj : ∀ j k s, f j = some s → f k = some s → j = k)
    (s : Nat) : ((∃ j, f j = some s) ∧ s ≠ n) ↔ ∃ j, Function.update f i none j = some s := by
  constructor
  · rintro ⟨⟨j, hj⟩, hn⟩
    refine ⟨j, ?_⟩
    rw [Function.update_apply, if_neg]
    · exact hj
    · rintro rfl; rw [hf] at hj; injection hj with hj; exact hn hj.symm
  · rintro ⟨j, hj⟩
    rw [Function.update_apply] at hj
    split at hj
    · cases hj
    · rename_i hne
      refine ⟨⟨j, hj⟩, ?_⟩
      rintro rfl
      exact hne (hinj _ _ _ hj hf)

end Own

variable [DecidableEq ι] {calls : ι → Walk T} {pcs : ι → TPc}

theorem upd_ownSlice (i : ι) (pc : TPc) (j : ι) : (Function.update pcs i pc j).ownSlice =
    Function.update (fun j => (pcs j).ownSlice) i pc.ownSlice j := by
  simp only [Function.update_apply]; split <;> rfl

theorem upd_ownBox (i : ι) (pc : TPc) (j : ι) : (Function.update pcs i pc j).ownBox =
    Function.update (fun j => (pcs j).ownBox) i pc.ownBox j := by
  simp only [Function.update_apply]; split <;> rfl

/-- Assembling the invariant after a step of one call. -/
theorem RunInv.assemble {ds' db' : Nat → Nat} (hi : RunInv Z levels calls h pcs ds db) (i : ι)
    (pc : TPc) (hg : TabGrow h h')
    (heap : TabInv Z h' (fun x => ∃ j, Function.update (fun j => (pcs j).ownSlice) i pc.ownSlice j = some x)
      (fun b => ∃ j, Function.update (fun j => (pcs j).ownBox) i pc.ownBox j = some b) ds' db' levels)
    (hS : ∀ j, j ≠ i → ∀ s, (pcs j).ownSlice = some s → h'.slices s = h.slices s)
    (hB : ∀ j, j ≠ i → ∀ b, (pcs j).ownBox = some b → h'.boxes b = h.boxes b)
    (nS : ∀ s, pc.ownSlice = some s → (pcs i).ownSlice = some s ∨ h.slices s = none)
    (nB : ∀ b, pc.ownBox = some b → (pcs i).ownBox = some b ∨ h.boxes b = none)
    (good : pc.Good Z levels h' (calls i))
    (made : ∀ x j b, h'.cell x j = some b → h.cell x j = some b ∨
      ∃ n, (calls i).create = true ∧ n < levels ∧ h'.entryAt (calls i).root (calls i).idx n = some b ∧
        h'.valueAt b = some ((calls i).val n))
    (rooted : ∀ r, h'.roots r ≠ none → h.roots r ≠ none ∨ (calls i).root = r)
    (atoms : ∀ L : List Nat, L.Nodup → (∀ b ∈ L, h'.boxes b ≠ none) → Z.atoms * L.length ≤ h'.atoms) :
    RunInv Z levels calls h' (Function.update pcs i pc) ds' db' := by
  refine ⟨?_, ?_, ?_, fun j => ?_, fun x k b hb => ?_, fun r hr => ?_, atoms⟩
  · exact heap.congr (fun x => by simp only [upd_ownSlice]) (fun x => by simp only [upd_ownBox])
  · have key : ∀ j, j ≠ i → ∀ s, pc.ownSlice = some s → (pcs j).ownSlice ≠ some s := by
      intro j hj s h1 h2
      rcases nS s h1 with h3 | h3
      · exact hj (hi.injS _ _ _ h2 h3)
      · exact hi.heap.heldS s ⟨j, h2⟩ h3
    intro j k s hj hk
    simp only [Function.update_apply] at hj hk
    split at hj <;> split at hk
    · subst_vars; rfl
    · exact (key _ ‹_› _ hj hk).elim
    · exact (key _ ‹_› _ hk hj).elim
    · exact hi.injS _ _ _ hj hk
  · have key : ∀ j, j ≠ i → ∀ s, pc.ownBox = some s → (pcs j).ownBox ≠ some s := by
      intro j hj s h1 h2
      rcases nB s h1 with h3 | h3
      · exact hj (hi.injB _ _ _ h2 h3)
      · exact hi.heap.heldB s ⟨j, h2⟩ h3
    intro j k s hj hk
    simp only [Function.update_apply] at hj hk
    split at hj <;> split at hk
    · subst_vars; rfl
    · exact (key _ ‹_› _ hj hk).elim
    · exact (key _ ‹_› _ hk hj).elim
    · exact hi.injB _ _ _ hj hk
  · rw [Function.update_apply]
    split
    · rename_i e; subst e; exact good
    · rename_i hj; exact (hi.good j).mono hg (hS j hj) (hB j hj)
  · rcases made x k b hb with h1 | ⟨n, h1, h0, h2, h3⟩
    · obtain ⟨j, n, h2, h0, h3, h4⟩ := hi.made x k b h1
      exact ⟨j, n, h2, h0, hg.entryAt h3, (hg.value _ _ _ h1).trans h4⟩
    · exact ⟨i, n, h1, h0, h2, h3⟩
  · rcases rooted r hr with h1 | h1
    · exact hi.rooted r h1
    · exact ⟨i, h1⟩

/-- A step that leaves the heap alone. -/
theorem RunInv.move (hi : RunInv Z levels calls h pcs ds db) (i : ι) {pc : TPc}
    (h1 : pc.ownSlice = (pcs i).ownSlice) (h2 : pc.ownBox = (pcs i).ownBox)
    (good : pc.Good Z levels h (calls i)) :
    RunInv Z levels calls h (Function.update pcs i pc) ds db :=
  hi.assemble i pc TabGrow.refl
    (hi.heap.congr (own_same (f := fun j => (pcs j).ownSlice) h1)
      (own_same (f := fun j => (pcs j).ownBox) h2))
    (fun _ _ _ _ => rfl) (fun _ _ _ _ => rfl) (fun s hs => .inl (h1 ▸ hs)) (fun s hs => .inl (h2 ▸ hs))
    good (fun _ _ _ hb => .inl hb) (fun _ hr => .inl hr) hi.atoms

theorem TPc.miss_good {c : Walk T} {k : TKey} (ha : k.At Z levels h c) :
    (TPc.miss c k).Good Z levels h c ∧ (TPc.miss c k).ownSlice = none ∧ (TPc.miss c k).ownBox = none := by
  unfold TPc.miss
  split
  · exact ⟨⟨ha, ‹_›⟩, rfl, rfl⟩
  · exact ⟨trivial, rfl, rfl⟩

theorem TPc.found_good {c : Walk T} {k : TKey} {x : Nat} (ha : k.At Z levels h c)
    (hc : c.create = true) (hx : h.ptr k.loc = some (some x)) :
    (TPc.found c k x).Good Z levels h c ∧ (TPc.found c k x).ownSlice = none ∧
      (TPc.found c k x).ownBox = none := by
  unfold TPc.found
  split
  · exact ⟨⟨ha, hc, hx, ‹_›⟩, rfl, rfl⟩
  · exact ⟨trivial, rfl, rfl⟩

/-- The place of a call is allocated. -/
theorem TKey.At.ptr_ne {c : Walk T} {k : TKey} (ha : k.At Z levels h c) : h.ptr k.loc ≠ none := by
  have := ha.size
  intro h1
  cases hl : k.loc with
  | root r => rw [hl] at h1; cases h1
  | child b =>
    rw [hl] at h1 this
    simp [sizeAt, ptr_child_none.1 h1] at this

/-- An entry on the path of a call is allocated. -/
theorem TabInv.entry_live (hi : TabInv Z h S B ds db D) {r : Nat} {idx : Nat → Nat} {n b : Nat}
    (hb : h.entryAt r idx n = some b) : ∃ e, h.boxes b = some e := by
  obtain ⟨x, i, h1⟩ := entryAt_cell hb
  exact Option.ne_none_iff_exists'.1 (hi.cellLive _ _ _ h1).1

/-- Every step of a call keeps the invariant. -/
theorem RunInv.step (hi : RunInv Z levels calls h pcs ds db) (i : ι) :
    ∃ ds' db', RunInv Z levels calls ((pcs i).next A Z (calls i) h).1
      (Function.update pcs i ((pcs i).next A Z (calls i) h).2) ds' db' ∧
      TabGrow h ((pcs i).next A Z (calls i) h).1 := by
  have hgood := hi.good i
  have live : ∀ l x, h.ptr l = some (some x) → ∃ c, h.slices x = some c := fun l x hx =>
    Option.ne_none_iff_exists'.1 (hi.heap.ptrLive _ _ hx).1
  cases hpc : pcs i with
  | get k =>
    rw [hpc] at hgood
    have hm := TPc.miss_good hgood
    refine ⟨ds, db, ?_, TabGrow.refl⟩
    simp only [TPc.next]
    cases hp : h.ptr k.loc with
    | none => exact (hgood.ptr_ne hp).elim
    | some r =>
      cases r with
      | none => exact hi.move i (by rw [hpc, hm.2.1]; rfl) (by rw [hpc, hm.2.2]; rfl) hm.1
      | some x =>
        simp only
        split
        · exact hi.move i (by rw [hpc]; rfl) (by rw [hpc]; rfl) ⟨hgood, hp, ‹_›⟩
        · exact hi.move i (by rw [hpc, hm.2.1]; rfl) (by rw [hpc, hm.2.2]; rfl) hm.1
  | getLoad k x =>
    rw [hpc] at hgood
    obtain ⟨ha, hx, hlt⟩ := hgood
    have hm := TPc.miss_good ha
    refine ⟨ds, db, ?_, TabGrow.refl⟩
    obtain ⟨cells, hc⟩ := live _ _ hx
    simp only [TPc.next, hc]
    cases hb : cells ((calls i).idx k.lvl) with
    | none => exact hi.move i (by rw [hpc, hm.2.1]; rfl) (by rw [hpc, hm.2.2]; rfl) hm.1
    | some b =>
      exact hi.move i (by rw [hpc]; rfl) (by rw [hpc]; rfl)
        ⟨ha, ha.entry hx (by rw [cell_of_some hc, hb])⟩
  | init k =>
    rw [hpc] at hgood
    refine ⟨ds, db, ?_, TabGrow.refl⟩
    simp only [TPc.next]
    cases hp : h.ptr k.loc with
    | none => exact (hgood.1.ptr_ne hp).elim
    | some r =>
      cases r with
      | none => exact hi.move i (by rw [hpc]; rfl) (by rw [hpc]; rfl) hgood
      | some x =>
        have hf := TPc.found_good hgood.1 hgood.2 hp
        exact hi.move i (by rw [hpc, hf.2.1]; rfl) (by rw [hpc, hf.2.2]; rfl) hf.1
  | mkSlice k =>
    rw [hpc] at hgood
    have hn := sliceAddr_free (A := A) hi.heap.top
    simp only [TPc.next]
    generalize h.sliceAddr A = n at hn
    have hg : TabGrow h { h.setSlice n (some fun _ => none) with top := max h.top (n + 1) } := by
      refine ⟨fun l x e => ?_, fun x j b e => ?_, fun x j b e => rfl⟩
      · cases l <;> exact e
      · refine (cell_setSlice n _ x j).trans ?_
        rw [if_neg]
        · exact e
        · rintro rfl; rw [cell_of_none hn] at e; cases e
    refine ⟨ds, db, hi.assemble i (.casSlice k n) hg ?_ ?_ ?_ ?_ ?_ ?_ ?_ ?_ ?_, hg⟩
    · exact (hi.heap.allocSlice hn).congr
        (own_add (f := fun j => (pcs j).ownSlice) (by simp only [hpc]; rfl))
        (own_same (f := fun j => (pcs j).ownBox) (by simp only [hpc]; rfl))
    · intro j hj s hs
      simp only [setSlice]
      rw [if_neg]
      rintro rfl
      exact hi.heap.heldS _ ⟨j, hs⟩ hn
    · exact fun _ _ _ _ => rfl
    · intro s hs; injection hs with hs; subst hs; exact .inr hn
    · intro b hb; cases hb
    · exact ⟨hgood.1.mono hg, hgood.2, by simp [setSlice]⟩
    · intro x j b hb
      have := (cell_setSlice n _ x j).symm.trans hb
      split at this
      · cases this
      · exact .inl this
    · exact fun r hr => .inl hr
    · exact hi.atoms
  | casSlice k s =>
    rw [hpc] at hgood
    obtain ⟨ha, hc, hs⟩ := hgood
    simp only [TPc.next]
    cases hp : h.ptr k.loc with
    | none => exact (ha.ptr_ne hp).elim
    | some r =>
      cases r with
      | some y =>
        exact ⟨ds, db, hi.move i (by rw [hpc]; rfl) (by rw [hpc]; rfl) ⟨ha, hc, hs, hp⟩, TabGrow.refl⟩
      | none =>
        have hg : TabGrow h (h.setPtr k.loc (some s)) := by
          refine ⟨fun l x e => ?_, fun x j b e => ?_, fun x j b e => ?_⟩
          · rw [ptr_setPtr, if_neg]
            · exact e
            · rintro rfl; rw [hp] at e; cases e
          · rw [cell_setPtr]; exact e
          · exact boxes_setPtr _ _ _
        have hf := TPc.found_good (x := s) (ha.mono hg) hc (by rw [ptr_setPtr, if_pos rfl, hp]; rfl)
        have hd := ha.depth hi.heap
        have hT := hi.heap.publishSlice hp ⟨i, by rw [hpc]; rfl⟩ hs
        rw [hd, max_eq_left (by have := ha.levels; omega)] at hT
        refine ⟨Function.update ds s k.lvl, db, hi.assemble i _ hg ?_ ?_ ?_ ?_ ?_ hf.1 ?_ ?_ ?_, hg⟩
        · rw [hf.2.1, hf.2.2]
          exact hT.congr
            (own_del (f := fun j => (pcs j).ownSlice) (by simp only [hpc]; rfl) hi.injS)
            (own_same (f := fun j => (pcs j).ownBox) (by simp only [hpc]; rfl))
        · intro j hj s hs; rw [slices_setPtr]
        · intro j hj b hb
          cases hl : k.loc with
          | root r => rfl
          | child a =>
            simp only [setPtr]
            rw [if_neg]
            rintro rfl
            obtain ⟨m, -, h1⟩ := ha.child _ hl
            obtain ⟨x, y, h2⟩ := entryAt_cell h1
            exact (hi.heap.cellLive _ _ _ h2).2 ⟨j, hb⟩
        · intro x hx; rw [hf.2.1] at hx; cases hx
        · intro x hx; rw [hf.2.2] at hx; cases hx
        · intro x j b hb; rw [cell_setPtr] at hb; exact .inl hb
        · intro r hr
          cases hl : k.loc with
          | root r' =>
            simp only [hl, setPtr] at hr
            split at hr
            · rename_i e; subst e; exact .inr (ha.root _ hl).2.symm
            · exact .inl hr
          | child a => rw [hl] at hr; exact .inl hr
        · intro L h1 h2
          rw [atoms_setPtr]
          exact hi.atoms L h1 fun b hb => fun e => h2 b hb ((boxes_setPtr_none _ _ _).2 e)
  | dropSlice k s y =>
    rw [hpc] at hgood
    obtain ⟨ha, hc, hs, hy⟩ := hgood
    simp only [TPc.next, hs]
    have hown : (pcs i).ownSlice = some s := by rw [hpc]; rfl
    have hg : TabGrow h (h.setSlice s none) := by
      refine ⟨fun l x e => by rw [ptr_setSlice]; exact e, fun x j b e => ?_, fun x j b e => rfl⟩
      rw [cell_setSlice, if_neg]
      · exact e
      · rintro rfl; rw [cell_of_some hs] at e; cases e
    have hf := TPc.found_good (x := y) (ha.mono hg) hc (hg.ptr _ _ hy)
    refine ⟨ds, db, hi.assemble i _ hg ?_ ?_ ?_ ?_ ?_ hf.1 ?_ ?_ ?_, hg⟩
    · rw [hf.2.1, hf.2.2]
      exact (hi.heap.freeSlice ⟨i, hown⟩ hs (fun _ => rfl)).congr
        (own_del (f := fun j => (pcs j).ownSlice) hown hi.injS)
        (own_same (f := fun j => (pcs j).ownBox) (by simp only [hpc]; rfl))
    · intro j hj s' hs'
      simp only [setSlice]
      rw [if_neg]
      rintro rfl
      exact hj (hi.injS _ _ _ hs' hown)
    · exact fun _ _ _ _ => rfl
    · intro x hx; rw [hf.2.1] at hx; cases hx
    · intro x hx; rw [hf.2.2] at hx; cases hx
    · intro x j b hb
      rw [cell_setSlice] at hb
      split at hb
      · cases hb
      · exact .inl hb
    · exact fun r hr => .inl hr
    · exact hi.atoms
  | load k x =>
    rw [hpc] at hgood
    obtain ⟨ha, hcr, hx, hlt⟩ := hgood
    refine ⟨ds, db, ?_, TabGrow.refl⟩
    obtain ⟨cells, hc⟩ := live _ _ hx
    simp only [TPc.next, hc]
    cases hb : cells ((calls i).idx k.lvl) with
    | none => exact hi.move i (by rw [hpc]; rfl) (by rw [hpc]; rfl) ⟨ha, hcr, hx, hlt⟩
    | some b =>
      exact hi.move i (by rw [hpc]; rfl) (by rw [hpc]; rfl)
        ⟨ha, ha.entry hx (by rw [cell_of_some hc, hb])⟩
  | mkBox k x =>
    rw [hpc] at hgood
    obtain ⟨ha, hcr, hx, hlt⟩ := hgood
    have hn := boxAddr_free (A := A) hi.heap.top
    simp only [TPc.next]
    generalize h.boxAddr A = n at hn
    have hg : TabGrow h { h.setBox n (some ((calls i).val k.lvl, none)) with
        top := max h.top (n + 1), atoms := h.atoms + Z.atoms } := by
      refine ⟨fun l x e => ?_, fun x j b e => e, fun x j b e => ?_⟩
      · refine (show _ = (h.setBox n (some ((calls i).val k.lvl, none))).ptr l by
          cases l <;> rfl).trans ?_
        rw [ptr_setBox, if_neg]
        · exact e
        · rintro rfl; rw [ptr_child_none.2 hn] at e; cases e
      · simp only [valueAt, setBox]
        rw [if_neg]
        rintro rfl
        exact (hi.heap.cellLive _ _ _ e).1 hn
    refine ⟨ds, db, hi.assemble i (.casBox k x n) hg ?_ ?_ ?_ ?_ ?_ ?_ ?_ ?_ ?_, hg⟩
    · exact (hi.heap.allocBox _ _ hn).congr
        (own_same (f := fun j => (pcs j).ownSlice) (by simp only [hpc]; rfl))
        (own_add (f := fun j => (pcs j).ownBox) (by simp only [hpc]; rfl))
    · exact fun _ _ _ _ => rfl
    · intro j hj s hs
      simp only [setBox]
      rw [if_neg]
      rintro rfl
      exact hi.heap.heldB _ ⟨j, hs⟩ hn
    · intro b hb; cases hb
    · intro s hs; injection hs with hs; subst hs; exact .inr hn
    · exact ⟨ha.mono hg, hcr, hg.ptr _ _ hx, hlt, by simp [setBox]⟩
    · intro x j b hb; exact .inl hb
    · exact fun r hr => .inl hr
    · intro L h1 h2
      have h3 := hi.atoms (L.erase n) (h1.erase n) (fun b hb => by
        have hb' := (h1.mem_erase_iff).1 hb
        have := h2 b hb'.2
        simp only [setBox, if_neg hb'.1] at this
        exact this)
      have h4 := List.length_erase (a := n) (l := L)
      have h5 : L.length ≤ (L.erase n).length + 1 := by
        rw [h4]; split <;> omega
      calc Z.atoms * L.length ≤ Z.atoms * ((L.erase n).length + 1) := Nat.mul_le_mul_left _ h5
        _ = Z.atoms * (L.erase n).length + Z.atoms := Nat.mul_succ _ _
        _ ≤ h.atoms + Z.atoms := Nat.add_le_add_right h3 _
  | casBox k x b =>
    rw [hpc] at hgood
    obtain ⟨ha, hcr, hx, hlt, hb⟩ := hgood
    obtain ⟨cells, hc⟩ := live _ _ hx
    have hown : (pcs i).ownBox = some b := by rw [hpc]; rfl
    simp only [TPc.next, hc]
    cases hd : cells ((calls i).idx k.lvl) with
    | some d =>
      exact ⟨ds, db, hi.move i (by rw [hpc]; rfl) (by rw [hpc]; rfl)
        ⟨ha, hcr, ⟨_, hb⟩, ha.entry hx (by rw [cell_of_some hc, hd])⟩, TabGrow.refl⟩
    | none =>
      have hold : h.cell x ((calls i).idx k.lvl) = none := by rw [cell_of_some hc, hd]
      have hcell : ∀ y j, (h.setSlice x (some (setCell cells ((calls i).idx k.lvl) (some b)))).cell y j =
          if y = x ∧ j = (calls i).idx k.lvl then some b else h.cell y j := by
        intro y j
        rw [cell_setSlice]
        by_cases hy : y = x
        · subst hy
          by_cases hj : j = (calls i).idx k.lvl
          · simp [setCell, hj]
          · simp [setCell, hj, cell_of_some hc]
        · simp [hy]
      have hg : TabGrow h (h.setSlice x (some (setCell cells ((calls i).idx k.lvl) (some b)))) := by
        refine ⟨fun l x e => by rw [ptr_setSlice]; exact e, fun y j d e => ?_, fun y j d e => rfl⟩
        rw [hcell, if_neg]
        · exact e
        · rintro ⟨rfl, rfl⟩; rw [hold] at e; cases e
      have hent : (h.setSlice x (some (setCell cells ((calls i).idx k.lvl) (some b)))).entryAt
          (calls i).root (calls i).idx k.lvl = some b :=
        (ha.mono hg).entry (hg.ptr _ _ hx) (by rw [hcell, if_pos ⟨rfl, rfl⟩])
      refine ⟨ds, Function.update db b (ds x), hi.assemble i _ hg ?_ ?_ ?_ ?_ ?_ ⟨ha.mono hg, hent⟩
        ?_ ?_ ?_, hg⟩
      · exact (hi.heap.publishBox hc hd ⟨i, hown⟩ (by simp [ptr, hb]) (fun l n h1 h2 => by
          have := hi.heap.ptrInj _ _ _ h1 hx
          subst this
          rw [ha.size] at h2
          injection h2 with h2
          omega)).congr
          (own_same (f := fun j => (pcs j).ownSlice) (by simp only [hpc]; rfl))
          (own_del (f := fun j => (pcs j).ownBox) hown hi.injB)
      · intro j hj s hs
        simp only [setSlice]
        rw [if_neg]
        rintro rfl
        exact (hi.heap.ptrLive _ _ hx).2 ⟨j, hs⟩
      · exact fun _ _ _ _ => rfl
      · intro s hs; cases hs
      · intro s hs; cases hs
      · intro y j d hd
        rw [hcell] at hd
        split at hd
        · injection hd with hd
          subst hd
          exact .inr ⟨k.lvl, hcr, by have := ha.levels; omega, hent, by simp [valueAt, setSlice, hb]⟩
        · exact .inl hd
      · exact fun r hr => .inl hr
      · exact hi.atoms
  | dropBox k b d =>
    rw [hpc] at hgood
    obtain ⟨ha, hcr, ⟨v, hb⟩, hd⟩ := hgood
    have hown : (pcs i).ownBox = some b := by rw [hpc]; rfl
    simp only [TPc.next, hb]
    have hg : TabGrow h (h.setBox b none) := by
      refine ⟨fun l x e => ?_, fun x j b e => e, fun x j d e => ?_⟩
      · rw [ptr_setBox, if_neg]
        · exact e
        · rintro rfl; simp [ptr, hb] at e
      · simp only [valueAt, setBox]
        rw [if_neg]
        rintro rfl
        exact (hi.heap.cellLive _ _ _ e).2 ⟨i, hown⟩
    refine ⟨ds, db, hi.assemble i _ hg ?_ ?_ ?_ ?_ ?_ ⟨ha.mono hg, hg.entryAt hd⟩ ?_ ?_ ?_, hg⟩
    · exact (hi.heap.freeBox ⟨i, hown⟩ (by simp [ptr, hb])).congr
        (own_same (f := fun j => (pcs j).ownSlice) (by simp only [hpc]; rfl))
        (own_del (f := fun j => (pcs j).ownBox) hown hi.injB)
    · exact fun _ _ _ _ => rfl
    · intro j hj s hs
      simp only [setBox]
      rw [if_neg]
      rintro rfl
      exact hj (hi.injB _ _ _ hs hown)
    · intro s hs; cases hs
    · intro s hs; cases hs
    · intro x j b hb; exact .inl hb
    · exact fun r hr => .inl hr
    · intro L h1 h2
      refine hi.atoms L h1 fun a ha => ?_
      have := h2 a ha
      simp only [setBox] at this
      split at this
      · exact absurd rfl this
      · exact this
  | look k b f =>
    rw [hpc] at hgood
    obtain ⟨ha, hb⟩ := hgood
    obtain ⟨e, he⟩ := hi.heap.entry_live hb
    refine ⟨ds, db, ?_, TabGrow.refl⟩
    simp only [TPc.next, he]
    split
    · exact hi.move i (by rw [hpc]; rfl) (by rw [hpc]; rfl)
        ⟨k.lvl, e.1, f, by have := ha.levels; omega, hb, by simp [valueAt, he], ‹_›⟩
    · have hlv := ha.levels
      cases hn : k.n with
      | zero => exact hi.move i (by rw [hpc]; rfl) (by rw [hpc]; rfl) trivial
      | succ n =>
        refine hi.move i (by rw [hpc]; rfl) (by rw [hpc]; rfl) ⟨?_, ?_, ?_, ?_⟩
        · simp [sizeAt, he]
        · simp only; omega
        · intro r hr; cases hr
        · intro b' hb'
          injection hb' with hb'
          subst hb'
          exact ⟨k.lvl, rfl, hb⟩
  | done a =>
    refine ⟨ds, db, ?_, TabGrow.refl⟩
    have : Function.update pcs i (.done a) = pcs := by rw [← hpc, Function.update_eq_self]
    simp only [TPc.next]
    rw [this]; exact hi
  | failed => rw [hpc] at hgood; exact hgood.elim

end Rotonda
