import Verif.Proofs.PtrStep
import Verif.Proofs.OnceBoxRefine

/-!
# Calls on the heap of both tables
-/

namespace Rotonda

open Prog TabHeap

theorem Prog.step1_bind {σ α β : Type} {p : Prog σ α} (k : α → Prog σ β) (s : σ) (hp : p.IsAct) :
    (p.bind k).step1 s = ((p.step1 s).1, (p.step1 s).2.bind k) := by
  cases p with
  | act f q => rfl
  | _ => cases hp

theorem Prog.step1_zoom {σ τ α : Type} (L : Lens σ τ) {p : Prog τ α} (s : σ) (hp : p.IsAct) :
    (p.zoom L).step1 s = (L.set s (p.step1 (L.get s)).1, (p.step1 (L.get s)).2.zoom L) := by
  cases p with
  | act f q => rfl
  | _ => cases hp

theorem Prog.IsAct.zoom {σ τ α : Type} {L : Lens σ τ} {p : Prog τ α} (hp : p.IsAct) : (p.zoom L).IsAct := by
  cases p with
  | act f q => trivial
  | _ => cases hp

theorem Prog.IsAct.bind {σ α β : Type} {p : Prog σ α} {k : α → Prog σ β} (hp : p.IsAct) :
    (p.bind k).IsAct := by
  cases p with
  | act f q => trivial
  | _ => cases hp

section Table

variable {E : Type} {W : Nat} [Entry E W] {ρ ι : Type} [DecidableEq ι]

/-- The state of one table; `S` and `B` is what the calls hold. -/
structure TblOk (m R : Nat) (h : TabHeap E) (S B : ι → Option Nat) : Prop where
  inv : ∃ ds db D, TabInv (entryShape E m) h (fun x => ∃ i, S i = some x) (fun b => ∃ i, B i = some b)
    ds db D
  uS : ∀ i j x, S i = some x → S j = some x → i = j
  uB : ∀ i j x, B i = some x → B j = some x → i = j
  roots : ∀ r, h.roots r ≠ none → r < R

/-- One step of an operation of the call `i`. -/
structure TblStep (A : TabAlloc E) (m R : Nat) (h h' : TabHeap E) (pc pc' : OPc E W ρ) (i : ι)
    (S B : ι → Option Nat) : Prop where
  act : (pc.prog A (entryShape E m)).IsAct
  step : (pc.prog A (entryShape E m)).step1 h = (h', pc'.prog A (entryShape E m))
  slot : (pc'.slotProg = pc.slotProg ∧ h'.toSlots = h.toSlots) ∨
    (pc.slotProg.IsAct ∧ pc.slotProg.step1 h.toSlots = (h'.toSlots, pc'.slotProg))
  ok : TblOk m R h' (Function.update S i pc'.ownSlice) (Function.update B i pc'.ownBox)
  good : pc'.Good m h'
  keeps : PtrKeeps h h'
  heldS : ∀ j, j ≠ i → ∀ x, S j = some x → h'.slices x = h.slices x
  heldB : ∀ j, j ≠ i → ∀ x, B j = some x → h'.boxes x = h.boxes x
  post : ∀ K K' r, pc'.Post K K' r → pc.Post K K' r
  roots : ∀ r, pc'.rootOf = some r → pc.rootOf = some r

omit [DecidableEq ι] in
theorem held_iff [DecidableEq ι] (S : ι → Option Nat) (i : ι) (o : Option Nat) (x : Nat) :
    (∃ j, Function.update S i o j = some x) ↔ (∃ j, j ≠ i ∧ S j = some x) ∨ o = some x := by
  constructor
  · rintro ⟨j, hj⟩
    by_cases e : j = i
    · subst e; rw [Function.update_self] at hj; exact .inr hj
    · rw [Function.update_of_ne e] at hj; exact .inl ⟨j, e, hj⟩
  · rintro (⟨j, e, hj⟩ | hx)
    · exact ⟨j, by rw [Function.update_of_ne e]; exact hj⟩
    · exact ⟨i, by rw [Function.update_self]; exact hx⟩

theorem held_unique {S : ι → Option Nat} {i : ι} {o : Option Nat}
    (hu : ∀ i j x, S i = some x → S j = some x → i = j)
    (ho : ∀ x, o = some x → ¬ ∃ j, j ≠ i ∧ S j = some x) (j k : ι) (x : Nat)
    (hj : Function.update S i o j = some x) (hk : Function.update S i o k = some x) : j = k := by
  by_cases e1 : j = i <;> by_cases e2 : k = i
  · exact e1.trans e2.symm
  · subst e1; rw [Function.update_self] at hj; rw [Function.update_of_ne e2] at hk
    exact (ho x hj ⟨k, e2, hk⟩).elim
  · subst e2; rw [Function.update_self] at hk; rw [Function.update_of_ne e1] at hj
    exact (ho x hk ⟨j, e1, hj⟩).elim
  · rw [Function.update_of_ne e1] at hj; rw [Function.update_of_ne e2] at hk
    exact hu _ _ _ hj hk

theorem TblOk.step {m R : Nat} {h : TabHeap E} {S B : ι → Option Nat} (hok : TblOk m R h S B)
    (A : TabAlloc E) (i : ι) (pc : OPc E W ρ) (hnot : ¬ pc.Over) (hg : pc.Good m h)
    (hS : S i = pc.ownSlice) (hB : B i = pc.ownBox) (hr : ∀ r, pc.rootOf = some r → r < R) :
    ∃ h' pc', TblStep A m R h h' pc pc' i S B := by
  obtain ⟨ds, db, D, hi⟩ := hok.inv
  have hi' := hi.congr
    (S' := fun x => (∃ j, j ≠ i ∧ S j = some x) ∨ pc.ownSlice = some x)
    (B' := fun x => (∃ j, j ≠ i ∧ B j = some x) ∨ pc.ownBox = some x)
    (fun x => by
      rw [← held_iff, ← hS, Function.update_eq_self])
    (fun x => by
      rw [← held_iff, ← hB, Function.update_eq_self])
  obtain ⟨h', pc', hs⟩ := OPc.step (A := A) pc hnot hi'
    (fun x hx ⟨j, hj, hj'⟩ => hj (hok.uS j i x hj' (hS.trans hx)))
    (fun x hx ⟨j, hj, hj'⟩ => hj (hok.uB j i x hj' (hB.trans hx))) hg
  obtain ⟨ds', db', D', hinv⟩ := hs.inv
  refine ⟨h', pc', hs.act, hs.step, hs.slot, ⟨⟨ds', db', D', hinv.congr (fun x => (held_iff ..).symm)
    (fun x => (held_iff ..).symm)⟩, held_unique hok.uS hs.ownS, held_unique hok.uB hs.ownB, ?_⟩, hs.good,
    hs.keeps, fun j hj x hx => hs.heldS x ⟨j, hj, hx⟩, fun j hj x hx => hs.heldB x ⟨j, hj, hx⟩, hs.post,
    hs.rootOf⟩
  intro r hx
  rcases hs.roots r hx with h1 | h1
  · exact hok.roots r h1
  · exact hr r h1

/-! ## The pointers a call has found -/

/-- The call has the pointer to every entry that it has found. -/
def EnvOk (h : TabHeap E) (K : Addr → Nat → Prop) (env : Addr → Option Nat) : Prop :=
  ∀ a sz, K a sz → ∃ n r, env a = some n ∧ PtrAt (W := W) h a n r ∧ r.next = sz

omit [DecidableEq ι] in
theorem EnvOk.mono {h h' : TabHeap E} {K : Addr → Nat → Prop} {env : Addr → Option Nat}
    (he : EnvOk h K env) (hk : PtrKeeps h h') : EnvOk h' K env := by
  intro a sz hx
  obtain ⟨n, r, h1, h2, h3⟩ := he a sz hx
  exact ⟨n, r, h1, h2.mono hk, h3⟩

theorem EnvOk.learn {h : TabHeap E} {K : Addr → Nat → Prop} {env : Addr → Option Nat}
    (he : EnvOk h K env) {a : Addr} {n : Nat} {r : Ref W} (hr : PtrAt h a n r) :
    EnvOk h (addKnown K a r.next) (learn env (some (a, n))) := by
  intro a' sz hx
  by_cases e : a' = a
  · subst e
    refine ⟨n, r, by simp [Rotonda.learn], hr, ?_⟩
    rcases hx with hx | ⟨-, rfl⟩
    · obtain ⟨n', r', h1, h2, h3⟩ := he a' sz hx
      obtain ⟨h4, e, h5, h6⟩ := hr
      obtain ⟨h7, e', h8, h9⟩ := h2
      rw [h4] at h7
      cases h7
      rw [h5] at h8
      cases h8
      rw [← h3, ← h9, ← h6]
    · rfl
  · rcases hx with hx | ⟨hx, -⟩
    · obtain ⟨n', r', h1, h2, h3⟩ := he a' sz hx
      exact ⟨n', r', by simp [Rotonda.learn, e, h1], h2, h3⟩
    · exact (e hx).elim

/-- The start of an operation. -/
theorem TabOp.begin {m R : Nat} {h : TabHeap E} {K : Addr → Nat → Prop} {env : Addr → Option Nat}
    (he : EnvOk h K env) (op : TabOp E W ρ) (hp : op.Pre R K) :
    ∃ pc : OPc E W ρ, (∀ A, op.onHeap A (entryShape E m) env = pc.prog A (entryShape E m)) ∧
      op.onSlots = pc.slotProg ∧ pc.Good m h ∧ ¬ pc.Over ∧ pc.ownSlice = none ∧ pc.ownBox = none ∧
      (∀ r, pc.rootOf = some r → r < R) ∧ ∀ K' r, pc.Post K K' r → op.Post K K' r := by
  have hloc : ∀ b, Knows R K b → ∀ idx, ∃ l, b.loc env = some l ∧ KeyOk m h ⟨l, b, idx⟩ ∧
      (b.path = [] → b.root < R) := by
    rintro b (⟨h1, h2, h3⟩ | ⟨h1, h2⟩) idx
    · refine ⟨.root b.root, by rw [Bucket.loc, h1], ⟨?_, ?_⟩, fun _ => h2⟩
      · simp only [locAt, h1, List.reverse_nil, down]
      · simp only [sizeAt, entryShape, h3]
    · obtain ⟨n, r, h3, ⟨h4, e, h5, h6⟩, h7⟩ := he _ _ h2
      refine ⟨.child n, ?_, ⟨h4, ?_⟩, fun h => (h1 h).elim⟩
      · unfold Bucket.loc
        split
        · next e => exact (h1 e).elim
        · rw [h3]; rfl
      · simp only [sizeAt, entryShape]
        simp only [valueAt, Option.map_eq_some_iff] at h5
        obtain ⟨x, hx, rfl⟩ := h5
        rw [hx, Option.map_some, ← h7, ← h6]
        rfl
  cases op with
  | get b idx =>
    obtain ⟨l, h1, h2, h3⟩ := hloc b hp idx
    refine ⟨.get ⟨l, b, idx⟩, fun A => ?_, rfl, h2, id, rfl, rfl, (fun _ hx => nomatch hx), fun _ _ h => h⟩
    rw [TabOp.onHeap, h1]; rfl
  | init b idx e =>
    obtain ⟨l, h1, h2, h3⟩ := hloc b hp idx
    refine ⟨.init ⟨l, b, idx⟩ e, fun A => ?_, rfl, h2, id, rfl, rfl, fun r hx => ?_, fun _ _ h => h⟩
    · rw [TabOp.onHeap, h1]; rfl
    · simp only [OPc.rootOf] at hx
      split at hx
      · next e => cases hx; exact h3 e
      · cases hx
  | access a f =>
    obtain ⟨⟨sz, hsz⟩, hf⟩ := hp
    obtain ⟨n, r, h1, h2, h3⟩ := he a sz hsz
    refine ⟨.access a n f, fun A => ?_, rfl, ⟨⟨r, h2⟩, hf⟩, id, rfl, rfl, (fun _ hx => nomatch hx), fun _ _ h => h⟩
    rw [TabOp.onHeap, h1]; rfl

theorem OPc.over_own {pc : OPc E W ρ} (ho : pc.Over) : pc.ownSlice = none ∧ pc.ownBox = none := by
  cases pc <;> first | exact ⟨rfl, rfl⟩ | exact ho.elim

/-- The end of an operation. -/
theorem OPc.finish {m : Nat} {h : TabHeap E} {K : Addr → Nat → Prop} {env : Addr → Option Nat}
    (he : EnvOk h K env) (pc : OPc E W ρ) (ho : pc.Over) (hg : pc.Good m h) :
    ((∀ A, pc.prog A (entryShape E m) = .panic) ∧ pc.slotProg = .panic) ∨
    ∃ r l K', (∀ A, pc.prog A (entryShape E m) = .ret (r, l)) ∧ pc.slotProg = .ret r ∧ pc.Post K K' r ∧
      EnvOk h K' (Rotonda.learn env l) := by
  cases pc with
  | getDone k o =>
    cases o with
    | none => exact .inr ⟨none, none, K, fun A => rfl, rfl, .inl ⟨rfl, rfl⟩, he⟩
    | some o =>
      obtain ⟨n, r⟩ := o
      have hr := hg n r rfl
      have hra : r.addr = k.slot := by obtain ⟨-, e, -, rfl⟩ := hr; rfl
      refine .inr ⟨some r, some (k.slot, n), addKnown K k.slot r.next, fun A => rfl, rfl,
        .inr ⟨r.id, r.next, ?_, rfl⟩, he.learn hr⟩
      rw [← hra]
  | initDone k n us r =>
    have hr : PtrAt h k.slot n r := hg
    have hra : r.addr = k.slot := by obtain ⟨-, e, -, rfl⟩ := hr; rfl
    refine .inr ⟨(r, us), some (k.slot, n), addKnown K k.slot r.next, fun A => rfl, rfl,
      ⟨r.id, r.next, ?_, rfl⟩, he.learn hr⟩
    rw [← hra]
  | accessDone r => exact .inr ⟨r, none, K, fun A => rfl, rfl, rfl, he⟩
  | failed => exact .inl ⟨fun A => rfl, rfl⟩
  | _ => exact ho.elim

end Table

end Rotonda
