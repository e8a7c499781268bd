import Verif.Proofs.TreeSeq
import Mathlib.Data.Set.Card

/-!
# Facts about every action of a program, and the number of nodes
-/

namespace Rotonda
namespace Prog

variable {σ τ α β : Type}

/-- Every action of the program, in whatever state it happens, is a `G` step. -/
def Always (G : σ → σ → Prop) : Prog σ α → Prop
  | ret _ => True
  | act f k => (∀ s, G s (f s).2) ∧ ∀ a, (k a).Always G
  | panic => True
  | diverge => True

variable {G : σ → σ → Prop}

theorem Always.bind {p : Prog σ α} {k : α → Prog σ β} (h : p.Always G)
    (hk : ∀ a, (k a).Always G) : (p >>= k).Always G := by
  induction p with
  | ret a => exact hk a
  | act f g ih => exact ⟨h.1, fun a => ih a (h.2 a)⟩
  | panic => trivial
  | diverge => trivial

theorem always_ret (a : α) : (ret a : Prog σ α).Always G := trivial
theorem always_pure (a : α) : (pure a : Prog σ α).Always G := trivial
theorem always_panic : (panic : Prog σ α).Always G := trivial
theorem always_diverge : (diverge : Prog σ α).Always G := trivial
theorem always_atomic {f : σ → α × σ} (h : ∀ s, G s (f s).2) : (atomic f).Always G :=
  ⟨h, fun _ => trivial⟩
theorem always_read (hG : ∀ s, G s s) (f : σ → α) : (read f).Always G := ⟨hG, fun _ => trivial⟩
theorem always_ofOption (o : Option α) : (ofOption o : Prog σ α).Always G := by
  cases o <;> trivial

theorem Always.mono {G' : σ → σ → Prop} {p : Prog σ α} (h : p.Always G)
    (hG : ∀ s s', G s s' → G' s s') : p.Always G' := by
  induction p with
  | ret a => trivial
  | act f k ih => exact ⟨fun s => hG _ _ (h.1 s), fun a => ih a (h.2 a)⟩
  | panic => trivial
  | diverge => trivial

theorem Always.zoom {L : Lens σ τ} {G' : τ → τ → Prop} (hG : ∀ s t, G' (L.get s) t → G s (L.set s t))
    {p : Prog τ α} (h : p.Always G') : (p.zoom L).Always G := by
  induction p with
  | ret a => trivial
  | act f k ih => exact ⟨fun s => hG _ _ (h.1 _), fun a => ih a (h.2 a)⟩
  | panic => trivial
  | diverge => trivial

/-- The whole run is a sequence of `G` steps. -/
theorem Always.run {p : Prog σ α} (h : p.Always G) {s s' : σ} {a : α}
    (hr : p.run s = .ok a s') : Relation.ReflTransGen G s s' := by
  induction p generalizing s with
  | ret b => cases hr; exact .refl
  | act f k ih => exact .head (h.1 s) (ih _ (h.2 _) hr)
  | panic => cases hr
  | diverge => cases hr

theorem always_true (p : Prog σ α) : p.Always fun _ _ => True := by
  induction p with
  | ret _ => trivial
  | act f k ih => exact ⟨fun _ => trivial, ih⟩
  | panic => trivial
  | diverge => trivial

/-- Two ways to know the guarantee. -/
theorem wp_always {R G G' : σ → σ → Prop} {D : Prop} {p : Prog σ α} {Q : α → σ → Prop} {s : σ}
    (h : wp R G D p Q s) (h' : p.Always G') : wp R (fun a b => G a b ∧ G' a b) D p Q s := by
  induction p generalizing s with
  | ret b => exact h
  | act f k ih => exact fun s' hr => ⟨⟨(h s' hr).1, h'.1 s'⟩, ih _ (h s' hr).2 (h'.2 _)⟩
  | panic => exact h
  | diverge => exact h

end Prog

open Prog

/-- As `read_only`, for `Always`. -/
syntax "always" "[" term,* "]" : tactic

macro_rules
  | `(tactic| always [$ts,*]) => do
    let mut parts ← `(tactic| fail)
    for t in ts.getElems do
      parts ← `(tactic| first | with_reducible exact $t | ($parts:tactic))
    `(tactic| repeat' first
      | with_reducible assumption
      | with_reducible exact always_pure _
      | with_reducible exact always_ret _
      | with_reducible exact always_panic
      | with_reducible exact always_diverge
      | with_reducible exact always_ofOption _
      | ($parts:tactic)
      | with_reducible apply Always.bind
      | (intro _; try dsimp only)
      | split)

variable {W : Nat}

/-- A step that sets no child bit. -/
def PtrKeep (s s' : NSlots W) : Prop := ∀ n v, PtrSet s' n v → PtrSet s n v

theorem PtrKeep.rfl' (s : NSlots W) : PtrKeep s s := fun _ _ h => h

theorem ptrKeep_read {ρ : Type} (f : NSlots W → ρ) : (Prog.read f).Always PtrKeep :=
  always_read PtrKeep.rfl' f

theorem ptrKeep_sliceGet (b : Bucket) (i : Nat) :
    (sliceGet (E := StoredNode W) b i).Always PtrKeep := by
  unfold sliceGet; always [ptrKeep_read _]

theorem ptrKeep_set_new {s : NSlots W} {a : Addr} {e : StoredNode W} (he : e.ptr = 0#16) :
    PtrKeep s (s.set a e) := by
  rintro n v ⟨b, f, hf, hid, hb⟩
  by_cases c : b = a
  · subst c; rw [Slots.set_same] at hf; cases hf; rw [he] at hb; simp at hb
  · rw [Slots.set_other _ _ c] at hf; exact ⟨b, f, hf, hid, hb⟩

theorem ptrKeep_set {s : NSlots W} {a : Addr} {e e' : StoredNode W} (h : s a = some e)
    (hid : e'.id = e.id) (hp : e'.ptr = e.ptr) : PtrKeep s (s.set a e') := by
  rintro n v ⟨b, f, hf, hi, hb⟩
  by_cases c : b = a
  · subst c; rw [Slots.set_same] at hf; cases hf
    exact ⟨b, e, h, hid.symm.trans hi, by rw [← hp]; exact hb⟩
  · rw [Slots.set_other _ _ c] at hf; exact ⟨b, f, hf, hi, hb⟩

theorem ptrKeep_sliceGetOrInit (b : Bucket) (i : Nat) {e : StoredNode W} (he : e.ptr = 0#16) :
    (sliceGetOrInit b i e).Always PtrKeep := by
  have hcas : (casInit (b.slot i) e).Always PtrKeep := by
    refine always_atomic fun s => ?_
    split
    · exact ptrKeep_set_new he
    · exact PtrKeep.rfl' _
  unfold sliceGetOrInit
  always [ptrKeep_read _]

theorem ptrKeep_accessAt {ρ : Type} (a : Addr) {f : StoredNode W → ρ × StoredNode W}
    (h : ∀ e, (f e).2.id = e.id ∧ (f e).2.ptr = e.ptr) : (accessAt a f).Always PtrKeep := by
  unfold accessAt
  refine Always.bind (always_atomic fun s => ?_) fun _ => always_ofOption _
  split
  · exact PtrKeep.rfl' _
  · rename_i e he
    exact ptrKeep_set he (h e).1 (h e).2

theorem ptrKeep_readAt {ρ : Type} (a : Addr) (f : StoredNode W → ρ) :
    (readAt a f).Always PtrKeep := by
  unfold readAt; always [ptrKeep_read _]

theorem ptrKeep_updateRbm (a : Addr) (m : Mui) : (updateRbm (W := W) a m).Always PtrKeep :=
  ptrKeep_accessAt a fun _ => ⟨rfl, rfl⟩

theorem ptrKeep_casPfx (a : Addr) (x y : BitVec 32) : (casPfx (W := W) a x y).Always PtrKeep :=
  ptrKeep_accessAt a fun _ => by split <;> exact ⟨rfl, rfl⟩

theorem ptrKeep_casPfxLoop (a : Addr) (x : BitVec 32) (fuel : Nat) : ∀ y,
    (casPfxLoop (W := W) a x fuel y).Always PtrKeep := by
  induction fuel with
  | zero => intro; exact always_diverge
  | succ n ih => intro y; unfold casPfxLoop; always [ptrKeep_casPfx _ _ _, ih _]

theorem ptrKeep_storeNodeLoop (F : Nat) (id : NodeId W) (m : Mui) (fuel : Nat) : ∀ level b,
    (storeNodeLoop F id m 0#16 0#32 fuel level b).Always PtrKeep := by
  induction fuel with
  | zero => intros; exact always_panic
  | succ n ih =>
    intro level b
    unfold storeNodeLoop
    simp only [ne_eq, not_true_eq_false, and_false, if_false]
    always [ptrKeep_sliceGet _ _, ptrKeep_sliceGetOrInit _ _ rfl, ptrKeep_updateRbm _ _, ih _ _]

theorem ptrKeep_retrieveNodeMutLoop (id : NodeId W) (m : Mui) (fuel : Nat) : ∀ level b,
    (retrieveNodeMutLoop id m fuel level b).Always PtrKeep := by
  induction fuel with
  | zero => intros; exact always_panic
  | succ n ih =>
    intro level b
    unfold retrieveNodeMutLoop
    always [ptrKeep_sliceGet _ _, ptrKeep_sliceGetOrInit _ _ rfl, ptrKeep_updateRbm _ _, ih _ _]

theorem ptrKeep_retrieveNodeMut (id : NodeId W) (m : Mui) :
    (retrieveNodeMut id m).Always PtrKeep :=
  (always_ofOption _).bind fun _ => ptrKeep_retrieveNodeMutLoop _ _ _ _ _

theorem ptrKeep_eval_last (F : Nat) (a : Addr) (bs : BitSpan) (base : NodeId W) :
    (evalNodeOrPrefixAt F a bs base true).Always PtrKeep := by
  unfold evalNodeOrPrefixAt loadPtr loadPfx
  simp only [Bool.true_eq_false, if_false]
  always [ptrKeep_readAt _ _, ptrKeep_casPfxLoop _ _ _ _]

end Rotonda
