import Verif.Proofs.Ghost
import Verif.Proofs.Along
import Verif.Proofs.TreeRead

/-!
# What a call has read along a run

`Reads S p n a m`: if `S j` is the state before the `j`-th step of a run, `p` can have
come to the answer `a` by actions at steps from `n` on and up to `m`.
-/

namespace Rotonda

open Prog

variable {σ α β : Type}

namespace Prog

def Reads (S : ℕ → σ) : Prog σ α → ℕ → α → ℕ → Prop
  | .ret b, n, a, m => b = a ∧ n ≤ m
  | .act f k, n, a, m => ∃ j, n ≤ j ∧ Reads S (k (f (S j)).1) j a m
  | .panic, _, _, _ => False
  | .diverge, _, _, _ => False

variable {S : ℕ → σ}

theorem Reads.le {p : Prog σ α} {n m : ℕ} {a : α} (h : Reads S p n a m) : n ≤ m := by
  induction p generalizing n with
  | ret b => exact h.2
  | act f k ih => obtain ⟨j, hj, h⟩ := h; exact hj.trans (ih _ h)
  | panic => exact h.elim
  | diverge => exact h.elim

/-- A longer time. -/
theorem Reads.mono {p : Prog σ α} {n m n' m' : ℕ} {a : α} (hn : n' ≤ n) (hm : m ≤ m')
    (h : Reads S p n a m) : Reads S p n' a m' := by
  induction p generalizing n n' with
  | ret b => exact ⟨h.1, hn.trans (h.2.trans hm)⟩
  | act f k ih => obtain ⟨j, hj, h⟩ := h; exact ⟨j, hn.trans hj, ih _ (Nat.le_refl j) h⟩
  | panic => exact h.elim
  | diverge => exact h.elim

theorem reads_bind {p : Prog σ α} {k : α → Prog σ β} {n m : ℕ} {b : β} :
    Reads S (p >>= k) n b m ↔ ∃ a l, Reads S p n a l ∧ Reads S (k a) l b m := by
  induction p generalizing n with
  | ret a =>
    refine ⟨fun h => ⟨a, n, ⟨rfl, Nat.le_refl n⟩, h⟩, ?_⟩
    rintro ⟨_, l, ⟨rfl, hl⟩, h⟩
    exact h.mono hl (Nat.le_refl m)
  | act f g ih =>
    constructor
    · rintro ⟨j, hj, h⟩
      obtain ⟨a, l, h1, h2⟩ := (ih _).1 h
      exact ⟨a, l, ⟨j, hj, h1⟩, h2⟩
    · rintro ⟨a, l, ⟨j, hj, h1⟩, h2⟩
      exact ⟨j, hj, (ih _).2 ⟨a, l, h1, h2⟩⟩
  | panic => exact ⟨fun h => h.elim, fun ⟨_, _, h, _⟩ => h.elim⟩
  | diverge => exact ⟨fun h => h.elim, fun ⟨_, _, h, _⟩ => h.elim⟩

theorem reads_ret {n m : ℕ} {a b : α} : Reads S (.ret b) n a m ↔ b = a ∧ n ≤ m := Iff.rfl

theorem reads_pure {n m : ℕ} {a b : α} : Reads S (pure b) n a m ↔ b = a ∧ n ≤ m := Iff.rfl

theorem reads_read {f : σ → α} {n m : ℕ} {a : α} :
    Reads S (Prog.read f) n a m ↔ ∃ j, n ≤ j ∧ j ≤ m ∧ f (S j) = a :=
  ⟨fun ⟨j, h1, h2, h3⟩ => ⟨j, h1, h3, h2⟩, fun ⟨j, h1, h2, h3⟩ => ⟨j, h1, h3, h2⟩⟩

theorem reads_ofOption {o : Option α} {n m : ℕ} {a : α} :
    Reads S (Prog.ofOption o) n a m ↔ o = some a ∧ n ≤ m := by
  cases o with
  | none => exact ⟨fun h => h.elim, fun h => by cases h.1⟩
  | some b => exact ⟨fun h => ⟨congrArg some h.1, h.2⟩, fun h => ⟨Option.some.inj h.1, h.2⟩⟩

/-- What holds of the answers of a reader whatever the others do holds of an answer read
along a run. -/
theorem Reads.wp {R : σ → σ → Prop} {D : Prop} {p : Prog σ α} {Q : α → σ → Prop} {n m : ℕ} {a : α}
    (hR : ∀ i j, n ≤ i → i ≤ j → j ≤ m → R (S i) (S j)) (hw : wp R RO D p Q (S n))
    (h : Reads S p n a m) : ∃ l, n ≤ l ∧ l ≤ m ∧ Q a (S l) := by
  induction p generalizing n with
  | ret b => obtain ⟨rfl, hn⟩ := h; exact ⟨n, Nat.le_refl n, hn, hw⟩
  | act f k ih =>
    obtain ⟨j, hj, h⟩ := h
    obtain ⟨h1, h2⟩ := hw (S j) (hR n j (Nat.le_refl n) hj h.le)
    rw [h1] at h2
    obtain ⟨l, h3, h4, h5⟩ := ih _ (fun i i' hi => hR i i' (hj.trans hi)) h2 h
    exact ⟨l, hj.trans h3, h4, h5⟩
  | panic => exact h.elim
  | diverge => exact h.elim

end Prog

variable {ι : Type} [DecidableEq ι] {A : ι → Type}

theorem Conf.at_succ (c : Conf σ ι A) (t : List ι) {n : ℕ} (hn : n < t.length) :
    c.at t (n + 1) = (c.at t n).step t[n] := by
  unfold Conf.at
  rw [List.take_succ_eq_append_getElem hn, Conf.exec_append]; rfl

/-- A call of a run that has returned has read its answer along the run. -/
theorem Conf.reads (c : Conf σ ι A) (t : List ι) {i : ι} {n : ℕ} (hn : n ≤ t.length) {a : A i}
    (ha : (c.at t n).pool i = .ret a) :
    ∀ k, k ≤ n → Reads (fun j => (c.at t j).st) ((c.at t k).pool i) k a n := by
  have key : ∀ d k, k + d = n → Reads (fun j => (c.at t j).st) ((c.at t k).pool i) k a n := by
    intro d
    induction d with
    | zero =>
      intro k hk
      obtain rfl : k = n := by omega
      rw [ha]
      exact ⟨rfl, Nat.le_refl _⟩
    | succ d ih =>
      intro k hk
      have h := ih (k + 1) (by omega)
      rw [Conf.at_succ c t (by omega : k < t.length)] at h
      by_cases hi : t[k] = i
      · rw [hi] at h
        cases hp : (c.at t k).pool i with
        | act f g =>
          rw [Conf.step_act hp] at h
          simp only [Function.update_self] at h
          exact ⟨k, Nat.le_refl k, h.mono (by omega) (Nat.le_refl n)⟩
        | ret b => rw [Conf.step_ret hp, hp] at h; exact h.mono (by omega) (Nat.le_refl n)
        | panic => rw [Conf.step_panic hp, hp] at h; exact h.elim
        | diverge => rw [Conf.step_diverge hp, hp] at h; exact h.elim
      · rw [Conf.step_other _ (Ne.symm hi)] at h
        exact h.mono (by omega) (Nat.le_refl n)
  exact fun k hk => key (n - k) k (by omega)

end Rotonda
