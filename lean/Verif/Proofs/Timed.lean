import Verif.Proofs.Reads

/-!
# Programs along a run

`S j` is the state before the `j`-th of the `N` steps of a run; `O j` says that this step is
not one of the program.  `twp S N O G p Q n`: from step `n` on, whenever it gets a turn, each
action of `p` is within `G`, and when it has returned, `Q` holds of the answer and the time.
The guarantee may speak about all the former states of the run.
-/

namespace Rotonda

open Prog

variable {σ τ α β : Type}

namespace Prog

def twp (S : ℕ → σ) (N : ℕ) (O : ℕ → Prop) (G : ℕ → σ → Prop) : Prog σ α → (α → ℕ → Prop) → ℕ → Prop
  | ret a, Q, n => Q a n
  | act f k, Q, n => ∀ j, n ≤ j → j < N → (∀ l, n ≤ l → l < j → O l) → G j (f (S j)).2 ∧
      (S (j + 1) = (f (S j)).2 → twp S N O G (k (f (S j)).1) Q (j + 1))
  | panic, _, _ => True
  | diverge, _, _ => True

variable {S : ℕ → σ} {N : ℕ} {O : ℕ → Prop} {G : ℕ → σ → Prop}

theorem twp_conseq {p : Prog σ α} {Q Q' : α → ℕ → Prop} {n : ℕ} (h : twp S N O G p Q n)
    (hQ : ∀ a m, n ≤ m → Q a m → Q' a m) : twp S N O G p Q' n := by
  induction p generalizing n with
  | ret a => exact hQ _ _ (Nat.le_refl n) h
  | act f k ih =>
    intro j hj hN hO
    refine ⟨(h j hj hN hO).1, fun hs => ih _ ((h j hj hN hO).2 hs) fun a m hm => hQ a m (by omega)⟩
  | panic => trivial
  | diverge => trivial

theorem twp_le {p : Prog σ α} {Q : α → ℕ → Prop} {n : ℕ} (hn : n ≤ N) (h : twp S N O G p Q n) :
    twp S N O G p (fun a m => m ≤ N ∧ Q a m) n := by
  induction p generalizing n with
  | ret a => exact ⟨hn, h⟩
  | act f k ih =>
    intro j hj hN hO
    exact ⟨(h j hj hN hO).1, fun hs => ih _ hN ((h j hj hN hO).2 hs)⟩
  | panic => trivial
  | diverge => trivial

theorem twp_bind {p : Prog σ α} {k : α → Prog σ β} {Q : β → ℕ → Prop} {n : ℕ} :
    twp S N O G (p >>= k) Q n ↔ twp S N O G p (fun a m => twp S N O G (k a) Q m) n := by
  induction p generalizing n with
  | ret a => rfl
  | act f g ih => simp only [act_bind, twp, ih]
  | panic => exact Iff.rfl
  | diverge => exact Iff.rfl

theorem twp_ret {a : α} {Q : α → ℕ → Prop} {n : ℕ} : twp S N O G (ret a) Q n = Q a n := rfl
theorem twp_pure {a : α} {Q : α → ℕ → Prop} {n : ℕ} : twp S N O G (pure a) Q n = Q a n := rfl

/-- What is known of a program whatever the others do within `R`, and of each of its
actions. -/
theorem twp_of_wp {R Gw G' : σ → σ → Prop} {D : Prop} {p : Prog σ α} {Q : α → σ → Prop} {n : ℕ}
    (hR : ∀ i j, n ≤ i → i ≤ j → j ≤ N → R (S i) (S j))
    (hG : ∀ j s', n ≤ j → j < N → G' (S j) s' → G j s') (ha : p.Always G')
    (h : wp R Gw D p Q (S n)) : twp S N O G p (fun a m => Q a (S m)) n := by
  induction p generalizing n with
  | ret a => exact h
  | act f k ih =>
    intro j hj hN _
    refine ⟨hG j _ hj hN (ha.1 _), fun hs => ?_⟩
    have := (h (S j) (hR n j (Nat.le_refl n) hj (by omega))).2
    rw [← hs] at this
    exact ih _ (fun i j' h1 h2 h3 => hR i j' (by omega) h2 h3)
      (fun j' s' h1 h2 => hG j' s' (by omega) h2) (ha.2 _) this
  | panic => trivial
  | diverge => trivial

theorem twp_of_always {G' : σ → σ → Prop} {p : Prog σ α} {n : ℕ}
    (hG : ∀ j s', n ≤ j → j < N → G' (S j) s' → G j s') (ha : p.Always G') :
    twp S N O G p (fun _ _ => True) n := by
  induction p generalizing n with
  | ret a => trivial
  | act f k ih =>
    exact fun j hj hN _ => ⟨hG j _ hj hN (ha.1 _), fun _ =>
      ih _ (fun j' s' h1 h2 => hG j' s' (by omega) h2) (ha.2 _)⟩
  | panic => trivial
  | diverge => trivial

/-- What the others keep and the program keeps. -/
theorem twp_carry {G' : σ → σ → Prop} {I : σ → Prop} {p : Prog σ α} {n : ℕ}
    (hO : ∀ l, n ≤ l → l < N → O l → I (S l) → I (S (l + 1)))
    (hI : ∀ j s', I (S j) → G' (S j) s' → I s')
    (hG : ∀ j s', n ≤ j → j < N → G' (S j) s' → G j s') (ha : p.Always G') (h : I (S n)) :
    twp S N O G p (fun _ m => I (S m)) n := by
  induction p generalizing n with
  | ret a => exact h
  | act f k ih =>
    intro j hj hN hoth
    have hj' : I (S j) := by
      induction j, hj using Nat.le_induction with
      | base => exact h
      | succ j hj ih =>
        have := ih (by omega) fun l h1 h2 => hoth l h1 (by omega)
        exact hO j hj (by omega) (hoth j hj (by omega)) this
    refine ⟨hG j _ hj hN (ha.1 _), fun hs => ih _ (fun l h1 h2 => hO l (by omega) h2)
      (fun j' s' h1 h2 => hG j' s' (by omega) h2) (ha.2 _) ?_⟩
    rw [hs]
    exact hI j _ hj' (ha.1 _)
  | panic => trivial
  | diverge => trivial

theorem twp_zoom {L : Lens σ τ} (hL : ∀ s t, L.get (L.set s t) = t) {G' : ℕ → τ → Prop}
    (hG : ∀ j t, G' j t → G j (L.set (S j) t)) {p : Prog τ α} {Q : α → ℕ → Prop} {n : ℕ}
    (h : twp (fun j => L.get (S j)) N O G' p Q n) : twp S N O G (p.zoom L) Q n := by
  induction p generalizing n with
  | ret a => exact h
  | act f k ih =>
    intro j hj hN hO
    refine ⟨hG j _ (h j hj hN hO).1, fun hs => ih _ ((h j hj hN hO).2 ?_)⟩
    change L.get (S (j + 1)) = _
    rw [hs, hL]
  | panic => trivial
  | diverge => trivial

theorem twp_ofOption {o : Option α} {Q : α → ℕ → Prop} {n : ℕ} (h : ∀ a, o = some a → Q a n) :
    twp S N O G (ofOption o) Q n := by
  cases o with
  | none => trivial
  | some a => exact h a rfl

end Prog

variable {ι : Type} [DecidableEq ι] {A : ι → Type}

/-- Step `l` of the run is not one of call `i`, or it changes nothing. -/
def Conf.Others (c : Conf σ ι A) (t : List ι) (i : ι) (l : ℕ) : Prop :=
  (c.at t (l + 1)).st = (c.at t l).st ∨ ∃ hl : l < t.length, t[l] ≠ i

section
variable (c : Conf σ ι A) (t : List ι) {G : ℕ → σ → Prop} {i : ι} {Q : A i → ℕ → Prop} {k n : ℕ}

/-- What is left of a call at a later step. -/
theorem Conf.twp_at (hkn : k ≤ n) (hn : n ≤ t.length)
    (h : twp (fun j => (c.at t j).st) t.length (c.Others t i) G ((c.at t k).pool i) Q k) :
    ∃ m, k ≤ m ∧ m ≤ n ∧ (∀ l, m ≤ l → l < n → c.Others t i l) ∧
      twp (fun j => (c.at t j).st) t.length (c.Others t i) G ((c.at t n).pool i) Q m := by
  induction n, hkn using Nat.le_induction with
  | base => exact ⟨k, Nat.le_refl k, Nat.le_refl k, fun l h1 h2 => absurd h2 (by omega), h⟩
  | succ n hkn ih =>
    obtain ⟨m, h1, h2, hO, h3⟩ := ih (by omega)
    have hs := Conf.at_succ c t (n := n) (by omega)
    have hidle : c.Others t i n → ∀ l, m ≤ l → l < n + 1 → c.Others t i l := fun ho l hl1 hl2 => by
      by_cases hl : l = n
      · subst hl; exact ho
      · exact hO l hl1 (by omega)
    by_cases hi : t[n] = i
    · rw [hi] at hs
      cases hp : (c.at t n).pool i with
      | act f g =>
        rw [hp] at h3
        have hst := Conf.step_act hp
        have h4 := (h3 n h2 (by omega) hO).2 (by dsimp only; rw [hs, hst])
        refine ⟨n + 1, by omega, Nat.le_refl _, fun l h1 h2 => absurd h2 (by omega), ?_⟩
        rw [hs, hst]
        simpa only [Function.update_self] using h4
      | ret b =>
        have := Conf.step_ret hp
        exact ⟨m, h1, by omega, hidle (.inl (by rw [hs, this])), by rw [hs, this]; exact h3⟩
      | panic =>
        have := Conf.step_panic hp
        exact ⟨m, h1, by omega, hidle (.inl (by rw [hs, this])), by rw [hs, this]; exact h3⟩
      | diverge =>
        have := Conf.step_diverge hp
        exact ⟨m, h1, by omega, hidle (.inl (by rw [hs, this])), by rw [hs, this]; exact h3⟩
    · refine ⟨m, h1, by omega, hidle (.inr ⟨by omega, hi⟩), ?_⟩
      rw [hs, Conf.step_other _ (Ne.symm hi)]
      exact h3

/-- Each step of the call is within the guarantee. -/
theorem Conf.twp_step (hkn : k ≤ n) (hn : n < t.length) (hi : t[n] = i)
    (h : twp (fun j => (c.at t j).st) t.length (c.Others t i) G ((c.at t k).pool i) Q k) :
    (c.at t (n + 1)).st = (c.at t n).st ∨ G n (c.at t (n + 1)).st := by
  obtain ⟨m, h1, h2, hO, h3⟩ := Conf.twp_at c t hkn hn.le h
  have hs := Conf.at_succ c t hn
  rw [hi] at hs
  cases hp : (c.at t n).pool i with
  | act f g =>
    rw [hp] at h3
    refine .inr ?_
    rw [hs, Conf.step_act hp]
    exact (h3 n h2 hn hO).1
  | ret b => exact .inl (by rw [hs, Conf.step_ret hp])
  | panic => exact .inl (by rw [hs, Conf.step_panic hp])
  | diverge => exact .inl (by rw [hs, Conf.step_diverge hp])

/-- The answer of the call. -/
theorem Conf.twp_answer (hkn : k ≤ n) (hn : n ≤ t.length) {a : A i} (ha : (c.at t n).pool i = .ret a)
    (h : twp (fun j => (c.at t j).st) t.length (c.Others t i) G ((c.at t k).pool i) Q k) :
    ∃ m, k ≤ m ∧ m ≤ n ∧ (∀ l, m ≤ l → l < n → c.Others t i l) ∧ Q a m := by
  obtain ⟨m, h1, h2, h3, h4⟩ := Conf.twp_at c t hkn hn h
  rw [ha] at h4
  exact ⟨m, h1, h2, h3, h4⟩

end

end Rotonda
