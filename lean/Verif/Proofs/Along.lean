import Verif.Proofs.Ghost

/-!
# One call along a run

Unlike in `ghost_sound`, what a call may expect of the others is known for one
particular run only.
-/

namespace Rotonda

open Prog

variable {σ γ : Type}

/-- The others change the state and leave the ghost value alone. -/
def liftR (R : σ → σ → Prop) (x y : σ × γ) : Prop := R x.1 y.1 ∧ y.2 = x.2

theorem liftR_isRely {R : σ → σ → Prop} (hR : IsRely R) : IsRely (liftR (γ := γ) R) where
  refl _ := ⟨hR.refl _, rfl⟩
  trans h h' := ⟨hR.trans h.1 h'.1, h'.2.trans h.2⟩

namespace Prog

/-- Forget the ghost value. -/
theorem gwp_forget {α : Type} {R : σ → σ → Prop} {G : σ × γ → σ × γ → Prop} {D : Prop} (p : Prog σ α)
    {Q : α → σ × γ → Prop} {s : σ} {g : γ} (h : gwp (liftR R) G D p Q (s, g)) :
    wp R (fun s s' => ∃ g g', G (s, g) (s', g')) D p (fun a s => ∃ g, Q a (s, g)) s := by
  induction p generalizing s g with
  | ret a => exact ⟨g, h⟩
  | act f k ih =>
    intro s' hr
    obtain ⟨g', hg, hk⟩ := h (s', g) ⟨hr, rfl⟩
    exact ⟨⟨g, g', hg⟩, ih _ hk⟩
  | panic => exact h
  | diverge => exact h

end Prog

variable {ι : Type} [DecidableEq ι] {A : ι → Type}

theorem Conf.at_zero (c : Conf σ ι A) (t : List ι) : c.at t 0 = c := rfl

theorem Conf.at_cons (c : Conf σ ι A) (i : ι) (t : List ι) (n : ℕ) :
    c.at (i :: t) (n + 1) = (c.step i).at t n := rfl

theorem Conf.at_drop (c : Conf σ ι A) (t : List ι) (k n : ℕ) :
    (c.at t k).at (t.drop k) n = c.at t (k + n) := by
  unfold Conf.at
  rw [← Conf.exec_append, ← List.take_add]

theorem Conf.at_length (c : Conf σ ι A) (t : List ι) : c.at t t.length = c.exec t := by
  unfold Conf.at; rw [List.take_length]

/-- Every step of a run is within the guarantee of the call that takes it. -/
theorem conc_steps {R : σ → σ → Prop} (hR : IsRely R) {G : ι → σ → σ → Prop}
    (hG : ∀ i s s', G i s s' → R s s') {D : ι → Prop} {I : σ → Prop}
    (hI : ∀ s s', I s → R s s' → I s') (c : Conf σ ι A) (h0 : I c.st) (t : List ι)
    (hw : ∀ i ∈ t, ∀ s, I s → wp R (G i) (D i) (c.pool i) (fun _ _ => True) s) :
    ∀ n (hn : n < t.length), (c.at t (n + 1)).st = (c.at t n).st ∨
      G t[n] (c.at t n).st (c.at t (n + 1)).st := by
  obtain ⟨_, _, _, h, _⟩ := ghost_sound (γ := Unit) (R := fun _ x y => R x.1 y.1)
    (fun i => ⟨fun s => hR.refl _, fun h h' => hR.trans h h'⟩)
    (G := fun i x y => G i x.1 y.1) (fun i j s s' _ h => hG j _ _ h) (D := D)
    (Q := fun _ _ _ _ => True) (fun _ _ _ _ _ _ _ => trivial) (I := fun x => I x.1)
    (fun i s s' hi hg => hI _ _ hi (hG i _ _ hg)) (J := fun _ _ => True)
    (fun _ _ _ _ _ => trivial) c () h0 (fun _ => trivial) t
    (fun i hi s hs _ => gwp_conseq _ (gwp_of_wp (γ := Unit) (c.pool i) (P := fun _ => True)
      (fun _ _ h => h) (fun _ _ _ _ h => ⟨h, trivial⟩) (fun _ _ _ _ => trivial) trivial
      (hw i hi s.1 hs)) (fun _ _ _ => trivial))
  intro n hn
  rcases h n hn with h | h
  · exact .inl (congrArg Prod.fst h)
  · exact .inr h

/-- One call along a run in which the others are known to keep to `R`. -/
theorem gwp_along {R : σ → σ → Prop} (hR : IsRely R) {G : σ × γ → σ × γ → Prop} {D : Prop} {i : ι}
    {Q : A i → σ × γ → Prop} (hQ : ∀ a x y, liftR R x y → Q a x → Q a y) :
    ∀ (t : List ι) (c : Conf σ ι A) (g : γ),
    (∀ n (hn : n < t.length), t[n] ≠ i → R (c.at t n).st (c.at t (n + 1)).st) →
    gwp (liftR R) G D (c.pool i) Q (c.st, g) →
    ∃ gh : ℕ → γ, gh 0 = g ∧
      (∀ n (hn : n < t.length), (t[n] ≠ i → gh (n + 1) = gh n) ∧
        (t[n] = i → ((c.at t (n + 1)).st = (c.at t n).st ∧ gh (n + 1) = gh n) ∨
          G ((c.at t n).st, gh n) ((c.at t (n + 1)).st, gh (n + 1)))) ∧
      ∀ n, n ≤ t.length → gwp (liftR R) G D ((c.at t n).pool i) Q ((c.at t n).st, gh n) := by
  intro t
  induction t with
  | nil =>
    intro c g _ hw
    refine ⟨fun _ => g, rfl, fun n hn => by simp at hn, fun n hn => ?_⟩
    obtain rfl : n = 0 := by simpa using hn
    exact hw
  | cons j t ih =>
    intro c g hstep hw
    -- the first step
    obtain ⟨g1, hone, hw1⟩ : ∃ g1, ((j ≠ i → g1 = g) ∧ (j = i →
        ((c.step j).st = c.st ∧ g1 = g) ∨ G (c.st, g) ((c.step j).st, g1))) ∧
        gwp (liftR R) G D ((c.step j).pool i) Q ((c.step j).st, g1) := by
      by_cases hj : j = i
      · subst hj
        cases hp : c.pool j with
        | act f k =>
          rw [hp] at hw
          obtain ⟨g1, h1, h2⟩ := hw (c.st, g) ⟨hR.refl _, rfl⟩
          rw [Conf.step_act hp]
          exact ⟨g1, ⟨fun h => absurd rfl h, fun _ => .inr h1⟩, by simpa using h2⟩
        | ret a => rw [Conf.step_ret hp]; exact ⟨g, ⟨fun _ => rfl, fun _ => .inl ⟨rfl, rfl⟩⟩, hw⟩
        | panic => rw [Conf.step_panic hp]; exact ⟨g, ⟨fun _ => rfl, fun _ => .inl ⟨rfl, rfl⟩⟩, hw⟩
        | diverge =>
          rw [Conf.step_diverge hp]; exact ⟨g, ⟨fun _ => rfl, fun _ => .inl ⟨rfl, rfl⟩⟩, hw⟩
      · refine ⟨g, ⟨fun _ => rfl, fun h => absurd h hj⟩, ?_⟩
        rw [Conf.step_other _ (Ne.symm hj)]
        have hr : liftR R (c.st, g) ((c.step j).st, g) := ⟨hstep 0 (by simp) hj, rfl⟩
        exact gwp_rely (liftR_isRely hR) _ hQ hr hw
    obtain ⟨gh, h0, h1, h2⟩ := ih (c.step j) g1 (fun n hn hne => by
      have := hstep (n + 1) (by simpa using hn) (by simpa using hne)
      simpa only [Conf.at_cons] using this) hw1
    refine ⟨fun n => match n with | 0 => g | n + 1 => gh n, rfl, fun n hn => ?_, fun n hn => ?_⟩
    · cases n with
      | zero =>
        simp only [Conf.at_cons, Conf.at_zero, List.getElem_cons_zero, h0]
        exact hone
      | succ n =>
        simp only [Conf.at_cons, List.getElem_cons_succ]
        exact h1 n (by simpa using hn)
    · cases n with
      | zero => exact hw
      | succ n =>
        simp only [Conf.at_cons]
        exact h2 n (by simpa using hn)

end Rotonda
