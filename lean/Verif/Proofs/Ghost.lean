import Verif.Proofs.ConcSound
import Verif.Proofs.Always

/-!
# Program logic with a ghost component

`gwp` is `wp` over the state paired with a ghost value `g : γ` that the program
does not see.  With each of its atomic actions a call may change the ghost value
as it likes within its guarantee.
-/

namespace Rotonda

variable {σ τ γ α β : Type}

namespace Prog

/-- Rely/guarantee weakest precondition with a ghost value. -/
def gwp (R G : σ × γ → σ × γ → Prop) (D : Prop) : Prog σ α → (α → σ × γ → Prop) → σ × γ → Prop
  | ret a, Q, s => Q a s
  | act f k, Q, s => ∀ s', R s s' → ∃ g, G s' ((f s'.1).2, g) ∧
      gwp R G D (k (f s'.1).1) Q ((f s'.1).2, g)
  | panic, _, _ => False
  | diverge, _, _ => D

variable {R G : σ × γ → σ × γ → Prop} {D : Prop}

theorem gwp_conseq (p : Prog σ α) {Q Q' : α → σ × γ → Prop} {s : σ × γ}
    (h : gwp R G D p Q s) (hQ : ∀ a s, Q a s → Q' a s) : gwp R G D p Q' s := by
  induction p generalizing s with
  | ret a => exact hQ _ _ h
  | act f k ih =>
    intro s' hr
    obtain ⟨g, hg, hk⟩ := h s' hr
    exact ⟨g, hg, ih _ hk⟩
  | panic => exact h
  | diverge => exact h

theorem gwp_bind (p : Prog σ α) (k : α → Prog σ β) (Q : β → σ × γ → Prop) (s : σ × γ) :
    gwp R G D (p >>= k) Q s ↔ gwp R G D p (fun a s' => gwp R G D (k a) Q s') s := by
  induction p generalizing s with
  | ret a => rfl
  | act f g ih => simp only [act_bind, gwp, ih]
  | panic => rfl
  | diverge => rfl

theorem gwp_ret (a : α) (Q : α → σ × γ → Prop) (s : σ × γ) : gwp R G D (ret a) Q s = Q a s := rfl

theorem gwp_pure (a : α) (Q : α → σ × γ → Prop) (s : σ × γ) :
    gwp R G D (pure a : Prog σ α) Q s = Q a s := rfl

/-- A program that leaves the ghost value alone. -/
theorem gwp_of_wp {R' G' : σ → σ → Prop} (p : Prog σ α) {Q : α → σ → Prop} {P : σ × γ → Prop}
    {s : σ × γ} (hR : ∀ s s', R s s' → R' s.1 s'.1)
    (hG : ∀ s g s', P (s, g) → G' s s' → G (s, g) (s', g) ∧ P (s', g))
    (hPR : ∀ s s', R s s' → P s → P s') (hP : P s) (h : wp R' G' D p Q s.1) :
    gwp R G D p (fun a s' => Q a s'.1 ∧ P s') s := by
  induction p generalizing s with
  | ret a => exact ⟨h, hP⟩
  | act f k ih =>
    intro s' hr
    obtain ⟨hg, hk⟩ := h _ (hR _ _ hr)
    obtain ⟨h1, h2⟩ := hG s'.1 s'.2 _ (hPR _ _ hr hP) hg
    exact ⟨s'.2, h1, ih _ h2 hk⟩
  | panic => exact h
  | diverge => exact h

/-- A fact that no step destroys. -/
theorem gwp_frame (p : Prog σ α) {Q : α → σ × γ → Prop} {P : σ × γ → Prop} {s : σ × γ}
    (hR : ∀ s s', R s s' → P s → P s') (hG : ∀ s s', G s s' → P s → P s') (hP : P s)
    (h : gwp R G D p Q s) : gwp R G D p (fun a s' => Q a s' ∧ P s') s := by
  induction p generalizing s with
  | ret a => exact ⟨h, hP⟩
  | act f k ih =>
    intro s' hr
    obtain ⟨g, hg, hk⟩ := h s' hr
    exact ⟨g, hg, ih _ (hG _ _ hg (hR _ _ hr hP)) hk⟩
  | panic => exact h
  | diverge => exact h

/-- One action, with a change of the ghost value. -/
theorem gwp_atomic {f : σ → α × σ} {Q : α → σ × γ → Prop} {s : σ × γ}
    (h : ∀ s', R s s' → ∃ g, G s' ((f s'.1).2, g) ∧ Q (f s'.1).1 ((f s'.1).2, g)) :
    gwp R G D (atomic f) Q s := h

theorem gwp_rely {A : Type} (hR : IsRely R) (p : Prog σ A)
    {Q : A → σ × γ → Prop} (hQ : ∀ a s s', R s s' → Q a s → Q a s') {s s' : σ × γ} (h : R s s')
    (hp : gwp R G D p Q s) : gwp R G D p Q s' := by
  cases p with
  | ret a => exact hQ _ _ _ h hp
  | act f k => exact fun s'' hr => hp s'' (hR.trans h hr)
  | panic => exact hp
  | diverge => exact hp

end Prog

open Prog

variable {ι : Type} [DecidableEq ι] {A : ι → Type}

/-- The configuration after `n` steps of a schedule. -/
def Conf.at (c : Conf σ ι A) (t : List ι) (n : Nat) : Conf σ ι A := c.exec (t.take n)

/-- Along a schedule there is a sequence of ghost values that changes with the
steps of the calls within their guarantees.  `R i` is what call `i` expects of
the others; its specification may refer to the state in which it takes its first
step.  `J i` holds as long as call `i` has not taken a step. -/
theorem ghost_sound {R : ι → σ × γ → σ × γ → Prop} (hR : ∀ i, IsRely (R i))
    {G : ι → σ × γ → σ × γ → Prop} (hG : ∀ i j s s', i ≠ j → G j s s' → R i s s')
    {D : ι → Prop} {Q : ∀ i, σ × γ → A i → σ × γ → Prop}
    (hQ : ∀ i s0 a s s', R i s s' → Q i s0 a s → Q i s0 a s')
    {I : σ × γ → Prop} (hI : ∀ i s s', I s → G i s s' → I s')
    {J : ι → σ × γ → Prop} (hJ : ∀ i s s', R i s s' → J i s → J i s')
    (c : Conf σ ι A) (g : γ) (h0 : I (c.st, g)) (hJ0 : ∀ i, J i (c.st, g)) (t : List ι)
    (hw : ∀ i ∈ t, ∀ s, I s → J i s → gwp (R i) (G i) (D i) (c.pool i) (Q i s) s) :
    ∃ gh : ℕ → γ, gh 0 = g ∧
      (∀ n, n ≤ t.length → I ((c.at t n).st, gh n)) ∧
      (∀ n (hn : n < t.length),
        ((c.at t (n + 1)).st, gh (n + 1)) = ((c.at t n).st, gh n) ∨
        G t[n] ((c.at t n).st, gh n) ((c.at t (n + 1)).st, gh (n + 1))) ∧
      (∀ n, n ≤ t.length → ∀ i, i ∉ t.take n → J i ((c.at t n).st, gh n)) ∧
      ∀ n, n ≤ t.length → ∀ i ∈ t.take n, ∃ k < n, i ∉ t.take k ∧ i ∈ t.take (k + 1) ∧
        gwp (R i) (G i) (D i) ((c.at t n).pool i) (Q i ((c.at t k).st, gh k))
          ((c.at t n).st, gh n) := by
  induction t using List.reverseRecOn with
  | nil =>
    refine ⟨fun _ => g, rfl, fun n _ => by simpa [Conf.at, Conf.exec] using h0, fun n hn => ?_,
      fun n _ i _ => by simpa [Conf.at, Conf.exec] using hJ0 i, fun n _ i hi => ?_⟩
    · simp at hn
    · simp at hi
  | append_singleton t i ih =>
    obtain ⟨gh, hg0, hinv, hstep, hidle, hcalls⟩ := ih fun j hj => hw j (by simp [hj])
    have hat : ∀ n, n ≤ t.length → c.at (t ++ [i]) n = c.at t n := fun n hn => by
      simp [Conf.at, List.take_append_of_le_length hn]
    have hlast : c.at (t ++ [i]) (t.length + 1) = (c.at t t.length).step i := by
      rw [Conf.at, Conf.at, List.take_of_length_le (by simp), List.take_length, Conf.exec_append]
      rfl
    -- the call that takes the step
    have hcall : ∃ k ≤ t.length, i ∉ t.take k ∧ i ∈ (t ++ [i]).take (k + 1) ∧
        gwp (R i) (G i) (D i) ((c.at t t.length).pool i) (Q i ((c.at t k).st, gh k))
          ((c.at t t.length).st, gh t.length) := by
      by_cases hi : i ∈ t
      · obtain ⟨k, hk, h1, h1', h2⟩ := hcalls t.length (Nat.le_refl _) i (by simpa using hi)
        exact ⟨k, hk.le, h1, by rw [List.take_append_of_le_length hk]; exact h1', h2⟩
      · refine ⟨t.length, Nat.le_refl _, by simpa using hi,
          by rw [List.take_of_length_le (by simp)]; simp, ?_⟩
        have : (c.at t t.length).pool i = c.pool i := by
          simp only [Conf.at, List.take_length]
          exact Conf.exec_idle _ hi
        rw [this]
        exact hw i (by simp) _ (hinv _ (Nat.le_refl _)) (hidle _ (Nat.le_refl _) i (by simpa using hi))
    obtain ⟨k, hk, hnot, hin, hcall⟩ := hcall
    have hnext : ∃ g', (((c.at t t.length).step i).st, g') = ((c.at t t.length).st, gh t.length) ∧
          (c.at t t.length).step i = c.at t t.length ∨
        G i ((c.at t t.length).st, gh t.length) (((c.at t t.length).step i).st, g') ∧
          gwp (R i) (G i) (D i) (((c.at t t.length).step i).pool i) (Q i ((c.at t k).st, gh k))
            (((c.at t t.length).step i).st, g') ∧
          ∀ j, j ≠ i → ((c.at t t.length).step i).pool j = (c.at t t.length).pool j := by
      cases hp : (c.at t t.length).pool i with
      | act f kk =>
        rw [hp] at hcall
        obtain ⟨g', h1, h2⟩ := hcall _ ((hR i).refl _)
        rw [Conf.step_act hp]
        refine ⟨g', .inr ⟨h1, ?_, fun j hj => ?_⟩⟩
        · simpa using h2
        · simp [Function.update_of_ne hj]
      | ret a => rw [Conf.step_ret hp]; exact ⟨_, .inl ⟨rfl, rfl⟩⟩
      | panic => rw [Conf.step_panic hp]; exact ⟨_, .inl ⟨rfl, rfl⟩⟩
      | diverge => rw [Conf.step_diverge hp]; exact ⟨_, .inl ⟨rfl, rfl⟩⟩
    obtain ⟨g', hnext⟩ := hnext
    have hgh : ∀ n, n ≤ t.length → (if n ≤ t.length then gh n else g') = gh n :=
      fun n hn => if_pos hn
    refine ⟨fun n => if n ≤ t.length then gh n else g', by simp [hg0], fun n hn => ?_,
      fun n hn => ?_, fun n hn j hj => ?_, fun n hn j hj => ?_⟩
    · simp only [List.length_append, List.length_cons, List.length_nil] at hn
      rcases Nat.lt_or_ge t.length n with hlt | hle
      · obtain rfl : n = t.length + 1 := by omega
        simp only [hlast]
        rw [if_neg (by omega)]
        rcases hnext with ⟨h1, _⟩ | ⟨h1, _⟩
        · rw [h1]; exact hinv _ (Nat.le_refl _)
        · exact hI i _ _ (hinv _ (Nat.le_refl _)) h1
      · simp only [hgh n hle, hat n hle]; exact hinv n hle
    · simp only [List.length_append, List.length_cons, List.length_nil] at hn
      rcases Nat.lt_or_ge n t.length with hlt | hle
      · simp only [hgh n hlt.le, hgh (n + 1) hlt, hat n hlt.le, hat (n + 1) hlt]
        have := hstep n hlt
        simpa [List.getElem_append_left hlt] using this
      · obtain rfl : n = t.length := by omega
        simp only [hlast, hat t.length (Nat.le_refl _)]
        rw [if_neg (by omega), if_pos (Nat.le_refl _)]
        rcases hnext with ⟨h1, _⟩ | ⟨h1, _⟩
        · exact .inl h1
        · exact .inr (by simpa using h1)
    · simp only [List.length_append, List.length_cons, List.length_nil] at hn
      rcases Nat.lt_or_ge t.length n with hlt | hle
      · obtain rfl : n = t.length + 1 := by omega
        rw [List.take_of_length_le (by simp)] at hj
        simp only [List.mem_append, List.mem_singleton, not_or] at hj
        simp only [hlast]
        rw [if_neg (by omega)]
        have := hidle t.length (Nat.le_refl _) j (by simpa using hj.1)
        rcases hnext with ⟨h1, _⟩ | ⟨h1, _⟩
        · rw [h1]; exact this
        · exact hJ j _ _ (hG j i _ _ hj.2 h1) this
      · rw [List.take_append_of_le_length hle] at hj
        simp only [hgh n hle, hat n hle]
        exact hidle n hle j hj
    · simp only [List.length_append, List.length_cons, List.length_nil] at hn
      rcases Nat.lt_or_ge t.length n with hlt | hle
      · obtain rfl : n = t.length + 1 := by omega
        have htake : ∀ m, m ≤ t.length → (t ++ [i]).take m = t.take m := fun m hm =>
          List.take_append_of_le_length hm
        simp only [hlast]
        rw [if_neg (by omega)]
        by_cases hji : j = i
        · subst hji
          refine ⟨k, by omega, by rw [htake k hk]; exact hnot, hin, ?_⟩
          simp only [hgh k hk, hat k hk]
          rcases hnext with ⟨h1, h2⟩ | ⟨_, h2, _⟩
          · rw [h1, h2]; exact hcall
          · exact h2
        · have hjt : j ∈ t := by
            have := List.mem_of_mem_take hj
            simpa [hji] using this
          obtain ⟨k', hk', h1, h1', h2⟩ := hcalls t.length (Nat.le_refl _) j (by simpa using hjt)
          refine ⟨k', by omega, by rw [htake k' hk'.le]; exact h1,
            by rw [htake (k' + 1) hk']; exact h1', ?_⟩
          simp only [hgh k' hk'.le, hat k' hk'.le]
          rcases hnext with ⟨h3, h4⟩ | ⟨h3, _, h5⟩
          · rw [h3, h4]; exact h2
          · rw [h5 j hji]
            exact gwp_rely (hR j) _ (hQ j _) (hG j i _ _ hji h3) h2
      · rw [List.take_append_of_le_length hle] at hj
        obtain ⟨k', hk', h1, h1', h2⟩ := hcalls n hle j hj
        refine ⟨k', hk', by rw [List.take_append_of_le_length (by omega)]; exact h1,
          by rw [List.take_append_of_le_length (by omega)]; exact h1', ?_⟩
        simp only [hgh n hle, hat n hle, hgh k' (by omega), hat k' (by omega)]
        exact h2

end Rotonda
