import Verif.Model.Conc
import Verif.Proofs.Wp

/-!
# Soundness of the program logic for concurrent executions
-/

namespace Rotonda

open Prog

variable {σ ι : Type} [DecidableEq ι] {A : ι → Type}

namespace Conf

@[simp] theorem exec_nil (c : Conf σ ι A) : c.exec [] = c := rfl
@[simp] theorem exec_cons (c : Conf σ ι A) (i : ι) (t : List ι) :
    c.exec (i :: t) = (c.step i).exec t := rfl
theorem exec_append (c : Conf σ ι A) (t u : List ι) : c.exec (t ++ u) = (c.exec t).exec u :=
  List.foldl_append

theorem step_act {c : Conf σ ι A} {i : ι} {ρ : Type} {f : σ → ρ × σ} {k : ρ → Prog σ (A i)}
    (h : c.pool i = .act f k) :
    c.step i = ⟨(f c.st).2, Function.update c.pool i (k (f c.st).1)⟩ := by
  unfold step; rw [h]

theorem step_ret {c : Conf σ ι A} {i : ι} {a : A i} (h : c.pool i = .ret a) : c.step i = c := by
  unfold step; rw [h]

theorem step_panic {c : Conf σ ι A} {i : ι} (h : c.pool i = .panic) : c.step i = c := by
  unfold step; rw [h]

theorem step_diverge {c : Conf σ ι A} {i : ι} (h : c.pool i = .diverge) : c.step i = c := by
  unfold step; rw [h]

/-- The others are not touched. -/
theorem step_other (c : Conf σ ι A) {i j : ι} (h : j ≠ i) : (c.step i).pool j = c.pool j := by
  cases hp : c.pool i with
  | act f k => rw [step_act hp]; exact Function.update_of_ne h _ _
  | ret a => rw [step_ret hp]
  | panic => rw [step_panic hp]
  | diverge => rw [step_diverge hp]

/-- A call that is not scheduled stays as it is. -/
theorem exec_idle (c : Conf σ ι A) {j : ι} : ∀ {t : List ι}, j ∉ t → (c.exec t).pool j = c.pool j := by
  intro t
  induction t generalizing c with
  | nil => intro _; rfl
  | cons i t ih =>
    intro h
    rw [List.mem_cons, not_or] at h
    rw [exec_cons, ih _ h.2, step_other _ h.1]

/-- A returned call stays returned. -/
theorem exec_ret {c : Conf σ ι A} {j : ι} {a : A j} (h : c.pool j = .ret a) (t : List ι) :
    (c.exec t).pool j = .ret a := by
  induction t generalizing c with
  | nil => exact h
  | cons i t ih =>
    rw [exec_cons]
    apply ih
    by_cases hij : j = i
    · subst hij; rw [step_ret h]; exact h
    · rw [step_other _ hij]; exact h

/-- A piece of a program that runs undisturbed. -/
theorem exec_chunk {α : Type} (p : Prog σ α) {c : Conf σ ι A} {i : ι} {k : α → Prog σ (A i)}
    (h : c.pool i = (p >>= k)) {a : α} {s : σ} (hr : p.run c.st = .ok a s) :
    ∃ n, c.exec (List.replicate n i) = ⟨s, Function.update c.pool i (k a)⟩ := by
  induction p generalizing c with
  | ret b =>
    cases hr
    refine ⟨0, ?_⟩
    rw [List.replicate_zero, exec_nil]
    have : Function.update c.pool i (k a) = c.pool := by
      rw [Function.update_eq_self_iff]; exact h.symm
    rw [this]
  | act f g ih =>
    rw [act_bind] at h
    have hs := step_act h
    obtain ⟨n, hn⟩ := ih (f c.st).1 (c := c.step i) (by rw [hs]; exact Function.update_self _ _ _)
      (by rw [hs]; exact hr)
    refine ⟨n + 1, ?_⟩
    rw [List.replicate_succ, exec_cons, hn, hs]
    simp
  | panic => cases hr
  | diverge => cases hr

/-- A call that runs undisturbed to its end. -/
theorem exec_run {c : Conf σ ι A} {i : ι} {a : A i} {s : σ} (hr : (c.pool i).run c.st = .ok a s) :
    ∃ n, c.exec (List.replicate n i) = ⟨s, Function.update c.pool i (.ret a)⟩ :=
  exec_chunk (c.pool i) (k := .ret) (bind_ret' _).symm hr

end Conf

/-- A preorder that describes the changes all calls make. -/
structure IsRely (R : σ → σ → Prop) : Prop where
  refl : ∀ s, R s s
  trans : ∀ {a b c}, R a b → R b c → R a c

variable {R : σ → σ → Prop}

namespace Prog

/-- `wp` does not notice changes of others. -/
theorem wp_rely {α : Type} (hR : IsRely R) {G : σ → σ → Prop} {D : Prop} (p : Prog σ α)
    {Q : α → σ → Prop} (hQ : ∀ a s s', R s s' → Q a s → Q a s') {s s' : σ} (h : R s s')
    (hp : wp R G D p Q s) : wp R G D p Q s' := by
  cases p with
  | ret a => exact hQ _ _ _ h hp
  | act f k => exact fun s'' hr => hp s'' (hR.trans h hr)
  | panic => exact hp
  | diverge => exact hp

end Prog

/-- Soundness: along every schedule the state changes along `R`, and each call
that takes part stays within its specification.  `P` is a fact known about all
states on the way. -/
theorem conc_sound_along (hR : IsRely R) {P : σ → Prop} {G : ι → σ → σ → Prop}
    (hG : ∀ i s s', G i s s' → P s → P s' → R s s')
    {D : ι → Prop} {Q : ∀ i, A i → σ → Prop} (hQ : ∀ i a s s', R s s' → Q i a s → Q i a s')
    (t : List ι) : ∀ (c : Conf σ ι A), (∀ u, u <+: t → P (c.exec u).st) →
    (∀ i ∈ t, wp R (G i) (D i) (c.pool i) (Q i) c.st) →
    R c.st (c.exec t).st ∧
      ∀ i, wp R (G i) (D i) (c.pool i) (Q i) c.st →
        wp R (G i) (D i) ((c.exec t).pool i) (Q i) (c.exec t).st := by
  induction t with
  | nil => intro c _ _; exact ⟨hR.refl _, fun _ h => h⟩
  | cons i t ih =>
    intro c hP h
    have key : R c.st (c.step i).st ∧ ∀ j, wp R (G j) (D j) (c.pool j) (Q j) c.st →
        wp R (G j) (D j) ((c.step i).pool j) (Q j) (c.step i).st := by
      have hi := h i (by simp)
      have hP0 : P c.st := hP [] (List.nil_prefix)
      have hP1 : P (c.step i).st := hP [i] ⟨t, rfl⟩
      cases hp : c.pool i with
      | act f k =>
        rw [hp] at hi
        obtain ⟨hg, hk⟩ := hi c.st (hR.refl _)
        have hstep := Conf.step_act hp
        have hr : R c.st (c.step i).st := by
          refine hG i _ _ ?_ hP0 hP1
          rw [hstep]; exact hg
        refine ⟨hr, fun j hj => ?_⟩
        rw [hstep] at hr ⊢
        by_cases hji : j = i
        · subst hji; simpa using hk
        · simp only [Function.update_of_ne hji]
          exact wp_rely hR _ (hQ j) hr hj
      | ret a => rw [Conf.step_ret hp]; exact ⟨hR.refl _, fun _ h => h⟩
      | panic => rw [Conf.step_panic hp]; exact ⟨hR.refl _, fun _ h => h⟩
      | diverge => rw [Conf.step_diverge hp]; exact ⟨hR.refl _, fun _ h => h⟩
    rw [Conf.exec_cons]
    obtain ⟨h1, h2⟩ := ih (c.step i) (fun u hu => by
      have := hP (i :: u) ((List.prefix_cons_inj i).2 hu)
      rwa [Conf.exec_cons] at this) (fun j hj => key.2 j (h j (List.mem_cons_of_mem _ hj)))
    exact ⟨hR.trans key.1 h1, fun j hj => h2 j (key.2 j hj)⟩

/-- As `conc_sound_along`, knowing nothing. -/
theorem conc_sound (hR : IsRely R) {G : ι → σ → σ → Prop} (hG : ∀ i s s', G i s s' → R s s')
    {D : ι → Prop} {Q : ∀ i, A i → σ → Prop} (hQ : ∀ i a s s', R s s' → Q i a s → Q i a s')
    (t : List ι) (c : Conf σ ι A) (h : ∀ i ∈ t, wp R (G i) (D i) (c.pool i) (Q i) c.st) :
    R c.st (c.exec t).st ∧
      ∀ i, wp R (G i) (D i) (c.pool i) (Q i) c.st →
        wp R (G i) (D i) ((c.exec t).pool i) (Q i) (c.exec t).st :=
  conc_sound_along hR (P := fun _ => True) (fun i s s' h _ _ => hG i s s' h) hQ t c
    (fun _ _ => trivial) h

/-- What a call started later does: its specification may refer to the state in
which it starts. -/
theorem conc_late (hR : IsRely R) {P : σ → Prop} {G : ι → σ → σ → Prop}
    (hG : ∀ i s s', G i s s' → P s → P s' → R s s')
    {D : ι → Prop} {Q : ∀ i, A i → σ → Prop} (hQ : ∀ i a s s', R s s' → Q i a s → Q i a s')
    (u : List ι) (c : Conf σ ι A) (hP : ∀ v, v <+: u → P (c.exec v).st)
    (h : ∀ i ∈ u, wp R (G i) (D i) (c.pool i) (Q i) c.st)
    {j : ι} {D' : Prop} {Q' : A j → σ → Prop} (hQ' : ∀ a s s', R s s' → Q' a s → Q' a s')
    (hw : wp R (G j) D' (c.pool j) Q' c.st) :
    wp R (G j) D' ((c.exec u).pool j) Q' (c.exec u).st := by
  obtain ⟨_, h4⟩ := conc_sound_along hR hG (D := Function.update D j D') (Q := Function.update Q j Q')
    (by
      intro i
      by_cases hij : i = j
      · subst hij; simpa using hQ'
      · simpa [Function.update_of_ne hij] using hQ i) u c hP (by
      intro i hi
      by_cases hij : i = j
      · subst hij; simpa using hw
      · simp only [Function.update_of_ne hij]
        exact h i hi)
  have := h4 j (by simpa using hw)
  simpa using this

end Rotonda
