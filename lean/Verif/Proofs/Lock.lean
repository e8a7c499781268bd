import Verif.Model.Lock
import Verif.Proofs.ConcSound

/-!
# A run of small steps is a run of whole actions
-/

namespace Rotonda

/-- What a description of the locks must satisfy. -/
structure Guarded.Lawful {σ A : Type} {T : A → Type} (P : Guarded σ A T) : Prop where
  refl : ∀ s, P.same s s
  symm : ∀ {s s'}, P.same s s' → P.same s' s
  trans : ∀ {s s' s''}, P.same s s' → P.same s' s'' → P.same s s''
  ext : ∀ {s s'}, P.same s s' → (∀ a, P.get s a = P.get s' a) → s = s'
  put_same : ∀ s a v, P.same (P.put s a v) s
  get_put : ∀ {s a u} v, P.get s a = some u → P.get (P.put s a v) a = some v
  get_put_ne : ∀ {s a b} v, b ≠ a → P.get (P.put s a v) b = P.get s b

section
variable {σ A : Type} {T : A → Type} {P : Guarded σ A T}

theorem Guarded.Lawful.put_get (hP : P.Lawful) {s : σ} {a : A} {v : T a}
    (h : P.get s a = some v) : P.put s a v = s := by
  refine hP.ext (hP.put_same ..) fun b => ?_
  by_cases hb : b = a
  · subst hb; rw [hP.get_put v h, h]
  · exact hP.get_put_ne v hb

theorem justReads_run {α τ : Type} {b : Prog τ α} (h : b.JustReads) {v v' : τ} {r : α}
    (hr : b.run v = .ok r v') : v' = v := by
  induction b generalizing v with
  | ret a => cases hr; rfl
  | act f k ih =>
    have := ih _ (h.2 _) hr
    rw [this, h.1]
  | panic => cases hr
  | diverge => cases hr

variable {ι : Type} [DecidableEq ι] {R : ι → Type}

@[simp] theorem LConf.goto_st (c : LConf σ A T ι R) (i : ι) (s : σ) (t : Thread σ A T (R i)) :
    (c.goto i s t).st = s := rfl

@[simp] theorem LConf.goto_self (c : LConf σ A T ι R) (i : ι) (s : σ) (t : Thread σ A T (R i)) :
    (c.goto i s t).pool i = t := Function.update_self ..

@[simp] theorem LConf.goto_other (c : LConf σ A T ι R) {i j : ι} (s : σ) (t : Thread σ A T (R i))
    (h : j ≠ i) : (c.goto i s t).pool j = c.pool j := Function.update_of_ne h ..

/-- Thread `t` in state `s` and what is left of the call in state `s'`. -/
def Matches (P : Guarded σ A T) {α : Type} (s s' : σ) (p : Prog σ α) : Thread σ A T α → Prop
  | .out q => p = q
  | .inside x a b k => ∃ v r v', P.get s a = some v ∧ b.run v = .ok r v' ∧ p = k r ∧
      P.get s' a = some v' ∧ (x = false → b.JustReads)
  | .trying view upd _ k => p = .act (fun s => upd (view s) s) k ∧
      P.Neutral fun s => upd (view s) s

/-- Small steps and whole actions. -/
structure SmallSim (P : Guarded σ A T) (l : LConf σ A T ι R) (c : Conf σ ι R) : Prop where
  same : P.same l.st c.st
  free : ∀ a, ¬ l.HeldExcl a → P.get l.st a = P.get c.st a
  alone : ∀ {i j a ρ ρ' x b k b' k'}, l.pool i = .inside (ρ := ρ) true a b k →
    l.pool j = .inside (ρ := ρ') x a b' k' → i = j
  thr : ∀ i, Matches P l.st c.st (c.pool i) (l.pool i)

/-- Threads that do not hold what is changed go on as before. -/
theorem Matches.frame {α : Type} {s s' u u' : σ} {p : Prog σ α} {t : Thread σ A T α}
    (h : Matches P s s' p t)
    (hs : ∀ ρ x a b k, t = .inside (ρ := ρ) x a b k → P.get u a = P.get s a ∧
      P.get u' a = P.get s' a ∨ ∀ v, P.get s a = some v → P.get u a = some v ∧
        ∀ v, P.get s' a = some v → P.get u' a = some v) : Matches P u u' p t := by
  cases t with
  | out q => exact h
  | trying view upd seen k => exact h
  | inside x a b k =>
    obtain ⟨v, r, v', h1, h2, h3, h4, h5⟩ := h
    rcases hs _ x a b k rfl with ⟨e1, e2⟩ | e
    · exact ⟨v, r, v', e1.trans h1, h2, h3, e2.trans h4, h5⟩
    · exact ⟨v, r, v', (e v h1).1, h2, h3, (e v h1).2 v' h4, h5⟩

variable {l : LConf σ A T ι R} {c : Conf σ ι R}

/-- One thread goes on, with the whole action done or not. -/
theorem SmallSim.goto (h : SmallSim P l c) (i : ι) {s s' : σ} {t : Thread σ A T (R i)}
    {p : Prog σ (R i)} (h1 : P.same s s')
    (h2 : ∀ a, (∀ j ρ b k, j ≠ i → l.pool j ≠ .inside (ρ := ρ) true a b k) →
      (∀ ρ b k, t ≠ .inside (ρ := ρ) true a b k) → P.get s a = P.get s' a)
    (h3 : ∀ {ρ x a b k}, t = .inside (ρ := ρ) x a b k → ∀ {j ρ' y b' k'}, j ≠ i →
      l.pool j = .inside (ρ := ρ') y a b' k' → x = false ∧ y = false)
    (h4 : Matches P s s' p t)
    (h5 : ∀ {j ρ x a b k}, j ≠ i → l.pool j = .inside (ρ := ρ) x a b k →
      (P.get s a = P.get l.st a ∧ P.get s' a = P.get c.st a) ∨
      ∀ v, P.get l.st a = some v → P.get s a = some v ∧
        ∀ v, P.get c.st a = some v → P.get s' a = some v) :
    SmallSim P (l.goto i s t) ⟨s', Function.update c.pool i p⟩ := by
  refine ⟨h1, fun a ha => h2 a (fun j ρ b k hj e => ha ⟨j, ρ, b, k, ?_⟩)
    (fun ρ b k e => ha ⟨i, ρ, b, k, ?_⟩), ?_, fun j => ?_⟩
  · rw [LConf.goto_other _ _ _ hj, e]
  · rw [LConf.goto_self, e]
  · intro j j' a ρ ρ' x b k b' k' e e'
    by_cases hj : j = i
    · by_cases hj' : j' = i
      · rw [hj, hj']
      · subst hj
        rw [LConf.goto_self] at e
        rw [LConf.goto_other _ _ _ hj'] at e'
        exact absurd (h3 e hj' e').1 (by simp)
    · rw [LConf.goto_other _ _ _ hj] at e
      by_cases hj' : j' = i
      · subst hj'
        rw [LConf.goto_self] at e'
        exact absurd (h3 e' hj e).2 (by simp)
      · rw [LConf.goto_other _ _ _ hj'] at e'
        exact h.alone e e'
  · by_cases hj : j = i
    · subst hj
      have e : (Function.update c.pool j p) j = p := Function.update_self ..
      rw [LConf.goto_self, LConf.goto_st]
      simpa only [e] using h4
    · have e : (Function.update c.pool i p) j = c.pool j := Function.update_of_ne hj ..
      rw [LConf.goto_other _ _ _ hj, LConf.goto_st]
      simp only [e]
      exact (h.thr j).frame fun ρ x a b k e => h5 hj e

/-- Only the place of one thread changes. -/
theorem SmallSim.goto' (h : SmallSim P l c) (i : ι) {s : σ} {t : Thread σ A T (R i)}
    (h1 : P.same s c.st)
    (h2 : ∀ a, (∀ j ρ b k, j ≠ i → l.pool j ≠ .inside (ρ := ρ) true a b k) →
      (∀ ρ b k, t ≠ .inside (ρ := ρ) true a b k) → P.get s a = P.get c.st a)
    (h3 : ∀ {ρ x a b k}, t = .inside (ρ := ρ) x a b k → ∀ {j ρ' y b' k'}, j ≠ i →
      l.pool j = .inside (ρ := ρ') y a b' k' → x = false ∧ y = false)
    (h4 : Matches P s c.st (c.pool i) t)
    (h5 : ∀ {j ρ x a b k}, j ≠ i → l.pool j = .inside (ρ := ρ) x a b k →
      P.get s a = P.get l.st a) :
    SmallSim P (l.goto i s t) c := by
  have := h.goto i (p := c.pool i) h1 h2 h3 h4 fun hj e => .inl ⟨h5 hj e, rfl⟩
  rwa [Function.update_eq_self] at this

theorem SmallSim.free_of {a : A} (h : SmallSim P l c) {i : ι}
    (hi : ∀ ρ b k, l.pool i ≠ .inside (ρ := ρ) true a b k)
    (hj : ∀ j ρ b k, j ≠ i → l.pool j ≠ .inside (ρ := ρ) true a b k) :
    P.get l.st a = P.get c.st a := by
  refine h.free a ?_
  rintro ⟨j, ρ, b, k, e⟩
  by_cases c' : j = i
  · subst c'; exact hi _ _ _ e
  · exact hj _ _ _ _ c' e

/-- A whole action, or nothing. -/
def Conf.stepIf (c : Conf σ ι R) : ι × StepKind → Conf σ ι R
  | (i, .whole) => c.step i
  | _ => c

theorem smallSim_step (hP : P.Lawful) (h : SmallSim P l c) {e : ι × StepKind} {l' : LConf σ A T ι R}
    (hs : LStep P l e l') : SmallSim P l' (c.stepIf e) := by
  cases hs with
  | @plain i ρ f k hi hf =>
    have hc : c.pool i = .act f k := by have := h.thr i; rwa [hi] at this
    obtain ⟨e1, e2, e3⟩ := hf.blind _ _ h.same
    rw [Conf.stepIf, Conf.step_act hc, ← e1]
    refine h.goto i e2 (fun a h1 _ => e3 a (h.free_of (by simp [hi]) h1)) (by simp) rfl
      fun {j ρ x a b k} hj e => .inr fun v hv => ⟨hf.keeps _ _ _ hv, fun v => hf.keeps _ _ _⟩
  | @missing i ρ a g k hi hn =>
    have hc : c.pool i = .act (P.sect a g) k := by have := h.thr i; rwa [hi] at this
    have hn' : P.get c.st a = none := by
      rw [← hn]
      refine (h.free a ?_).symm
      rintro ⟨j, ρ, b, k, e⟩
      have := h.thr j
      rw [e] at this
      obtain ⟨v, _, _, hv, _⟩ := this
      rw [hn] at hv
      cases hv
    have hx : P.sect a g c.st = (none, c.st) := by simp [Guarded.sect, hn']
    rw [Conf.stepIf, Conf.step_act hc, hx]
    exact h.goto i h.same (fun a h1 _ => h.free_of (by simp [hi]) h1) (by simp) rfl
      fun _ _ => .inl ⟨rfl, rfl⟩
  | @lock i ρ a g k v b hi hv hl hb =>
    have hc : c.pool i = .act (P.sect a g) k := by have := h.thr i; rwa [hi] at this
    have hv' : P.get c.st a = some v := by
      rw [← hv]
      refine (h.free a ?_).symm
      rintro ⟨j, ρ, b, k, e⟩
      exact hl ⟨j, ρ, _, b, k, e⟩
    have hx : P.sect a g c.st = (some (g v).1, P.put c.st a (g v).2) := by
      simp [Guarded.sect, hv']
    rw [Conf.stepIf, Conf.step_act hc, hx]
    refine h.goto i (hP.trans h.same (hP.symm (hP.put_same ..))) (fun a' h1 h2 => ?_) ?_ ?_ ?_
    · have : a' ≠ a := by
        rintro rfl
        exact h2 _ _ _ rfl
      rw [hP.get_put_ne _ this]
      exact h.free_of (by simp [hi]) h1
    · intro ρ x a' b' k' e j ρ' y b'' k'' hj ej
      cases e
      exact absurd ⟨j, _, _, _, _, ej⟩ hl
    · exact ⟨v, _, _, hv, hb, rfl, hP.get_put _ hv', by simp⟩
    · intro j ρ' x a' b' k' hj ej
      have : a' ≠ a := by
        rintro rfl
        exact hl ⟨j, _, _, _, _, ej⟩
      exact .inl ⟨rfl, hP.get_put_ne _ this⟩
  | @lockRead i ρ a g k v b hi hv hl hb hw =>
    have hc : c.pool i = .act (P.sect a g) k := by have := h.thr i; rwa [hi] at this
    have hv' : P.get c.st a = some v := by rw [← hv]; exact (h.free a hl).symm
    have hg : (g v).2 = v := justReads_run hw hb
    have hx : P.sect a g c.st = (some (g v).1, c.st) := by
      simp [Guarded.sect, hv', hg, hP.put_get hv']
    rw [Conf.stepIf, Conf.step_act hc, hx]
    refine h.goto i h.same (fun a' h1 h2 => h.free_of (by simp [hi]) h1) ?_ ?_ ?_
    · intro ρ x a' b' k' e j ρ' y b'' k'' hj ej
      cases e
      refine ⟨rfl, ?_⟩
      cases y
      · rfl
      · exact absurd ⟨j, _, _, _, ej⟩ hl
    · exact ⟨v, _, _, hv, hb, rfl, by rw [hg]; exact hv', fun _ => hw⟩
    · exact fun _ _ => .inl ⟨rfl, rfl⟩
  | wait hi hl => exact h
  | @inner i ρ x a v ρ' f b k hi hv =>
    have ht := h.thr i
    rw [hi] at ht
    obtain ⟨v0, r, v', hv0, hrun, hk, hc, hx⟩ := ht
    have : v0 = v := Option.some.inj (hv0.symm.trans hv)
    subst this
    have hrun' : (b (f v0).1).run (f v0).2 = .ok r v' := hrun
    refine h.goto' i (hP.trans (hP.put_same ..) h.same) (fun a' h1 h2 => ?_) ?_ ?_ ?_
    · by_cases ha : a' = a
      · subst ha
        cases x
        · have hw := (hx rfl).1 v0
          rw [hw, hP.put_get hv0]
          exact h.free_of (by simp [hi]) h1
        · exact absurd rfl (h2 _ _ _)
      · rw [hP.get_put_ne _ ha]
        refine h.free_of ?_ h1
        intro ρ b k e
        rw [hi] at e
        cases e
        exact ha rfl
    · intro ρ y a' b' k' e j ρ'' z b'' k'' hj ej
      cases e
      cases x
      · cases z
        · exact ⟨rfl, rfl⟩
        · exact absurd (h.alone ej hi) hj
      · exact absurd (h.alone hi ej).symm hj
    · exact ⟨_, r, v', hP.get_put _ hv0, hrun', hk, hc, fun e => (hx e).2 _⟩
    · intro j ρ'' y a' b' k' hj ej
      by_cases ha : a' = a
      · subst ha
        cases x
        · rw [(hx rfl).1 v0, hP.put_get hv0]
        · exact absurd (h.alone hi ej).symm hj
      · exact hP.get_put_ne _ ha
  | @unlock i ρ x a r k hi =>
    have ht := h.thr i
    rw [hi] at ht
    obtain ⟨v0, r', v', hv0, hrun, hk, hc, hx⟩ := ht
    cases hrun
    refine h.goto' i h.same (fun a' h1 h2 => ?_) (by simp) hk fun _ _ => rfl
    by_cases ha : a' = a
    · subst ha; rw [hv0, hc]
    · refine h.free_of ?_ h1
      intro ρ b k e
      rw [hi] at e
      cases e
      exact ha rfl
  | @load i ρ κ view upd k hi hf =>
    have hc : c.pool i = .act (fun s => upd (view s) s) k := by have := h.thr i; rwa [hi] at this
    exact h.goto' i h.same (fun a h1 _ => h.free_of (by simp [hi]) h1) (by simp) ⟨hc, hf⟩
      fun _ _ => rfl
  | @swap i ρ κ view upd seen k hi hsn =>
    have ht := h.thr i
    rw [hi] at ht
    obtain ⟨hc, hf⟩ := ht
    obtain ⟨e1, e2, e3⟩ := hf.blind _ _ h.same
    rw [Conf.stepIf, Conf.step_act hc, ← e1]
    subst hsn
    refine h.goto i e2 (fun a h1 _ => e3 a (h.free_of (by simp [hi]) h1)) (by simp) rfl
      fun {j ρ x a b k} hj e => .inr fun v hv => ⟨hf.keeps _ _ _ hv, fun v => hf.keeps _ _ _⟩
  | @retry i ρ κ view upd seen k hi =>
    have ht := h.thr i
    rw [hi] at ht
    exact h.goto' i h.same (fun a h1 _ => h.free_of (by simp [hi]) h1) (by simp) ht
      fun _ _ => rfl

theorem wholeActions_snoc (t : List (ι × StepKind)) (e : ι × StepKind) (c : Conf σ ι R) :
    c.exec (wholeActions (t ++ [e])) = (c.exec (wholeActions t)).stepIf e := by
  obtain ⟨i, b⟩ := e
  cases b <;> simp [wholeActions, Conf.stepIf, Conf.exec_append, Conf.exec_cons, Conf.exec_nil]

theorem smallSim_start (hP : P.Lawful) (c : Conf σ ι R) : SmallSim P (c.small (A := A)) c :=
  ⟨hP.refl _, fun _ _ => rfl, fun e => by simp [Conf.small] at e, fun _ => rfl⟩

theorem smallSim_run (hP : P.Lawful) {c : Conf σ ι R} {t : List (ι × StepKind)} {l : LConf σ A T ι R}
    (h : LRun P c.small t l) : SmallSim P l (c.exec (wholeActions t)) := by
  induction h with
  | nil => exact smallSim_start hP c
  | snoc _ s ih => rw [wholeActions_snoc]; exact smallSim_step hP ih s

end
end Rotonda
