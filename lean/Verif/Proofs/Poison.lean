import Verif.Model.Poison
import Verif.Proofs.LockCalls
import Verif.Proofs.ConcAll

/-!
# Runs with panics
-/

namespace Rotonda
open Prog

section
variable {σ A : Type} {T : A → Type} {P : Guarded σ A T} {U : LockUse A}
  {ι : Type} [DecidableEq ι] {R : ι → Type}
  {c c' : PConf σ A T ι R} {t : List (PEvent ι)}

omit [DecidableEq ι] in
theorem smallSteps_snoc (t : List (PEvent ι)) (e : PEvent ι) :
    smallSteps (t ++ [e]) = smallSteps t ++ smallSteps [e] := by
  induction t with
  | nil => rfl
  | cons x t ih => cases x <;> simp [smallSteps, ih]

/-- Leaving out the panics. -/
theorem PRun.base (h : PRun P U c t c') : LRun P c.base (smallSteps t) c'.base := by
  induction h with
  | nil => exact .nil
  | snoc _ s ih =>
    rw [smallSteps_snoc]
    cases s with
    | ran hf hs ho => exact ih.snoc hs
    | doom => simpa [smallSteps] using ih
    | unwind => simpa [smallSteps] using ih
    | spin => simpa [smallSteps] using ih

theorem PRun.append {t' : List (PEvent ι)} {c'' : PConf σ A T ι R} (h : PRun P U c t c')
    (h' : PRun P U c' t' c'') : PRun P U c (t ++ t') c'' := by
  induction h' with
  | nil => rwa [List.append_nil]
  | snoc _ s ih => rw [← List.append_assoc]; exact ih.snoc s

/-- Nobody has to panic. -/
theorem PRun.of_small {d : Conf σ ι R} {u : List (ι × StepKind)} {l : LConf σ A T ι R}
    (h : LRun P d.small u l) :
    PRun P U d.fresh (u.map fun e => .ran e.1 e.2) ⟨l, fun _ => .fine, fun _ => False⟩ := by
  induction h with
  | nil => exact .nil
  | @snoc u l₁ e l₂ _ s ih =>
    rw [List.map_append]
    exact ih.snoc (.ran (e := e.2) (i := e.1) rfl s fun a _ => ⟨fun h => h.2, fun j hj => by cases hj⟩)

/-- What exists behind a lock goes on existing. -/
theorem lstep_some (hP : P.Lawful) {l l' : LConf σ A T ι R} {e : ι × StepKind}
    (hs : LStep P l e l') (hn : ∀ i, ∀ {ρ κ} {view : σ → κ} {upd : κ → σ → ρ × σ} {seen k},
      l.pool i = .trying view upd seen k → P.Neutral fun s => upd (view s) s)
    {a : A} (h : (P.get l.st a).isSome) : (P.get l'.st a).isSome := by
  obtain ⟨v, hv⟩ := Option.isSome_iff_exists.1 h
  cases hs with
  | plain hi hf => exact Option.isSome_iff_exists.2 ⟨v, hf.keeps _ _ _ hv⟩
  | @inner i ρ x a' v' ρ' f b k hi hv' =>
    by_cases ha : a = a'
    · subst ha
      exact Option.isSome_iff_exists.2 ⟨_, hP.get_put _ hv'⟩
    · change (P.get (P.put l.st a' (f v').2) a).isSome
      rw [hP.get_put_ne _ ha]; exact h
  | @swap i ρ κ view upd seen k hi hsn =>
    subst hsn
    exact Option.isSome_iff_exists.2 ⟨v, (hn i hi).keeps _ _ _ hv⟩
  | _ => exact h

/-- A call that comes to an action in `N`, or never returns, whatever others do. -/
def Passes (N : (ρ : Type) → (σ → ρ × σ) → Prop) (G : σ → σ → Prop) {α : Type} :
    Prog σ α → σ → Prop
  | .ret _, _ => False
  | .act (ρ := ρ) f k, s => ∀ s', G s s' → N ρ f ∨ Passes N G (k (f s').1) (f s').2
  | .panic, _ | .diverge, _ => True

variable {N : (ρ : Type) → (σ → ρ × σ) → Prop}

theorem Passes.bind {G G' : σ → σ → Prop} {D : Prop} {α β : Type} {p : Prog σ α}
    {k : α → Prog σ β} {Q : α → σ → Prop} {s : σ} (h : wp G G' D p Q s)
    (hk : ∀ x s', Q x s' → Passes N G (k x) s') : Passes N G (p >>= k) s := by
  induction p generalizing s with
  | ret x => exact hk _ _ h
  | act f q ih => exact fun s' hr => .inr (ih _ (h s' hr).2)
  | panic => trivial
  | diverge => trivial

theorem Passes.rely {G : σ → σ → Prop} (hG : IsRely G) {α : Type}
    {p : Prog σ α} {s s' : σ} (h : Passes N G p s) (hr : G s s') : Passes N G p s' := by
  cases p with
  | act f k => exact fun s2 hr2 => h s2 (hG.trans hr hr2)
  | ret => exact h
  | panic => trivial
  | diverge => trivial

theorem Passes.mono {N' : (ρ : Type) → (σ → ρ × σ) → Prop} (hN : ∀ ρ f, N ρ f → N' ρ f)
    {G : σ → σ → Prop} {α : Type} {p : Prog σ α} {s : σ} (h : Passes N G p s) :
    Passes N' G p s := by
  induction p generalizing s with
  | act f k ih => exact fun s2 hr2 => (h s2 hr2).imp (hN _ f) (ih _)
  | ret => exact h
  | panic => trivial
  | diverge => trivial

/-- Running alone, the call gets there. -/
theorem Passes.reach {G G' : σ → σ → Prop} (hG : IsRely G) {D : Prop} (hD : ¬ D) {i : ι}
    {Q : R i → σ → Prop} : ∀ (p : Prog σ (R i)) (d : Conf σ ι R), d.pool i = p →
      Passes N G p d.st → wp G G' D p Q d.st → ∃ n ρ f k,
        (d.exec (List.replicate n i)).pool i = .act (ρ := ρ) f k ∧ N ρ f := by
  intro p
  induction p with
  | ret x => intro d hd h _; exact h.elim
  | panic => intro d hd _ h; exact h.elim
  | diverge => intro d hd _ h; exact (hD h).elim
  | act f k ih =>
    intro d hd h hw
    rcases h d.st (hG.refl _) with hn | h'
    · exact ⟨0, _, f, k, hd, hn⟩
    · have e := Conf.step_act hd
      obtain ⟨n, ρ, f', k', h1, h2⟩ := ih _ (d.step i) (by rw [e]; exact Function.update_self ..)
        (by rw [e]; exact h') (by rw [e]; exact (hw _ (hG.refl _)).2)
      exact ⟨n + 1, ρ, f', k', by rw [List.replicate_succ, Conf.exec_cons]; exact h1, h2⟩

/-- `f` is a section of lock `a` that does not write. -/
inductive IsRead (P : Guarded σ A T) : {ρ : Type} → (σ → ρ × σ) → A → Prop
  | mk {ρ : Type} (a : A) (g : T a → ρ) : IsRead P (P.sect a fun v => (g v, v)) a

/-- The sections of lock `a`. -/
def sects (P : Guarded σ A T) (a : A) : (ρ : Type) → (σ → ρ × σ) → Prop := fun _ f => IsSect P f a

/-- Those that do not write. -/
def reads (P : Guarded σ A T) (a : A) : (ρ : Type) → (σ → ρ × σ) → Prop := fun _ f => IsRead P f a

theorem reads_sects {a : A} (ρ : Type) (f : σ → ρ × σ) (h : reads P a ρ f) : sects P a ρ f := by
  cases h with
  | mk a g => exact .mk a _

/-- Neutrality of what is being tried. -/
theorem sim_trying {l : LConf σ A T ι R} {d : Conf σ ι R} (h : SmallSim P l d) (i : ι) {ρ κ}
    {view : σ → κ} {upd : κ → σ → ρ × σ} {seen k} (hi : l.pool i = .trying view upd seen k) :
    P.Neutral fun s => upd (view s) s := by
  have := h.thr i
  rw [hi] at this
  exact this.2

theorem conf_step_other (d : Conf σ ι R) {i j : ι} (h : i ≠ j) : (d.step j).pool i = d.pool i := by
  cases hp : d.pool j with
  | act f k => rw [Conf.step_act hp]; exact Function.update_of_ne h ..
  | ret r => rw [Conf.step_ret hp]
  | panic => rw [Conf.step_panic hp]
  | diverge => rw [Conf.step_diverge hp]

theorem lstep_other {l l' : LConf σ A T ι R} {i j : ι} {e : StepKind} (hs : LStep P l (j, e) l')
    (h : i ≠ j) : l'.pool i = l.pool i := by
  cases hs <;> first | exact LConf.goto_other _ _ _ h | rfl

/-- Thread `i` is on its way to lock `a`, which is poisoned. -/
structure Hangs (P : Guarded σ A T) (U : LockUse A) (G : σ → σ → Prop) (a : A) (i : ι)
    (c : PConf σ A T ι R) (d : Conf σ ι R) : Prop where
  sim : SmallSim P c.base d
  stops : U.stops a
  poison : c.poison a
  there : (P.get c.base.st a).isSome
  path : Passes (sects P a) G (d.pool i) d.st
  away : ∀ {ρ κ} {view : σ → κ} {upd : κ → σ → ρ × σ} {seen k},
    c.base.pool i = .trying view upd seen k → ¬ IsSect P (fun s => upd (view s) s) a

theorem Hangs.step (hP : P.Lawful) {G : σ → σ → Prop} (hG : IsRely G)
    {a : A} {i : ι} {d : Conf σ ι R} (h : Hangs P U G a i c d)
    {e : PEvent ι} (hs : PStep P U c e c')
    (hd : ∀ j, j ≠ i → G d.st (d.step j).st) :
    Hangs P U G a i c' (d.exec (wholeActions (smallSteps [e]))) := by
  obtain ⟨sim, st, po, th, pa, aw⟩ := h
  cases hs with
  | doom => exact ⟨sim, st, po, th, pa, aw⟩
  | unwind => exact ⟨sim, st, .inr po, th, pa, aw⟩
  | spin => exact ⟨sim, st, po, th, pa, aw⟩
  | @ran j e l hf hs ho =>
    have e1 : d.exec (wholeActions (smallSteps [PEvent.ran j e])) = d.stepIf (j, e) := by
      cases e <;> rfl
    rw [e1]
    have key : Passes (sects P a) G ((d.stepIf (j, e)).pool i) (d.stepIf (j, e)).st ∧
        ∀ {ρ κ} {view : σ → κ} {upd : κ → σ → ρ × σ} {seen k},
          l.pool i = .trying view upd seen k → ¬ IsSect P (fun s => upd (view s) s) a := by
      by_cases hj : j = i
      · subst hj
        have whole : ∀ {ρ} {f : σ → ρ × σ} {k}, d.pool j = .act f k → ¬ IsSect P f a →
            Passes (sects P a) G ((d.step j).pool j) (d.step j).st := by
          intro ρ f k hp hn
          rw [Conf.step_act hp]
          rw [hp] at pa
          have e : (Function.update d.pool j (k (f d.st).1)) j = k (f d.st).1 :=
            Function.update_self ..
          dsimp only
          rw [e]
          exact (pa d.st (hG.refl _)).resolve_left hn
        have out : ∀ {p}, c.base.pool j = .out p → d.pool j = p := by
          intro p hp
          have := sim.thr j
          rwa [hp] at this
        have no : ∀ {ρ} {f : σ → ρ × σ} {k}, c.base.pool j = .out (.act f k) → ¬ IsSect P f a :=
          fun hp hi => (ho a ⟨_, _, _, hp, hi, th⟩).1 ⟨st, po⟩
        have away : ∀ {s x}, (∀ {ρ κ} {view : σ → κ} {upd : κ → σ → ρ × σ} {seen k},
            x = .trying view upd seen k → ¬ IsSect P (fun s => upd (view s) s) a) →
            ∀ {ρ κ} {view : σ → κ} {upd : κ → σ → ρ × σ} {seen k},
            (c.base.goto j s x).pool j = .trying view upd seen k →
              ¬ IsSect P (fun s => upd (view s) s) a := by
          intro s x hx ρ κ view upd seen k e
          rw [LConf.goto_self] at e
          exact hx e
        cases hs with
        | plain hi hf => exact ⟨whole (out hi) (no hi), away fun e => by cases e⟩
        | missing hi hn => exact ⟨whole (out hi) (no hi), away fun e => by cases e⟩
        | lock b hi hv hl hb => exact ⟨whole (out hi) (no hi), away fun e => by cases e⟩
        | lockRead b hi hv hl hb hw => exact ⟨whole (out hi) (no hi), away fun e => by cases e⟩
        | wait hi hl => exact ⟨pa, aw⟩
        | inner hi hv => exact ⟨pa, away fun e => by cases e⟩
        | unlock hi => exact ⟨pa, away fun e => by cases e⟩
        | load hi hf => exact ⟨pa, away fun e => by cases e; exact no hi⟩
        | swap hi hsn =>
          have := sim.thr j
          rw [hi] at this
          exact ⟨whole this.1 (aw hi), away fun e => by cases e⟩
        | retry hi => exact ⟨pa, away fun e => by cases e; exact aw hi⟩
      · refine ⟨?_, fun e => aw ((lstep_other hs (fun e => hj e.symm)).symm.trans e)⟩
        · cases e with
          | whole =>
            change Passes (sects P a) G ((d.step j).pool i) (d.step j).st
            rw [conf_step_other d (fun e => hj e.symm)]
            exact pa.rely hG (hd j hj)
          | part => exact pa
          | wait => exact pa
    exact ⟨smallSim_step hP sim hs, st, po, lstep_some hP hs (fun i => sim_trying sim i) th,
      key.1, key.2⟩

theorem Hangs.run (hP : P.Lawful) {G : σ → σ → Prop} (hG : IsRely G)
    {a : A} {i : ι} {d : Conf σ ι R} (h : Hangs P U G a i c d)
    (hs : PRun P U c t c')
    (hd : ∀ u j, G (d.exec u).st ((d.exec u).step j).st) :
    Hangs P U G a i c' (d.exec (wholeActions (smallSteps t))) := by
  induction hs with
  | nil => exact h
  | @snoc t c₁ e c₂ _ s ih =>
    have := ih.step hP hG s fun j _ => hd _ j
    rw [smallSteps_snoc]
    have e2 : wholeActions (smallSteps t ++ smallSteps [e]) =
        wholeActions (smallSteps t) ++ wholeActions (smallSteps [e]) := by
      simp [wholeActions]
    rw [e2, Conf.exec_append]
    exact this

theorem Hangs.never {G : σ → σ → Prop} {a : A} {i : ι} {d : Conf σ ι R}
    (h : Hangs P U G a i c d) (r : R i) : c.base.pool i ≠ .out (.ret r) := by
  intro e
  have := h.sim.thr i
  rw [e] at this
  have hp : d.pool i = .ret r := this
  have := h.path
  rw [hp] at this
  exact this

end
end Rotonda
