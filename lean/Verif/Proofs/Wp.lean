import Verif.Model.Prog
import Mathlib.Logic.Relation

/-!
# Program logic

`wp R G D p Q s`: started in `s`, with other threads changing the state along
`R` between any two atomic actions, every action of `p` changes the state along
`G`, `p` never panics, only diverges if `D`, and returns `a` in a state `s'`
with `Q a s'`.
-/

namespace Rotonda
namespace Prog

variable {σ τ α β : Type}

theorem bind_def (p : Prog σ α) (k : α → Prog σ β) : (p >>= k) = p.bind k := rfl
theorem pure_def (a : α) : (pure a : Prog σ α) = ret a := rfl

@[simp] theorem ret_bind (a : α) (k : α → Prog σ β) : (ret a >>= k) = k a := rfl
@[simp] theorem pure_bind' (a : α) (k : α → Prog σ β) : ((pure a : Prog σ α) >>= k) = k a := rfl
@[simp] theorem panic_bind (k : α → Prog σ β) : ((panic : Prog σ α) >>= k) = panic := rfl
@[simp] theorem diverge_bind (k : α → Prog σ β) : ((diverge : Prog σ α) >>= k) = diverge := rfl
@[simp] theorem act_bind {ρ : Type} (f : σ → ρ × σ) (g : ρ → Prog σ α) (k : α → Prog σ β) :
    (act f g >>= k) = act f (fun r => g r >>= k) := rfl

theorem bind_assoc' {γ : Type} (p : Prog σ α) (k : α → Prog σ β) (l : β → Prog σ γ) :
    ((p >>= k) >>= l) = (p >>= fun a => k a >>= l) := by
  induction p with
  | ret a => rfl
  | act f g ih =>
    simp only [act_bind, ih]
  | panic => rfl
  | diverge => rfl

theorem bind_ret' (p : Prog σ α) : (p >>= ret) = p := by
  induction p with
  | ret a => rfl
  | act f g ih => simp only [act_bind, ih]
  | panic => rfl
  | diverge => rfl

instance : LawfulMonad (Prog σ) := LawfulMonad.mk'
  (id_map := fun p => bind_ret' p)
  (pure_bind := fun _ _ => rfl)
  (bind_assoc := fun p k l => bind_assoc' p k l)

theorem run_bind (p : Prog σ α) (k : α → Prog σ β) (s : σ) :
    (p >>= k).run s = (p.run s).andThen (fun a s' => (k a).run s') := by
  induction p generalizing s with
  | ret a => rfl
  | act f g ih => simp only [act_bind, run, ih]
  | panic => rfl
  | diverge => rfl

/-- Rely/guarantee weakest precondition. -/
def wp (R G : σ → σ → Prop) (D : Prop) : Prog σ α → (α → σ → Prop) → σ → Prop
  | ret a, Q, s => Q a s
  | act f k, Q, s => ∀ s', R s s' → G s' (f s').2 ∧ wp R G D (k (f s').1) Q (f s').2
  | panic, _, _ => False
  | diverge, _, _ => D

variable {R G : σ → σ → Prop} {D : Prop}

@[simp] theorem wp_ret (a : α) (Q : α → σ → Prop) (s : σ) : wp R G D (ret a) Q s = Q a s := rfl
@[simp] theorem wp_pure (a : α) (Q : α → σ → Prop) (s : σ) :
    wp R G D (pure a : Prog σ α) Q s = Q a s := rfl

theorem wp_mono {R' G' : σ → σ → Prop} {D' : Prop} (p : Prog σ α) {Q Q' : α → σ → Prop} {s : σ}
    (hR : ∀ s s', R' s s' → R s s') (hG : ∀ s s', G s s' → G' s s') (hD : D → D')
    (hQ : ∀ a s, Q a s → Q' a s) (h : wp R G D p Q s) : wp R' G' D' p Q' s := by
  induction p generalizing s with
  | ret a => exact hQ _ _ h
  | act f k ih => exact fun s' hr => ⟨hG _ _ (h s' (hR _ _ hr)).1, ih _ (h s' (hR _ _ hr)).2⟩
  | panic => exact h
  | diverge => exact hD h

theorem wp_conseq (p : Prog σ α) {Q Q' : α → σ → Prop} {s : σ}
    (h : wp R G D p Q s) (hQ : ∀ a s, Q a s → Q' a s) : wp R G D p Q' s :=
  wp_mono p (fun _ _ h => h) (fun _ _ h => h) (fun h => h) hQ h

theorem wp_bind (p : Prog σ α) (k : α → Prog σ β) (Q : β → σ → Prop) (s : σ) :
    wp R G D (p >>= k) Q s ↔ wp R G D p (fun a s' => wp R G D (k a) Q s') s := by
  induction p generalizing s with
  | ret a => rfl
  | act f g ih => simp only [act_bind, wp, ih]
  | panic => rfl
  | diverge => rfl

theorem wp_bind_of {p : Prog σ α} {k : α → Prog σ β} {Q : β → σ → Prop} {s : σ}
    {P : α → σ → Prop} (hp : wp R G D p P s) (hk : ∀ a s', P a s' → wp R G D (k a) Q s') :
    wp R G D (p >>= k) Q s :=
  (wp_bind _ _ _ _).2 (wp_conseq _ hp hk)

theorem wp_ofOption {o : Option α} {a : α} (h : o = some a) {Q : α → σ → Prop} {s : σ}
    (hq : Q a s) : wp R G D (ofOption o) Q s := by subst h; exact hq

theorem wp_read {f : σ → α} {Q : α → σ → Prop} {s : σ}
    (h : ∀ s', R s s' → G s' s' ∧ Q (f s') s') : wp R G D (read f) Q s :=
  fun s' hr => h s' hr

theorem wp_atomic {f : σ → α × σ} {Q : α → σ → Prop} {s : σ}
    (h : ∀ s', R s s' → G s' (f s').2 ∧ Q (f s').1 (f s').2) : wp R G D (atomic f) Q s :=
  fun s' hr => h s' hr

/-- Conjunction of two postconditions. -/
theorem wp_and (p : Prog σ α) {Q Q' : α → σ → Prop} {s : σ}
    (h : wp R G D p Q s) (h' : wp R G D p Q' s) : wp R G D p (fun a s => Q a s ∧ Q' a s) s := by
  induction p generalizing s with
  | ret a => exact ⟨h, h'⟩
  | act f k ih => exact fun s' hr => ⟨(h s' hr).1, ih _ (h s' hr).2 (h' s' hr).2⟩
  | panic => exact h
  | diverge => exact h

/-- The guarantee can be strengthened by a second proof. -/
theorem wp_and_guar {G' : σ → σ → Prop} {D' : Prop} (p : Prog σ α) {Q Q' : α → σ → Prop} {s : σ}
    (h : wp R G D p Q s) (h' : wp R G' D' p Q' s) :
    wp R (fun a b => G a b ∧ G' a b) D p (fun a s => Q a s ∧ Q' a s) s := by
  induction p generalizing s with
  | ret a => exact ⟨h, h'⟩
  | act f k ih =>
    exact fun s' hr => ⟨⟨(h s' hr).1, (h' s' hr).1⟩, ih _ (h s' hr).2 (h' s' hr).2⟩
  | panic => exact h
  | diverge => exact h

/-- Sequential soundness: with no interference a program with total `wp` runs to
completion. -/
theorem run_of_wp (p : Prog σ α) {Q : α → σ → Prop} {s : σ}
    (h : wp Eq G False p Q s) :
    ∃ a s', p.run s = .ok a s' ∧ Q a s' ∧ Relation.ReflTransGen G s s' := by
  induction p generalizing s with
  | ret a => exact ⟨a, s, rfl, h, .refl⟩
  | act f k ih =>
    obtain ⟨hg, hk⟩ := h s rfl
    obtain ⟨a, s', hr, hq, ht⟩ := ih _ hk
    exact ⟨a, s', hr, hq, .head hg ht⟩
  | panic => exact h.elim
  | diverge => exact h.elim

/-- Conversely, the sequential `wp` with the trivial guarantee follows from a run. -/
theorem wp_of_run (p : Prog σ α) {Q : α → σ → Prop} {s : σ} {a : α} {s' : σ}
    (h : p.run s = .ok a s') (hq : Q a s') : wp Eq (fun _ _ => True) False p Q s := by
  induction p generalizing s with
  | ret b => cases h; exact hq
  | act f k ih => rintro _ rfl; exact ⟨trivial, ih _ h⟩
  | panic => cases h
  | diverge => cases h

end Prog

/-- Laws of a component. -/
structure Lens.Lawful {σ τ : Type} (L : Lens σ τ) : Prop where
  get_set : ∀ s t, L.get (L.set s t) = t
  set_get : ∀ s, L.set s (L.get s) = s
  set_set : ∀ s t t', L.set (L.set s t) t' = L.set s t'

/-- Map the result and the state of an outcome. -/
def Outcome.mapState {α σ τ : Type} (f : τ → σ) : Outcome α τ → Outcome α σ
  | .ok a s => .ok a (f s)
  | .panic => .panic
  | .diverge => .diverge

namespace Prog
variable {σ τ α β : Type}

@[simp] theorem zoom_ret (L : Lens σ τ) (a : α) : (ret a : Prog τ α).zoom L = ret a := rfl

theorem zoom_bind (L : Lens σ τ) (p : Prog τ α) (k : α → Prog τ β) :
    (p >>= k).zoom L = (p.zoom L >>= fun a => (k a).zoom L) := by
  induction p with
  | ret a => rfl
  | act f g ih => simp only [act_bind, zoom, ih]
  | panic => rfl
  | diverge => rfl

theorem run_zoom {L : Lens σ τ} (hL : L.Lawful) (p : Prog τ α) (s : σ) :
    (p.zoom L).run s = (p.run (L.get s)).mapState (L.set s) := by
  induction p generalizing s with
  | ret a => simp [zoom, run, Outcome.mapState, hL.set_get]
  | act f k ih =>
    simp only [zoom, run, ih, hL.get_set]
    cases (k (f (L.get s)).1).run (f (L.get s)).2 <;> simp [Outcome.mapState, hL.set_set]
  | panic => rfl
  | diverge => rfl

/-- A proof about a component carries over.  `R`/`G` on the whole state must
restrict to the relations used for the component; the rest of the state is
described by an invariant `P` of the other fields. -/
theorem wp_zoom {L : Lens σ τ} (hL : L.Lawful) {R G : σ → σ → Prop} {R' G' : τ → τ → Prop}
    {D : Prop} (p : Prog τ α) {Q : α → τ → Prop} {P : σ → Prop} {s : σ}
    (hR : ∀ s s', R s s' → R' (L.get s) (L.get s'))
    (hG : ∀ s t, G' (L.get s) t → G s (L.set s t))
    (hPR : ∀ s s', R s s' → P s → P s')
    (hPG : ∀ s t, P s → G' (L.get s) t → P (L.set s t))
    (hP : P s) (h : wp R' G' D p Q (L.get s)) :
    wp R G D (p.zoom L) (fun a s' => P s' ∧ Q a (L.get s')) s := by
  induction p generalizing s with
  | ret a => exact ⟨hP, h⟩
  | act f k ih =>
    intro s' hr
    obtain ⟨hg, hk⟩ := h _ (hR _ _ hr)
    refine ⟨hG _ _ hg, ih _ ?_ ?_⟩
    · exact hPG _ _ (hPR _ _ hr hP) hg
    · rw [hL.get_set]; exact hk
  | panic => exact h
  | diverge => exact h

end Prog
end Rotonda
