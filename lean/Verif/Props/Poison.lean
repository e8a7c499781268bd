import Verif.Proofs.PoisonCalls
import Verif.Props.Lock
import Verif.Proofs.PathSel
import Verif.Props.ConcDemo

/-!
# C70: panics of the user's code

Code of the user (the metadata type) runs while the record map of a prefix is locked.  A
panic there is contained: it changes nothing in the store, and all calls that return do
so as if the panicking call had stopped before its section.  But the record map is
poisoned, and every later call that needs it tries for ever (`store_poison_hangs`), while
the code has a way to report this and means to (`src/prefix_cht/cht.rs` 54-57).
-/

namespace Rotonda
namespace Props
open Prog

section
variable {σ A : Type} {T : A → Type} {P : Guarded σ A T} {U : LockUse A}
  {ι : Type} [DecidableEq ι] {R : ι → Type}
  {c : Conf σ ι R} {d d' : PConf σ A T ι R} {t t' : List (PEvent ι)}

/-- C70: with panics, every thread is where it is in a run of whole actions, and the state
is that of this run when no lock is held. -/
theorem panic_contained (hP : P.Lawful) (h : PRun P U c.fresh t d) :
    (∀ i p, d.base.pool i = .out p → (c.exec (wholeActions (smallSteps t))).pool i = p) ∧
      ((∀ a, ¬ d.base.Held a) → (c.exec (wholeActions (smallSteps t))).st = d.base.st) :=
  small_steps_atomic hP h.base

/-- A thread that has panicked is at the lock it panicked under. -/
theorem panicked_at_lock (hP : P.Lawful) (h : PRun P U c.fresh t d) :
    (∀ i, (∃ a, d.fate i = .doomed a) ∨ d.fate i = .gone → ∃ a, d.base.AtLock P i a) ∧
      ∀ a, d.poison a → U.user a ∧ ∃ i, d.fate i = .gone := by
  suffices hh : (∀ i, d.fate i ≠ .fine → ∃ a, d.base.AtLock P i a) ∧
      (∀ i a, d.fate i = .doomed a → U.user a) ∧
      ∀ a, d.poison a → U.user a ∧ ∃ i, d.fate i = .gone by
    refine ⟨fun i hi => hh.1 i ?_, hh.2.2⟩
    rcases hi with ⟨a, e⟩ | e <;> simp [e]
  induction h with
  | nil => exact ⟨fun i hi => absurd rfl hi, (fun i a hi => by cases hi), fun a ha => ha.elim⟩
  | @snoc t d₁ e d₂ h s ih =>
    obtain ⟨i1, i2, i3⟩ := ih
    have hs := smallSim_run hP h.base
    cases s with
    | @ran j e l hf hs' ho =>
      refine ⟨fun i hi => ?_, i2, i3⟩
      obtain ⟨a, ρ, f, k, h1, h2, h3⟩ := i1 i hi
      refine ⟨a, ρ, f, k, ?_, h2, lstep_some hP hs' (fun i => sim_trying hs i) h3⟩
      rw [← h1]
      refine lstep_other hs' ?_
      rintro rfl
      exact hi hf
    | @doom j ρ a g k v b hf hp hu hg hv hl ho hw hb =>
      have key : ∀ i x, Function.update d₁.fate j (Fate.doomed a) i = x →
          (i = j ∧ x = .doomed a) ∨ (i ≠ j ∧ d₁.fate i = x) := by
        intro i x hx
        by_cases hi : i = j
        · subst hi; rw [Function.update_self] at hx; exact .inl ⟨rfl, hx.symm⟩
        · rw [Function.update_of_ne hi] at hx; exact .inr ⟨hi, hx⟩
      refine ⟨fun i hi => ?_, fun i a' hi => ?_, fun a' ha => ?_⟩
      · rcases key i _ rfl with ⟨rfl, -⟩ | ⟨hne, e⟩
        · exact ⟨a, _, _, k, hp, .mk a g, by rw [hv]; rfl⟩
        · exact i1 i (by rw [e]; exact hi)
      · rcases key i _ hi with ⟨rfl, e⟩ | ⟨-, e⟩
        · cases e; exact hu
        · exact i2 i a' e
      · obtain ⟨h1, i, h2⟩ := i3 a' ha
        refine ⟨h1, i, ?_⟩
        have : i ≠ j := by rintro rfl; rw [hf] at h2; cases h2
        change Function.update d₁.fate j _ i = _
        rw [Function.update_of_ne this, h2]
    | @unwind j a hf =>
      have key : ∀ i x, Function.update d₁.fate j Fate.gone i = x →
          (i = j ∧ x = .gone) ∨ (i ≠ j ∧ d₁.fate i = x) := by
        intro i x hx
        by_cases hi : i = j
        · subst hi; rw [Function.update_self] at hx; exact .inl ⟨rfl, hx.symm⟩
        · rw [Function.update_of_ne hi] at hx; exact .inr ⟨hi, hx⟩
      refine ⟨fun i hi => ?_, fun i a' hi => ?_, fun a' ha => ?_⟩
      · rcases key i _ rfl with ⟨rfl, -⟩ | ⟨hne, e⟩
        · exact i1 i (by rw [hf]; simp)
        · exact i1 i (by rw [e]; exact hi)
      · rcases key i _ hi with ⟨-, e⟩ | ⟨-, e⟩
        · cases e
        · exact i2 i a' e
      · have gone : ∃ i, Function.update d₁.fate j Fate.gone i = .gone :=
          ⟨j, Function.update_self ..⟩
        rcases ha with rfl | ha
        · exact ⟨i2 j a' hf, gone⟩
        · exact ⟨(i3 a' ha).1, gone⟩
    | spin => exact ⟨i1, i2, i3⟩

/-- C70: a thread that has panicked does nothing any more, and what is poisoned stays
poisoned. -/
theorem panicked_stopped (h : PRun P U d t d') :
    (∀ i, d.fate i ≠ .fine → d'.fate i ≠ .fine ∧ d'.base.pool i = d.base.pool i) ∧
      ∀ a, d.poison a → d'.poison a := by
  induction h with
  | nil => exact ⟨fun i hi => ⟨hi, rfl⟩, fun a ha => ha⟩
  | @snoc t d₁ e d₂ h s ih =>
    obtain ⟨i1, i2⟩ := ih
    cases s with
    | @ran j e l hf hs ho =>
      refine ⟨fun i hi => ⟨(i1 i hi).1, ?_⟩, i2⟩
      rw [← (i1 i hi).2]
      refine lstep_other hs ?_
      rintro rfl
      exact (i1 i hi).1 hf
    | @doom j ρ a g k v b hf hp hu hg hv hl ho hw hb =>
      refine ⟨fun i hi => ⟨?_, (i1 i hi).2⟩, i2⟩
      have : i ≠ j := by rintro rfl; exact (i1 i hi).1 hf
      change Function.update d₁.fate j _ i ≠ _
      rw [Function.update_of_ne this]
      exact (i1 i hi).1
    | @unwind j a hf =>
      refine ⟨fun i hi => ⟨?_, (i1 i hi).2⟩, fun a ha => .inr (i2 a ha)⟩
      change Function.update d₁.fate j _ i ≠ _
      by_cases hj : i = j
      · subst hj; rw [Function.update_self]; simp
      · rw [Function.update_of_ne hj]; exact (i1 i hi).1
    | spin => exact ⟨i1, i2⟩

/-- C70: without a panic nothing is poisoned. -/
theorem no_panic_no_poison (h : PRun P U c.fresh t d) (ht : ∀ i, PEvent.doom i ∉ t) :
    (∀ i, d.fate i = .fine) ∧ ∀ a, ¬ d.poison a := by
  induction h with
  | nil => exact ⟨fun _ => rfl, fun _ h => h⟩
  | @snoc t d₁ e d₂ h s ih =>
    obtain ⟨i1, i2⟩ := ih fun i hi => ht i (List.mem_append_left _ hi)
    cases s with
    | ran hf hs ho => exact ⟨i1, i2⟩
    | doom => exact absurd (List.mem_append_right _ (List.mem_singleton_self _)) (ht _)
    | unwind hf => rw [i1] at hf; cases hf
    | spin => exact ⟨i1, i2⟩

/-- The event is more than waiting. -/
def Advance : PEvent ι → Prop
  | .ran _ e => e ≠ .wait
  | .doom _ | .unwind _ => True
  | .spin _ => False

/-- C70: panics block no thread that is not at a poisoned lock: as long as such a thread
has something to do, some thread can do more than wait. -/
theorem panic_progress (hP : P.Lawful) (hc : ∀ i, (c.pool i).Acts P.Act) (h : PRun P U c.fresh t d)
    {i : ι} (hf : d.fate i = .fine) (hi : ∀ p, d.base.pool i = .out p → Unfinished p)
    (ha : ∀ a, d.base.AtLock P i a → ¬ (U.stops a ∧ d.poison a)) :
    ∃ e d', PStep P U d e d' ∧ Advance e := by
  have hs := smallSim_run hP h.base
  have hact : ∀ i, ThreadActs P (d.base.pool i) := by
    have := h.base
    generalize d.base = l at this
    generalize smallSteps t = u at this
    clear hs hi ha hf
    induction this with
    | nil => exact fun i => hc i
    | snoc _ s ih => exact fun j => threadActs_step s ih j
  have fine : ∀ {j a ρ x} {b : Prog (T a) ρ} {k}, d.base.pool j = .inside x a b k →
      d.fate j = .fine := by
    intro j a ρ x b k hj
    cases hfj : d.fate j with
    | fine => rfl
    | doomed a' =>
      obtain ⟨_, _, _, _, h1, -⟩ := (panicked_at_lock hP h).1 j (.inl ⟨a', hfj⟩)
      rw [hj] at h1; cases h1
    | gone =>
      obtain ⟨_, _, _, _, h1, -⟩ := (panicked_at_lock hP h).1 j (.inr hfj)
      rw [hj] at h1; cases h1
  have inside : ∀ {j a ρ x} {b : Prog (T a) ρ} {k}, d.base.pool j = .inside x a b k →
      ∃ e d', PStep P U d e d' ∧ Advance e := by
    intro j a ρ x b k hj
    have ht := hs.thr j
    rw [hj] at ht
    obtain ⟨v, r, v', hv, hr, -⟩ := ht
    have no : ∀ a, d.base.AtLock P j a → d.Open U a := by
      rintro a ⟨_, _, _, h1, -⟩
      rw [hj] at h1; cases h1
    cases b with
    | ret r' => exact ⟨_, _, .ran (fine hj) (.unlock hj) no, by simp [Advance]⟩
    | act f b => exact ⟨_, _, .ran (fine hj) (.inner hj hv) no, by simp [Advance]⟩
    | panic => cases hr
    | diverge => cases hr
  by_cases hd : ∃ j a, d.fate j = .doomed a
  · obtain ⟨j, a, hj⟩ := hd
    exact ⟨_, _, .unwind hj, trivial⟩
  have op : ∀ a, d.base.AtLock P i a → d.Open U a := fun a h =>
    ⟨ha a h, fun j hj => hd ⟨j, a, hj⟩⟩
  cases hp : d.base.pool i with
  | inside x a b k => exact inside hp
  | trying view upd seen k => exact ⟨_, _, .ran hf (.retry hp) op, by simp [Advance]⟩
  | out p =>
    have hu := hi p hp
    cases p with
    | act f k =>
      have := hact i
      rw [hp] at this
      have hf' := this.1
      cases hf' with
      | neutral hn => exact ⟨_, _, .ran hf (.plain hp hn) op, by simp [Advance]⟩
      | sect a g =>
        cases hg : P.get d.base.st a with
        | none => exact ⟨_, _, .ran hf (.missing hp hg) op, by simp [Advance]⟩
        | some v =>
          by_cases hl : d.base.Held a
          · obtain ⟨j, ρ, x, b, k, hj⟩ := hl
            exact inside hj
          · exact ⟨_, _, .ran hf (.lock (.atomic g) hp hg hl rfl) op, by simp [Advance]⟩
    | ret _ => exact hu.elim
    | panic => exact hu.elim
    | diverge => exact hu.elim

end

/-! ## The store -/

section
variable {M : Type} [Meta M] {W : Nat} {ι : Type} [DecidableEq ι] {calls : ι → Call M W}
  {st : Strategy} {F fuel : Nat} {s : Rib M W} {t t' : List (PEvent ι)} {U : LockUse (Addr ⊕ Addr)}
  {d d' : PConf (Rib M W) (Addr ⊕ Addr) (LockVal M) ι fun i => (calls i).Ans}

/-- C70: in a run with panics of the user's code the calls that return have the answers of
a run of whole actions; without a lock held the stores are the same. -/
theorem store_panic_contained (h : PRun (ribLocks M W) U (start st F fuel s calls).fresh t d) :
    (∀ i a, d.base.pool i = .out (.ret a) →
      ((start st F fuel s calls).exec (wholeActions (smallSteps t))).pool i = .ret a) ∧
    ((∀ a, ¬ d.base.Held a) →
      ((start st F fuel s calls).exec (wholeActions (smallSteps t))).st = d.base.st) :=
  have h' := panic_contained ribLocks_lawful h
  ⟨fun i a hi => h'.1 i _ hi, h'.2⟩

/-- C70: the mui sets of the nodes are never poisoned. -/
theorem store_nodes_not_poisoned
    (h : PRun (ribLocks M W) ribUse (start st F fuel s calls).fresh t d) (a : Addr) :
    ¬ d.poison (.inr a) := fun ha => by
  have := ((panicked_at_lock ribLocks_lawful h).2 _ ha).1
  cases this

/-- C70: a call that has not panicked and is not at a poisoned record map is not blocked
for good. -/
theorem store_panic_progress
    (h : PRun (ribLocks M W) ribUse (start st F fuel s calls).fresh t d) {i : ι}
    (hf : d.fate i = .fine) (hi : ∀ p, d.base.pool i = .out p → Unfinished p)
    (ha : ∀ x, d.base.AtLock (ribLocks M W) i (.inl x) → ¬ d.poison (.inl x)) :
    ∃ e d', PStep (ribLocks M W) ribUse d e d' ∧ Advance e := by
  refine panic_progress ribLocks_lawful (fun i => call_acts st F fuel (calls i)) h hf hi ?_
  rintro (x | x) hx ⟨h1, h2⟩
  · exact ha x hx h2
  · cases h1

/-- C70, of the program that ignores poisoning: no call that has not panicked itself is
blocked for good. -/
theorem store_panic_recovering
    (h : PRun (ribLocks M W) ribUseRecovering (start st F fuel s calls).fresh t d) {i : ι}
    (hf : d.fate i = .fine) (hi : ∀ p, d.base.pool i = .out p → Unfinished p) :
    ∃ e d', PStep (ribLocks M W) ribUseRecovering d e d' ∧ Advance e :=
  panic_progress ribLocks_lawful (fun i => call_acts st F fuel (calls i)) h hf hi
    fun _ _ h => h.1

/-- C70 fails of the code: once the record map of a stored prefix is poisoned, no call on
this prefix that needs it (reading its records, inserting, changing the status, selecting
paths) ever returns. -/
theorem store_poison_hangs [Fam W] {F0 : Nat} {hist : History M W} (hF : 32 ≤ F)
    (hf : iterFuel W ≤ fuel) (hs : exec st F0 hist = .ok () s)
    (h : PRun (ribLocks M W) ribUse (start st F fuel s calls).fresh t d) {x : Addr}
    (hx : d.poison (.inl x)) {p : Prefix W}
    (hp : ∃ e, d.base.st.cht.slots x = some e ∧ e.id = p.id) {i : ι}
    (hi : d.base.pool i = .out ((calls i).prog st F fuel)) (hc : (calls i).TakesRecords st p)
    (h' : PRun (ribLocks M W) ribUse d t' d') (r : (calls i).Ans) :
    d'.base.pool i ≠ .out (.ret r) := by
  have hsim := smallSim_run ribLocks_lawful h.base
  generalize hu : wholeActions (smallSteps t) = u at hsim
  let T : PrefixId W → Mui → Prop := fun q _ => q.Clean
  have hT : ∀ i, (calls i).In T := by
    intro i
    cases e : calls i with
    | insert q r tbi => exact q.clean
    | _ => trivial
  have hsane : Sane T s := (Sane.of_inv (exec_ok_inv hs)).mono
    (fun q m ⟨p, hp, _⟩ => by rw [← hp]; exact p.clean) (fun q m h => h)
  have grows : ∀ v j, Grow T ((start st F fuel s calls).exec v).st
      (((start st F fuel s calls).exec v).step j).st := by
    intro v j
    obtain ⟨-, h2⟩ := run_calls (calls := calls) hF hf hsane v (fun i _ => hT i) (st := st)
    have := conc_sound (RunRely.isRely T ⟨0#W, 0⟩ False) (G := fun _ => Grow T)
      (fun _ _ _ h => ⟨h, fun c => c.elim⟩) (D := fun i => (calls i).MayLoop)
      (Q := fun i => (calls i).Post T st False s)
      (fun i a s1 s2 hr h => Call.Post.step (calls i) (RunRely.during_false T _ _ _) hr h)
      [j] ((start st F fuel s calls).exec v) (fun i _ => h2 i (hT i))
    exact this.1.1
  have hsu : Sane T ((start st F fuel s calls).exec u).st :=
    hsane.grow (run_calls (calls := calls) hF hf hsane u (fun i _ => hT i) (st := st)).1
  have hent : EntryAt ((start st F fuel s calls).exec u).st.cht.slots x p.id := by
    obtain ⟨e, he, hid⟩ := hp
    have := hsim.same.2.1 x
    rw [he] at this
    cases he' : ((start st F fuel s calls).exec u).st.cht.slots x with
    | none => rw [he'] at this; cases this
    | some e' =>
      rw [he'] at this
      refine ⟨e', he', ?_⟩
      have := congrArg StoredPrefix.id (Option.some.inj this)
      exact this.symm.trans hid
  have hang : Hangs (ribLocks M W) ribUse (Grow T) (.inl x) i d
      ((start st F fuel s calls).exec u) := by
    refine ⟨hsim, rfl, hx, ?_, ?_, fun e => ?_⟩
    · obtain ⟨e, he, -⟩ := hp
      change ((d.base.st.cht.slots x).map _).isSome = true
      rw [he]; rfl
    · have := hsim.thr i
      rw [hi] at this
      have hpi : ((start st F fuel s calls).exec u).pool i = (calls i).prog st F fuel := this
      rw [hpi]
      exact passes_call (fun _ _ h => h) hF hc (hT i) ⟨hsu, hent⟩
    · rw [hi] at e; cases e
  have := hang.run ribLocks_lawful (Grow.isRely T) h' fun v j => by
    rw [← Conf.exec_append]
    exact grows _ j
  exact this.never r

/-- C70 fails of the code, and this comes about: in any store with the prefix in memory, a
path selection that panics in the code of the user leaves no lock held and all other calls
untouched, but no call on this prefix that starts after it ever returns. -/
theorem store_panic_hangs [Fam W] {F0 : Nat} {hist : History M W} (hF : 32 ≤ F)
    (hf : iterFuel W ≤ fuel) (hs : exec st F0 hist = .ok () s) (hm : st.inMemory = true)
    {p : Prefix W} (hp : Spec.Present hist p) {j : ι} {tbi : Meta.TBI M}
    (hj : calls j = .calcBest p tbi) :
    ∃ t d, PRun (ribLocks M W) ribUse (start st F fuel s calls).fresh t d ∧ d.fate j = .gone ∧
      (∀ a, ¬ d.base.Held a) ∧
      (∀ i, i ≠ j → d.fate i = .fine ∧ d.base.pool i = .out ((calls i).prog st F fuel)) ∧
      ∀ i, i ≠ j → (calls i).TakesRecords st p → ∀ t' d',
        PRun (ribLocks M W) ribUse d t' d' → ∀ r, d'.base.pool i ≠ .out (.ret r) := by
  let T : PrefixId W → Mui → Prop := fun q _ => q.Clean
  have hsane : Sane T s := (Sane.of_inv (exec_ok_inv hs)).mono
    (fun q m ⟨p, hp, _⟩ => by rw [← hp]; exact p.clean) (fun q m h => h)
  obtain ⟨v, hv⟩ := Option.isSome_iff_exists.1 (tabOf_present hm hp)
  obtain ⟨x, e, he, hid, -⟩ := ((exec_ok_inv hs).tab.iff _ _).1 hv
  have hat : At T x p.id s := ⟨hsane, e, he, hid⟩
  have hR := RunRely.isRely (M := M) (W := W) T ⟨0#W, 0⟩ False
  have hT : (calls j).In T := by rw [hj]; trivial
  have hpass : ∀ c : Call M W, c = .calcBest p tbi →
      Passes (reads (ribLocks M W) (.inl x)) (RunRely T ⟨0#W, 0⟩ False) (c.prog st F fuel) s := by
    rintro _ rfl
    exact passes_calcBest (fun _ _ h => h.1) p.clean tbi hat
  have hwp := (run_calls (calls := calls) (st := st) hF hf hsane [] (by simp)).2 j hT
  obtain ⟨n, ρ, f, k, h1, h2⟩ := Passes.reach hR (i := j) (by rw [hj]; exact id)
    ((calls j).prog st F fuel) (start st F fuel s calls) rfl (hpass _ hj) hwp
  obtain ⟨u, hu⟩ := whole_actions_small (P := ribLocks M W) ribLocks_lawful
    (c := start st F fuel s calls) (fun i => call_acts st F fuel (calls i)) (List.replicate n j)
  have hgrow := (run_calls (calls := calls) (st := st) hF hf hsane (List.replicate n j)
    (fun i hi => by rw [(List.mem_replicate.1 hi).2]; exact hT)).1
  have hothers : ∀ i, i ≠ j → ((start st F fuel s calls).exec (List.replicate n j)).pool i =
      (calls i).prog st F fuel := by
    intro i hi
    have : ∀ (m : Nat) (c : Conf (Rib M W) ι fun i => (calls i).Ans),
        (c.exec (List.replicate m j)).pool i = c.pool i := by
      intro m
      induction m with
      | zero => intro c; rfl
      | succ m ih =>
        intro c
        rw [List.replicate_succ, Conf.exec_cons, ih, conf_step_other c hi]
    exact this n _
  obtain ⟨e', he', hid'⟩ := (hat.grow hgrow).entry
  generalize (start st F fuel s calls).exec (List.replicate n j) = c1 at *
  have hrun := PRun.of_small (U := ribUse) hu
  have free : ∀ a, ¬ (c1.small (A := Addr ⊕ Addr) (T := LockVal M)).Held a := by
    rintro a ⟨j, ρ, x, b, k, h⟩; cases h
  cases h2 with
  | mk _ g =>
    have hrun2 := hrun.snoc (PStep.doom (i := j) (a := (.inl x : Addr ⊕ Addr)) (g := fun v => (g v, v)) (k := k)
      (v := (show LockVal M (.inl x) from e'.recs)) (.act (fun v => ((), v)) fun _ => .panic) rfl
      (congrArg Thread.out h1) rfl (fun _ => rfl)
      (by change (c1.st.cht.slots x).map _ = _; rw [he']; rfl)
      (free _) ⟨fun h => h.2, fun j hj => by cases hj⟩ ⟨fun _ => rfl, fun _ => trivial⟩ rfl)
    have hrun3 := hrun2.snoc (.unwind (i := j) (a := .inl x) (Function.update_self ..))
    refine ⟨_, _, hrun3, Function.update_self .., free, fun i hi => ⟨?_, ?_⟩, ?_⟩
    · change Function.update (Function.update _ _ _) _ _ _ = _
      rw [Function.update_of_ne hi, Function.update_of_ne hi]
    · exact congrArg Thread.out (hothers i hi)
    · intro i hi hc t' d' h' r
      exact store_poison_hangs hF hf hs hrun3 (.inl rfl) ⟨e', he', hid'⟩
        (congrArg Thread.out (hothers i hi)) hc h' r

open Demo Spec

/-- A path selection for 10.0.0.0/8 panics; a call that asks for the records of 10.0.0.0/8
then never returns, and one on another prefix can go on. -/
example : ∃ s, exec .memoryOnly 32 one = .ok () s ∧
    ∃ t, ∃ d : PConf (Rib Md 32) (Addr ⊕ Addr) (LockVal Md) Bool fun i : Bool =>
        (if i then .calcBest ten8 () else .getRecords ten8 none true : Call Md 32).Ans,
      PRun (ribLocks Md 32) ribUse (start .memoryOnly 32 (iterFuel 32) s
        (fun i : Bool => if i then .calcBest ten8 () else .getRecords ten8 none true)).fresh t d ∧
      d.fate true = .gone ∧ d.fate false = .fine ∧ (∀ a, ¬ d.base.Held a) ∧
      ∀ t' d', PRun (ribLocks Md 32) ribUse d t' d' → ∀ r, d'.base.pool false ≠ .out (.ret r) := by
  obtain ⟨s, hs, -⟩ := after_ok (o := exec .memoryOnly 32 one) (chk := fun _ => true)
    (by decide +kernel)
  obtain ⟨t, d, h1, h2, h3, h4, h5⟩ := store_panic_hangs (st := .memoryOnly) (F := 32)
    (fuel := iterFuel 32) (calls := fun i : Bool =>
      if i then .calcBest ten8 () else .getRecords ten8 none true) (Nat.le_refl _) (Nat.le_refl _)
    hs rfl (p := ten8) (by decide) (j := true) (tbi := ()) rfl
  exact ⟨s, hs, t, d, h1, h2, (h4 false (by simp)).1, h3,
    h5 false (by simp) ⟨rfl, by simp⟩⟩

/-- The steps of the two threads of a store in which nobody has panicked. -/
example : ∃ s, exec .memoryOnly 32 one = .ok () s ∧
    ∃ e d', PStep (ribLocks Md 32) ribUse (start .memoryOnly 32 (iterFuel 32) s
      (fun i : Bool => if i then .calcBest ten8 () else .getRecords host none true)).fresh e d' ∧
      Advance e := by
  obtain ⟨s, hs, -⟩ := after_ok (o := exec .memoryOnly 32 one) (chk := fun _ => true)
    (by decide +kernel)
  exact ⟨s, hs, store_panic_progress (i := true) .nil rfl
    (fun p hp => by cases hp; trivial) (fun _ _ h => h)⟩

end
end Props
end Rotonda
