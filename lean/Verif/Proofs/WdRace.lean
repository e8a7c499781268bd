import Verif.Proofs.LinRun

/-!
# The race between global status changes

A global status change reads the set and the version, and then tries to replace
the set.  The loop around the compare-and-swap never takes the value it finds as
the new expected value.
-/

namespace Rotonda

open Prog Spec

variable {M : Type} [Meta M] {W : Nat}

/-- As long as the state satisfies `P` the program does not change it and does not
return. -/
def Prog.Never {σ α : Type} (P : σ → Prop) : Prog σ α → Prop
  | .ret _ => False
  | .act f k => ∀ s, P s → (f s).2 = s ∧ (k (f s).1).Never P
  | .panic => True
  | .diverge => True

/-- What a global status change does to the set of withdrawn muis. -/
def changeSet (x : Call M W) (set : Mui → Bool) : Mui → Bool :=
  match x with
  | .withdraw m => muiInsert set m
  | .activate m => muiRemove set m
  | _ => set

/-- A program that reads, and then either replaces the set or is lost. -/
def Racing {α : Type} (u : (Mui → Bool) → Mui → Bool) (p : Prog (Rib M W) α) : Prop :=
  ∃ (ρ : Type) (f : Rib M W → ρ × Rib M W) (k : ρ → Prog (Rib M W) α), p = .act f k ∧
    ∀ s, (f s).2 = s ∧ ∃ (ρ' : Type) (f' : Rib M W → ρ' × Rib M W) (k' : ρ' → Prog (Rib M W) α),
      k (f s).1 = .act f' k' ∧ ∀ s',
        (s'.tree.wd.ver = s.tree.wd.ver → (∃ a, k' (f' s').1 = .ret a) ∧
          (f' s').2 = { s' with
            tree := { s'.tree with wd := ⟨s'.tree.wd.ver + 1, u s.tree.wd.set⟩ } }) ∧
        (s.tree.wd.ver < s'.tree.wd.ver → (f' s').2 = s' ∧
          (k' (f' s').1).Never fun s'' => s.tree.wd.ver < s''.tree.wd.ver)

omit [Meta M] in
theorem never_loop (cur : Nat) : ∀ (n : Nat) (new : Mui → Bool),
    ((updateWithdrawnLoop (W := W) cur n new).zoom Rib.treeL : Prog (Rib M W) Unit).Never
      fun s => cur < s.tree.wd.ver := by
  intro n
  induction n with
  | zero => intro new; trivial
  | succ n ih =>
    intro new s hs
    have hv : ¬ s.tree.wd.ver = cur := by omega
    have key : ∀ q : Option (Mui → Bool) × Tree W, q = (some s.tree.wd.set, s.tree) →
        ({ s with tree := q.2 } = s ∧ (((ret q.1).bind fun r => (match r with
          | none => pure ()
          | some found => updateWithdrawnLoop cur n found : Prog (Tree W) Unit)).zoom
            Rib.treeL : Prog (Rib M W) Unit).Never fun s => cur < s.tree.wd.ver) := by
      rintro _ rfl; exact ⟨rfl, ih _⟩
    exact key _ (if_neg hv)

omit [Meta M] in
theorem racing_update (F : Nat) (u : (Mui → Bool) → Mui → Bool) :
    Racing (α := Unit) (M := M) u ((do
      let cur ← Prog.read (fun t : Tree W => t.wd)
      updateWithdrawnLoop cur.ver (F + 1) (u cur.set) : Prog (Tree W) Unit).zoom Rib.treeL) := by
  refine ⟨_, _, _, rfl, fun s => ⟨rfl, _, _, _, rfl, fun s' => ⟨fun hv => ?_, fun hv => ?_⟩⟩⟩
  · have hv' : (Rib.treeL.get s').wd.ver = (Rib.treeL.get s).wd.ver := hv
    simp only [if_pos hv']
    exact ⟨⟨(), rfl⟩, rfl⟩
  · have hv' : ¬ (Rib.treeL.get s').wd.ver = (Rib.treeL.get s).wd.ver := by
      have : s.tree.wd.ver < s'.tree.wd.ver := hv
      change ¬ s'.tree.wd.ver = s.tree.wd.ver
      omega
    simp only [if_neg hv']
    exact ⟨rfl, never_loop _ _ _⟩

theorem racing_call (st : Strategy) (F fuel : Nat) {x : Call M W}
    (hx : IsStatusChange x) : Racing (changeSet x) (x.prog st F fuel) := by
  rcases hx with ⟨m, rfl⟩ | ⟨m, rfl⟩
  · exact racing_update F fun s => muiInsert s m
  · exact racing_update F fun s => muiRemove s m

variable {σ ι : Type} [DecidableEq ι] {A : ι → Type}

theorem Conf.never_step {P : σ → Prop} {c : Conf σ ι A} {i : ι} (hp : (c.pool i).Never P)
    (hs : P c.st) (j : ι) : ((c.step j).pool i).Never P ∧ (j = i → (c.step j).st = c.st) := by
  by_cases hj : j = i
  · subst hj
    cases hq : c.pool j with
    | ret a => rw [hq] at hp; exact hp.elim
    | act f k =>
      rw [hq] at hp
      rw [Conf.step_act hq]
      simp only [Function.update_self]
      exact ⟨(hp _ hs).2, fun _ => (hp _ hs).1⟩
    | panic => rw [Conf.step_panic hq, hq]; exact ⟨trivial, fun _ => rfl⟩
    | diverge => rw [Conf.step_diverge hq, hq]; exact ⟨trivial, fun _ => rfl⟩
  · refine ⟨?_, fun h => absurd h hj⟩
    have : c.exec [j] = c.step j := rfl
    rw [← this, Conf.exec_idle c (by simpa using Ne.symm hj)]
    exact hp

/-- A call that can never return. -/
theorem Conf.never_exec {P : σ → Prop} {i : ι} (t : List ι) : ∀ {c : Conf σ ι A},
    (c.pool i).Never P → (∀ n, n ≤ t.length → P (c.exec (t.take n)).st) →
    ((c.exec t).pool i).Never P := by
  induction t with
  | nil => intro c hp _; exact hp
  | cons j t ih =>
    intro c hp hs
    refine ih (c := c.step j) (Conf.never_step hp (hs 0 (Nat.zero_le _)) j).1 fun n hn => ?_
    exact hs (n + 1) (by simpa using hn)

theorem Prog.Never.ne {α : Type} {P : σ → Prop} {p : Prog σ α} (h : p.Never P) (a : α) : p ≠ .ret a := by
  rintro rfl; exact h

/-! ## How often the set was replaced -/

section
variable {calls : ι → Call M W} {h : History M W}

omit [DecidableEq ι] in
theorem globCount_histAfter (l' l : List ι) :
    globCount (histAfter h calls l) ≤ globCount (histAfter h calls (l' ++ l)) ∧
    (globCount (histAfter h calls (l' ++ l)) = globCount (histAfter h calls l) ↔
      ∀ j ∈ l', ¬ IsStatusChange (calls j)) := by
  induction l' with
  | nil => simp
  | cons i l' ih =>
    have key : ∀ c : Call M W, calls i = c →
        (¬ IsStatusChange c ∧ globCount (histAfter h calls (i :: (l' ++ l))) =
          globCount (histAfter h calls (l' ++ l))) ∨
        (IsStatusChange c ∧ globCount (histAfter h calls (i :: (l' ++ l))) =
          globCount (histAfter h calls (l' ++ l)) + 1) := by
      intro c hc
      have hn : changeOf c = none → globCount (histAfter h calls (i :: (l' ++ l))) =
          globCount (histAfter h calls (l' ++ l)) := by
        intro hn; simp only [histAfter, List.filterMap_cons, hc, hn]
      have hs : ∀ op, changeOf c = some op → histAfter h calls (i :: (l' ++ l)) =
          op :: histAfter h calls (l' ++ l) := fun op ho => histAfter_cons (by rw [hc]; exact ho) _
      cases c with
      | insert p r tbi => exact .inl ⟨(by rintro (⟨m, hm⟩ | ⟨m, hm⟩) <;> cases hm), by rw [hs _ rfl]; rfl⟩
      | withdrawFor p m t => exact .inl ⟨(by rintro (⟨m, hm⟩ | ⟨m, hm⟩) <;> cases hm), by rw [hs _ rfl]; rfl⟩
      | activateFor p m t => exact .inl ⟨(by rintro (⟨m, hm⟩ | ⟨m, hm⟩) <;> cases hm), by rw [hs _ rfl]; rfl⟩
      | withdraw m => exact .inr ⟨.inl ⟨m, rfl⟩, by rw [hs _ rfl]; rfl⟩
      | activate m => exact .inr ⟨.inr ⟨m, rfl⟩, by rw [hs _ rfl]; rfl⟩
      | _ => exact .inl ⟨(by rintro (⟨m, hm⟩ | ⟨m, hm⟩) <;> cases hm), hn rfl⟩
    rw [List.cons_append]
    obtain ⟨h1, h2⟩ := ih
    rcases key _ rfl with ⟨hc, he⟩ | ⟨hc, he⟩
    · rw [he]
      refine ⟨h1, h2.trans ⟨fun hall j hj => ?_, fun hall j hj => hall j (List.mem_cons_of_mem _ hj)⟩⟩
      rcases List.mem_cons.1 hj with rfl | hj
      · exact hc
      · exact hall j hj
    · rw [he]
      refine ⟨by omega, fun h => by omega, fun hall => absurd hc (hall i List.mem_cons_self)⟩

omit [DecidableEq ι] in
/-- Between two moments the set was not replaced exactly if no global status change
took effect. -/
theorem globCount_between {t : List ι} {log : ℕ → List ι} (ho : EffectOrder t log) {m n : ℕ}
    (hmn : m ≤ n) (hn : n ≤ t.length) :
    globCount (histAfter h calls (log m)) ≤ globCount (histAfter h calls (log n)) ∧
    (globCount (histAfter h calls (log n)) = globCount (histAfter h calls (log m)) ↔
      ∀ j ∈ log n, j ∉ log m → ¬ IsStatusChange (calls j)) := by
  obtain ⟨l', hl⟩ := ho.suffix hmn hn
  have hd := ho.nodup hn
  rw [← hl] at hd ⊢
  obtain ⟨h1, h2⟩ := globCount_histAfter (h := h) (calls := calls) l' (log m)
  refine ⟨h1, h2.trans ⟨fun hall j hj hnot => ?_, fun hall j hj => ?_⟩⟩
  · rcases List.mem_append.1 hj with h | h
    · exact hall j h
    · exact absurd h hnot
  · exact hall j (List.mem_append_left _ hj) fun h => (List.nodup_append.1 hd).2.2 j hj j h rfl

end

/-- A global status change returns exactly if no other one takes effect between its
first turn and its second. -/
theorem race_iff [Fam W] {st : Strategy} {F0 F fuel : Nat} (hF : 32 ≤ F) (hf : iterFuel W ≤ fuel)
    {h : History M W} {s : Rib M W} (hs : exec st F0 h = .ok () s) {calls : ι → Call M W} {i : ι}
    (hi : IsStatusChange (calls i)) {t1 t2 t3 : List ι} (h1 : i ∉ t1) (h2 : i ∉ t2) :
    ∃ log, Explains st h (start st F fuel s calls) (t1 ++ i :: (t2 ++ i :: t3)) log ∧
      i ∉ log (t1.length + 1 + t2.length) ∧
      ((∃ a, ((start st F fuel s calls).exec (t1 ++ i :: (t2 ++ i :: t3))).pool i = .ret a) ↔
        ∀ j ∈ log (t1.length + 1 + t2.length), j ∉ log t1.length → ¬ IsStatusChange (calls j)) := by
  obtain ⟨log, hE, hver, _⟩ := run_explained hF hf hs calls (t1 ++ i :: (t2 ++ i :: t3))
  refine ⟨log, hE, and_comm.1 ?_⟩
  have hlen : (t1 ++ i :: (t2 ++ i :: t3)).length = t1.length + 1 + t2.length + 1 + t3.length := by
    simp only [List.length_append, List.length_cons]; omega
  obtain ⟨hle, heq⟩ := globCount_between (h := h) (calls := calls) hE.order
    (m := t1.length) (n := t1.length + 1 + t2.length) (by omega) (by omega)
  rw [← heq, and_comm]
  -- the states on the way
  obtain ⟨ρ, f, k, hprog, hrace⟩ := racing_call st F fuel hi
  have e1 : (t1 ++ i :: (t2 ++ i :: t3)).take t1.length = t1 := by simp
  have e3 : (t1 ++ i :: (t2 ++ i :: t3)).take (t1.length + 1 + t2.length) = t1 ++ i :: t2 := by
    have : t1 ++ i :: (t2 ++ i :: t3) = (t1 ++ i :: t2) ++ i :: t3 := by simp
    rw [this, List.take_append_of_le_length (by simp; omega), List.take_of_length_le (by simp; omega)]
  have hv1 := hver t1.length (by omega)
  have hv3 := hver (t1.length + 1 + t2.length) (by omega)
  rw [e1] at hv1
  rw [e3] at hv3
  have hp1 : ((start st F fuel s calls).exec t1).pool i = .act f k :=
    (Conf.exec_idle _ h1).trans hprog
  obtain ⟨hf2, ρ', f', k', hk2, hrace2⟩ := hrace ((start st F fuel s calls).exec t1).st
  have hp3 : ((start st F fuel s calls).exec (t1 ++ i :: t2)).pool i = .act f' k' := by
    rw [Conf.exec_append]
    change ((Conf.step _ i).exec t2).pool i = _
    rw [Conf.exec_idle _ h2, Conf.step_act hp1]
    simp [hk2]
  obtain ⟨hwin, hlose⟩ := hrace2 ((start st F fuel s calls).exec (t1 ++ i :: t2)).st
  have hsplit : t1 ++ i :: (t2 ++ i :: t3) = (t1 ++ i :: t2) ++ i :: t3 := by simp
  refine ⟨fun hin => ?_, ?_⟩
  · obtain ⟨k0, hk1, hk2', ⟨hk3, hk4⟩, hk5⟩ := hE.order.entered (m := t1.length) (by omega) (by omega) hin
      (fun hin' => h1 (by have := hE.order.mem (by omega) hin'; rwa [e1] at this))
    obtain rfl : k0 = t1.length := by
      by_contra hne
      refine h2 (hk4 ▸ ?_)
      rw [List.getElem_append_right (by omega), List.getElem_cons, dif_neg (by omega),
        List.getElem_append_left (by omega)]
      exact List.getElem_mem _
    have hv2 := hver (t1.length + 1) (by omega)
    have e2 : (t1 ++ i :: (t2 ++ i :: t3)).take (t1.length + 1) = t1 ++ [i] := by
      rw [List.take_append, List.take_of_length_le (by omega)]
      have : t1.length + 1 - t1.length = 1 := by omega
      rw [this]; rfl
    rw [e2, Conf.exec_append] at hv2
    have hst : (((start st F fuel s calls).exec t1).exec [i]).st = ((start st F fuel s calls).exec t1).st := by
      change (Conf.step _ i).st = _
      rw [Conf.step_act hp1]; exact hf2
    rw [hst, hv1, hk5] at hv2
    have := (globCount_histAfter (h := h) (calls := calls) [i] (log t1.length)).2.1 hv2.symm i (by simp)
    exact this hi
  rw [← hv1, ← hv3]
  constructor
  · rintro ⟨a, ha⟩
    by_contra hne
    have hlt : ((start st F fuel s calls).exec t1).st.tree.wd.ver <
        ((start st F fuel s calls).exec (t1 ++ i :: t2)).st.tree.wd.ver := by
      rw [← hv1, ← hv3] at hle; omega
    obtain ⟨hst, hnever⟩ := hlose hlt
    refine Prog.Never.ne (P := fun s'' =>
      ((start st F fuel s calls).exec t1).st.tree.wd.ver < s''.tree.wd.ver) ?_ a ha
    rw [hsplit, Conf.exec_append]
    change (((Conf.step _ i).exec t3).pool i).Never _
    refine Conf.never_exec t3 (by rw [Conf.step_act hp3]; simpa using hnever) fun n hn => ?_
    have hv := hver (t1.length + 1 + t2.length + 1 + n) (by omega)
    have hmono := (globCount_between (h := h) (calls := calls) hE.order
      (m := t1.length + 1 + t2.length) (n := t1.length + 1 + t2.length + 1 + n) (by omega)
      (by omega)).1
    have e4 : (t1 ++ i :: (t2 ++ i :: t3)).take (t1.length + 1 + t2.length + 1 + n) =
        (t1 ++ i :: t2) ++ i :: t3.take n := by
      rw [hsplit, List.take_append, List.take_of_length_le (by simp; omega)]
      congr 1
      have : t1.length + 1 + t2.length + 1 + n - (t1 ++ i :: t2).length = n + 1 := by
        simp only [List.length_append, List.length_cons]; omega
      rw [this]; rfl
    rw [e4, Conf.exec_append] at hv
    refine Nat.lt_of_lt_of_eq ?_ hv.symm
    omega
  · intro he
    obtain ⟨⟨a, ha⟩, _⟩ := hwin he
    refine ⟨a, ?_⟩
    rw [hsplit, Conf.exec_append]
    refine Conf.exec_ret (c := Conf.step _ i) ?_ t3
    rw [Conf.step_act hp3]
    simpa using ha

/-- Two turns in a row. -/
theorem race_alone {st : Strategy} {F fuel : Nat} {calls : ι → Call M W} {j : ι}
    (hj : IsStatusChange (calls j)) {c : Conf (Rib M W) ι (fun i => (calls i).Ans)}
    (hp : c.pool j = (calls j).prog st F fuel) :
    (∃ a, (c.exec [j, j]).pool j = .ret a) ∧ (c.exec [j, j]).st = { c.st with
      tree := { c.st.tree with wd := ⟨c.st.tree.wd.ver + 1, changeSet (calls j) c.st.tree.wd.set⟩ } } := by
  obtain ⟨ρ, f, k, hprog, hrace⟩ := racing_call st F fuel hj
  obtain ⟨hf2, ρ', f', k', hk2, hrace2⟩ := hrace c.st
  have e1 : c.step j = ⟨c.st, Function.update c.pool j (.act f' k')⟩ := by
    rw [Conf.step_act (hp.trans hprog), hf2, hk2]
  have hp2 : (c.step j).pool j = .act f' k' := by rw [e1]; simp
  have hs2 : (c.step j).st = c.st := by rw [e1]
  have e2 : c.exec [j, j] = ⟨(f' c.st).2, Function.update (c.step j).pool j (k' (f' c.st).1)⟩ := by
    change (c.step j).step j = _
    rw [Conf.step_act hp2, hs2]
  obtain ⟨⟨a, ha⟩, hst⟩ := (hrace2 c.st).1 rfl
  rw [e2]
  exact ⟨⟨a, by simpa using ha⟩, hst⟩

/-- Calls of which each has returned or can never return any more. -/
theorem Conf.over_exec {P : σ → Prop} (u : List ι) : ∀ {c : Conf σ ι A}, P c.st →
    (∀ i, (∃ a, c.pool i = .ret a) ∨ (c.pool i).Never P) →
    (c.exec u).st = c.st ∧ ∀ i, (c.pool i).Never P → ((c.exec u).pool i).Never P := by
  induction u with
  | nil => intro c _ _; exact ⟨rfl, fun _ h => h⟩
  | cons j u ih =>
    intro c hP h
    have hst : (c.step j).st = c.st := by
      rcases h j with ⟨a, ha⟩ | hn
      · rw [Conf.step_ret ha]
      · exact (Conf.never_step hn hP j).2 rfl
    have hpool : ∀ i, (∃ a, (c.step j).pool i = .ret a) ∨ ((c.step j).pool i).Never P := by
      intro i
      rcases h i with ⟨a, ha⟩ | hn
      · exact .inl ⟨a, Conf.exec_ret ha [j]⟩
      · exact .inr (Conf.never_step hn hP j).1
    obtain ⟨h1, h2⟩ := ih (c := c.step j) (by rw [hst]; exact hP) hpool
    exact ⟨h1.trans hst, fun i hi => h2 i (Conf.never_step hi hP j).1⟩

/-- The second call wins the race, and the first one is lost for ever. -/
theorem race_lost {st : Strategy} {F fuel : Nat} {calls : ι → Call M W} {i j : ι} (hij : i ≠ j)
    (hi : IsStatusChange (calls i)) (hj : IsStatusChange (calls j))
    {c : Conf (Rib M W) ι (fun i => (calls i).Ans)}
    (hpi : c.pool i = (calls i).prog st F fuel) (hpj : c.pool j = (calls j).prog st F fuel) :
    (∃ a, (c.exec [i, j, j]).pool j = .ret a) ∧
    ((c.exec [i, j, j]).pool i).Never (fun s => c.st.tree.wd.ver < s.tree.wd.ver) ∧
    (c.exec [i, j, j]).st = { c.st with
      tree := { c.st.tree with wd := ⟨c.st.tree.wd.ver + 1, changeSet (calls j) c.st.tree.wd.set⟩ } } := by
  obtain ⟨ρ, f, k, hprog, hrace⟩ := racing_call st F fuel hi
  obtain ⟨hf2, ρ', f', k', hk2, hrace2⟩ := hrace c.st
  have e1 : c.step i = ⟨c.st, Function.update c.pool i (.act f' k')⟩ := by
    rw [Conf.step_act (hpi.trans hprog), hf2, hk2]
  have hp1 : (c.step i).pool j = (calls j).prog st F fuel := by
    rw [Conf.step_other _ hij.symm]; exact hpj
  obtain ⟨h1, h2⟩ := race_alone hj hp1
  have hs1 : (c.step i).st = c.st := by rw [e1]
  refine ⟨h1, ?_, by rw [hs1] at h2; exact h2⟩
  change (((c.step i).exec [j, j]).pool i).Never _
  rw [Conf.exec_idle _ (by simp [hij]), e1]
  simp only [Function.update_self]
  exact fun s' hs' => (hrace2 s').2 hs'

end Rotonda
