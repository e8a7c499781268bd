import Verif.Spec.Client
import Verif.Proofs.ConcRun

/-!
# A run of threads is a run of their calls
-/

namespace Rotonda

open Prog Spec

variable {σ C α : Type} {Ans : C → Type}

namespace Cl

/-- A call that returns its answer with its name. -/
def wrap {c : C} (q : Prog σ (Ans c)) : Prog σ ((c : C) × Ans c) := q.bind fun a => .ret ⟨c, a⟩

theorem wrap_inj {c : C} {q q' : Prog σ (Ans c)} (h : wrap q = wrap q') : q = q' := by
  induction q generalizing q' with
  | ret a => cases q' <;> cases h; rfl
  | act f k ih =>
    cases q' with
    | act g k' =>
      simp only [wrap, Prog.bind, act.injEq] at h
      obtain ⟨rfl, hf, hk⟩ := h
      cases hf
      congr 1
      funext r
      exact ih r (congrFun (eq_of_heq hk) r)
    | _ => cases h
  | panic => cases q' <;> cases h; rfl
  | diverge => cases q' <;> cases h; rfl

/-- What a thread is doing. -/
inductive Cur (σ : Type) {C : Type} (Ans : C → Type) (α : Type) : Type 1
  | fin (a : α)
  | dead
  | busy (c : C) (q : Prog σ (Ans c)) (k : Ans c → Client Ans α)

/-- A thread with the calls it has made. -/
structure Th (σ : Type) {C : Type} (Ans : C → Type) (α : Type) where
  past : List ((c : C) × Ans c)
  cur : Cur σ Ans α

variable (prog : ∀ c, Prog σ (Ans c))

/-- The thread goes on up to the next action. -/
def settle (past : List ((c : C) × Ans c)) : Client Ans α → Th σ Ans α
  | .done a => ⟨past, .fin a⟩
  | .panic => ⟨past, .dead⟩
  | .call c k => match prog c with
    | .ret a => settle (past ++ [⟨c, a⟩]) (k a)
    | q => ⟨past, .busy c q k⟩

/-- The thread goes on within a call up to the next action. -/
def resume (past : List ((c : C) × Ans c)) (c : C) (q : Prog σ (Ans c)) (k : Ans c → Client Ans α) :
    Th σ Ans α :=
  match q with
  | .ret a => settle prog (past ++ [⟨c, a⟩]) (k a)
  | q => ⟨past, .busy c q k⟩

theorem settle_call (past : List ((c : C) × Ans c)) (c : C) (k : Ans c → Client Ans α) :
    settle prog past (.call c k) = resume prog past c (prog c) k := by
  rw [settle]
  unfold resume
  rfl

def Th.step (x : Th σ Ans α) (s : σ) : Th σ Ans α × σ :=
  match x.cur with
  | .busy c (.act f kq) k => (resume prog x.past c (kq (f s).1) k, (f s).2)
  | _ => (x, s)

/-- The calls made, and the one being made. -/
def Th.names (x : Th σ Ans α) : List C :=
  x.past.map Sigma.fst ++ match x.cur with
    | .busy c _ _ => [c]
    | _ => []

def Th.rest (x : Th σ Ans α) : Client Ans α :=
  match x.cur with
  | .fin a => .done a
  | .dead => .panic
  | .busy c _ k => .call c k

def Th.left (x : Th σ Ans α) : Prog σ α :=
  match x.cur with
  | .fin a => .ret a
  | .dead => .panic
  | .busy _ q k => q >>= fun a => (k a).prog prog

/-- The thread is at an action. -/
def Th.Settled (x : Th σ Ans α) : Prop := ∀ c q k, x.cur = .busy c q k → ∀ a, q ≠ .ret a

theorem settle_basic (cl : Client Ans α) : ∀ past : List ((c : C) × Ans c),
    past <+: (settle prog past cl).past ∧ past.map Sigma.fst <+: (settle prog past cl).names ∧
    (settle prog past cl).left prog = cl.prog prog ∧ (settle prog past cl).Settled := by
  induction cl with
  | done a => exact fun past => ⟨List.prefix_rfl, List.prefix_append _ _, rfl, fun _ _ _ h => by cases h⟩
  | panic => exact fun past => ⟨List.prefix_rfl, List.prefix_append _ _, rfl, fun _ _ _ h => by cases h⟩
  | call c k ih =>
    intro past
    rw [settle_call, Client.prog]
    cases hq : prog c with
    | ret a =>
      obtain ⟨h1, h2, h3, h4⟩ := ih a (past ++ [⟨c, a⟩])
      refine ⟨(List.prefix_append _ _).trans h1, ?_, h3, h4⟩
      rw [List.map_append] at h2
      exact (List.prefix_append _ _).trans h2
    | _ =>
      refine ⟨List.prefix_rfl, List.prefix_append _ _, rfl, fun _ _ _ h a => ?_⟩
      cases h
      rintro ⟨⟩

theorem resume_basic (past : List ((c : C) × Ans c)) (c : C) (q : Prog σ (Ans c))
    (k : Ans c → Client Ans α) :
    past <+: (resume prog past c q k).past ∧ past.map Sigma.fst ++ [c] <+: (resume prog past c q k).names ∧
    (resume prog past c q k).left prog = (q >>= fun a => (k a).prog prog) ∧
    (resume prog past c q k).Settled := by
  cases q with
  | ret a =>
    obtain ⟨h1, h2, h3, h4⟩ := settle_basic prog (k a) (past ++ [⟨c, a⟩])
    refine ⟨(List.prefix_append _ _).trans h1, ?_, h3, h4⟩
    rw [List.map_append] at h2
    exact h2
  | _ =>
    refine ⟨List.prefix_rfl, List.prefix_rfl, rfl, fun _ _ _ h a => ?_⟩
    cases h
    rintro ⟨⟩

theorem made_snoc {cl : Client Ans α} {l : List ((c : C) × Ans c)} {c : C} {k : Ans c → Client Ans α}
    (h : Made cl l (.call c k)) (a : Ans c) : Made cl (l ++ [⟨c, a⟩]) (k a) := by
  generalize hr : Client.call c k = rest at h
  induction h with
  | nil cl => subst hr; exact .cons (.nil _)
  | cons _ ih => exact .cons (ih hr)

theorem made_settle {cl0 : Client Ans α} (cl : Client Ans α) : ∀ {past : List ((c : C) × Ans c)},
    Made cl0 past cl → Made cl0 (settle prog past cl).past (settle prog past cl).rest := by
  induction cl with
  | done a => exact fun h => h
  | panic => exact fun h => h
  | call c k ih =>
    intro past h
    rw [settle_call]
    cases hq : prog c with
    | ret a => exact ih a (made_snoc h a)
    | _ => exact h

theorem made_resume {cl0 : Client Ans α} {past : List ((c : C) × Ans c)} {c : C}
    {k : Ans c → Client Ans α} (h : Made cl0 past (.call c k)) (q : Prog σ (Ans c)) :
    Made cl0 (resume prog past c q k).past (resume prog past c q k).rest := by
  cases q with
  | ret a => exact made_settle prog _ (made_snoc h a)
  | _ => exact h

/-- The calls of the thread `x` are at `u`. -/
structure Sim (x : Th σ Ans α) (u : Nat → Prog σ ((c : C) × Ans c)) : Prop where
  past : ∀ n (hn : n < x.past.length), u n = .ret x.past[n]
  busy : ∀ c q k, x.cur = .busy c q k → u x.past.length = wrap q

/-- The names of the calls, whatever comes later. -/
def Fits (l : List C) (row : Nat → C) : Prop := ∀ n (hn : n < l.length), row n = l[n]

theorem Fits.mono {l l' : List C} {row : Nat → C} (h : Fits l' row) (hl : l <+: l') : Fits l row := by
  intro n hn
  rw [h n (hn.trans_le hl.length_le), hl.getElem hn]

theorem fits_last {l : List C} {c : C} {row : Nat → C} (h : Fits (l ++ [c]) row) : row l.length = c := by
  rw [h l.length (by simp)]
  simp

theorem sim_settle {row : Nat → C} (cl : Client Ans α) : ∀ {past : List ((c : C) × Ans c)}
    {u : Nat → Prog σ ((c : C) × Ans c)}, (∀ n (hn : n < past.length), u n = .ret past[n]) →
    (∀ n, past.length ≤ n → u n = wrap (prog (row n))) → Fits (settle prog past cl).names row →
    Sim (settle prog past cl) u := by
  induction cl with
  | done a => exact fun h1 _ _ => ⟨h1, fun _ _ _ h => by cases h⟩
  | panic => exact fun h1 _ _ => ⟨h1, fun _ _ _ h => by cases h⟩
  | call c k ih =>
    intro past u h1 h2 hf
    have hc : row past.length = c := by
      have := fits_last (hf.mono (by rw [settle_call]; exact (resume_basic prog past c (prog c) k).2.1))
      rwa [List.length_map] at this
    have hu := h2 past.length (le_refl _)
    rw [hc] at hu
    rw [settle_call] at hf ⊢
    cases hq : prog c with
    | ret a =>
      rw [hq] at hf hu
      refine ih a (fun n hn => ?_) (fun n hn => h2 n (by simp at hn; omega)) hf
      rw [List.length_append, List.length_singleton] at hn
      rcases Nat.lt_succ_iff_lt_or_eq.1 hn with hn' | rfl
      · rw [h1 n hn', List.getElem_append_left hn']
      · rw [hu, List.getElem_append_right (le_refl _)]
        simp [wrap, Prog.bind]
    | _ =>
      rw [hq] at hu
      exact ⟨h1, fun _ _ _ h => by cases h; exact hu⟩

theorem sim_resume {row : Nat → C} {past : List ((c : C) × Ans c)} {c : C} (q : Prog σ (Ans c))
    {k : Ans c → Client Ans α} {u : Nat → Prog σ ((c : C) × Ans c)}
    (h1 : ∀ n (hn : n < past.length), u n = .ret past[n]) (hu : u past.length = wrap q)
    (h2 : ∀ n, past.length < n → u n = wrap (prog (row n)))
    (hf : Fits (resume prog past c q k).names row) : Sim (resume prog past c q k) u := by
  cases q with
  | ret a =>
    refine sim_settle prog (row := row) (k a) (fun n hn => ?_) (fun n hn => h2 n (by simp at hn; omega)) hf
    rw [List.length_append, List.length_singleton] at hn
    rcases Nat.lt_succ_iff_lt_or_eq.1 hn with hn' | rfl
    · rw [h1 n hn', List.getElem_append_left hn']
    · rw [hu, List.getElem_append_right (le_refl _)]
      simp [wrap, Prog.bind]
  | _ => exact ⟨h1, fun _ _ _ h => by cases h; exact hu⟩

/-! ## All threads -/

variable {ι : Type} [DecidableEq ι] {A : ι → Type}

/-- The state and the threads. -/
structure Ths (σ : Type) {C : Type} (Ans : C → Type) {ι : Type} (A : ι → Type) where
  st : σ
  th : ∀ i, Th σ Ans (A i)

def Ths.step (x : Ths σ Ans A) (i : ι) : Ths σ Ans A :=
  ⟨((x.th i).step prog x.st).2, Function.update x.th i ((x.th i).step prog x.st).1⟩

def Ths.exec (x : Ths σ Ans A) (t : List ι) : Ths σ Ans A := t.foldl (Ths.step prog) x

/-- The turn of a single call that a turn of the thread `i` is. -/
def Ths.turn (x : Ths σ Ans A) (i : ι) : List (ι × Nat) :=
  match (x.th i).cur with
  | .busy _ (.act _ _) _ => [(i, (x.th i).past.length)]
  | _ => []

def Ths.turns (x : Ths σ Ans A) : List ι → List (ι × Nat)
  | [] => []
  | i :: t => x.turn i ++ (x.step prog i).turns t

theorem step_names (x : Th σ Ans α) (s : σ) : x.names <+: (x.step prog s).1.names := by
  unfold Th.step
  split
  · rename_i c ρ f kq k hc
    have := (resume_basic prog x.past c (kq (f s).1) k).2.1
    unfold Th.names at this ⊢
    rw [hc]
    exact this
  · exact List.prefix_rfl

theorem Ths.step_names (x : Ths σ Ans A) (i j : ι) : (x.th j).names <+: ((x.step prog i).th j).names := by
  unfold Ths.step
  by_cases h : j = i
  · subst h
    simp only [Function.update_self]
    exact Cl.step_names prog _ _
  · simp only [Function.update_of_ne h]
    exact List.prefix_rfl

theorem Ths.exec_names (t : List ι) : ∀ (x : Ths σ Ans A) (j : ι),
    (x.th j).names <+: ((x.exec prog t).th j).names := by
  induction t with
  | nil => exact fun x j => List.prefix_rfl
  | cons i t ih => exact fun x j => (x.step_names prog i j).trans (ih _ j)

/-- One turn of a thread, on the machine and in the run. -/
theorem step_left {x : Ths σ Ans A} {c : Conf σ ι A} (h1 : c.st = x.st)
    (h2 : ∀ i, c.pool i = (x.th i).left prog) (h3 : ∀ i, (x.th i).Settled) (i : ι) :
    (c.step i).st = (x.step prog i).st ∧ (∀ j, (c.step i).pool j = ((x.step prog i).th j).left prog) ∧
      ∀ j, ((x.step prog i).th j).Settled := by
  have hi := h2 i
  have h3i := h3 i
  unfold Ths.step Th.step
  unfold Th.left at hi
  have same : c.step i = c → x.th i = x.th i → (c.step i).st = x.st ∧
      (∀ j, (c.step i).pool j = (Function.update x.th i (x.th i) j).left prog) ∧
      ∀ j, (Function.update x.th i (x.th i) j).Settled := by
    intro he _
    rw [he, Function.update_eq_self]
    exact ⟨h1, h2, h3⟩
  cases hc : (x.th i).cur with
  | fin a => rw [hc] at hi; exact same (Conf.step_ret hi) rfl
  | dead => rw [hc] at hi; exact same (Conf.step_panic hi) rfl
  | busy d q k =>
    rw [hc] at hi
    dsimp only at hi ⊢
    cases q with
    | ret a => exact absurd rfl (h3i d _ k hc a)
    | panic => exact same (Conf.step_panic hi) rfl
    | diverge => exact same (Conf.step_diverge hi) rfl
    | act f kq =>
      obtain ⟨_, _, h4, h5⟩ := resume_basic prog (x.th i).past d (kq (f x.st).1) k
      rw [Conf.step_act hi, h1]
      refine ⟨rfl, fun j => ?_, fun j => ?_⟩
      · by_cases hj : j = i
        · subst hj
          simp only [Function.update_self]
          exact h4.symm
        · simp only [Function.update_of_ne hj]
          exact h2 j
      · by_cases hj : j = i
        · subst hj
          simp only [Function.update_self]
          exact h5
        · simp only [Function.update_of_ne hj]
          exact h3 j

/-- The threads are as the machine says. -/
theorem exec_left (t : List ι) : ∀ (x : Ths σ Ans A) (c : Conf σ ι A), c.st = x.st →
    (∀ i, c.pool i = (x.th i).left prog) → (∀ i, (x.th i).Settled) →
    (c.exec t).st = (x.exec prog t).st ∧ (∀ i, (c.exec t).pool i = ((x.exec prog t).th i).left prog) ∧
      ∀ i, ((x.exec prog t).th i).Settled := by
  induction t with
  | nil => exact fun x c h1 h2 h3 => ⟨h1, h2, h3⟩
  | cons i t ih =>
    intro x c h1 h2 h3
    obtain ⟨h4, h5, h6⟩ := step_left prog h1 h2 h3 i
    exact ih _ _ h4 h5 h6

/-- The single calls are as the machine says. -/
structure SimAll {calls : ι × Nat → C} (x : Ths σ Ans A) (c' : Conf σ (ι × Nat) (fun j => Ans (calls j)))
    (T : List (ι × Nat)) : Prop where
  st : c'.st = x.st
  sim : ∀ i, Sim (x.th i) (fun n => wrap (c'.pool (i, n)))
  fresh : ∀ j, j ∉ T → c'.pool j = prog (calls j)
  later : ∀ i n, (i, n) ∈ T → n ≤ (x.th i).past.length ∧
    (n = (x.th i).past.length → ∃ c q k, (x.th i).cur = .busy c q k)

theorem SimAll.step {calls : ι × Nat → C} {x : Ths σ Ans A}
    {c' : Conf σ (ι × Nat) (fun j => Ans (calls j))} {T : List (ι × Nat)} (h : SimAll prog x c' T) (i : ι)
    (hf : Fits ((x.step prog i).th i).names (fun n => calls (i, n))) :
    SimAll prog (x.step prog i) (c'.exec (x.turn i)) (T ++ x.turn i) := by
  have hsim := h.sim i
  have same : x.step prog i = x → x.turn i = [] →
      SimAll prog (x.step prog i) (c'.exec (x.turn i)) (T ++ x.turn i) := by
    intro h1 h2
    rw [h1, h2, List.append_nil]
    exact h
  have stay : ∀ th' s', (x.th i).step prog x.st = (x.th i, x.st) → (th', s') = (x.th i, x.st) →
      x.step prog i = x := by
    intro _ _ he _
    unfold Ths.step
    rw [he]
    simp only [Function.update_eq_self]
  cases hc : (x.th i).cur with
  | fin a =>
    refine same (stay _ _ ?_ rfl) ?_
    · unfold Th.step; rw [hc]
    · unfold Ths.turn; rw [hc]
  | dead =>
    refine same (stay _ _ ?_ rfl) ?_
    · unfold Th.step; rw [hc]
    · unfold Ths.turn; rw [hc]
  | busy d q k =>
    cases q with
    | act f kq =>
      have hstep : (x.th i).step prog x.st =
          (resume prog (x.th i).past d (kq (f x.st).1) k, (f x.st).2) := by
        unfold Th.step; rw [hc]
      have hturn : x.turn i = [(i, (x.th i).past.length)] := by unfold Ths.turn; rw [hc]
      have hw := hsim.busy _ _ _ hc
      rw [hturn]
      unfold Ths.step at hf ⊢
      rw [hstep] at hf ⊢
      simp only [Function.update_self] at hf
      simp only [Conf.exec_cons, Conf.exec_nil]
      set j0 : ι × Nat := (i, (x.th i).past.length) with hj0
      cases hp : c'.pool j0 with
      | act g kg =>
        rw [hp] at hw
        simp only [wrap, Prog.bind, act.injEq] at hw
        obtain ⟨rfl, hfg, hk⟩ := hw
        cases hfg
        rw [Conf.step_act hp, h.st]
        have hk' := congrFun (eq_of_heq hk) (g x.st).1
        refine ⟨rfl, fun j => ?_, fun j hj => ?_, fun j n hn => ?_⟩
        · by_cases hj : j = i
          · subst hj
            simp only [Function.update_self]
            refine sim_resume prog (row := fun n => calls (j, n)) _ (fun n hn => ?_) ?_ (fun n hn => ?_) hf
            · have : (j, n) ≠ j0 := fun e => by
                have := congrArg Prod.snd e
                simp only [hj0] at this
                omega
              rw [Function.update_of_ne this]
              exact hsim.past n hn
            · rw [← hj0, Function.update_self]
              exact hk'
            · have : (j, n) ≠ j0 := fun e => by
                have := congrArg Prod.snd e
                simp only [hj0] at this
                omega
              rw [Function.update_of_ne this, h.fresh]
              intro hT
              have := (h.later j n hT).1
              omega
          · simp only [Function.update_of_ne hj]
            have : ∀ n, (j, n) ≠ j0 := fun n e => hj (congrArg Prod.fst e)
            simp only [Function.update_of_ne (this _)]
            exact h.sim j
        · rw [List.mem_append, not_or, List.mem_singleton] at hj
          simp only [Function.update_of_ne hj.2]
          exact h.fresh j hj.1
        · by_cases hj : j = i
          · subst hj
            simp only [Function.update_self]
            have hn' : n ≤ (x.th j).past.length := by
              rcases List.mem_append.1 hn with hn | hn
              · exact (h.later j n hn).1
              · have := congrArg Prod.snd (List.mem_singleton.1 hn)
                simp only [hj0] at this
                omega
            cases hq : kq (g x.st).1 with
            | ret a =>
              have := (settle_basic prog (k a) ((x.th j).past ++ [⟨d, a⟩])).1.length_le
              rw [List.length_append, List.length_singleton] at this
              show n ≤ (settle prog ((x.th j).past ++ [⟨d, a⟩]) (k a)).past.length ∧ (_ → _)
              exact ⟨by omega, fun he => by
                change n = (settle prog ((x.th j).past ++ [⟨d, a⟩]) (k a)).past.length at he
                omega⟩
            | _ => exact ⟨hn', fun _ => ⟨d, _, k, rfl⟩⟩
          · simp only [Function.update_of_ne hj]
            refine h.later j n ?_
            rcases List.mem_append.1 hn with hn | hn
            · exact hn
            · exact absurd (congrArg Prod.fst (List.mem_singleton.1 hn)) hj
      | ret a => rw [hp] at hw; cases hw
      | panic => rw [hp] at hw; cases hw
      | diverge => rw [hp] at hw; cases hw
    | _ =>
      refine same (stay _ _ ?_ rfl) ?_
      · unfold Th.step; rw [hc]
      · unfold Ths.turn; rw [hc]

theorem Ths.turns_append (t u : List ι) : ∀ x : Ths σ Ans A,
    x.turns prog (t ++ u) = x.turns prog t ++ (x.exec prog t).turns prog u := by
  induction t with
  | nil => exact fun x => rfl
  | cons i t ih =>
    intro x
    show x.turn i ++ (x.step prog i).turns prog (t ++ u) = (x.turn i ++ (x.step prog i).turns prog t) ++ _
    rw [ih, List.append_assoc]
    rfl

theorem Ths.exec_append (t u : List ι) (x : Ths σ Ans A) :
    x.exec prog (t ++ u) = (x.exec prog t).exec prog u := List.foldl_append

end Cl

open Cl

variable {ι : Type} [DecidableEq ι] {A : ι → Type} (prog : ∀ c, Prog σ (Ans c))

/-- From the machine to what is said of a thread. -/
theorem Cl.threadAt {α : Type} {calls : ι × Nat → C} {i : ι} {x : Th σ Ans α}
    {pool : ∀ j, Prog σ (Ans (calls j))} {T : List (ι × Nat)} (hs : Sim x (fun n => wrap (pool (i, n))))
    (hst : x.Settled) (hf : Fits x.names (fun n => calls (i, n)))
    (hl : ∀ n, (i, n) ∈ T → n ≤ x.past.length ∧ (n = x.past.length → ∃ c q k, x.cur = .busy c q k)) :
    ThreadAt i prog calls pool T x.past x.rest (x.left prog) := by
  refine ⟨fun n hn => ?_, fun a ha => ?_, fun ha => ?_, fun c k hk => ?_, fun n hn => ?_⟩
  · have := hs.past n hn
    generalize x.past[n] = y at this
    generalize pool (i, n) = p at this
    cases p with
    | ret a => cases this; exact ⟨rfl, rfl⟩
    | _ => cases this
  · unfold Th.rest at ha
    unfold Th.left
    cases hc : x.cur <;> rw [hc] at ha <;> cases ha
    rfl
  · unfold Th.rest at ha
    unfold Th.left
    cases hc : x.cur <;> rw [hc] at ha <;> cases ha
  · unfold Th.rest at hk
    unfold Th.left
    cases hc : x.cur with
    | busy d q k' =>
      rw [hc] at hk
      cases hk
      have hn : calls (i, x.past.length) = c := by
        unfold Th.names at hf
        rw [hc] at hf
        have := fits_last hf
        rwa [List.length_map] at this
      have hw := hs.busy _ _ _ hc
      have hq := hst _ _ _ hc
      refine ⟨hn, ?_⟩
      have key : ∀ {c' : C} (p : Prog σ (Ans c')) (h : c' = c), wrap p = wrap q →
          (∀ a, p ≠ .ret a) ∧ (q >>= fun a => (k a).prog prog) = (p >>= fun a => (k (h ▸ a)).prog prog) := by
        intro c' p h hw
        subst h
        rw [wrap_inj hw]
        exact ⟨hq, rfl⟩
      exact key _ hn hw
    | _ => rw [hc] at hk; cases hk
  · refine ⟨(hl n hn).1, fun he => ?_⟩
    obtain ⟨c, q, k, hc⟩ := (hl n hn).2 he
    exact ⟨c, k, by unfold Th.rest; rw [hc]⟩

/-- Every run of threads is a run of their calls. -/
theorem clients_asCalls [Inhabited C] (s : σ) (cl : ∀ i, Client Ans (A i)) (t : List ι) :
    ∃ (calls : ι × Nat → C) (T : Nat → List (ι × Nat)),
      AsCalls prog cl calls (clients prog s cl) ⟨s, fun j => prog (calls j)⟩ t T := by
  let x0 : Ths σ Ans A := ⟨s, fun i => settle prog [] (cl i)⟩
  let calls : ι × Nat → C := fun j => ((x0.exec prog t).th j.1).names.getD j.2 default
  let T : Nat → List (ι × Nat) := fun m => x0.turns prog (t.take m)
  let c' : Conf σ (ι × Nat) (fun j => Ans (calls j)) := ⟨s, fun j => prog (calls j)⟩
  have hfit : ∀ m i, Fits ((x0.exec prog (t.take m)).th i).names (fun n => calls (i, n)) := by
    intro m i
    have hfin : Fits ((x0.exec prog t).th i).names (fun n => calls (i, n)) := by
      intro n hn
      show List.getD _ _ _ = _
      rw [List.getD_eq_getElem _ _ hn]
    refine hfin.mono ?_
    conv => rhs; rw [← List.take_append_drop m t, Ths.exec_append]
    exact Ths.exec_names prog _ _ _
  have hT : ∀ m (hm : m < t.length), T (m + 1) = T m ++ (x0.exec prog (t.take m)).turn t[m] := by
    intro m hm
    show x0.turns prog (t.take (m + 1)) = _
    rw [List.take_succ_eq_append_getElem hm, Ths.turns_append]
    show _ ++ (_ ++ []) = _
    rw [List.append_nil]
  have hsim : ∀ m, m ≤ t.length → SimAll prog (x0.exec prog (t.take m)) (c'.exec (T m)) (T m) := by
    intro m
    induction m with
    | zero =>
      intro _
      refine ⟨rfl, fun i => ?_, fun _ _ => rfl, fun i n hn => by cases hn⟩
      refine sim_settle prog (row := fun n => calls (i, n)) (cl i) (fun n hn => by cases hn)
        (fun n _ => rfl) ?_
      exact hfit 0 i
    | succ m ih =>
      intro hm
      have hx : x0.exec prog (t.take (m + 1)) = (x0.exec prog (t.take m)).step prog t[m] := by
        rw [List.take_succ_eq_append_getElem hm, Ths.exec_append]
        rfl
      have hfi := hfit (m + 1) t[m]
      rw [hx] at hfi ⊢
      rw [hT m hm, Conf.exec_append]
      exact (ih (Nat.le_of_succ_le hm)).step prog _ hfi
  have hleft := fun m => exec_left prog (t.take m) x0 (clients prog s cl) rfl
    (fun i => (settle_basic prog (cl i) []).2.2.1.symm) (fun i => (settle_basic prog (cl i) []).2.2.2)
  have hmade : ∀ m i, Made (cl i) ((x0.exec prog (t.take m)).th i).past
      ((x0.exec prog (t.take m)).th i).rest := by
    intro m i
    generalize t.take m = u
    have : ∀ (x : Ths σ Ans A), (∀ i, Made (cl i) (x.th i).past (x.th i).rest) →
        ∀ i, Made (cl i) ((x.exec prog u).th i).past ((x.exec prog u).th i).rest := by
      induction u with
      | nil => exact fun x h => h
      | cons a u ih =>
        refine fun x h => ih _ fun i => ?_
        unfold Ths.step
        by_cases hi : i = a
        · subst hi
          simp only [Function.update_self]
          have := h i
          unfold Th.step
          split
          · rename_i c ρ f kq k hc
            refine made_resume prog ?_ _
            unfold Th.rest at this
            rw [hc] at this
            exact this
          · exact this
        · simp only [Function.update_of_ne hi]
          exact h i
    exact this x0 (fun i => made_settle prog (cl i) (.nil _)) i
  refine ⟨calls, T, ⟨rfl, fun m hm => ?_⟩, fun m hm => ?_, fun m hm i => ?_, fun i n => ?_⟩
  · rw [hT m hm]
    unfold Ths.turn
    split
    · exact .inr ⟨_, rfl⟩
    · exact .inl (List.append_nil _)
  · exact (hleft m).1.trans (hsim m hm).st.symm
  · refine ⟨_, _, hmade m i, ?_⟩
    rw [(hleft m).2.1 i]
    exact threadAt prog ((hsim m hm).sim i) ((hleft m).2.2 i) (hfit m i) ((hsim m hm).later i)
  · rcases Nat.lt_or_ge n ((x0.exec prog t).th i).names.length with hn | hn
    · right
      have hm := hmade t.length i
      rw [List.take_length] at hm
      have hc : ((x0.exec prog t).th i).names[n]? = some (calls (i, n)) := by
        show _ = some (List.getD _ _ _)
        rw [List.getD_eq_getElem _ _ hn, List.getElem?_eq_getElem hn]
      generalize (x0.exec prog t).th i = x at hn hm hc
      refine ⟨_, _, hm, ?_⟩
      unfold Th.names at hn hc
      rcases Nat.lt_or_ge n x.past.length with hp | hp
      · left
        rw [List.getElem?_append_left (by simpa using hp), List.getElem?_map] at hc
        obtain ⟨y, hy, he⟩ := Option.map_eq_some_iff.1 hc
        rw [hy]
        generalize calls (i, n) = d at he
        subst he
        exact ⟨y.2, rfl⟩
      · right
        rw [List.getElem?_append_right (by simpa using hp)] at hc
        unfold Th.rest
        cases hcur : x.cur with
        | busy c q k =>
          rw [hcur] at hc hn
          simp only [List.length_append, List.length_map, List.length_singleton] at hn hc
          have hnl : n = x.past.length := by omega
          have h0 : n - x.past.length = 0 := by omega
          rw [h0] at hc
          injection hc with hc
          subst hc
          exact ⟨hnl, k, rfl⟩
        | _ => rw [hcur] at hc; simp at hc
    · left
      exact List.getD_eq_default _ _ hn

end Rotonda
