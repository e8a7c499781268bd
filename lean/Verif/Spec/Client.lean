import Verif.Model.Client

/-!
# The calls a thread made
-/

namespace Rotonda.Spec

variable {σ C α : Type} {Ans : C → Type}

/-- The thread `cl` makes the calls `l`, with these answers, and then it is `rest`. -/
inductive Made : Client Ans α → List ((c : C) × Ans c) → Client Ans α → Prop
  | nil (cl) : Made cl [] cl
  | cons {c k a l rest} : Made (k a) l rest → Made (.call c k) (⟨c, a⟩ :: l) rest

/-- The call with program `p` has returned `x`. -/
def Got {c : C} (p : Prog σ (Ans c)) (x : (c : C) × Ans c) : Prop :=
  ∃ h : c = x.1, p = .ret (h ▸ x.2)

/-- A thread that has made the calls `l` and then is `rest` is at `p`, of type `A`, when its
`n`-th call is at `pool n`: the calls made have returned these answers; if it is to make
another call, it is within that call; the calls it has not come to have not been given
a turn in `t`. -/
structure ThreadAt {ι : Type} (i : ι) (prog : ∀ c, Prog σ (Ans c)) (calls : ι × Nat → C)
    (pool : ∀ j, Prog σ (Ans (calls j))) (t : List (ι × Nat)) (l : List ((c : C) × Ans c))
    (rest : Client Ans α) (p : Prog σ α) : Prop where
  made : ∀ n (hn : n < l.length), Got (pool (i, n)) l[n]
  ended : ∀ a, rest = .done a → p = .ret a
  panicked : rest = .panic → p = .panic
  within : ∀ c k, rest = .call c k → ∃ h : calls (i, l.length) = c,
    (∀ a, pool (i, l.length) ≠ .ret a) ∧ p = pool (i, l.length) >>= fun a => (k (h ▸ a)).prog prog
  later : ∀ n, (i, n) ∈ t → n ≤ l.length ∧ (n = l.length → ∃ c k, rest = .call c k)

/-- `T m` are the turns in the first `m` turns of the threads `t`, as turns of single calls. -/
structure CallTurns {ι : Type} (t : List ι) (T : Nat → List (ι × Nat)) : Prop where
  start : T 0 = []
  step : ∀ m (hm : m < t.length), T (m + 1) = T m ∨ ∃ n, T (m + 1) = T m ++ [(t[m], n)]

/-- The run `t` of the threads `cl` from `c` is the run of the single calls of `c'`.  Numbers of
calls that are not made stand for a call that does nothing here. -/
structure AsCalls [Inhabited C] {ι : Type} [DecidableEq ι] {A : ι → Type} (prog : ∀ c, Prog σ (Ans c))
    (cl : ∀ i, Client Ans (A i)) (calls : ι × Nat → C) (c : Conf σ ι A)
    (c' : Conf σ (ι × Nat) (fun j => Ans (calls j))) (t : List ι) (T : Nat → List (ι × Nat)) : Prop where
  turns : CallTurns t T
  state : ∀ m, m ≤ t.length → (c.exec (t.take m)).st = (c'.exec (T m)).st
  threads : ∀ m, m ≤ t.length → ∀ i, ∃ l rest, Made (cl i) l rest ∧
    ThreadAt i prog calls (c'.exec (T m)).pool (T m) l rest ((c.exec (t.take m)).pool i)
  own : ∀ i n, calls (i, n) = default ∨ ∃ l rest, Made (cl i) l rest ∧
    ((∃ a, l[n]? = some ⟨calls (i, n), a⟩) ∨ (n = l.length ∧ ∃ k, rest = .call (calls (i, n)) k))

end Rotonda.Spec
