import Verif.Spec.PathSel
import Verif.Spec.Conc

/-!
# Calls that store path selections
-/

namespace Rotonda.Spec

variable {M : Type} [Meta M] {W : Nat}

/-- The call can store a path selection for `p` or mark it outdated: it is an insert or a
calculation for `p`. -/
def CallSelects (p : Prefix W) : Call M W → Prop
  | .insert q _ _ => q = p
  | .calcBest q _ => q = p
  | _ => False

/-- The call can store a path selection for `p`, made with the tie breaker information
`tbi`. -/
def CallStores (p : Prefix W) (tbi : Meta.TBI M) : Call M W → Prop
  | .insert q _ t => q = p ∧ t = some tbi
  | .calcBest q t => q = p ∧ t = tbi
  | _ => False

/-- A former call of the history can have stored a selection made with `tbi`. -/
def OpStores (p : Prefix W) (tbi : Meta.TBI M) : Op M W → Prop
  | .insert q _ t => q = p ∧ t = some tbi
  | .calcBest q t => q = p ∧ t = tbi
  | _ => False

variable {ι : Type} {calls : ι → Call M W}

/-- `m` was the best path of `p` at a moment of the run `t` up to its `n`-th step, or of the
history before it, for the tie breaker information of a call that can have stored it. -/
def WasBest (h : History M W) (calls : ι → Call M W) (t : List ι) (log : ℕ → List ι) (n : ℕ)
    (p : Prefix W) (m : Mui) : Prop :=
  (∃ i ∈ t.take n, ∃ tbi, CallStores p tbi (calls i) ∧
    ∃ n0 ≤ n, IsFirst tbi (recOf (histAfter h calls (log n0)) p) (some m)) ∨
  ∃ op h' tbi, op :: h' <:+ h ∧ OpStores p tbi op ∧ IsFirst tbi (recOf (op :: h') p) (some m)

/-- From step `k` of the run on, no call but `i` that can select for `p` gets a turn. -/
def AloneFor (calls : ι → Call M W) (t : List ι) (k : ℕ) (i : ι) (p : Prefix W) : Prop :=
  ∀ m, k ≤ m → ∀ hm : m < t.length, t[m] = i ∨ ¬ CallSelects p (calls t[m])

/-- In the state `s` the selection stored for `p` is that of the records `R`: `best_path`
answers with the record of the first of them, or with an error if that is not active. -/
def StoredFor (s : Rib M W) (p : Prefix W) (tbi : Meta.TBI M) (R : Mui → Option (Record M)) : Prop :=
  ∀ b r, IsFirst tbi R (some b) → R b = some r → (ribBestPath p.id).run s =
    .ok (some (if r.status = .active then .ok r else .error .storeNotReady)) s

section
variable [DecidableEq ι]

/-- The log explains the path selections of the run `t` of the calls from `c`.
`calculated`: a calculation answers with the selection of the records of one moment of the
call.  `best`: `best_path` answers with the record, at one moment of the call, of an id that
was the best path at an earlier moment.  `current`, `currentInsert`: if from the start of a
calculation, or of an insert for a known prefix, no other call selects for the prefix, then
the selection of the records is stored. -/
structure ExplainsSelections (h : History M W) (c : Conf (Rib M W) ι (fun i => (calls i).Ans))
    (t : List ι) (log : ℕ → List ι) : Prop where
  calculated : ∀ n, n ≤ t.length → ∀ i p tbi sel,
    Returned (c.exec (t.take n)) i (.calcBest p tbi) (.ok sel) → ∀ k, k ≤ n → i ∉ t.take k →
    ∃ n1, k ≤ n1 ∧ n1 ≤ n ∧ IsSelection tbi (recOf (histAfter h calls (log n1)) p) sel
  best : ∀ n, n ≤ t.length → ∀ i p r,
    Returned (c.exec (t.take n)) i (.bestPath p) (some (.ok r)) → ∀ k, k ≤ n → i ∉ t.take k →
    ∃ n1 n2, k ≤ n1 ∧ n1 ≤ n2 ∧ n2 ≤ n ∧ WasBest h calls t log n1 p r.mui ∧
      recOf (histAfter h calls (log n2)) p r.mui = some r ∧ r.status = .active
  current : ∀ i p tbi sel, Returned (c.exec t) i (.calcBest p tbi) (.ok sel) →
    ∀ k, k ≤ t.length → i ∉ t.take k → AloneFor calls t k i p →
    IsSelection tbi (recOf (histAfter h calls (log t.length)) p) sel ∧
      StoredFor (c.exec t).st p tbi (recOf (histAfter h calls (log t.length)) p)
  currentInsert : ∀ i p r tbi rep, Returned (c.exec t) i (.insert p r (some tbi)) (.ok rep) →
    ∀ k, k ≤ t.length → i ∉ t.take k → Present (histAfter h calls (log k)) p →
    AloneFor calls t k i p →
    StoredFor (c.exec t).st p tbi (recOf (histAfter h calls (log t.length)) p)

end

end Rotonda.Spec
