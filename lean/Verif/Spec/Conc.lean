import Verif.Model.Conc
import Verif.Spec.History
import Verif.Spec.Persist

/-!
# What can be said about calls that run at the same time
-/

namespace Rotonda.Spec

variable {M : Type} [Meta M] {W : Nat} {ι : Type} {calls : ι → Call M W}

/-- Call `i` is the call `x` and has returned `a`. -/
def Returned (c : Conf (Rib M W) ι (fun i => (calls i).Ans)) (i : ι) (x : Call M W) (a : x.Ans) :
    Prop :=
  ∃ h : calls i = x, c.pool i = .ret (h ▸ a)

/-- The pair was inserted before the calls started, or an insert for it is among
the calls `t` (those that were given a turn). -/
def Begun (h : History M W) (calls : ι → Call M W) (t : List ι) (p : Prefix W) (m : Mui) : Prop :=
  Inserted h p m ∨ ∃ i ∈ t, ∃ r tbi, calls i = .insert p r tbi ∧ r.mui = m

/-- An insert for the pair has returned. -/
def Completed (h : History M W) (c : Conf (Rib M W) ι (fun i => (calls i).Ans)) (p : Prefix W)
    (m : Mui) : Prop :=
  Inserted h p m ∨ ∃ i r tbi a, Returned c i (.insert p r tbi) a ∧ r.mui = m

/-- Every insert of a prefix covered by `p` that was given a turn in `t` has
returned. -/
def Quiet (c : Conf (Rib M W) ι (fun i => (calls i).Ans)) (t : List ι) (p : Prefix W) : Prop :=
  ∀ i ∈ t, ∀ q r tbi, calls i = .insert q r tbi → Covers p q → ∃ a, Returned c i (.insert q r tbi) a

/-- All nodes on the way to `q` in a tree of stride 4 are also on the way to `q'`. -/
def OnTheWay (q q' : Prefix W) : Prop :=
  4 * ((q.len - 1) / 4) < q'.len ∧ ∀ i, i < 4 * ((q.len - 1) / 4) → q.bits.getMsbD i = q'.bits.getMsbD i

/-- No insert of a prefix covered by `p` that was given a turn in `t` needs a tree
node that no completed insert needed. -/
def NoNewNodes (h : History M W) (c : Conf (Rib M W) ι (fun i => (calls i).Ans)) (t : List ι)
    (p : Prefix W) : Prop :=
  ∀ i ∈ t, ∀ q r tbi, calls i = .insert q r tbi → Covers p q → 0 < q.len →
    ∃ q' m, Completed h c q' m ∧ OnTheWay q q'

/-- In particular when all these inserts have returned. -/
theorem Quiet.noNewNodes {h : History M W} {c : Conf (Rib M W) ι (fun i => (calls i).Ans)}
    {t : List ι} {p : Prefix W} (hq : Quiet c t p) : NoNewNodes h c t p := by
  intro i hi q r tbi hc hcov h0
  obtain ⟨a, ha⟩ := hq i hi q r tbi hc hcov
  exact ⟨q, r.mui, .inr ⟨i, r, tbi, a, ha, rfl⟩, by omega, fun _ _ => rfl⟩

/-! ## Counting -/

/-- The call inserts the prefix. -/
def Inserts (x : Call M W) (p : Prefix W) : Prop := ∃ r tbi, x = .insert p r tbi

/-- The prefixes inserted before the calls started or by one of the calls `t`. -/
def prefixesBy (h : History M W) (calls : ι → Call M W) (t : List ι) : Set (Prefix W) :=
  {p | Present h p ∨ ∃ i ∈ t, Inserts (calls i) p}

/-- The calls among `t` that insert a prefix not inserted before the calls started. -/
def newInserts (h : History M W) (calls : ι → Call M W) (t : List ι) : Set ι :=
  {i | i ∈ t ∧ ∃ p, Inserts (calls i) p ∧ ¬ Present h p}

/-- Every insert that was given a turn in `t` has returned successfully. -/
def AllInserted (c : Conf (Rib M W) ι (fun i => (calls i).Ans)) (t : List ι) : Prop :=
  ∀ i ∈ t, ∀ p r tbi, calls i = .insert p r tbi → ∃ rep, Returned c i (.insert p r tbi) (.ok rep)

/-! ## The order in which changes take effect -/

/-- The change a call makes to records and statuses, if any. -/
def changeOf : Call M W → Option (Op M W)
  | .insert p r tbi => some (.insert p r tbi)
  | .withdrawFor p m t => some (.withdrawFor p m t)
  | .activateFor p m t => some (.activateFor p m t)
  | .withdraw m => some (.withdraw m)
  | .activate m => some (.activate m)
  | _ => none

/-- The history `h` followed by the changes of the calls in `l`, the most recent
first. -/
def histAfter (h : History M W) (calls : ι → Call M W) (l : List ι) : History M W :=
  l.filterMap (fun i => changeOf (calls i)) ++ h

/-- `log n` lists the calls that took effect in the first `n` steps of the schedule
`t`, the most recent first: every call takes effect at most once, in one of its
own steps. -/
structure EffectOrder (t : List ι) (log : ℕ → List ι) : Prop where
  start : log 0 = []
  step : ∀ n (hn : n < t.length), log (n + 1) = log n ∨
    (log (n + 1) = t[n] :: log n ∧ t[n] ∉ log n)

/-- The call changes the global status of a mui. -/
def IsStatusChange (x : Call M W) : Prop := (∃ m, x = .withdraw m) ∨ ∃ m, x = .activate m

/-- Is the change a global status change? -/
def isGlobal : Op M W → Bool
  | .withdraw _ | .activate _ => true
  | _ => false

/-- The records of `h` with the global statuses of `h1`. -/
def under (h1 h : History M W) : History M W :=
  h1.filter isGlobal ++ h.filter fun op => !isGlobal op

/-- No call marks a single route active. -/
def NoActivations (calls : ι → Call M W) : Prop := ∀ i p m t, calls i ≠ .activateFor p m t

/-- No call changes the status of the route `(p, m)`. -/
def NoMarksFor (calls : ι → Call M W) (p : Prefix W) (m : Mui) : Prop :=
  ∀ i t, calls i ≠ .withdrawFor p m t ∧ calls i ≠ .activateFor p m t

/-- The call gives the route `(p, m)` the status `rs` at the time `tm`. -/
def MarksRoute (x : Call M W) (p : Prefix W) (m : Mui) (tm : LTime) (rs : RouteStatus) : Prop :=
  x = .withdrawFor p m tm ∧ rs = .withdrawn ∨ x = .activateFor p m tm ∧ rs = .active

/-- A stored record after such a call: `PersistOnly` also drops its metadata. -/
def marked (st : Strategy) (tm : LTime) (rs : RouteStatus) (r : Record M) : Record M :=
  match st with
  | .persistOnly => ⟨r.mui, tm, rs, Meta.ofBytes []⟩
  | _ => { r with ltime := tm, status := rs }

/-- The insert is part of the history or one of the calls in `t`. -/
def InsertedBy (h : History M W) (calls : ι → Call M W) (t : List ι) (p : Prefix W) (r : Record M) :
    Prop := ∃ tbi, Op.insert p r tbi ∈ h ∨ ∃ i ∈ t, calls i = .insert p r tbi

/-- The status change of the route `(p, m)` is part of the history or one of the calls in
`t`. -/
def MarkedBy (h : History M W) (calls : ι → Call M W) (t : List ι) (p : Prefix W) (m : Mui)
    (tm : LTime) (rs : RouteStatus) : Prop :=
  Op.withdrawFor p m tm ∈ h ∧ rs = .withdrawn ∨ Op.activateFor p m tm ∈ h ∧ rs = .active ∨
    ∃ i ∈ t, MarksRoute (calls i) p m tm rs

/-- What `PersistHistory` persists when the calls in `l` take effect, the most recent
first: the record an insert replaces, and an empty withdrawn record for a status change
of a route that has a record. -/
def HistoryEntry (h : History M W) (calls : ι → Call M W) (l : List ι) (k : Tag W) (b : Bytes) :
    Prop :=
  (∃ i l' p r tbi old, i :: l' <:+ l ∧ calls i = .insert p r tbi ∧
    recOf (histAfter h calls l') p r.mui = some old ∧ k = tagOf p old ∧ b = Meta.toBytes old.md) ∨
  ∃ i ∈ l, ∃ p m tm rs, MarksRoute (calls i) p m tm rs ∧
    recOf (histAfter h calls l) p m ≠ none ∧ k = ⟨p, m, tm, .withdrawn⟩ ∧ b = []

/-- A record as the store gives it back: `PersistOnly` rebuilds the metadata from its
bytes. -/
def asStored (st : Strategy) (r : Record M) : Record M :=
  match st with
  | .persistOnly => { r with md := Meta.ofBytes (Meta.toBytes r.md) }
  | _ => r

/-- The record as shown when its mui is globally withdrawn (`w`) or not. -/
def shownAs (w : Bool) (r : Record M) : Record M := if w then { r with status := .withdrawn } else r

/-- The runs for which the answers of record queries are described: all of them,
except that `PersistOnly` marks single routes active with separate reads and writes. -/
def Tracked (st : Strategy) (calls : ι → Call M W) : Prop := st = .persistOnly → NoActivations calls

section
variable [DecidableEq ι]

/-- The log explains the run `t` of the calls from `c`: every call that returned took
effect (a status change for a single route: when it returned `Ok`), and record and
status queries show the calls that took effect, in that order, as if they had been
made one after another.  A query running at the same time as other calls reads the
global statuses at one moment and the records at a later one, both between its
start and its end. -/
structure Explains (st : Strategy) (h : History M W)
    (c : Conf (Rib M W) ι (fun i => (calls i).Ans)) (t : List ι) (log : ℕ → List ι) : Prop where
  order : EffectOrder t log
  inserts : ∀ n, n ≤ t.length → ∀ i p r tbi a,
    Returned (c.exec (t.take n)) i (.insert p r tbi) a → i ∈ log n
  withdrawn : ∀ n, n ≤ t.length → ∀ i m a, Returned (c.exec (t.take n)) i (.withdraw m) a → i ∈ log n
  activated : ∀ n, n ≤ t.length → ∀ i m a, Returned (c.exec (t.take n)) i (.activate m) a → i ∈ log n
  withdrawnFor : Tracked st calls → ∀ n, n ≤ t.length → ∀ i p m tm (a : Except StoreError Unit),
    Returned (c.exec (t.take n)) i (.withdrawFor p m tm) a → (i ∈ log n ↔ a = .ok ())
  activatedFor : Tracked st calls → ∀ n, n ≤ t.length → ∀ i p m tm (a : Except StoreError Unit),
    Returned (c.exec (t.take n)) i (.activateFor p m tm) a → (i ∈ log n ↔ a = .ok ())
  status : ∀ n, n ≤ t.length → ∀ m, (ribMuiIsWithdrawn m).run (c.exec (t.take n)).st =
    .ok (globWd (histAfter h calls (log n)) m) (c.exec (t.take n)).st
  records : Tracked st calls → ∀ n, n ≤ t.length → ∀ (p : Prefix W) mui iw, ∃ v,
    (ribGetValue st p.id mui iw).run (c.exec (t.take n)).st = .ok (.ok v) (c.exec (t.take n)).st ∧
    Answers v (Shown st (histAfter h calls (log n)) mui iw p)
  readStatus : ∀ n, n ≤ t.length → ∀ i m (a : Bool),
    Returned (c.exec (t.take n)) i (.muiIsWithdrawn m) a → ∀ k, k ≤ n → i ∉ t.take k →
    ∃ n1, k ≤ n1 ∧ n1 ≤ n ∧ a = globWd (histAfter h calls (log n1)) m
  readRecords : Tracked st calls → ∀ n, n ≤ t.length → ∀ i p mui iw
    (a : FatalResult (Option (List (Record M)))),
    Returned (c.exec (t.take n)) i (.getRecords p mui iw) a → ∀ k, k ≤ n → i ∉ t.take k →
    ∃ v n1 n2, a = .ok v ∧ k ≤ n1 ∧ n1 ≤ n2 ∧ n2 ≤ n ∧
      Answers v (Shown st (under (histAfter h calls (log n1)) (histAfter h calls (log n2))) mui iw p)

/-- `WriteAhead`: an insert is persisted before it takes effect. -/
def WritesAhead (c : Conf (Rib M W) ι (fun i => (calls i).Ans)) (t : List ι) (log : ℕ → List ι) :
    Prop :=
  ∀ n, n ≤ t.length → ∀ i ∈ log n, ∀ p r tbi, calls i = .insert p r tbi →
    Persisted (c.exec (t.take n)).st.lsm (tagOf p r)

/-- `PersistHistory`: the record an insert replaced is persisted when the insert returns
`Ok`; a status change of a route that had a record has persisted a marker when it returns
`Ok`; nothing else is persisted. -/
structure KeepsHistory (h : History M W) (c : Conf (Rib M W) ι (fun i => (calls i).Ans))
    (t : List ι) (log : ℕ → List ι) : Prop where
  replaced : ∀ n, n ≤ t.length → ∀ i p r tbi rep,
    Returned (c.exec (t.take n)) i (.insert p r tbi) (.ok rep) →
    ∃ l1 l2, log n = l1 ++ i :: l2 ∧ ∀ old, recOf (histAfter h calls l2) p r.mui = some old →
      Persisted (c.exec (t.take n)).st.lsm (tagOf p old)
  withdrawn : ∀ n, n ≤ t.length → ∀ i p m tm,
    Returned (c.exec (t.take n)) i (.withdrawFor p m tm) (.ok ()) →
    ∃ l1 l2, log n = l1 ++ i :: l2 ∧ (recOf (histAfter h calls l2) p m ≠ none →
      Persisted (c.exec (t.take n)).st.lsm (⟨p, m, tm, .withdrawn⟩ : Tag W))
  activated : ∀ n, n ≤ t.length → ∀ i p m tm,
    Returned (c.exec (t.take n)) i (.activateFor p m tm) (.ok ()) →
    ∃ l1 l2, log n = l1 ++ i :: l2 ∧ (recOf (histAfter h calls l2) p m ≠ none →
      Persisted (c.exec (t.take n)).st.lsm (⟨p, m, tm, .withdrawn⟩ : Tag W))
  only : ∀ n, n ≤ t.length → ∀ key b, (key, b) ∈ (c.exec (t.take n)).st.lsm →
    (key, b) ∈ c.st.lsm ∨ ∃ k : Tag W, key = k.key ∧ HistoryEntry h calls (log n) k b

/-- Call `j` had not returned before call `i` was given its first turn in `t`. -/
def NotBefore (c : Conf (Rib M W) ι (fun i => (calls i).Ans)) (t : List ι) (j i : ι) : Prop :=
  ∀ n, i ∉ t.take n → ∀ a, (c.exec (t.take n)).pool j ≠ .ret a

/-- Of two inserts among `t` of the same prefix, not inserted before the calls
started, one had returned before the other was given its first turn. -/
def Apart (h : History M W) (c : Conf (Rib M W) ι (fun i => (calls i).Ans)) (t : List ι) : Prop :=
  ∀ i ∈ t, ∀ j ∈ t, i ≠ j → ∀ p, Inserts (calls i) p → Inserts (calls j) p → ¬ Present h p →
    ¬ NotBefore c t i j ∨ ¬ NotBefore c t j i

end

end Rotonda.Spec
