import Verif.Model.Scan
import Verif.Spec.Walks

/-!
# Queries that read persisted records one after another while other calls run
-/

namespace Rotonda.Spec

variable {M : Type} [Meta M] {W : Nat} {ι κ : Type} {calls : ι → Call M W} {scans : κ → ScanCall W}

/-- The turns of the calls, without those of the scans. -/
def others (t : List (ι ⊕ κ)) : List ι := t.filterMap Sum.getLeft?

/-- Scan `q` is the scan `x` and has returned `a`. -/
def ScanReturned (c : Conf (Rib M W) (ι ⊕ κ) (MixedAns calls scans)) (q : κ) (x : ScanCall W)
    (a : x.Ans M) : Prop :=
  ∃ h : scans q = x, c.pool (.inr q) = .ret (show (scans q).Ans M from h ▸ a)

/-- `v` are the records shown for `p` when for each id the record stored at a moment of its
own is shown; all moments are between the `k`-th and the `n`-th step, and the global
statuses are those of a moment before. -/
def ReadEach (st : Strategy) (h : History M W) (calls : ι → Call M W) (log : Nat → List ι)
    (k n : Nat) (mui : Option Mui) (iw : Bool) (p : Prefix W) (v : Option (List (Record M))) : Prop :=
  ∃ n1, k ≤ n1 ∧ ∃ at_ : Mui → Nat, (∀ m, n1 ≤ at_ m ∧ at_ m ≤ n) ∧
    Answers v fun r => Shown st
      (under (histAfter h calls (log n1)) (histAfter h calls (log (at_ r.mui)))) mui iw p r

/-! ## Queries over several prefixes -/

/-- What is known of a query while it runs. -/
structure Facts (M : Type) (W : Nat) where
  /-- these are the records that the query read for the prefix -/
  read : Option Mui → Bool → Prefix W → Option (List (Record M)) → Prop
  /-- an insert for the prefix has begun before the query returned -/
  begun : Prefix W → Prop
  /-- an insert for the prefix had returned before the query began -/
  done : Prefix W → Prop
  /-- no insert makes a new tree node below the prefix -/
  calm : Prefix W → Prop
  /-- the id was globally withdrawn while the query ran -/
  gone : Mui → Prop

/-- `vis`: the prefixes that a query has come across, each once and with the records read
for it. -/
structure Facts.Came (f : Facts M W) (mui : Option Mui) (iw : Bool)
    (vis : List (Prefix W × Option (List (Record M)))) : Prop where
  once : (vis.map Prod.fst).Nodup
  begun : ∀ x ∈ vis, f.begun x.1
  read : ∀ x ∈ vis, f.read mui iw x.1 x.2

/-- The query came across less specifics of `p`, and across all that were inserted before. -/
def Facts.Less (f : Facts M W) (mui : Option Mui) (iw : Bool) (p : Prefix W)
    (vis : List (Prefix W × Option (List (Record M)))) : Prop :=
  f.Came mui iw vis ∧ (∀ x ∈ vis, Covers x.1 p ∧ x.1 ≠ p) ∧
    ∀ q, f.done q → Covers q p → q ≠ p → ∃ v, (q, v) ∈ vis

/-- The query came across prefixes covered by `p`, and across all that were inserted before,
as long as no node is made below `p`. -/
def Facts.More (f : Facts M W) (mui : Option Mui) (iw : Bool) (p : Prefix W)
    (vis : List (Prefix W × Option (List (Record M)))) : Prop :=
  f.Came mui iw vis ∧ (∀ x ∈ vis, Covers p x.1) ∧
    (f.calm p → p.len < W → ∀ q, f.done q → Covers p q → ∃ v, (q, v) ∈ vis)

/-- The same without `p` itself. -/
def Facts.Below (f : Facts M W) (mui : Option Mui) (iw : Bool) (p : Prefix W)
    (vis : List (Prefix W × Option (List (Record M)))) : Prop :=
  f.Came mui iw vis ∧ (∀ x ∈ vis, Covers p x.1 ∧ x.1 ≠ p) ∧
    (f.calm p → p.len < W → ∀ q, f.done q → Covers p q → q ≠ p → ∃ v, (q, v) ∈ vis)

/-- The query found the longest prefix that covers `p`, or `p` itself for an exact match. -/
def Facts.Found (f : Facts M W) (o : MatchOptions) (p : Prefix W)
    (x : Option (Prefix W × Option (List (Record M)))) : Prop :=
  (∀ y, x = some y → Covers y.1 p ∧ (o.matchType = .exactMatch → y.1 = p) ∧ f.begun y.1 ∧
    f.read o.mui o.includeWithdrawn y.1 y.2) ∧
  ∀ q, f.done q → Covers q p → (o.matchType = .exactMatch → q = p) → ∃ y, x = some y ∧ q.len ≤ y.1.len

/-- The answer of a query, by what it came across. -/
def Facts.Explain (f : Facts M W) : (x : ScanCall W) → x.Ans M → Prop
  | .records p mui iw, a => ∃ v, a = .ok v ∧ f.read mui iw p v
  | .persisted _, _ => True
  | .less p mui iw, a => ∃ vis, a = (withRecords vis).map .ok ∧ f.Less mui iw p vis
  | .more p mui iw, a => (∃ m, mui = some m ∧ iw = false ∧ f.gone m ∧ a = []) ∨
      ∃ vis, a = (withRecords vis).map .ok ∧ f.More mui iw p vis
  | .all, a => ∃ vis, a = vis.map (fun x => .ok (x.1, x.2.getD [])) ∧
      ∀ r : Prefix W, r.len = 0 → f.More none true r vis
  | .forMui m iw, a => (iw = false ∧ f.gone m ∧ a = []) ∨
      ∃ vis, a = (withRecords vis).map .ok ∧ ∀ r : Prefix W, r.len = 0 → f.More (some m) iw r vis
  | .matching p o, a => ∃ x, a = .ok x ∧
      (∃ y, f.Found o p y ∧ x.prefix_ = y.bind (fun y => y.2.map fun _ => y.1) ∧
        x.records = (y.bind Prod.snd).getD []) ∧
      (o.includeLessSpecifics = false ∧ x.lessSpecifics = none ∨
        ∃ vis, x.lessSpecifics = some (withRecords vis) ∧ f.Less o.mui o.includeWithdrawn p vis) ∧
      (o.includeMoreSpecifics = false ∧ x.moreSpecifics = none ∨
        ∃ vis, x.moreSpecifics = some (withRecords vis) ∧ f.Below o.mui o.includeWithdrawn p vis)
  | .moreFrom p mui iw, a => ∃ x v, a = .ok x ∧ x.records = v.getD [] ∧ f.read mui iw p v ∧
      ∀ y ∈ x.moreSpecifics.getD [], f.read mui iw p (some y.2)
  | .lessFrom p mui iw, a => ∃ x v, a = .ok x ∧ x.records = v.getD [] ∧ f.read mui iw p v ∧
      ∀ y ∈ x.lessSpecifics.getD [], f.read mui iw p (some y.2)

/-! ### The answers of these queries, seen alike -/

/-- The option `mui` and `includeWithdrawn` of a query. -/
def scanAsks : ScanCall W → Option (Option Mui × Bool)
  | .records _ mui iw | .less _ mui iw | .more _ mui iw => some (mui, iw)
  | .all => some (none, true)
  | .forMui m iw => some (some m, iw)
  | .matching _ o => some (o.mui, o.includeWithdrawn)
  | _ => none

/-- The prefixes in the answer of a query, with the records given for them. -/
def scanReports : (x : ScanCall W) → x.Ans M → List (Prefix W × List (Record M))
  | .records p _ _, a =>
    match a with
    | .ok v => v.toList.map fun rs => (p, rs)
    | .error _ => []
  | .less .., a => oks a
  | .more .., a => oks a
  | .all, a => oks a
  | .forMui .., a => oks a
  | .matching .., a =>
    match a with
    | .ok x => x.prefix_.toList.map (fun q => (q, x.records)) ++ x.lessSpecifics.getD [] ++
        x.moreSpecifics.getD []
    | .error _ => []
  | _, _ => []

/-- The prefix is one that the query is to report if it has records to show.  For more
specifics: while no insert below the searched prefix makes a new tree node. -/
def Facts.Due (f : Facts M W) : ScanCall W → Prefix W → Prop
  | .records p _ _, q => q = p
  | .less p _ _, q => Covers q p ∧ q ≠ p
  | .more p _ _, q => Covers p q ∧ p.len < W ∧ f.calm p
  | .all, _ => ∃ r : Prefix W, r.len = 0 ∧ f.calm r
  | .forMui _ _, _ => ∃ r : Prefix W, r.len = 0 ∧ f.calm r
  | .matching p o, q => q = p ∨ (o.includeLessSpecifics = true ∧ Covers q p ∧ q ≠ p) ∨
      (o.includeMoreSpecifics = true ∧ Covers p q ∧ q ≠ p ∧ p.len < W ∧ f.calm p)
  | _, _ => False

section
variable [DecidableEq ι]

/-- What is known of a query that had not begun by the `k`-th step and has returned by the
`n`-th of a run `t` of calls and scans.  `c` are the calls. -/
def scanFacts (st : Strategy) (h : History M W) (c : Conf (Rib M W) ι (fun i => (calls i).Ans))
    (t : List (ι ⊕ κ)) (log : Nat → List ι) (k n : Nat) : Facts M W where
  read mui iw p v :=
    ReadEach st h calls (fun j => log (others (t.take j)).length) k n mui iw p v ∧
    (st ≠ .persistOnly ∨ mui ≠ none →
      ReadBetween st h calls (fun j => log (others (t.take j)).length) k n mui iw p v)
  begun p := ∃ m, Begun h calls (others (t.take n)) p m
  done p := 0 < p.len ∧ ∃ m, Completed h (c.exec (others (t.take k))) p m
  calm p := NoNewNodes h (c.exec (others (t.take k))) (others (t.take n)) p
  gone m := ∃ j, k ≤ j ∧ j ≤ n ∧ globWd (histAfter h calls (log (others (t.take j)).length)) m = true

end

/-! ## Iterations over what is persisted -/

/-- Keys in lexicographic order, each once. -/
def Ascending (T : Lsm) : Prop := T.Pairwise fun a b => bytesLt a.1 b.1 = true

/-- `T` holds under each key what was persisted at a moment of its own, between the `k`-th
and the `n`-th step of the run `t`. -/
structure PersistedEach {ν : Type} [DecidableEq ν] {A : ν → Type} (c : Conf (Rib M W) ν A)
    (t : List ν) (k n : Nat) (T : Lsm) : Prop where
  ascending : Ascending T
  each : ∀ key, ∃ j, k ≤ j ∧ j ≤ n ∧ ∀ b, (key, b) ∈ T ↔ (key, b) ∈ (c.exec (t.take j)).st.lsm

/-- At most `n` items, all for `none`. -/
def upTo {α : Type} : Option Nat → List α → List α
  | none, l => l
  | some n, l => l.take n

/-! ## The queries without other calls in between -/

/-- The same queries with the records of a prefix, or all that is persisted, read at once. -/
def atOnce (st : Strategy) (fuel : Nat) : (q : ScanCall W) → Prog (Rib M W) (q.Ans M)
  | .records p mui iw => ribGetValue st p.id mui iw
  | .persisted n => do
    let l ← ribPersistPrefixesIter st
    return upTo n l
  | .less p mui iw => ribLessSpecificsIter st p.id mui iw
  | .more p mui iw => ribMoreSpecificsIter st fuel p.id mui iw
  | .all => ribPrefixesIter st fuel
  | .forMui m iw => ribIterRecordsForMui st fuel m iw
  | .matching p o => ribMatchPrefix st fuel p.id o
  | .moreFrom p mui iw => ribMoreSpecificsFrom st fuel p.id mui iw
  | .lessFrom p mui iw => ribLessSpecificsFrom st p.id mui iw

end Rotonda.Spec
