import Verif.Spec.Conc

/-!
# Queries over several prefixes that run at the same time as other calls
-/

namespace Rotonda.Spec

variable {M : Type} [Meta M] {W : Nat} {ι : Type} {calls : ι → Call M W}

section
variable [DecidableEq ι]

omit [DecidableEq ι] in
/-- `v` are the records shown for `q` at a moment between the `k`-th and the `n`-th step;
the global statuses are those of a moment before. -/
def ReadBetween (st : Strategy) (h : History M W) (calls : ι → Call M W) (log : ℕ → List ι)
    (k n : ℕ) (mui : Option Mui) (iw : Bool) (q : Prefix W) (v : Option (List (Record M))) : Prop :=
  ∃ n1 n2, k ≤ n1 ∧ n1 ≤ n2 ∧ n2 ≤ n ∧
    Answers v (Shown st (under (histAfter h calls (log n1)) (histAfter h calls (log n2))) mui iw q)

omit [DecidableEq ι] in
/-- `vis`: the prefixes an iteration has come across, each once and with the records read for
it between the `k`-th and the `n`-th step. -/
structure Visited (st : Strategy) (h : History M W) (calls : ι → Call M W) (t : List ι)
    (log : ℕ → List ι) (k n : ℕ) (mui : Option Mui) (iw : Bool)
    (vis : List (Prefix W × Option (List (Record M)))) : Prop where
  once : (vis.map Prod.fst).Nodup
  begun : ∀ x ∈ vis, ∃ m, Begun h calls (t.take n) x.1 m
  read : ∀ x ∈ vis, ReadBetween st h calls log k n mui iw x.1 x.2

/-- The prefixes that have records, with their records. -/
def withRecords (vis : List (Prefix W × Option (List (Record M)))) : List (Prefix W × List (Record M)) :=
  vis.filterMap fun x => x.2.map fun rs => (x.1, rs)

/-- The queries that report several prefixes.  A call that returned within `n` steps and had
not started before the `k`-th has come across certain prefixes; it reports those that had
records when they were read. -/
structure ExplainsWalks (st : Strategy) (h : History M W)
    (c : Conf (Rib M W) ι (fun i => (calls i).Ans)) (t : List ι) (log : ℕ → List ι) : Prop where
  less : ∀ n, n ≤ t.length → ∀ i p mui iw (a : List (FatalResult (PrefixRecord M W))),
    Returned (c.exec (t.take n)) i (.lessIter p mui iw) a → ∀ k, k ≤ n → i ∉ t.take k →
    ∃ vis, a = (withRecords vis).map .ok ∧ Visited st h calls t log k n mui iw vis ∧
      (∀ x ∈ vis, Covers x.1 p ∧ x.1 ≠ p) ∧
      ∀ q m, 0 < q.len → Covers q p → q ≠ p → Completed h (c.exec (t.take k)) q m → ∃ v, (q, v) ∈ vis
  more : ∀ n, n ≤ t.length → ∀ i p mui iw (a : List (FatalResult (PrefixRecord M W))),
    Returned (c.exec (t.take n)) i (.moreIter p mui iw) a → ∀ k, k ≤ n → i ∉ t.take k →
    (∃ m n1, mui = some m ∧ iw = false ∧ k ≤ n1 ∧ n1 ≤ n ∧
      globWd (histAfter h calls (log n1)) m = true ∧ a = []) ∨
    ∃ vis, a = (withRecords vis).map .ok ∧ Visited st h calls t log k n mui iw vis ∧
      (∀ x ∈ vis, Covers p x.1) ∧
      (NoNewNodes h (c.exec (t.take k)) (t.take n) p → p.len < W →
        ∀ q m, 0 < q.len → Covers p q → Completed h (c.exec (t.take k)) q m → ∃ v, (q, v) ∈ vis)
  all : ∀ n, n ≤ t.length → ∀ i (a : List (FatalResult (PrefixRecord M W))),
    Returned (c.exec (t.take n)) i .prefixesIter a → ∀ k, k ≤ n → i ∉ t.take k →
    ∃ vis, a = vis.map (fun x => .ok (x.1, x.2.getD [])) ∧
      Visited st h calls t log k n none true vis ∧
      (∀ r : Prefix W, r.len = 0 → NoNewNodes h (c.exec (t.take k)) (t.take n) r →
        ∀ q m, 0 < q.len → Completed h (c.exec (t.take k)) q m → ∃ v, (q, v) ∈ vis)
  forMui : ∀ n, n ≤ t.length → ∀ i m iw (a : List (FatalResult (PrefixRecord M W))),
    Returned (c.exec (t.take n)) i (.recordsForMui m iw) a → ∀ k, k ≤ n → i ∉ t.take k →
    (∃ n1, iw = false ∧ k ≤ n1 ∧ n1 ≤ n ∧ globWd (histAfter h calls (log n1)) m = true ∧ a = []) ∨
    ∃ vis, a = (withRecords vis).map .ok ∧ Visited st h calls t log k n (some m) iw vis ∧
      (∀ r : Prefix W, r.len = 0 → NoNewNodes h (c.exec (t.take k)) (t.take n) r →
        ∀ q m', 0 < q.len → Completed h (c.exec (t.take k)) q m' → ∃ v, (q, v) ∈ vis)
  matches_ : ∀ n, n ≤ t.length → ∀ i p o (a : FatalResult (QueryResult M W)),
    Returned (c.exec (t.take n)) i (.matchPrefix p o) a → ∀ k, k ≤ n → i ∉ t.take k →
    ∃ x, a = .ok x ∧
      (∃ f : Option (Prefix W × Option (List (Record M))),
        x.prefix_ = f.bind (fun y => y.2.map fun _ => y.1) ∧
        x.records = (f.bind Prod.snd).getD [] ∧
        (∀ y, f = some y → Covers y.1 p ∧ (o.matchType = .exactMatch → y.1 = p) ∧
          (∃ m, Begun h calls (t.take n) y.1 m) ∧
          ReadBetween st h calls log k n o.mui o.includeWithdrawn y.1 y.2) ∧
        ∀ q m, 0 < q.len → Covers q p → (o.matchType = .exactMatch → q = p) →
          Completed h (c.exec (t.take k)) q m → ∃ y, f = some y ∧ q.len ≤ y.1.len) ∧
      (o.includeLessSpecifics = false ∧ x.lessSpecifics = none ∨ ∃ vis, x.lessSpecifics = some (withRecords vis) ∧
        Visited st h calls t log k n o.mui o.includeWithdrawn vis ∧
        (∀ x ∈ vis, Covers x.1 p ∧ x.1 ≠ p) ∧
        ∀ q m, 0 < q.len → Covers q p → q ≠ p → Completed h (c.exec (t.take k)) q m →
          ∃ v, (q, v) ∈ vis) ∧
      (o.includeMoreSpecifics = false ∧ x.moreSpecifics = none ∨ ∃ vis, x.moreSpecifics = some (withRecords vis) ∧
        Visited st h calls t log k n o.mui o.includeWithdrawn vis ∧
        (∀ x ∈ vis, Covers p x.1 ∧ x.1 ≠ p) ∧
        (NoNewNodes h (c.exec (t.take k)) (t.take n) p → p.len < W →
          ∀ q m, 0 < q.len → Covers p q → q ≠ p → Completed h (c.exec (t.take k)) q m →
            ∃ v, (q, v) ∈ vis))
  moreFrom : ∀ n, n ≤ t.length → ∀ i p mui iw (a : FatalResult (QueryResult M W)),
    Returned (c.exec (t.take n)) i (.moreFrom p mui iw) a → ∀ k, k ≤ n → i ∉ t.take k →
    ∃ x v, a = .ok x ∧ x.records = v.getD [] ∧ ReadBetween st h calls log k n mui iw p v ∧
      ∀ y ∈ x.moreSpecifics.getD [], ReadBetween st h calls log k n mui iw p (some y.2)
  lessFrom : ∀ n, n ≤ t.length → ∀ i p mui iw (a : FatalResult (QueryResult M W)),
    Returned (c.exec (t.take n)) i (.lessFrom p mui iw) a → ∀ k, k ≤ n → i ∉ t.take k →
    ∃ x v, a = .ok x ∧ x.records = v.getD [] ∧ ReadBetween st h calls log k n mui iw p v ∧
      ∀ y ∈ x.lessSpecifics.getD [], ReadBetween st h calls log k n mui iw p (some y.2)

end

/-! ## The answers of these queries, seen alike -/

/-- The option `mui` and `includeWithdrawn` of a query over several prefixes. -/
def asks : Call M W → Option (Option Mui × Bool)
  | .lessIter _ mui iw | .moreIter _ mui iw => some (mui, iw)
  | .prefixesIter => some (none, true)
  | .recordsForMui m iw => some (some m, iw)
  | .matchPrefix _ o => some (o.mui, o.includeWithdrawn)
  | _ => none

/-- The items of a list that are not errors. -/
def oks {α : Type} (l : List (FatalResult α)) : List α := l.filterMap fun
  | .ok a => some a
  | .error _ => none

/-- The prefixes in the answer of a query, with the records given for them. -/
def reports : (x : Call M W) → x.Ans → List (Prefix W × List (Record M))
  | .lessIter .., a => oks a
  | .moreIter .., a => oks a
  | .prefixesIter, a => oks a
  | .recordsForMui .., a => oks a
  | .matchPrefix .., a =>
    match a with
    | .ok x => x.prefix_.toList.map (fun q => (q, x.records)) ++ x.lessSpecifics.getD [] ++
        x.moreSpecifics.getD []
    | .error _ => []
  | _, _ => []

/-- The prefix is one that the query is to report if it has records to show.  For more
specifics: while no insert below the searched prefix makes a new tree node. -/
def Due (h : History M W) (c : Conf (Rib M W) ι (fun i => (calls i).Ans)) (t : List ι) :
    Call M W → Prefix W → Prop
  | .lessIter p _ _, q => Covers q p ∧ q ≠ p
  | .moreIter p _ _, q => Covers p q ∧ p.len < W ∧ NoNewNodes h c t p
  | .prefixesIter, _ => ∃ r : Prefix W, r.len = 0 ∧ NoNewNodes h c t r
  | .recordsForMui _ _, _ => ∃ r : Prefix W, r.len = 0 ∧ NoNewNodes h c t r
  | .matchPrefix p o, q => q = p ∨ (o.includeLessSpecifics = true ∧ Covers q p ∧ q ≠ p) ∨
      (o.includeMoreSpecifics = true ∧ Covers p q ∧ q ≠ p ∧ p.len < W ∧ NoNewNodes h c t p)
  | _, _ => False

/-- The call changes the route `(p, m)` or the global status of `m`. -/
def Touches (x : Call M W) (p : Prefix W) (m : Mui) : Prop :=
  (∃ r tbi, x = .insert p r tbi ∧ r.mui = m) ∨ (∃ tm rs, MarksRoute x p m tm rs) ∨
    x = .withdraw m ∨ x = .activate m

end Rotonda.Spec
