import Verif.Model.StarConc
import Verif.Spec.Families
import Verif.Spec.Conc

/-!
# Concurrent calls of the public interface, family by family
-/

namespace Rotonda.Spec

variable {M : Type} [Meta M]

/-- What a call of the public interface consists of: a call of one family whose
answer is converted, one of IPv4 and then, unless the first answer settles it, one of
IPv6, or one of each whose steps may alternate. -/
inductive Parts (M : Type) [Meta M] (α : Type)
  | v4 (x : Call M 32) (g : x.Ans → α)
  | v6 (y : Call M 128) (g : y.Ans → α)
  | both (x : Call M 32) (y : Call M 128) (e : x.Ans → Option α) (g : x.Ans → y.Ans → α)
  | mixed (x : Call M 32) (y : Call M 128) (g : x.Ans → y.Ans → α)

/-- A call about a prefix is that call of the family of the prefix. -/
def Parts.on {α : Type} (p : AnyPrefix) (x : Prefix 32 → Call M 32) (g : ∀ q, (x q).Ans → α)
    (y : Prefix 128 → Call M 128) (g' : ∀ q, (y q).Ans → α) : Parts M α :=
  match p with
  | .v4 q => .v4 (x q) (g q)
  | .v6 q => .v6 (y q) (g' q)

/-- The parts of every call. -/
def parts : (c : StarCall M) → Parts M c.Ans
  | .insert p r tbi => .on p (.insert · r tbi) (fun _ a => a) (.insert · r tbi) (fun _ a => a)
  | .withdrawFor p m t => .on p (.withdrawFor · m t) (fun _ a => a) (.withdrawFor · m t) (fun _ a => a)
  | .activateFor p m t => .on p (.activateFor · m t) (fun _ a => a) (.activateFor · m t) (fun _ a => a)
  | .withdraw4 m => .v4 (.withdraw m) id
  | .withdraw6 m => .v6 (.withdraw m) id
  | .activate4 m => .v4 (.activate m) id
  | .activate6 m => .v6 (.activate m) id
  | .withdraw m => .both (.withdraw m) (.withdraw m) (fun _ => none) (fun _ _ => ())
  | .calcBest p tbi => .on p (.calcBest · tbi) (fun _ a => a) (.calcBest · tbi) (fun _ a => a)
  | .contains p mui => .on p (.contains · mui) (fun _ a => a) (.contains · mui) (fun _ a => a)
  | .getRecords p mui iw =>
    .on p (.getRecords · mui iw) (fun _ a => a) (.getRecords · mui iw) (fun _ a => a)
  | .matchPrefix p o =>
    .on p (.matchPrefix · o) (fun _ a => Except.map Star.result4 a)
      (.matchPrefix · o) (fun _ a => Except.map Star.result6 a)
  | .moreFrom p mui iw =>
    .on p (.moreFrom · mui iw) (fun _ a => Except.map Star.result4 a)
      (.moreFrom · mui iw) (fun _ a => Except.map Star.result6 a)
  | .lessFrom p mui iw =>
    .on p (.lessFrom · mui iw) (fun _ a => Except.map Star.result4 a)
      (.lessFrom · mui iw) (fun _ a => Except.map Star.result6 a)
  | .moreIter p mui iw =>
    .on p (.moreIter · mui iw) (fun _ a => Star.pubs4 a) (.moreIter · mui iw) (fun _ a => Star.pubs6 a)
  | .lessIter p mui iw =>
    .on p (.lessIter · mui iw) (fun _ a => Star.pubs4 a) (.lessIter · mui iw) (fun _ a => Star.pubs6 a)
  | .prefixesIter => .mixed .prefixesIter .prefixesIter (fun a b => Star.pubs4 a ++ Star.pubs6 b)
  | .prefixesIter4 => .v4 .prefixesIter Star.pubs4
  | .prefixesIter6 => .v6 .prefixesIter Star.pubs6
  | .persistPrefixesIter => .both .persistPrefixesIter .persistPrefixesIter (fun _ => none)
      (fun a b => Star.pubs4 a ++ Star.pubs6 b)
  | .persistPrefixesIter4 => .v4 .persistPrefixesIter Star.pubs4
  | .persistPrefixesIter6 => .v6 .persistPrefixesIter Star.pubs6
  | .recordsForMui4 m iw => .v4 (.recordsForMui m iw) Star.pubs4
  | .recordsForMui6 m iw => .v6 (.recordsForMui m iw) Star.pubs6
  | .bestPath p => .on p .bestPath (fun _ a => a) .bestPath (fun _ a => a)
  | .isPsOutdated p => .on p .isPsOutdated (fun _ a => a) .isPsOutdated (fun _ a => a)
  | .muiIsWithdrawn4 m => .v4 (.muiIsWithdrawn m) id
  | .muiIsWithdrawn6 m => .v6 (.muiIsWithdrawn m) id
  | .isMuiActive m => .both (.isMuiActive m) (.isMuiActive m)
      (fun a : Bool => if a then some true else none) (fun _ b => b)
  | .isMuiActive4 m => .v4 (.isMuiActive m) id
  | .isMuiActive6 m => .v6 (.isMuiActive m) id
  | .prefixesCount => .both .prefixesCount .prefixesCount (fun _ => none) Star.addCounters
  | .prefixesCount4 => .v4 .prefixesCount id
  | .prefixesCount6 => .v6 .prefixesCount id
  | .prefixesCountForLen4 l => .v4 (.prefixesCountForLen l) id
  | .prefixesCountForLen6 l => .v6 (.prefixesCountForLen l) id
  | .routesCount => .both .routesCount .routesCount (fun _ => none) Star.addCounters
  | .routesCount4 => .v4 .routesCount id
  | .routesCount6 => .v6 .routesCount id
  | .nodesCount => .both .nodesCount .nodesCount (fun _ => none) (fun a b : Nat => a + b)
  | .nodesCount4 => .v4 .nodesCount id
  | .nodesCount6 => .v6 .nodesCount id

/-- The IPv4 part; any call when there is none, it is then never given a turn. -/
def Parts.call4 {α : Type} : Parts M α → Call M 32
  | .v4 x _ | .both x _ _ _ | .mixed x _ _ => x
  | .v6 _ _ => .nodesCount

/-- The IPv6 part, likewise. -/
def Parts.call6 {α : Type} : Parts M α → Call M 128
  | .v6 y _ | .both _ y _ _ | .mixed _ y _ => y
  | .v4 _ _ => .nodesCount

/-- The answer of the call when its parts have given these answers so far. -/
def Parts.answer {α : Type} : (q : Parts M α) → Option q.call4.Ans → Option q.call6.Ans → Option α
  | .v4 _ g, a, _ => a.map g
  | .v6 _ g, _, b => b.map g
  | .both _ _ e g, a, b => a.bind fun a => match e a with
    | some r => some r
    | none => b.map (g a)
  | .mixed _ _ g, a, b => a.bind fun a => b.map (g a)

def call4 (c : StarCall M) : Call M 32 := (parts c).call4
def call6 (c : StarCall M) : Call M 128 := (parts c).call6

/-- What a program that has ended returned. -/
def result {σ α : Type} : Prog σ α → Option α
  | .ret a => some a
  | _ => none

variable {ι : Type}

/-- `t4 n` and `t6 n` are the turns in the first `n` turns of `t` that are turns of the
IPv4 and of the IPv6 part of a call; a turn given to a call that has ended is
neither. -/
structure Split (t : List ι) (t4 t6 : ℕ → List ι) : Prop where
  start4 : t4 0 = []
  start6 : t6 0 = []
  step : ∀ n (hn : n < t.length),
    (t4 (n + 1) = t4 n ++ [t[n]] ∧ t6 (n + 1) = t6 n) ∨
    (t4 (n + 1) = t4 n ∧ t6 (n + 1) = t6 n ++ [t[n]]) ∨
    (t4 (n + 1) = t4 n ∧ t6 (n + 1) = t6 n)

section
variable [DecidableEq ι] {calls : ι → StarCall M}

/-- The run `t` of the calls from `c` is a run of their IPv4 parts from `c4` and one of
their IPv6 parts from `c6`: these reach the states and give the answers. -/
structure Interleaves (c : Conf (Star M) ι (fun i => (calls i).Ans))
    (c4 : Conf (Rib M 32) ι (fun i => (call4 (calls i)).Ans))
    (c6 : Conf (Rib M 128) ι (fun i => (call6 (calls i)).Ans)) (t : List ι) (t4 t6 : ℕ → List ι) :
    Prop where
  split : Split t t4 t6
  state : ∀ n, n ≤ t.length →
    (c.exec (t.take n)).st = ⟨(c4.exec (t4 n)).st, (c6.exec (t6 n)).st⟩
  answers : ∀ n, n ≤ t.length → ∀ i, result ((c.exec (t.take n)).pool i) =
    (parts (calls i)).answer (result ((c4.exec (t4 n)).pool i)) (result ((c6.exec (t6 n)).pool i))
  panics : ∀ n, n ≤ t.length → ∀ i, (c.exec (t.take n)).pool i = .panic →
    (c4.exec (t4 n)).pool i = .panic ∨ (c6.exec (t6 n)).pool i = .panic
  stuck : ∀ n, n ≤ t.length → ∀ i, (c.exec (t.take n)).pool i = .diverge →
    (c4.exec (t4 n)).pool i = .diverge ∨ (c6.exec (t6 n)).pool i = .diverge
  /-- A call with two successive parts is given no turn for the second before the first
  returned. -/
  first : ∀ n, n ≤ t.length → ∀ i x y e g, parts (calls i) = .both x y e g → i ∈ t6 n →
    ∃ a, (c4.exec (t4 n)).pool i = .ret a

/-- Call `j` had not returned before call `i` was given its first turn in `t`. -/
def StarNotBefore (c : Conf (Star M) ι (fun i => (calls i).Ans)) (t : List ι) (j i : ι) : Prop :=
  ∀ n, i ∉ t.take n → ∀ a, (c.exec (t.take n)).pool j ≠ .ret a

/-- Of two inserts among `t` of the same prefix, not inserted before the calls
started, one had returned before the other was given its first turn. -/
def StarApart (h : List (StarOp M)) (c : Conf (Star M) ι (fun i => (calls i).Ans)) (t : List ι) :
    Prop :=
  ∀ i ∈ t, ∀ j ∈ t, i ≠ j → ∀ p r tbi r' tbi', calls i = .insert p r tbi →
    calls j = .insert p r' tbi' → (∀ r tbi, .insert p r tbi ∉ h) →
    ¬ StarNotBefore c t i j ∨ ¬ StarNotBefore c t j i

end

/-- The length of a prefix. -/
def anyLen : AnyPrefix → ℕ
  | .v4 p => p.len
  | .v6 p => p.len

variable {calls : ι → StarCall M}

/-- Call `i` is the call `x` and has returned `a`. -/
def StarReturned (c : Conf (Star M) ι (fun i => (calls i).Ans)) (i : ι) (x : StarCall M)
    (a : x.Ans) : Prop :=
  ∃ h : calls i = x, c.pool i = .ret (h ▸ a)

/-- The prefixes inserted before the calls started or by one of the calls `t`. -/
def starPrefixesBy (h : List (StarOp M)) (calls : ι → StarCall M) (t : List ι) : Set AnyPrefix :=
  {p | (∃ r tbi, .insert p r tbi ∈ h) ∨ ∃ i ∈ t, ∃ r tbi, calls i = .insert p r tbi}

/-- The calls among `t` that insert a prefix not inserted before the calls started. -/
def starNewInserts (h : List (StarOp M)) (calls : ι → StarCall M) (t : List ι) : Set ι :=
  {i | i ∈ t ∧ ∃ p r tbi, calls i = .insert p r tbi ∧ ∀ r tbi, .insert p r tbi ∉ h}

/-- Every insert that was given a turn in `t` has returned successfully. -/
def StarAllInserted (c : Conf (Star M) ι (fun i => (calls i).Ans)) (t : List ι) : Prop :=
  ∀ i ∈ t, ∀ p r tbi, calls i = .insert p r tbi →
    ∃ rep, StarReturned c i (.insert p r tbi) (.ok rep)

end Rotonda.Spec
