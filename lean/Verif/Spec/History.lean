import Verif.Model.History
import Mathlib.Data.Set.Card

/-!
# What a history of calls means

Specification of the content of the store as functions of the history alone
(most recent call first); nothing here mentions the tree, the hash tables or
the persistence store.
-/

namespace Rotonda.Spec

variable {M : Type} {W : Nat}

/-- `p` covers `q`: `q` starts with all the bits of `p`. -/
def Covers (p q : Prefix W) : Prop :=
  p.len ≤ q.len ∧ ∀ i, i < p.len → p.bits.getMsbD i = q.bits.getMsbD i

variable [Meta M]

/-- A record for prefix `p` and id `m` was inserted. -/
def Inserted (h : History M W) (p : Prefix W) (m : Mui) : Prop :=
  ∃ r tbi, Op.insert p r tbi ∈ h ∧ r.mui = m

/-- Some record for prefix `p` was inserted. -/
def Present (h : History M W) (p : Prefix W) : Prop := ∃ m, Inserted h p m

/-- Present, and not the default route. -/
def Proper (h : History M W) (p : Prefix W) : Prop := Present h p ∧ 0 < p.len

/-- Is `m` globally withdrawn: the last global status change for `m` decides. -/
def globWd : History M W → Mui → Bool
  | [], _ => false
  | .withdraw m :: h, k => if k = m then true else globWd h k
  | .activate m :: h, k => if k = m then false else globWd h k
  | _ :: h, k => globWd h k

/-- The record of `(p, m)`: the last insert for the pair, with the status and
time of the last status change for the pair if that came later. -/
def recOf : History M W → Prefix W → Mui → Option (Record M)
  | [], _, _ => none
  | .insert p r _ :: h, q, k => if p = q ∧ r.mui = k then some r else recOf h q k
  | .withdrawFor p m t :: h, q, k =>
    if p = q ∧ m = k then (recOf h q k).map fun r => { r with status := .withdrawn, ltime := t }
    else recOf h q k
  | .activateFor p m t :: h, q, k =>
    if p = q ∧ m = k then (recOf h q k).map fun r => { r with status := .active, ltime := t }
    else recOf h q k
  | _ :: h, q, k => recOf h q k

/-- What `PersistOnly` keeps for a pair. -/
structure Kept where
  ltime : LTime
  status : RouteStatus
  bytes : Bytes
  deriving DecidableEq

/-- What `PersistOnly` keeps for `(p, m)`: the last insert; a later withdrawal
keeps the pair but not its metadata; an activation has an effect only when there
is no metadata.  (This is what the code does, see the properties for what it
should do.) -/
def keptOf : History M W → Prefix W → Mui → Option Kept
  | [], _, _ => none
  | .insert p r _ :: h, q, k =>
    if p = q ∧ r.mui = k then some ⟨r.ltime, r.status, Meta.toBytes r.md⟩ else keptOf h q k
  | .withdrawFor p m t :: h, q, k =>
    if p = q ∧ m = k then (keptOf h q k).map fun _ => ⟨t, .withdrawn, []⟩ else keptOf h q k
  | .activateFor p m t :: h, q, k =>
    if p = q ∧ m = k then
      (keptOf h q k).map fun x => if x.bytes = [] then ⟨t, .active, []⟩ else x
    else keptOf h q k
  | _ :: h, q, k => keptOf h q k

/-- The record kept by `PersistOnly`, its metadata rebuilt from the bytes. -/
def Kept.toRecord (x : Kept) (m : Mui) : Record M := ⟨m, x.ltime, x.status, Meta.ofBytes x.bytes⟩

/-- The record the store holds for `(p, m)`. -/
def storedRec (st : Strategy) (h : History M W) (p : Prefix W) (m : Mui) : Option (Record M) :=
  match st with
  | .persistOnly => (keptOf h p m).map fun x => x.toRecord m
  | _ => recOf h p m

/-- The status a query shows: withdrawn when the id is globally withdrawn. -/
def effective (h : History M W) (r : Record M) : Record M :=
  if globWd h r.mui then { r with status := .withdrawn } else r

/-- Records that a query without withdrawn routes keeps, by local status: only
active ones in memory, all but withdrawn ones with `PersistOnly`. -/
def passes (st : Strategy) (s : RouteStatus) : Prop :=
  match st with
  | .persistOnly => s ≠ .withdrawn
  | _ => s = .active

/-- What a query with option `mui` and `includeWithdrawn` should show for `p`. -/
def Visible (st : Strategy) (h : History M W) (mui : Option Mui) (iw : Bool) (p : Prefix W)
    (r : Record M) : Prop :=
  ∃ r0, storedRec st h p r.mui = some r0 ∧ (∀ m, mui = some m → r.mui = m) ∧
    match iw with
    | true => r = effective h r0
    | false => r = r0 ∧ passes st r0.status ∧ globWd h r.mui = false

/-- What the code shows: as `Visible`, but an in-memory store asked for one id
does not look at the global status when withdrawn routes are excluded. -/
def Shown (st : Strategy) (h : History M W) (mui : Option Mui) (iw : Bool) (p : Prefix W)
    (r : Record M) : Prop :=
  ∃ r0, storedRec st h p r.mui = some r0 ∧ (∀ m, mui = some m → r.mui = m) ∧
    match iw with
    | true => r = effective h r0
    | false => r = r0 ∧ passes st r0.status ∧
      (globWd h r.mui = false ∨ (st.inMemory = true ∧ mui.isSome = true))

/-! ## Shapes of answers -/

/-- The list holds every record of the set once, at most one per mui. -/
def Lists (rs : List (Record M)) (P : Record M → Prop) : Prop :=
  rs.Pairwise (fun a b => a.mui ≠ b.mui) ∧ ∀ r, r ∈ rs ↔ P r

/-- A faithful answer for a set of records: a list of them, and `None` exactly for
the empty answer. -/
def Answers (o : Option (List (Record M))) (P : Record M → Prop) : Prop :=
  Lists (o.getD []) P ∧ o ≠ some []

/-- A faithful listing of prefixes with records: every prefix of the set that has a
record to show, once, with exactly its records. -/
structure Listing (P : Prefix W → Prop) (V : Prefix W → Record M → Prop)
    (l : List (Prefix W × List (Record M))) : Prop where
  nodup : (l.map Prod.fst).Nodup
  mem : ∀ q, (∃ rs, (q, rs) ∈ l) ↔ P q ∧ ∃ r, V q r
  recs : ∀ q rs, (q, rs) ∈ l → Lists rs (V q)

/-- From longest to shortest. -/
def Descending {α : Type} (l : List (Prefix W × α)) : Prop :=
  l.Pairwise fun a b => b.1.len < a.1.len

/-- `q` is the longest prefix of the set that covers `p`. -/
def IsLongest (P : Prefix W → Prop) (p q : Prefix W) : Prop :=
  P q ∧ Covers q p ∧ ∀ q', P q' → Covers q' p → q'.len ≤ q.len

end Rotonda.Spec
