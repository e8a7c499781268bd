import Verif.Model.Options
import Verif.Spec.Public

/-!
# What the options of `match_prefix` mean
-/

namespace Rotonda.Spec.Pub

variable {M : Type}

/-- The answers to one search, for all options, are made of three parts: the match, which
depends on the match type and on the choice of records, and the less and the more
specifics, which depend on the choice of records alone.  The two other options say whether
the lists are there. -/
def Apart (answers : FullOptions → Star.Result M) : Prop :=
  ∃ (found : MatchType → Option Mui → Bool → MatchType × Option AnyPrefix × List (Record M))
    (less more : Option Mui → Bool → RecordSet M),
    ∀ o, answers o =
      ⟨(found o.matchType o.mui o.includeWithdrawn).1,
        (found o.matchType o.mui o.includeWithdrawn).2.1,
        (found o.matchType o.mui o.includeWithdrawn).2.2,
        if o.includeLessSpecifics = true then some (less o.mui o.includeWithdrawn) else none,
        if o.includeMoreSpecifics = true then some (more o.mui o.includeWithdrawn) else none⟩

/-- The answers agree between the match types: asking for `EmptyMatch` is asking for the
longest match, and the exact match is the longest match if that is the searched prefix. -/
def TypesAgree (p : AnyPrefix) (answers : FullOptions → Star.Result M) : Prop :=
  ∀ o : FullOptions,
    answers { o with matchType := .emptyMatch } = answers { o with matchType := .longestMatch } ∧
    ((answers { o with matchType := .longestMatch }).prefix_ = some p →
      answers { o with matchType := .exactMatch } =
        { answers { o with matchType := .longestMatch } with matchType := .exactMatch }) ∧
    ((answers { o with matchType := .longestMatch }).prefix_ ≠ some p →
      answers { o with matchType := .exactMatch } =
        { answers { o with matchType := .longestMatch } with
          matchType := .emptyMatch, prefix_ := none, records := [] })

/-- `a` shows of the prefixes and records of `b` those records that pass, and no prefix
without records. -/
def Restricts (pass : Record M → Prop) (a b : List (PubRecord M)) : Prop :=
  ∀ q r, (∃ rs, ⟨q, rs⟩ ∈ a ∧ r ∈ rs) ↔ pass r ∧ ∃ rs, ⟨q, rs⟩ ∈ b ∧ r ∈ rs

/-- All records in an answer, with their prefixes. -/
def inAnswer (a : Star.Result M) : List (PubRecord M) :=
  (match a.prefix_ with
    | some q => [⟨q, a.records⟩]
    | none => []) ++
  ((a.lessSpecifics.map items).getD [] ++ (a.moreSpecifics.map items).getD [])

variable [Meta M]

/-- The answers of the store to a search for `p`, for all options. -/
def AnswersTo (st : Strategy) (s : Star M) (p : AnyPrefix)
    (answers : FullOptions → Star.Result M) : Prop :=
  ∃ N, ∀ o fuel, N ≤ fuel → (Star.matchPrefixFull st fuel p o).run s = .ok (.ok (answers o)) s

/-- `x` was the record of `p` and its id when an insert for the pair replaced it. -/
def Replaced : List (StarOp M) → AnyPrefix → Record M → Prop
  | [], _, _ => False
  | .insert p r _ :: h, q, x =>
    (p = q ∧ r.mui = x.mui ∧ recOf h q x.mui = some x) ∨ Replaced h q x
  | _ :: h, q, x => Replaced h q x

/-- Strategies with which the option for historical records is to be heeded. -/
def keepsHistory : Strategy → Bool
  | .persistHistory => true
  | .writeAhead => true
  | _ => false

/-- The documented meaning of `include_history`: all replaced records of the searched
prefix (with `All`: of every prefix of the answer) are in the answer. -/
def HistoryReported (M : Type) [Meta M] : Prop :=
  ∀ (st : Strategy) (F : Nat) (h : List (StarOp M)) (s s' : Star M) (fuel : Nat) (p : AnyPrefix)
    (o : FullOptions) (a : Star.Result M), keepsHistory st = true → starExec st F h = .ok () s →
    (Star.matchPrefixFull st fuel p o).run s = .ok (.ok a) s' →
    o.mui = none → o.includeWithdrawn = true →
    ∀ q rs x, ⟨q, rs⟩ ∈ inAnswer a → Replaced h q x →
      (q = p ∧ o.includeHistory = .searchPrefix) ∨ o.includeHistory = .all → x ∈ rs

end Rotonda.Spec.Pub
