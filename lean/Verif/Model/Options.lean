import Verif.Model.StarCast

/-!
# All options of `match_prefix`

`src/types/match_options.rs`.  `MatchOptions` of `Model/Rib.lean` has the fields that the
code reads; here are all of them.
-/

namespace Rotonda

/-- `src/types/match_options.rs` 78-85, `IncludeHistory`. -/
inductive IncludeHistory where
  | none
  | searchPrefix
  | all
  deriving DecidableEq

/-- `src/types/match_options.rs` 19-39, `MatchOptions` with all its fields. -/
structure FullOptions extends MatchOptions where
  includeHistory : IncludeHistory

/-- `src/types/match_options.rs` 57-61, `MatchType::is_empty`. -/
def MatchType.isEmpty (t : MatchType) : Bool := decide (t = .emptyMatch)

/-- `src/types/match_options.rs` 112-122, `QueryResult::empty`. -/
def Star.Result.empty {M : Type} : Star.Result M := ⟨.emptyMatch, none, [], none, none⟩

/-- `src/rib/starcast.rs` 120-144, `match_prefix`, with all options.  The options are handed
on as a whole (`src/rib/starcast_af_query.rs` 202-285, `src/tree_bitmap/tree_bitmap_query.rs`); no code
reads `include_history`. -/
def Star.matchPrefixFull {M : Type} [Meta M] (st : Strategy) (fuel : Nat) (p : AnyPrefix)
    (o : FullOptions) : Prog (Star M) (FatalResult (Star.Result M)) :=
  Star.matchPrefix st fuel p o.toMatchOptions

end Rotonda
