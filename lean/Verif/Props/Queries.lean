import Verif.Proofs.ReadOnly
import Verif.Props.Demo

/-!
# Queries do not modify the store: C48
-/

namespace Rotonda.Props

open Prog

variable {M : Type} {W : Nat}

/-- The calls of the public API that only ask (`src/rib/starcast.rs`): `match_prefix`
(108-126), `contains`, `best_path`, `is_ps_outdated`, `get_records_for_prefix`,
`more_specifics_from`, `less_specifics_from`, the iterators, the status getters and
the counters. -/
inductive Query (W : Nat)
  | contains (p : PrefixId W) (mui : Option Mui)
  | getRecords (p : PrefixId W) (mui : Option Mui) (iw : Bool)
  | matchPrefix (p : PrefixId W) (o : MatchOptions)
  | moreFrom (p : PrefixId W) (mui : Option Mui) (iw : Bool)
  | lessFrom (p : PrefixId W) (mui : Option Mui) (iw : Bool)
  | moreIter (p : PrefixId W) (mui : Option Mui) (iw : Bool)
  | lessIter (p : PrefixId W) (mui : Option Mui) (iw : Bool)
  | prefixesIter
  | persistPrefixesIter
  | recordsForMui (m : Mui) (iw : Bool)
  | bestPath (p : PrefixId W)
  | isPsOutdated (p : PrefixId W)
  | muiIsWithdrawn (m : Mui)
  | isMuiActive (m : Mui)
  | prefixesCount
  | routesCount
  | prefixesCountForLen (len : Nat)
  | nodesCount

/-- The program of a query, its answer dropped. -/
def Query.prog [Meta M] (st : Strategy) (fuel : Nat) : Query W → Prog (Rib M W) Unit
  | .contains p mui => do let _ ← ribContains p mui
  | .getRecords p mui iw => do let _ ← ribGetValue (M := M) st p mui iw
  | .matchPrefix p o => do let _ ← ribMatchPrefix (M := M) st fuel p o
  | .moreFrom p mui iw => do let _ ← ribMoreSpecificsFrom (M := M) st fuel p mui iw
  | .lessFrom p mui iw => do let _ ← ribLessSpecificsFrom (M := M) st p mui iw
  | .moreIter p mui iw => do let _ ← ribMoreSpecificsIter (M := M) st fuel p mui iw
  | .lessIter p mui iw => do let _ ← ribLessSpecificsIter (M := M) st p mui iw
  | .prefixesIter => do let _ ← ribPrefixesIter (M := M) st fuel
  | .persistPrefixesIter => do let _ ← ribPersistPrefixesIter (M := M) st
  | .recordsForMui m iw => do let _ ← ribIterRecordsForMui (M := M) st fuel m iw
  | .bestPath p => do let _ ← ribBestPath (M := M) p
  | .isPsOutdated p => do let _ ← ribIsPsOutdated (M := M) p
  | .muiIsWithdrawn m => do let _ ← ribMuiIsWithdrawn m
  | .isMuiActive m => do let _ ← ribIsMuiActive m
  | .prefixesCount => do let _ ← ribPrefixesCount
  | .routesCount => do let _ ← ribRoutesCount
  | .prefixesCountForLen l => do let _ ← ribPrefixesCountForLen l
  | .nodesCount => do let _ ← ribNodesCount

/-- Each atomic action of each query leaves every state unchanged.  This covers
concurrent executions too: whatever other threads do between the actions. -/
theorem query_readOnly [Meta M] (st : Strategy) (fuel : Nat) (q : Query W) :
    (q.prog (M := M) st fuel).ReadOnly := by
  cases q <;> refine ReadOnly.bind ?_ (fun _ => readOnly_pure _)
  · exact readOnly_ribContains _ _
  · exact readOnly_ribGetValue _ _ _ _
  · exact readOnly_ribMatchPrefix _ _ _ _
  · exact readOnly_ribMoreSpecificsFrom _ _ _ _ _
  · exact readOnly_ribLessSpecificsFrom _ _ _ _
  · exact readOnly_ribMoreSpecificsIter _ _ _ _ _
  · exact readOnly_ribLessSpecificsIter _ _ _ _
  · exact readOnly_ribPrefixesIter _ _
  · exact readOnly_ribPersistPrefixesIter _
  · exact readOnly_ribIterRecordsForMui _ _ _ _
  · exact readOnly_ribBestPath _
  · exact readOnly_ribIsPsOutdated _
  · exact readOnly_ribMuiIsWithdrawn _
  · exact readOnly_ribIsMuiActive _
  · exact readOnly_ribPrefixesCount
  · exact readOnly_ribRoutesCount
  · exact readOnly_ribPrefixesCountForLen _
  · exact readOnly_read _

/-- Calls of both kinds, the most recent first. -/
def execQ [Meta M] (st : Strategy) (F : Nat) : List (Op M W ⊕ (Query W × Nat)) →
    Outcome Unit (Rib M W)
  | [] => exec st F []
  | .inl op :: h => (execQ st F h).andThen fun _ s => (op.prog st F).run s
  | .inr (q, fuel) :: h => (execQ st F h).andThen fun _ s => (q.prog st fuel).run s

/-- The changing calls alone. -/
def opsOnly [Meta M] : List (Op M W ⊕ (Query W × Nat)) → History M W
  | [] => []
  | .inl op :: h => op :: opsOnly h
  | .inr _ :: h => opsOnly h

/-- C48: the state after any sequence of calls is the state after the same sequence
without its queries, so no query changes the result of any later operation. -/
theorem queries_pure [Meta M] {st : Strategy} {F : Nat} {h : List (Op M W ⊕ (Query W × Nat))}
    {s : Rib M W} (hs : execQ st F h = .ok () s) : exec st F (opsOnly h) = .ok () s := by
  induction h generalizing s with
  | nil => exact hs
  | cons x h ih =>
    cases hx : execQ st F h with
    | panic => cases x <;> simp [execQ, hx, Outcome.andThen] at hs
    | diverge => cases x <;> simp [execQ, hx, Outcome.andThen] at hs
    | ok u s0 =>
      have h0 := ih hx
      cases x with
      | inl op =>
        simp only [execQ, hx, Outcome.andThen] at hs
        simp only [opsOnly, exec, h0, Outcome.andThen]
        exact hs
      | inr q =>
        simp only [execQ, hx, Outcome.andThen] at hs
        rw [(query_readOnly st q.2 q.1).run_eq hs]
        exact h0

set_option maxRecDepth 8192 in
example : ∃ s, execQ .memoryOnly 0 ([.inr (.contains Demo.ten8.id none, 0),
    .inl (.withdraw 1#32), .inr (.prefixesCount, 0)] : List (Op Demo.Md 32 ⊕ (Query 32 × Nat))) =
      .ok () s := ⟨_, rfl⟩

end Rotonda.Props
