import Verif.Props.FromQueries
import Verif.Props.Iterate
import Verif.Props.Queries
import Verif.Proofs.PathSel
import Verif.Proofs.Persist

/-!
# No panics, no running out of levels: C25

In the model every index out of bounds, arithmetic overflow, failed `unwrap` and
exhausted chain is the outcome `panic`, and a retry loop that does not end is
`diverge`.
-/

namespace Rotonda.Props

open Prog Spec

variable {M : Type} [Meta M] {W : Nat}

/-- The prefix arguments of a query are prefixes (the public interface only takes
`inetnum` prefixes, whose host bits are zero). -/
def Query.Valid : Query W → Prop
  | .contains p _ | .getRecords p _ _ | .matchPrefix p _ | .moreFrom p _ _ | .lessFrom p _ _
  | .moreIter p _ _ | .lessIter p _ _ | .bestPath p | .isPsOutdated p => ∃ q : Prefix W, q.id = p
  | _ => True

omit [Meta M] in
theorem prog_ok {α : Type} {p : Prog (Rib M W) α} {s : Rib M W} (h : ∃ a, p.run s = .ok a s) :
    (p >>= fun _ => pure ()).run s = .ok () s := by
  obtain ⟨a, ha⟩ := h
  rw [run_bind, ha]; rfl

/-- C25, for calls that change the store: no sequence of calls panics or gets stuck,
whatever the number `F` of retries allowed. -/
theorem exec_never_fails [Fam W] (st : Strategy) (F : Nat) (h : History M W) :
    ∃ s, exec st F h = .ok () s :=
  let ⟨s, hs, _⟩ := exec_inv st F h; ⟨s, hs⟩

/-- C25, for queries: after any history every query returns. -/
theorem query_never_fails [Fam W] {st : Strategy} {F : Nat} {h : History M W} {s : Rib M W}
    (hs : exec st F h = .ok () s) (q : Query W) (hq : q.Valid) :
    ∃ N, ∀ fuel, N ≤ fuel → (q.prog st fuel).run s = .ok () s := by
  have hi := exec_ok_inv hs
  cases q with
  | contains p mui =>
    obtain ⟨p, rfl⟩ := hq
    obtain ⟨b, hb, _⟩ := run_contains_any hi p mui
    exact ⟨0, fun _ _ => prog_ok ⟨_, hb⟩⟩
  | getRecords p mui iw =>
    obtain ⟨p, rfl⟩ := hq
    exact ⟨0, fun _ _ => prog_ok ⟨_, run_ribGetValue hi.toQ p mui iw⟩⟩
  | matchPrefix p o =>
    obtain ⟨p, rfl⟩ := hq
    obtain ⟨N, res, hr, _⟩ := match_prefix_partial hs p o
    exact ⟨N, fun fuel hf => prog_ok ⟨_, hr fuel hf⟩⟩
  | moreFrom p mui iw =>
    obtain ⟨p, rfl⟩ := hq
    obtain ⟨N, res, hr, _⟩ := more_from_partial hs p mui iw
    exact ⟨N, fun fuel hf => prog_ok ⟨_, hr fuel hf⟩⟩
  | lessFrom p mui iw =>
    obtain ⟨p, rfl⟩ := hq
    obtain ⟨res, hr, _⟩ := less_from_partial hs p mui iw
    exact ⟨0, fun _ _ => prog_ok ⟨_, hr⟩⟩
  | moreIter p mui iw =>
    obtain ⟨p, rfl⟩ := hq
    obtain ⟨l, N, hr, _⟩ := run_moreIter hi.toQ p mui iw
    exact ⟨N, fun fuel hf => prog_ok ⟨_, hr fuel hf⟩⟩
  | lessIter p mui iw =>
    obtain ⟨p, rfl⟩ := hq
    obtain ⟨l, hr, _⟩ := run_lessIter hi.toQ p mui iw
    exact ⟨0, fun _ _ => prog_ok ⟨_, hr⟩⟩
  | prefixesIter =>
    obtain ⟨l, N, hr, _⟩ := run_prefixesIter hi.toQ
    exact ⟨N, fun fuel hf => prog_ok ⟨_, hr fuel hf⟩⟩
  | persistPrefixesIter => exact ⟨0, fun _ _ => prog_ok (run_persistIter_ok hi)⟩
  | recordsForMui m iw =>
    obtain ⟨N, l, hr, _⟩ := records_for_mui_partial hs m iw
    exact ⟨N, fun fuel hf => prog_ok ⟨_, hr fuel hf⟩⟩
  | bestPath p =>
    obtain ⟨p, rfl⟩ := hq
    exact ⟨0, fun _ _ => prog_ok ⟨_, run_bestPath hi p⟩⟩
  | isPsOutdated p =>
    obtain ⟨p, rfl⟩ := hq
    exact ⟨0, fun _ _ => prog_ok ⟨_, run_isPsOutdated hi p⟩⟩
  | muiIsWithdrawn m => exact ⟨0, fun _ _ => prog_ok ⟨_, run_muiIsWithdrawn hi.toQ m⟩⟩
  | isMuiActive m =>
    refine ⟨0, fun _ _ => prog_ok ?_⟩
    unfold ribIsMuiActive
    rw [run_bind, run_withdrawnMuis hi.toQ]
    exact ⟨_, rfl⟩
  | prefixesCount => exact ⟨0, fun _ _ => prog_ok ⟨_, run_ribPrefixesCount _⟩⟩
  | routesCount => exact ⟨0, fun _ _ => prog_ok ⟨_, run_ribRoutesCount _⟩⟩
  | prefixesCountForLen len =>
    refine ⟨0, fun _ _ => prog_ok ?_⟩
    unfold ribPrefixesCountForLen
    by_cases hl : len ≤ W
    · rw [if_pos hl]; exact ⟨_, rfl⟩
    · rw [if_neg hl]; exact ⟨_, rfl⟩
  | nodesCount => exact ⟨0, fun _ _ => rfl⟩

/-- The answers are no fatal errors either: these are the calls that can report one. -/
theorem query_not_fatal [Fam W] {st : Strategy} {F : Nat} {h : History M W} {s : Rib M W}
    (hs : exec st F h = .ok () s) (p : Prefix W) (mui : Option Mui) (iw : Bool) (o : MatchOptions) :
    (∃ r, (ribGetValue (M := M) st p.id mui iw).run s = .ok (.ok r) s) ∧
    (∃ r, (ribLessSpecificsFrom (M := M) st p.id mui iw).run s = .ok (.ok r) s) ∧
    (∃ l : List (PrefixRecord M W), (ribLessSpecificsIter (M := M) st p.id mui iw).run s = .ok (l.map .ok) s) ∧
    ∃ N, ∀ fuel, N ≤ fuel →
      (∃ r, (ribMatchPrefix (M := M) st fuel p.id o).run s = .ok (.ok r) s) ∧
      (∃ r, (ribMoreSpecificsFrom (M := M) st fuel p.id mui iw).run s = .ok (.ok r) s) ∧
      (∃ l : List (PrefixRecord M W), (ribMoreSpecificsIter (M := M) st fuel p.id mui iw).run s = .ok (l.map .ok) s) ∧
      (∃ l : List (PrefixRecord M W), (ribPrefixesIter (M := M) st fuel).run s = .ok (l.map .ok) s) := by
  have hi := exec_ok_inv hs
  obtain ⟨N1, r1, h1, _⟩ := match_prefix_partial hs p o
  obtain ⟨N2, r2, h2, _⟩ := more_from_partial hs p mui iw
  obtain ⟨l3, N3, h3, _⟩ := run_moreIter hi.toQ p mui iw
  obtain ⟨l4, N4, h4, _⟩ := run_prefixesIter hi.toQ
  obtain ⟨r5, h5, _⟩ := less_from_partial hs p mui iw
  obtain ⟨l6, h6, _⟩ := run_lessIter hi.toQ p mui iw
  refine ⟨⟨_, run_ribGetValue hi.toQ p mui iw⟩, ⟨r5, h5⟩, ⟨_, h6⟩, N1 + N2 + N3 + N4, fun fuel hf =>
    ⟨⟨r1, h1 fuel (by omega)⟩, ⟨r2, h2 fuel (by omega)⟩, ?_, ?_⟩⟩
  · rw [h3 fuel (by omega)]
    cases stopped h mui iw with
    | true => exact ⟨[], rfl⟩
    | false => exact ⟨_, rfl⟩
  · rw [h4 fuel (by omega)]
    exact ⟨l4.map fun q => (q, (valueOf st h q none true).getD []), by simp⟩

example : ∃ s, exec .persistHistory 2 Demo.hist = .ok () s ∧
    ∃ N, ∀ fuel, N ≤ fuel →
      ((Query.moreFrom Demo.ten8.id (some 2#32) false).prog (M := Demo.Md) .persistHistory fuel).run s =
        .ok () s := by
  obtain ⟨s, hs⟩ := exec_never_fails .persistHistory 2 Demo.hist
  exact ⟨s, hs, query_never_fails hs _ ⟨Demo.ten8, rfl⟩⟩

end Rotonda.Props
