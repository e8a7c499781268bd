import Verif.Model.Rib
import Verif.Proofs.Wp

/-!
# Programs that do not write

Every query of the store is read only: none of its atomic actions changes the
state, whatever the state is and whatever other threads do in between.
-/

namespace Rotonda
namespace Prog

variable {σ τ α β : Type}

/-- No action of the program changes the state. -/
def ReadOnly : Prog σ α → Prop
  | ret _ => True
  | act f k => (∀ s, (f s).2 = s) ∧ ∀ a, (k a).ReadOnly
  | panic => True
  | diverge => True

theorem ReadOnly.bind {p : Prog σ α} {k : α → Prog σ β} (h : p.ReadOnly)
    (hk : ∀ a, (k a).ReadOnly) : (p >>= k).ReadOnly := by
  induction p with
  | ret a => exact hk a
  | act f g ih => exact ⟨h.1, fun a => ih a (h.2 a)⟩
  | panic => trivial
  | diverge => trivial

theorem readOnly_ret (a : α) : (ret a : Prog σ α).ReadOnly := trivial
theorem readOnly_pure (a : α) : (pure a : Prog σ α).ReadOnly := trivial
theorem readOnly_panic : (panic : Prog σ α).ReadOnly := trivial
theorem readOnly_diverge : (diverge : Prog σ α).ReadOnly := trivial
theorem readOnly_read (f : σ → α) : (read f).ReadOnly := ⟨fun _ => rfl, fun _ => trivial⟩
theorem readOnly_ofOption (o : Option α) : (ofOption o : Prog σ α).ReadOnly := by
  cases o <;> trivial

theorem ReadOnly.zoom {L : Lens σ τ} (hL : ∀ s, L.set s (L.get s) = s) {p : Prog τ α}
    (h : p.ReadOnly) : (p.zoom L).ReadOnly := by
  induction p with
  | ret a => trivial
  | act f k ih =>
    exact ⟨fun s => by show L.set s (f (L.get s)).2 = s; rw [h.1, hL], fun a => ih a (h.2 a)⟩
  | panic => trivial
  | diverge => trivial

/-- Run alone, a read-only program leaves the state as it is. -/
theorem ReadOnly.run_eq {p : Prog σ α} (h : p.ReadOnly) {s s' : σ} {a : α}
    (hr : p.run s = .ok a s') : s' = s := by
  induction p generalizing s with
  | ret b => cases hr; rfl
  | act f k ih =>
    have := ih _ (h.2 _) hr
    rw [this]; exact h.1 s
  | panic => cases hr
  | diverge => cases hr

end Prog

open Prog

/-- Closes goals by going through the structure of the program, with the given
lemmas for its parts. -/
syntax "read_only" "[" term,* "]" : tactic

macro_rules
  | `(tactic| read_only [$ts,*]) => do
    let mut parts ← `(tactic| fail)
    for t in ts.getElems do
      parts ← `(tactic| first | with_reducible exact $t | ($parts:tactic))
    `(tactic| repeat' first
      | with_reducible assumption
      | with_reducible exact readOnly_pure _
      | with_reducible exact readOnly_ret _
      | with_reducible exact readOnly_panic
      | with_reducible exact readOnly_diverge
      | with_reducible exact readOnly_read _
      | with_reducible exact readOnly_ofOption _
      | ($parts:tactic)
      | with_reducible apply ReadOnly.bind
      | (intro _; try dsimp only)
      | split)

variable {M : Type} {W : Nat}

section
variable {E : Type} [Entry E W]

theorem readOnly_sliceGet (b : Bucket) (i : Nat) : (sliceGet (E := E) b i).ReadOnly := by
  unfold sliceGet; read_only []

omit [Entry E W] in
theorem readOnly_readAt {ρ : Type} (a : Addr) (f : E → ρ) : (readAt a f).ReadOnly := by
  unfold readAt; read_only []
end

theorem readOnly_retrieveNodeLoop (id : NodeId W) (fuel : Nat) : ∀ level b,
    (retrieveNodeLoop id fuel level b).ReadOnly := by
  induction fuel with
  | zero => intros; exact readOnly_panic
  | succ n ih =>
    intro level b
    unfold retrieveNodeLoop
    have := readOnly_sliceGet (E := StoredNode W) b
    have hf := fun b => ih (level + 1) b
    read_only [this _, hf _]


theorem readOnly_retrieveNode (id : NodeId W) : (retrieveNode id).ReadOnly :=
  (readOnly_ofOption _).bind fun _ => readOnly_retrieveNodeLoop _ _ _ _

theorem readOnly_retrieveNodeForMuiLoop (id : NodeId W) (m : Mui) (fuel : Nat) : ∀ level b,
    (retrieveNodeForMuiLoop id m fuel level b).ReadOnly := by
  induction fuel with
  | zero => intros; exact readOnly_panic
  | succ n ih =>
    intro level b
    unfold retrieveNodeForMuiLoop
    have := readOnly_sliceGet (E := StoredNode W) b
    have hf := fun b => ih (level + 1) b
    read_only [this _, hf _, readOnly_readAt _ _]


theorem readOnly_retrieveNodeForMui (id : NodeId W) (m : Mui) :
    (retrieveNodeForMui id m).ReadOnly :=
  (readOnly_ofOption _).bind fun _ => readOnly_retrieveNodeForMuiLoop _ _ _ _ _

theorem readOnly_loadPfx (a : Addr) : (loadPfx (W := W) a).ReadOnly := readOnly_readAt _ _
theorem readOnly_loadPtr (a : Addr) : (loadPtr (W := W) a).ReadOnly := readOnly_readAt _ _

theorem readOnly_prefixExistsN (p : PrefixId W) : (prefixExistsN p).ReadOnly := by
  unfold prefixExistsN
  read_only [readOnly_retrieveNode _, readOnly_loadPfx _]


theorem readOnly_prefixExistsForMuiN (p : PrefixId W) (m : Mui) :
    (prefixExistsForMuiN p m).ReadOnly := by
  unfold prefixExistsForMuiN
  read_only [readOnly_retrieveNodeForMui _ _, readOnly_loadPfx _]


theorem readOnly_moreSpecificPfxIter (a : Addr) (b : NodeId W) (bs : BitSpan) :
    (moreSpecificPfxIter a b bs).ReadOnly := by
  unfold moreSpecificPfxIter; read_only [readOnly_loadPfx _]

theorem readOnly_moreSpecificPtrIter (a : Addr) (b : NodeId W) (bs : BitSpan) :
    (moreSpecificPtrIter a b bs).ReadOnly := by
  unfold moreSpecificPtrIter; read_only [readOnly_loadPtr _]

theorem readOnly_msDescend (ptr : ChildIter W) (ps : List (ChildIter W)) (n : NodeId W) :
    (msDescend ptr ps n).ReadOnly := by
  unfold msDescend
  read_only [readOnly_retrieveNode _, readOnly_moreSpecificPfxIter _ _ _, readOnly_moreSpecificPtrIter _ _ _]


theorem readOnly_msStep (st : MsIter W) : (msStep st).ReadOnly := by
  unfold msStep
  read_only [readOnly_msDescend _ _ _]

theorem readOnly_msNext (fuel : Nat) : ∀ st : MsIter W, (msNext fuel st).ReadOnly := by
  induction fuel with
  | zero => intros; exact readOnly_diverge
  | succ n ih =>
    intro st
    unfold msNext
    read_only [readOnly_msStep _, ih _]


theorem readOnly_msCollect (fuel : Nat) : ∀ st : MsIter W, (msCollect fuel st).ReadOnly := by
  induction fuel with
  | zero => intros; exact readOnly_diverge
  | succ n ih =>
    intro st
    unfold msCollect
    read_only [readOnly_msNext _ _, ih _]


theorem readOnly_moreSpecifics (fuel : Nat) (p : PrefixId W) : (moreSpecifics fuel p).ReadOnly := by
  unfold moreSpecifics moreSpecificStart
  read_only [readOnly_retrieveNode _, readOnly_moreSpecificPfxIter _ _ _, readOnly_moreSpecificPtrIter _ _ _, readOnly_msCollect _ _]


theorem readOnly_lmLoop (fuel : Nat) : ∀ p : PrefixId W, (lmLoop fuel p).ReadOnly := by
  induction fuel with
  | zero => intros; exact readOnly_panic
  | succ n ih =>
    intro p
    unfold lmLoop
    read_only [readOnly_prefixExistsN _, ih _]


theorem readOnly_lsFind (p : PrefixId W) (lvl : Nat) : (lsFind p lvl).ReadOnly := by
  induction lvl with
  | zero => exact readOnly_pure _
  | succ n ih =>
    unfold lsFind
    read_only [readOnly_prefixExistsN _]

theorem readOnly_lsCollect (p : PrefixId W) (fuel : Nat) : ∀ cur, (lsCollect p fuel cur).ReadOnly := by
  induction fuel with
  | zero => intros; exact readOnly_panic
  | succ n ih =>
    intro cur
    unfold lsCollect
    read_only [readOnly_lsFind _ _, ih _]


theorem readOnly_treeMatchPrefix (fuel : Nat) (p : PrefixId W) (mt : MatchType) (ls ms : Bool) :
    (treeMatchPrefix fuel p mt ls ms).ReadOnly := by
  unfold treeMatchPrefix optionally longestMatchingPrefix lessSpecifics
  read_only [readOnly_lmLoop _ _, readOnly_lsCollect _ _ _, readOnly_moreSpecifics _ _]


theorem ReadOnly.onNodes {α : Type} {p : Prog (NSlots W) α} (h : p.ReadOnly) :
    (onNodes p : Prog (Rib M W) α).ReadOnly :=
  ReadOnly.zoom (fun _ => rfl) (ReadOnly.zoom (fun _ => rfl) h)

theorem ReadOnly.onRecs {α : Type} {p : Prog (PSlots M W) α} (h : p.ReadOnly) :
    (onRecs p : Prog (Rib M W) α).ReadOnly :=
  ReadOnly.zoom (fun _ => rfl) (ReadOnly.zoom (fun _ => rfl) h)

theorem readOnly_findPrefixLoop (id : PrefixId W) (lim : Nat) (fuel : Nat) : ∀ level b,
    (findPrefixLoop (M := M) id lim fuel level b).ReadOnly := by
  induction fuel with
  | zero => intros; exact readOnly_panic
  | succ n ih =>
    intro level b
    unfold findPrefixLoop
    read_only [readOnly_sliceGet _ _, ih _ _]


theorem readOnly_retrievePrefix (id : PrefixId W) : (retrievePrefix (M := M) id).ReadOnly :=
  (readOnly_ofOption _).bind fun _ => readOnly_findPrefixLoop _ _ _ _ _

theorem readOnly_getRecordsForPrefix (id : PrefixId W) (mui : Option Mui) (iw : Bool)
    (bmin : Mui → Bool) : (getRecordsForPrefix (M := M) id mui iw bmin).ReadOnly := by
  unfold getRecordsForPrefix
  read_only [readOnly_findPrefixLoop _ _ _ _ _, readOnly_readAt _ _]


theorem readOnly_withdrawnMuis : (withdrawnMuis.zoom Rib.treeL : Prog (Rib M W) _).ReadOnly :=
  ReadOnly.zoom (fun _ => rfl) (readOnly_read _)

theorem readOnly_ribMuiIsWithdrawn (m : Mui) : (ribMuiIsWithdrawn (M := M) (W := W) m).ReadOnly :=
  readOnly_withdrawnMuis.bind fun _ => readOnly_pure _

theorem readOnly_ribIsMuiActive (m : Mui) : (ribIsMuiActive (M := M) (W := W) m).ReadOnly :=
  readOnly_withdrawnMuis.bind fun _ => readOnly_pure _

theorem readOnly_ribContains (p : PrefixId W) (mui : Option Mui) :
    (ribContains (M := M) p mui).ReadOnly := by
  cases mui
  · exact ReadOnly.zoom (fun _ => rfl) (ReadOnly.zoom (fun _ => rfl) (readOnly_prefixExistsN _))
  · exact ReadOnly.zoom (fun _ => rfl)
      (ReadOnly.zoom (fun _ => rfl) (readOnly_prefixExistsForMuiN _ _))

section
variable [Meta M]

theorem readOnly_ribGetValue (st : Strategy) (p : PrefixId W) (mui : Option Mui) (iw : Bool) :
    (ribGetValue (M := M) st p mui iw).ReadOnly := by
  unfold ribGetValue
  read_only [readOnly_withdrawnMuis, ReadOnly.onRecs (readOnly_getRecordsForPrefix _ _ _ _)]


theorem readOnly_filterValues (st : Strategy) (mui : Option Mui) (iw : Bool)
    (l : List (PrefixId W)) : (filterValues (M := M) st mui iw l).ReadOnly := by
  induction l with
  | nil => exact readOnly_pure _
  | cons p l ih =>
    unfold filterValues
    read_only [readOnly_ribGetValue _ _ _ _]

theorem readOnly_lazily {σ β : Type} {next : Nat → σ → Prog (NSlots W) (Option (PrefixId W × σ))}
    {body : PrefixId W → Prog (Rib M W) β} (hn : ∀ n st, (next n st).ReadOnly)
    (hb : ∀ p, (body p).ReadOnly) (fuel : Nat) : ∀ st, (lazily next body fuel st).ReadOnly := by
  induction fuel with
  | zero => intros; exact readOnly_diverge
  | succ n ih =>
    intro st
    unfold lazily
    read_only [ReadOnly.onNodes (hn _ _), hb _, ih _]

theorem readOnly_moreSpecificStart (p : PrefixId W) : (moreSpecificStart p).ReadOnly := by
  unfold moreSpecificStart
  read_only [readOnly_retrieveNode _, readOnly_moreSpecificPfxIter _ _ _, readOnly_moreSpecificPtrIter _ _ _]

theorem readOnly_lsNext (p : PrefixId W) (cur : Nat) : (lsNext p cur).ReadOnly := by
  unfold lsNext
  read_only [readOnly_lsFind _ _]

theorem readOnly_eachMore {β : Type} {body : PrefixId W → Prog (Rib M W) β}
    (hb : ∀ p, (body p).ReadOnly) (fuel : Nat) (p : PrefixId W) : (eachMore fuel p body).ReadOnly := by
  unfold eachMore
  read_only [ReadOnly.onNodes (readOnly_moreSpecificStart _), readOnly_lazily readOnly_msNext hb _ _]

theorem readOnly_eachLess {β : Type} {body : PrefixId W → Prog (Rib M W) β}
    (hb : ∀ p, (body p).ReadOnly) (p : PrefixId W) : (eachLess p body).ReadOnly :=
  readOnly_lazily (fun _ _ => readOnly_lsNext _ _) hb _ _

theorem readOnly_filterItem (st : Strategy) (mui : Option Mui) (iw : Bool) (p : PrefixId W) :
    (filterItem (M := M) st mui iw p).ReadOnly := by
  unfold filterItem
  read_only [readOnly_ribGetValue _ _ _ _]

theorem readOnly_pfxItem (st : Strategy) (p : PrefixId W) : (pfxItem (M := M) st p).ReadOnly := by
  unfold pfxItem
  read_only [readOnly_ribGetValue _ _ _ _]

theorem readOnly_ribPrefixesIter (st : Strategy) (fuel : Nat) :
    (ribPrefixesIter (M := M) (W := W) st fuel).ReadOnly :=
  readOnly_eachMore (readOnly_pfxItem _) _ _

theorem readOnly_ribMoreSpecificsIter (st : Strategy) (fuel : Nat) (p : PrefixId W)
    (mui : Option Mui) (iw : Bool) : (ribMoreSpecificsIter (M := M) st fuel p mui iw).ReadOnly := by
  unfold ribMoreSpecificsIter
  read_only [readOnly_ribMuiIsWithdrawn _, readOnly_eachMore (readOnly_filterItem _ _ _) _ _]


theorem readOnly_ribLessSpecificsIter (st : Strategy) (p : PrefixId W)
    (mui : Option Mui) (iw : Bool) : (ribLessSpecificsIter (M := M) st p mui iw).ReadOnly := by
  unfold ribLessSpecificsIter
  read_only [readOnly_eachLess (readOnly_filterItem _ _ _) _]

theorem readOnly_ribIterRecordsForMui (st : Strategy) (fuel : Nat) (m : Mui) (iw : Bool) :
    (ribIterRecordsForMui (M := M) (W := W) st fuel m iw).ReadOnly := by
  unfold ribIterRecordsForMui
  read_only [readOnly_ribMuiIsWithdrawn _, readOnly_ribMoreSpecificsIter _ _ _ _ _]


theorem readOnly_fillRecords (st : Strategy) (mui : Option Mui) (iw : Bool)
    (o : Option (List (PrefixId W))) : (fillRecords (M := M) st mui iw o).ReadOnly := by
  unfold fillRecords
  read_only [readOnly_filterValues _ _ _ _]

theorem readOnly_ribMatchFound (st : Strategy) (mui : Option Mui) (iw : Bool) (ty : MatchType)
    (o : Option (PrefixId W)) : (ribMatchFound (M := M) st mui iw ty o).ReadOnly := by
  unfold ribMatchFound
  read_only [readOnly_ribGetValue _ _ _ _]

theorem readOnly_ribMatchPrefix (st : Strategy) (fuel : Nat) (p : PrefixId W) (o : MatchOptions) :
    (ribMatchPrefix (M := M) st fuel p o).ReadOnly := by
  unfold ribMatchPrefix
  read_only [ReadOnly.onNodes (readOnly_treeMatchPrefix _ _ _ _ _), readOnly_ribMatchFound _ _ _ _ _, readOnly_fillRecords _ _ _ _]


theorem readOnly_sameItem (st : Strategy) (p : PrefixId W) (mui : Option Mui) (iw : Bool)
    (q : PrefixId W) : (sameItem (M := M) st p mui iw q).ReadOnly := by
  unfold sameItem
  read_only [readOnly_ribGetValue _ _ _ _]

theorem readOnly_ribFromCommon (st : Strategy) (p : PrefixId W) (mui : Option Mui) (iw : Bool)
    {walk : Prog (Rib M W) (List (FatalResult (Option (PrefixRecord M W))))} (hw : walk.ReadOnly) :
    (ribFromCommon (M := M) st p mui iw walk).ReadOnly := by
  unfold ribFromCommon
  read_only [readOnly_ribContains _ _, readOnly_ribGetValue _ _ _ _, hw]


theorem readOnly_ribMoreSpecificsFrom (st : Strategy) (fuel : Nat) (p : PrefixId W)
    (mui : Option Mui) (iw : Bool) : (ribMoreSpecificsFrom (M := M) st fuel p mui iw).ReadOnly := by
  unfold ribMoreSpecificsFrom
  read_only [readOnly_ribFromCommon _ _ _ _ (readOnly_eachMore (readOnly_sameItem _ _ _ _) _ _)]

theorem readOnly_ribLessSpecificsFrom (st : Strategy) (p : PrefixId W)
    (mui : Option Mui) (iw : Bool) : (ribLessSpecificsFrom (M := M) st p mui iw).ReadOnly := by
  unfold ribLessSpecificsFrom
  read_only [readOnly_ribFromCommon _ _ _ _ (readOnly_eachLess (readOnly_sameItem _ _ _ _) _)]

theorem readOnly_ribPersistPrefixesIter (st : Strategy) :
    (ribPersistPrefixesIter (M := M) (W := W) st).ReadOnly := by
  unfold ribPersistPrefixesIter
  read_only []

end

theorem readOnly_ribBestPath (p : PrefixId W) : (ribBestPath (M := M) p).ReadOnly := by
  unfold ribBestPath
  read_only [ReadOnly.onRecs (readOnly_retrievePrefix _), ReadOnly.onRecs (readOnly_readAt _ _)]


theorem readOnly_ribIsPsOutdated (p : PrefixId W) : (ribIsPsOutdated (M := M) p).ReadOnly := by
  unfold ribIsPsOutdated isPsOutdatedAt
  read_only [ReadOnly.onRecs (readOnly_retrievePrefix _), ReadOnly.onRecs (readOnly_readAt _ _)]


theorem readOnly_ribPrefixesCountForLen (l : Nat) :
    (ribPrefixesCountForLen (M := M) (W := W) l).ReadOnly := by
  unfold ribPrefixesCountForLen; read_only []


/-! ## The counters, read one by one -/

theorem readOnly_sumCounters (get : Rib M W → Nat → Nat) (ls : List Nat) :
    (sumCounters get ls).ReadOnly := by
  induction ls with
  | nil => exact readOnly_pure _
  | cons l ls ih =>
    unfold sumCounters
    read_only [ih]

theorem readOnly_ribPrefixesCount : (ribPrefixesCount (M := M) (W := W)).ReadOnly := by
  unfold ribPrefixesCount
  read_only [readOnly_sumCounters _ _]

theorem readOnly_ribRoutesCount : (ribRoutesCount (M := M) (W := W)).ReadOnly := by
  unfold ribRoutesCount
  read_only []

theorem wp_sumCounters {R G : Rib M W → Rib M W → Prop} {D : Prop} (hG : ∀ s, G s s)
    (get : Rib M W → Nat → Nat) (ls : List Nat) (s : Rib M W) :
    wp R G D (sumCounters get ls) (fun _ _ => True) s := by
  induction ls generalizing s with
  | nil => trivial
  | cons l ls ih =>
    unfold sumCounters
    exact wp_bind_of (P := fun _ _ => True) (wp_read fun s' _ => ⟨hG s', trivial⟩) fun _ s' _ =>
      wp_bind_of (ih s') fun _ _ _ => trivial

theorem wp_ribPrefixesCount {R G : Rib M W → Rib M W → Prop} {D : Prop} (hG : ∀ s, G s s)
    (s : Rib M W) : wp R G D ribPrefixesCount (fun _ _ => True) s := by
  unfold ribPrefixesCount
  exact wp_bind_of (wp_sumCounters hG _ _ s) fun _ s' _ =>
    wp_bind_of (wp_sumCounters hG _ _ s') fun _ _ _ => trivial

theorem wp_ribRoutesCount {R G : Rib M W → Rib M W → Prop} {D : Prop} (hG : ∀ s, G s s)
    (s : Rib M W) : wp R G D ribRoutesCount (fun _ _ => True) s := by
  unfold ribRoutesCount
  exact wp_bind_of (P := fun _ _ => True) (wp_read fun s' _ => ⟨hG s', trivial⟩) fun _ s' _ =>
    wp_bind_of (P := fun _ _ => True) (wp_read fun s' _ => ⟨hG s', trivial⟩) fun _ _ _ => trivial

theorem run_sumCounters (get : Rib M W → Nat → Nat) (ls : List Nat) (s : Rib M W) :
    (sumCounters get ls).run s = .ok (ls.map (get s)).sum s := by
  induction ls with
  | nil => rfl
  | cons l ls ih =>
    unfold sumCounters
    rw [run_bind]
    show ((sumCounters get ls >>= _).run s) = _
    rw [run_bind, ih]
    rfl

theorem run_ribPrefixesCount (s : Rib M W) :
    ribPrefixesCount.run s =
      .ok ⟨s.cht.prefixesCount, 0, ((List.range 129).map s.prefixes).sum⟩ s := by
  unfold ribPrefixesCount PCht.prefixesCount
  generalize List.range 129 = ls
  rw [run_bind, run_sumCounters]
  show ((sumCounters _ _ >>= _).run s) = _
  rw [run_bind, run_sumCounters]
  rfl

theorem run_ribRoutesCount (s : Rib M W) :
    ribRoutesCount.run s = .ok ⟨s.cht.routesCount, 0, s.routes⟩ s := rfl

end Rotonda
