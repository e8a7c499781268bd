import Verif.Model.Conc
import Verif.Proofs.Wp

/-!
# Calls that have to be given a turn

No changing call and no record or status query returns before its first action.
-/

namespace Rotonda

/-- The program does not start by returning. -/
def Prog.Starts {σ α : Type} : Prog σ α → Prop
  | .ret _ => False
  | _ => True

namespace Prog
variable {σ τ α β : Type}

theorem Starts.ne {p : Prog σ α} (h : p.Starts) (a : α) : p ≠ .ret a := by
  rintro rfl; exact h

theorem Starts.bind {p : Prog σ α} (h : p.Starts) (k : α → Prog σ β) : (p >>= k).Starts := by
  cases p with
  | ret a => exact h.elim
  | act f k => trivial
  | panic => trivial
  | diverge => trivial

theorem Starts.then (p : Prog σ α) {k : α → Prog σ β} (h : ∀ a, (k a).Starts) : (p >>= k).Starts := by
  cases p with
  | ret a => exact h a
  | act f k => trivial
  | panic => trivial
  | diverge => trivial

theorem Starts.zoom {L : Lens σ τ} {p : Prog τ α} (h : p.Starts) : (p.zoom L).Starts := by
  cases p with
  | ret a => exact h.elim
  | act f k => trivial
  | panic => trivial
  | diverge => trivial

end Prog

open Prog

variable {M : Type} [Meta M] {W : Nat}

theorem starts_read {σ α : Type} (f : σ → α) : (Prog.read f).Starts := trivial

theorem starts_atomic {σ α : Type} (f : σ → α × σ) : (Prog.atomic f).Starts := trivial

omit [Meta M] in
theorem starts_sliceGet {E α : Type} [Entry E W] (b : Bucket) (i : Nat)
    {k : Option (Ref W) → Prog (Slots E) α} (h : (k none).Starts) :
    (sliceGet (E := E) (W := W) b i >>= k).Starts := by
  unfold sliceGet
  split
  · exact Starts.bind (starts_read _) _
  · exact h

omit [Meta M] in
theorem starts_sliceGetOrInit {E : Type} [Entry E W] (b : Bucket) (i : Nat) (e : E) :
    (sliceGetOrInit (E := E) (W := W) b i e).Starts := by
  unfold sliceGetOrInit
  split
  · exact Starts.bind (starts_read _) _
  · trivial

theorem starts_setPrefixExists (F : Nat) (p : PrefixId W) (m : Mui) :
    (setPrefixExists F p m).Starts := by
  unfold setPrefixExists
  split
  · exact Starts.bind (starts_atomic _) _
  · unfold maxLevels setPrefixExistsLoop
    dsimp only
    split
    · trivial
    · refine Starts.then _ fun bs => Starts.bind (Starts.zoom ?_) _
      unfold retrieveNodeMut maxLevels retrieveNodeMutLoop
      refine Starts.then _ fun _ => Starts.then _ fun _ =>
        starts_sliceGet _ _ (Starts.then _ fun _ => Starts.bind (starts_sliceGetOrInit _ _ _) _)

omit [Meta M] in
theorem starts_ribMarkMem (p : PrefixId W) (m : Mui) (t : LTime) (rs : RouteStatus) :
    (ribMarkMem (M := M) p m t rs).Starts := by
  unfold ribMarkMem retrievePrefixMut maxLevels retrievePrefixMutLoop
  refine Starts.bind (Starts.zoom (Starts.zoom ?_)) _
  refine Starts.then _ fun _ => Starts.then _ fun _ =>
    starts_sliceGet _ _ (Starts.then _ fun _ => Starts.bind (starts_sliceGetOrInit _ _ _) _)

theorem starts_insert (st : Strategy) (F : Nat) (p : PrefixId W) (r : Record M) (tbi : Option (Meta.TBI M)) :
    (ribInsert st F p r tbi).Starts :=
  Starts.bind (Starts.zoom (starts_setPrefixExists F p r.mui)) _

omit [Meta M] in
theorem starts_withdrawFor (st : Strategy) (p : PrefixId W) (m : Mui) (t : LTime) :
    (ribMarkWithdrawnForPrefix (M := M) st p m t).Starts := by
  cases st
  · exact Starts.bind (starts_ribMarkMem p m t _) _
  · exact Starts.bind (starts_ribMarkMem p m t _) _
  · exact Starts.bind (starts_ribMarkMem p m t _) _
  · exact Starts.bind (starts_read _) _

omit [Meta M] in
theorem starts_activateFor (st : Strategy) (p : PrefixId W) (m : Mui) (t : LTime) :
    (ribMarkActiveForPrefix (M := M) st p m t).Starts := by
  cases st
  · exact Starts.bind (starts_ribMarkMem p m t _) _
  · exact Starts.bind (starts_ribMarkMem p m t _) _
  · exact Starts.bind (starts_ribMarkMem p m t _) _
  · exact Starts.bind (starts_read _) _

omit [Meta M] in
theorem starts_withdraw (F : Nat) (m : Mui) : (ribMarkWithdrawn (M := M) (W := W) F m).Starts :=
  Starts.zoom (Starts.bind (starts_read _) _)

omit [Meta M] in
theorem starts_activate (F : Nat) (m : Mui) : (ribMarkActive (M := M) (W := W) F m).Starts :=
  Starts.zoom (Starts.bind (starts_read _) _)

theorem starts_getValue (st : Strategy) (p : PrefixId W) (mui : Option Mui) (iw : Bool) :
    (ribGetValue (M := M) st p mui iw).Starts := Starts.bind (starts_read _) _

omit [Meta M] in
theorem starts_muiIsWithdrawn (m : Mui) : (ribMuiIsWithdrawn (M := M) (W := W) m).Starts :=
  Starts.bind (starts_read _) _

/-- The calls of which this is shown. -/
def Call.Timely : Call M W → Bool
  | .insert .. | .withdrawFor .. | .activateFor .. | .withdraw _ | .activate _ | .getRecords ..
  | .muiIsWithdrawn _ => true
  | _ => false

theorem Call.starts (st : Strategy) (F fuel : Nat) (x : Call M W) (hx : x.Timely = true) :
    (x.prog st F fuel).Starts := by
  cases x with
  | insert p r tbi => exact starts_insert st F p.id r tbi
  | withdrawFor p m t => exact starts_withdrawFor st p.id m t
  | activateFor p m t => exact starts_activateFor st p.id m t
  | withdraw m => exact starts_withdraw F m
  | activate m => exact starts_activate F m
  | getRecords p mui iw => exact starts_getValue st p.id mui iw
  | muiIsWithdrawn m => exact starts_muiIsWithdrawn m
  | _ => cases hx

end Rotonda
