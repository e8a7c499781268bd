import Verif.Spec.Families
import Verif.Proofs.QuerySeq
import Verif.Proofs.Always

/-!
# The two families do not interfere
-/

namespace Rotonda

open Prog Spec

variable {M : Type} [Meta M]

omit [Meta M] in
theorem Star.v4_lawful : (Star.v4L : Lens (Star M) (Rib M 32)).Lawful :=
  ⟨fun _ _ => rfl, fun _ => rfl, fun _ _ _ => rfl⟩

omit [Meta M] in
theorem Star.v6_lawful : (Star.v6L : Lens (Star M) (Rib M 128)).Lawful :=
  ⟨fun _ _ => rfl, fun _ => rfl, fun _ _ _ => rfl⟩

omit [Meta M] in
theorem run_v4 {α : Type} (p : Prog (Rib M 32) α) (s : Star M) :
    (p.zoom Star.v4L).run s = (p.run s.v4).mapState fun t => { s with v4 := t } :=
  run_zoom Star.v4_lawful p s

omit [Meta M] in
theorem run_v6 {α : Type} (p : Prog (Rib M 128) α) (s : Star M) :
    (p.zoom Star.v6L).run s = (p.run s.v6).mapState fun t => { s with v6 := t } :=
  run_zoom Star.v6_lawful p s

/-- The program of a call is that of the calls of the families, IPv4 first. -/
theorem starOp_prog (st : Strategy) (F : Nat) (op : StarOp M) :
    op.prog st F = (match op4 op with
      | some a => (a.prog st F).zoom Star.v4L
      | none => ret ()) >>= fun _ => match op6 op with
      | some a => (a.prog st F).zoom Star.v6L
      | none => ret () := by
  have hb4 : ∀ {α : Type} (p : Prog (Rib M 32) α), (p.zoom Star.v4L >>= fun _ => ret ()) =
      (p >>= fun _ => ret ()).zoom Star.v4L := fun p => by rw [zoom_bind]; rfl
  have hb6 : ∀ {α : Type} (p : Prog (Rib M 128) α), (p.zoom Star.v6L >>= fun _ => ret ()) =
      (p >>= fun _ => ret ()).zoom Star.v6L := fun p => by rw [zoom_bind]; rfl
  cases op with
  | insert p r tbi =>
    cases p with
    | v4 p => exact (hb4 _).trans (bind_ret' _).symm
    | v6 p => exact hb6 _
  | withdrawFor p m t =>
    cases p with
    | v4 p => exact (hb4 _).trans (bind_ret' _).symm
    | v6 p => exact hb6 _
  | activateFor p m t =>
    cases p with
    | v4 p => exact (hb4 _).trans (bind_ret' _).symm
    | v6 p => exact hb6 _
  | calcBest p tbi =>
    cases p with
    | v4 p => exact (hb4 _).trans (bind_ret' _).symm
    | v6 p => exact hb6 _
  | withdraw4 m => exact (bind_ret' _).symm
  | activate4 m => exact (bind_ret' _).symm
  | withdraw6 m => rfl
  | activate6 m => rfl
  | withdraw m => rfl

/-- Each family is in the state its own calls bring it to. -/
theorem starExec_split {st : Strategy} {F : Nat} (h : List (StarOp M)) :
    ∃ s, starExec st F h = .ok () s ∧ exec st F (hist4 h) = .ok () s.v4 ∧
      exec st F (hist6 h) = .ok () s.v6 := by
  induction h with
  | nil =>
    obtain ⟨s4, h4, -⟩ := exec_inv st F ([] : History M 32)
    obtain ⟨s6, h6, -⟩ := exec_inv st F ([] : History M 128)
    refine ⟨⟨s4, s6⟩, ?_, h4, h6⟩
    have h4' : ((ribNew F : Prog (Rib M 32) Bool) >>= fun _ => ret ()).run Rib.empty
      = .ok () s4 := h4
    have h6' : ((ribNew F : Prog (Rib M 128) Bool) >>= fun _ => ret ()).run Rib.empty
      = .ok () s6 := h6
    rw [run_bind] at h4' h6'
    show (((ribNew F : Prog (Rib M 32) Bool).zoom Star.v4L) >>= fun _ =>
      ((ribNew F : Prog (Rib M 128) Bool).zoom Star.v6L) >>= fun _ => ret ()).run Star.empty = _
    rw [run_bind, run_v4]
    show (((ribNew F).run Rib.empty).mapState _).andThen _ = _
    cases hn4 : (ribNew F : Prog (Rib M 32) Bool).run Rib.empty with
    | panic => rw [hn4] at h4'; cases h4'
    | diverge => rw [hn4] at h4'; cases h4'
    | ok a t =>
      rw [hn4] at h4'; cases h4'
      simp only [Outcome.mapState, Outcome.andThen]
      rw [run_bind, run_v6]
      show (((ribNew F).run Rib.empty).mapState _).andThen _ = _
      cases hn6 : (ribNew F : Prog (Rib M 128) Bool).run Rib.empty with
      | panic => rw [hn6] at h6'; cases h6'
      | diverge => rw [hn6] at h6'; cases h6'
      | ok a t => rw [hn6] at h6'; cases h6'; rfl
  | cons op h ih =>
    obtain ⟨s, hs, h4, h6⟩ := ih
    obtain ⟨t4, g4, -⟩ := exec_inv st F (hist4 (op :: h))
    obtain ⟨t6, g6, -⟩ := exec_inv st F (hist6 (op :: h))
    refine ⟨⟨t4, t6⟩, ?_, g4, g6⟩
    have k4 : (match op4 op with
        | some a => (a.prog st F).zoom Star.v4L
        | none => ret () : Prog (Star M) Unit).run s = .ok () { s with v4 := t4 } := by
      unfold hist4 at g4 h4
      cases ho : op4 op with
      | none =>
        rw [List.filterMap_cons_none ho, h4] at g4
        cases g4; rfl
      | some a =>
        rw [List.filterMap_cons_some ho] at g4
        unfold exec at g4
        rw [h4] at g4
        simp only [Outcome.andThen] at g4
        rw [run_v4, g4]; rfl
    have k6 : ∀ x, (match op6 op with
        | some a => (a.prog st F).zoom Star.v6L
        | none => ret () : Prog (Star M) Unit).run ⟨x, s.v6⟩ = .ok () ⟨x, t6⟩ := by
      intro x
      unfold hist6 at g6 h6
      cases ho : op6 op with
      | none =>
        rw [List.filterMap_cons_none ho, h6] at g6
        cases g6; rfl
      | some a =>
        rw [List.filterMap_cons_some ho] at g6
        unfold exec at g6
        rw [h6] at g6
        simp only [Outcome.andThen] at g6
        rw [run_v6, g6]; rfl
    show (starExec st F h).andThen _ = _
    rw [hs]
    simp only [Outcome.andThen]
    rw [starOp_prog, run_bind, k4]
    simp only [Outcome.andThen]
    exact k6 _

theorem starExec_ok {st : Strategy} {F : Nat} {h : List (StarOp M)} {s : Star M}
    (hs : starExec st F h = .ok () s) :
    exec st F (hist4 h) = .ok () s.v4 ∧ exec st F (hist6 h) = .ok () s.v6 := by
  obtain ⟨s', hs', h4, h6⟩ := starExec_split (st := st) (F := F) h
  rw [hs] at hs'; cases hs'; exact ⟨h4, h6⟩

theorem starOp_keeps6 {st : Strategy} {F : Nat} {op : StarOp M} (ho : op6 op = none) :
    (op.prog st F).Always fun s s' => s'.v6 = s.v6 := by
  rw [starOp_prog, ho]
  refine Always.bind ?_ fun _ => trivial
  cases op4 op with
  | none => trivial
  | some a => exact (always_true _).zoom fun _ _ _ => rfl

theorem starOp_keeps4 {st : Strategy} {F : Nat} {op : StarOp M} (ho : op4 op = none) :
    (op.prog st F).Always fun s s' => s'.v4 = s.v4 := by
  rw [starOp_prog, ho]
  show (match op6 op with
      | some a => (a.prog st F).zoom Star.v6L
      | none => ret () : Prog (Star M) Unit).Always _
  cases op6 op with
  | none => trivial
  | some a => exact (always_true _).zoom fun _ _ _ => rfl

theorem query4_zoom {st : Strategy} {fuel : Nat} {α : Type} {q : Prog (Star M) α}
    (hq : Query4 st fuel q) : ∃ p : Prog (Rib M 32) α, q = p.zoom Star.v4L := by
  cases hq <;> exact ⟨_, rfl⟩

theorem query6_zoom {st : Strategy} {fuel : Nat} {α : Type} {q : Prog (Star M) α}
    (hq : Query6 st fuel q) : ∃ p : Prog (Rib M 128) α, q = p.zoom Star.v6L := by
  cases hq <;> exact ⟨_, rfl⟩

theorem answer_mapState {α σ τ : Type} (f : τ → σ) (o : Outcome α τ) :
    answer (o.mapState f) = answer o := by cases o <;> rfl

theorem query4_answer {st : Strategy} {fuel : Nat} {α : Type} {q : Prog (Star M) α}
    (hq : Query4 st fuel q) {s s' : Star M} (h : s'.v4 = s.v4) :
    answer (q.run s') = answer (q.run s) := by
  obtain ⟨p, rfl⟩ := query4_zoom hq
  rw [run_v4, run_v4, answer_mapState, answer_mapState, h]

theorem query6_answer {st : Strategy} {fuel : Nat} {α : Type} {q : Prog (Star M) α}
    (hq : Query6 st fuel q) {s s' : Star M} (h : s'.v6 = s.v6) :
    answer (q.run s') = answer (q.run s) := by
  obtain ⟨p, rfl⟩ := query6_zoom hq
  rw [run_v6, run_v6, answer_mapState, answer_mapState, h]

theorem globWd_hist4 (m : Mui) (h : List (StarOp M)) : globWd (hist4 h) m = withdrawnIn4 m h := by
  induction h with
  | nil => rfl
  | cons op h ih =>
    unfold hist4 at ih ⊢
    rcases op with (⟨p | p, r, t⟩ | ⟨p | p, k, t⟩ | ⟨p | p, k, t⟩ | k | k | k | k | k | ⟨p | p, t⟩) <;>
      simp [List.filterMap_cons, op4, globWd, withdrawnIn4, ih]

theorem globWd_hist6 (m : Mui) (h : List (StarOp M)) : globWd (hist6 h) m = withdrawnIn6 m h := by
  induction h with
  | nil => rfl
  | cons op h ih =>
    unfold hist6 at ih ⊢
    rcases op with (⟨p | p, r, t⟩ | ⟨p | p, k, t⟩ | ⟨p | p, k, t⟩ | k | k | k | k | k | ⟨p | p, t⟩) <;>
      simp [List.filterMap_cons, op6, globWd, withdrawnIn6, ih]

end Rotonda
