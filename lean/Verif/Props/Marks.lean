import Verif.Props.Linear

/-!
# Concurrent inserts and status changes of the same route: C53

As in `Verif.Props.Linear`: a store after any history, any set of concurrent calls, any
schedule.
-/

namespace Rotonda.Props

open Prog Spec

variable {M : Type} [Meta M] {W : Nat} {ι : Type} [DecidableEq ι] {calls : ι → Call M W}

section
variable [Fam W] {st : Strategy} {F0 F fuel : Nat} (hF : 32 ≤ F) (hf : iterFuel W ≤ fuel)
  {h : History M W} {s : Rib M W} (hs : exec st F0 h = .ok () s)
include hF hf hs

/-- C53: once an insert `i` for `(p, m)` has returned, the record read for `(p, m)` in any
later state is the one of an insert `j` for `(p, m)` that had not returned before `i`
started, or that record with the status and the time of a status change `k` of `(p, m)`
that had not returned before `j` started.  Partial: with `PersistOnly` only if no route is
marked active, see `activation_undoes_insert`. -/
theorem concurrent_upsert_marked_partial {t : List ι} {i : ι} {p : Prefix W} {r : Record M}
    {tbi : Option (Meta.TBI M)} {a : Except StoreError UpsertReport} (ht : Tracked st calls)
    (hr : Returned ((start st F fuel s calls).exec t) i (.insert p r tbi) a) (u : List ι) :
    ∃ j ∈ t ++ u, ∃ r' tbi' w, calls j = .insert p r' tbi' ∧ r'.mui = r.mui ∧
      NotBefore (start st F fuel s calls) (t ++ u) j i ∧
      (ribMuiIsWithdrawn r.mui).run ((start st F fuel s calls).exec (t ++ u)).st =
        .ok w ((start st F fuel s calls).exec (t ++ u)).st ∧
      ∃ r0, (ribGetValue st p.id (some r.mui) true).run ((start st F fuel s calls).exec (t ++ u)).st =
          .ok (.ok (some [shownAs w r0])) ((start st F fuel s calls).exec (t ++ u)).st ∧
        (r0 = asStored st r' ∨ ∃ k ∈ t ++ u, ∃ tm rs, MarksRoute (calls k) p r.mui tm rs ∧
          NotBefore (start st F fuel s calls) (t ++ u) k j ∧ r0 = marked st tm rs (asStored st r')) := by
  obtain ⟨log, hE⟩ := effects_in_order (calls := calls) hF hf hs (t ++ u)
  have hi : i ∈ log t.length := by
    refine hE.inserts t.length (by simp) i p r tbi a ?_
    simpa using hr
  have hlast : i ∈ log (t ++ u).length := (hE.order.suffix (by simp) (Nat.le_refl _)).subset hi
  obtain ⟨l1, j, l2, r', tbi', hl, hj, hmui, hor, hst⟩ := last_insert_marked ht h hr.1 _ hlast
  have hstat := hE.status (t ++ u).length (Nat.le_refl _) r.mui
  obtain ⟨v, hv, hans⟩ := hE.records ht (t ++ u).length (Nat.le_refl _) p (some r.mui) true
  rw [List.take_length] at hstat hv
  refine ⟨j, ?_, r', tbi', _, hj, hmui, ?_, hstat, ?_⟩
  · exact List.mem_of_mem_take (hE.order.mem (Nat.le_refl _) (i := j) (by rw [hl]; simp))
  · rcases hor with rfl | hor
    · exact not_before_self hr.1 (t ++ u)
    · exact hE.notBefore (Nat.le_refl _) hl hor (.inl ⟨p, r', tbi', hj⟩)
  · rcases hst with hst | ⟨l3, k, l4, tm, rs, hl', hj4, hk, hst⟩
    · refine ⟨_, ?_, .inl rfl⟩
      rw [hv, answers_one (by simpa [asStored_mui] using hmui) hst hans]
    · refine ⟨_, ?_, .inr ⟨k, ?_, tm, rs, hk, ?_, rfl⟩⟩
      · rw [hv, answers_one (by simpa [asStored_mui, marked_mui] using hmui) hst hans]
      · exact List.mem_of_mem_take (hE.order.mem (Nat.le_refl _) (i := k) (by rw [hl']; simp))
      · exact hE.notBefore (Nat.le_refl _) hl' hj4 (.inr (.inr ⟨ht, p, r.mui, tm, rs, hk⟩))

/-- C53: once a status change `i` of `(p, m)` has returned `Ok`, and a record for `(p, m)`
was inserted at any time, the record read for `(p, m)` in any later state is the one of an
insert that had not returned before `i` started, or it has the status and the time of `i`
or of another status change of `(p, m)` that had not returned before `i` started.  Partial
as `concurrent_upsert_marked_partial`. -/
theorem concurrent_mark_partial {t : List ι} {i : ι} {p : Prefix W} {m : Mui} {tm : LTime}
    (ht : Tracked st calls)
    (hr : Returned ((start st F fuel s calls).exec t) i (.withdrawFor p m tm) (.ok ()) ∨
      Returned ((start st F fuel s calls).exec t) i (.activateFor p m tm) (.ok ()))
    (u : List ι) (hins : Completed h ((start st F fuel s calls).exec (t ++ u)) p m) :
    ∃ j ∈ t ++ u, ∃ r0 w, NotBefore (start st F fuel s calls) (t ++ u) j i ∧
      (ribMuiIsWithdrawn m).run ((start st F fuel s calls).exec (t ++ u)).st =
        .ok w ((start st F fuel s calls).exec (t ++ u)).st ∧
      (ribGetValue st p.id (some m) true).run ((start st F fuel s calls).exec (t ++ u)).st =
        .ok (.ok (some [shownAs w r0])) ((start st F fuel s calls).exec (t ++ u)).st ∧
      r0.mui = m ∧
      ((∃ r' tbi', calls j = .insert p r' tbi' ∧ r'.mui = m ∧ r0 = asStored st r') ∨
        ∃ tm' rs', MarksRoute (calls j) p m tm' rs' ∧ r0.ltime = tm' ∧ r0.status = rs') := by
  obtain ⟨log, hE⟩ := effects_in_order (calls := calls) hF hf hs (t ++ u)
  obtain ⟨rs, hmk, hi⟩ : ∃ rs, MarksRoute (calls i) p m tm rs ∧ i ∈ log t.length := by
    rcases hr with hr | hr
    · refine ⟨.withdrawn, .inl ⟨hr.1, rfl⟩, ?_⟩
      exact (hE.withdrawnFor ht t.length (by simp) i p m tm _ (by simpa using hr)).2 rfl
    · refine ⟨.active, .inr ⟨hr.1, rfl⟩, ?_⟩
      exact (hE.activatedFor ht t.length (by simp) i p m tm _ (by simpa using hr)).2 rfl
  have hlast : i ∈ log (t ++ u).length := (hE.order.suffix (by simp) (Nat.le_refl _)).subset hi
  obtain ⟨r0, h0⟩ : ∃ r0, storedRec st (histAfter h calls (log (t ++ u).length)) p m = some r0 := by
    refine storedRec_kept ht h _ (hins.imp_right ?_)
    rintro ⟨k, r, tbi, a, hk, hm⟩
    exact ⟨k, hE.inserts _ (Nat.le_refl _) k p r tbi a (by rw [List.take_length]; exact hk), r, tbi, hk.1, hm⟩
  obtain ⟨l1, j, l2, hl, hor, hst⟩ := last_mark ht h hmk _ hlast h0
  have hstat := hE.status (t ++ u).length (Nat.le_refl _) m
  obtain ⟨v, hv, hans⟩ := hE.records ht (t ++ u).length (Nat.le_refl _) p (some m) true
  rw [List.take_length] at hstat hv
  have hm0 : r0.mui = m := storedRec_mui h0
  refine ⟨j, ?_, r0, _, ?_, hstat, ?_, hm0, hst⟩
  · exact List.mem_of_mem_take (hE.order.mem (Nat.le_refl _) (i := j) (by rw [hl]; simp))
  · rcases hor with rfl | hor
    · exact not_before_mark hmk (t ++ u)
    · refine hE.notBefore (Nat.le_refl _) hl hor ?_
      rcases hst with ⟨r', tbi', hj, _⟩ | ⟨tm', rs', hj, _⟩
      · exact .inl ⟨p, r', tbi', hj⟩
      · exact .inr (.inr ⟨ht, p, m, tm', rs', hj⟩)
  · rw [hv, answers_one hm0 h0 hans]

end

section
open Rotonda.Demo

/-- One route, marked withdrawn. -/
def withdrawnRoute : History Md 32 := [.withdrawFor ten8 1#32 2#64, .insert ten8 (rec1 1 1 7) none]

/-- C53 is false of `PersistOnly` when a route is marked active: the call reads the record
and rewrites its header in two steps; an insert that runs and returns in between is undone,
its metadata is gone.  Neither order of the two calls gives this record. -/
theorem activation_undoes_insert :
    ∃ s, exec .persistOnly 32 withdrawnRoute = .ok () s ∧ ∃ t rep,
      Returned (two .persistOnly s (.activateFor ten8 1#32 9#64) (.insert ten8 (rec1 1 5 8) none) t)
        true (.activateFor ten8 1#32 9#64) (.ok ()) ∧
      Returned (two .persistOnly s (.activateFor ten8 1#32 9#64) (.insert ten8 (rec1 1 5 8) none) t)
        false (.insert ten8 (rec1 1 5 8) none) (.ok rep) ∧
      (∃ s', (ribGetValue .persistOnly ten8.id (some 1#32) true).run (two .persistOnly s
        (.activateFor ten8 1#32 9#64) (.insert ten8 (rec1 1 5 8) none) t).st =
        .ok (.ok (some [⟨1#32, 9#64, .active, ⟨[]⟩⟩])) s') ∧
      storedRec .persistOnly (.insert ten8 (rec1 1 5 8) none :: .activateFor ten8 1#32 9#64 :: withdrawnRoute)
        ten8 1#32 = some (rec1 1 5 8) ∧
      storedRec .persistOnly (.activateFor ten8 1#32 9#64 :: .insert ten8 (rec1 1 5 8) none :: withdrawnRoute)
        ten8 1#32 = some (rec1 1 5 8) := by
  obtain ⟨s, hs, hc⟩ := after_ok (o := exec .persistOnly 32 withdrawnRoute) (chk := fun s =>
    let c := two .persistOnly s (.activateFor ten8 1#32 9#64) (.insert ten8 (rec1 1 5 8) none) (turns 1 300 20)
    ansIs (fun a : Except StoreError Unit => match a with | .ok _ => true | _ => false) (c.pool true) &&
    (ansIs (fun a : Except StoreError UpsertReport => match a with | .ok _ => true | _ => false) (c.pool false) &&
    match (ribGetValue .persistOnly ten8.id (some 1#32) true).run c.st with
    | .ok (.ok (some [r])) _ => r.mui == 1#32 && r.ltime == 9#64 && decide (r.status = .active) &&
        decide (r.md = ⟨[]⟩)
    | _ => false)) (by decide +kernel)
  simp only [Bool.and_eq_true] at hc
  obtain ⟨h1, h2, h3⟩ := hc
  obtain ⟨a, ha, h1⟩ := ansIs_iff.1 h1
  obtain ⟨b, hb, h2⟩ := ansIs_iff.1 h2
  refine ⟨s, hs, turns 1 300 20, ?_⟩
  generalize two .persistOnly s (.activateFor ten8 1#32 9#64) (.insert ten8 (rec1 1 5 8) none)
    (turns 1 300 20) = d at *
  cases a with
  | error => cases h1
  | ok a =>
    cases b with
    | error => cases h2
    | ok b =>
      refine ⟨b, ⟨rfl, ha⟩, ⟨rfl, hb⟩, ?_, by decide +kernel, by decide +kernel⟩
      split at h3
      · rename_i r s' he
        simp only [Bool.and_eq_true, beq_iff_eq, decide_eq_true_eq] at h3
        obtain ⟨⟨⟨e1, e2⟩, e3⟩, e4⟩ := h3
        refine ⟨s', he.trans ?_⟩
        obtain ⟨m, l, st, md⟩ := r
        simp only at e1 e2 e3 e4
        rw [e1, e2, e3, e4]
      · cases h3

/-- A withdrawal in the middle of an insert of the same route. -/
example : ∃ s, exec .persistOnly 32 one = .ok () s ∧ ∃ a, Returned (two .persistOnly s
    (.insert ten8 (rec1 1 5 8) none) (.withdrawFor ten8 1#32 9#64) (turns 20 30 300)) true
      (.insert ten8 (rec1 1 5 8) none) a ∧
    Returned (two .persistOnly s
    (.insert ten8 (rec1 1 5 8) none) (.withdrawFor ten8 1#32 9#64) (turns 20 30 300)) false
      (.withdrawFor ten8 1#32 9#64) (.ok ()) ∧
    Tracked .persistOnly (fun i : Bool => if i then Call.insert ten8 (rec1 1 5 8) none else
      .withdrawFor ten8 1#32 9#64) ∧ Inserted one ten8 1#32 := by
  obtain ⟨s, hs, hc⟩ := after_ok (o := exec .persistOnly 32 one) (chk := fun s =>
    let c := two .persistOnly s (.insert ten8 (rec1 1 5 8) none) (.withdrawFor ten8 1#32 9#64)
      (turns 20 30 300)
    ansIs (fun _ => true) (c.pool true) &&
    ansIs (fun a : Except StoreError Unit => match a with | .ok _ => true | _ => false) (c.pool false))
    (by decide +kernel)
  simp only [Bool.and_eq_true] at hc
  obtain ⟨a, ha, _⟩ := ansIs_iff.1 hc.1
  obtain ⟨b, hb, h2⟩ := ansIs_iff.1 hc.2
  refine ⟨s, hs, a, ⟨rfl, ha⟩, ?_, ?_, ⟨rec1 1 1 7, none, List.mem_singleton.2 rfl, rfl⟩⟩
  · cases b with
    | error => cases h2
    | ok b => exact ⟨rfl, hb⟩
  · intro _ i p m t; cases i <;> simp

end

end Rotonda.Props
