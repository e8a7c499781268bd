import Verif.Props.ConcDemo
import Verif.Proofs.LinUse

/-!
# Concurrent changes: C39 and C40

The store is in the state `s` after any history `h` of calls; then any set of
calls runs concurrently, their atomic actions interleaved by any schedule.  The
changes take effect one after another; `Explains` says what the calls and the
queries then show.
-/

namespace Rotonda.Props

open Prog Spec

variable {M : Type} [Meta M] {W : Nat} {ι : Type} [DecidableEq ι] {calls : ι → Call M W}

section
variable [Fam W] {st : Strategy} {F0 F fuel : Nat} (hF : 32 ≤ F) (hf : iterFuel W ≤ fuel)
  {h : History M W} {s : Rib M W} (hs : exec st F0 h = .ok () s)
include hF hf hs

/-- C39: along every run the inserts and status changes take effect one after
another, each in one of its own steps and before it returns; every record and
status query, alone or concurrent, shows the changes made so far in that order. -/
theorem effects_in_order (t : List ι) :
    ∃ log, Explains st h (start st F fuel s calls) t log :=
  (run_explained hF hf hs calls t).imp fun _ h => h.1

/-- C39: once an insert for `(p, m)` has returned, the record read for `(p, m)` in
any later state is the one of this insert or of another insert for `(p, m)` that
had not returned before this one started; the status shown is the global one of
that moment. -/
theorem concurrent_upsert {t : List ι} {i : ι} {p : Prefix W} {r : Record M}
    {tbi : Option (Meta.TBI M)} {a : Except StoreError UpsertReport} (ht : Tracked st calls)
    (hm : NoMarksFor calls p r.mui)
    (hr : Returned ((start st F fuel s calls).exec t) i (.insert p r tbi) a) (u : List ι) :
    ∃ j ∈ t ++ u, ∃ r' tbi' w, calls j = .insert p r' tbi' ∧ r'.mui = r.mui ∧
      NotBefore (start st F fuel s calls) (t ++ u) j i ∧
      (ribMuiIsWithdrawn r.mui).run ((start st F fuel s calls).exec (t ++ u)).st =
        .ok w ((start st F fuel s calls).exec (t ++ u)).st ∧
      (ribGetValue st p.id (some r.mui) true).run ((start st F fuel s calls).exec (t ++ u)).st =
        .ok (.ok (some [shownAs w (asStored st r')])) ((start st F fuel s calls).exec (t ++ u)).st := by
  obtain ⟨log, hE⟩ := effects_in_order (calls := calls) hF hf hs (t ++ u)
  have hi : i ∈ log t.length := by
    refine hE.inserts t.length (by simp) i p r tbi a ?_
    simpa using hr
  have hlast : i ∈ log (t ++ u).length := (hE.order.suffix (by simp) (Nat.le_refl _)).subset hi
  obtain ⟨l1, j, l2, r', tbi', hl, hj, hmui, hst, hor⟩ := last_insert st h hr.1 hm _ hlast
  have hstat := hE.status (t ++ u).length (Nat.le_refl _) r.mui
  obtain ⟨v, hv, hans⟩ := hE.records ht (t ++ u).length (Nat.le_refl _) p (some r.mui) true
  rw [List.take_length] at hstat hv
  refine ⟨j, ?_, r', tbi', _, hj, hmui, ?_, hstat, ?_⟩
  · exact List.mem_of_mem_take (hE.order.mem (Nat.le_refl _) (i := j) (by rw [hl]; simp))
  · rcases hor with rfl | hor
    · exact not_before_self hr.1 (t ++ u)
    · exact hE.notBefore (Nat.le_refl _) hl hor (.inl ⟨p, r', tbi', hj⟩)
  · rw [hv, answers_one (by simpa [asStored_mui] using hmui) hst hans]

/-- C39: the same for a query that runs at the same time as other calls, if it
starts after the insert has returned. -/
theorem concurrent_upsert_query {t u : List ι} {i k : ι} {p : Prefix W} {r : Record M}
    {tbi : Option (Meta.TBI M)} {a : Except StoreError UpsertReport} (ht : Tracked st calls)
    (hm : NoMarksFor calls p r.mui)
    (hr : Returned ((start st F fuel s calls).exec t) i (.insert p r tbi) a) (hk : k ∉ t)
    {b : FatalResult (Option (List (Record M)))}
    (hb : Returned ((start st F fuel s calls).exec (t ++ u)) k (.getRecords p (some r.mui) true) b) :
    ∃ j ∈ t ++ u, ∃ r' tbi' w, calls j = .insert p r' tbi' ∧ r'.mui = r.mui ∧
      NotBefore (start st F fuel s calls) (t ++ u) j i ∧
      b = .ok (some [shownAs w (asStored st r')]) := by
  obtain ⟨log, hE⟩ := effects_in_order (calls := calls) hF hf hs (t ++ u)
  have hi : i ∈ log t.length := by
    refine hE.inserts t.length (by simp) i p r tbi a ?_
    simpa using hr
  obtain ⟨v, n1, n2, rfl, h1, h2, h3, hans⟩ := hE.readRecords ht (t ++ u).length (Nat.le_refl _) k p
    (some r.mui) true b (by rw [List.take_length]; exact hb) t.length (by simp) (by simpa using hk)
  have hlast : i ∈ log n2 := (hE.order.suffix (by omega) h3).subset hi
  obtain ⟨l1, j, l2, r', tbi', hl, hj, hmui, hst, hor⟩ := last_insert st h hr.1 hm _ hlast
  refine ⟨j, ?_, r', tbi', globWd (histAfter h calls (log n1)) r.mui, hj, hmui, ?_, ?_⟩
  · exact List.mem_of_mem_take (hE.order.mem h3 (i := j) (by rw [hl]; simp))
  · rcases hor with rfl | hor
    · exact not_before_self hr.1 (t ++ u)
    · exact hE.notBefore h3 hl hor (.inl ⟨p, r', tbi', hj⟩)
  · rw [answers_one (r0 := asStored st r') (by rw [asStored_mui]; exact hmui)
      (by rw [storedRec_under]; exact hst) hans, globWd_under]

/-! ## C40 -/

/-- C40: once a global status change for `m` has returned, the status of `m` is that
of this call or of another one for `m` that had not returned before this one
started.  Partial: a call may never return, see `status_change_returns_iff` and
`status_change_lost`. -/
theorem concurrent_status_partial {t : List ι} {i : ι} {m : Mui}
    (hc : calls i = .withdraw m ∨ calls i = .activate m) {a : (calls i).Ans}
    (hr : ((start st F fuel s calls).exec t).pool i = .ret a) (u : List ι) :
    ∃ j ∈ t ++ u, ∃ w, calls j = (if w then .withdraw m else .activate m) ∧
      NotBefore (start st F fuel s calls) (t ++ u) j i ∧
      (ribMuiIsWithdrawn m).run ((start st F fuel s calls).exec (t ++ u)).st =
        .ok w ((start st F fuel s calls).exec (t ++ u)).st := by
  obtain ⟨log, hE⟩ := effects_in_order (calls := calls) hF hf hs (t ++ u)
  have hi : i ∈ log t.length := by
    rcases hc with hc | hc
    · obtain ⟨a', ha'⟩ := returned_of_ret hc hr
      exact hE.withdrawn t.length (by simp) i m a' (by simpa using ha')
    · obtain ⟨a', ha'⟩ := returned_of_ret hc hr
      exact hE.activated t.length (by simp) i m a' (by simpa using ha')
  have hlast : i ∈ log (t ++ u).length := (hE.order.suffix (by simp) (Nat.le_refl _)).subset hi
  obtain ⟨l1, j, l2, w, hl, hj, hst, hor⟩ := last_status h hc _ hlast
  have hstat := hE.status (t ++ u).length (Nat.le_refl _) m
  rw [List.take_length, hst] at hstat
  have hsc : IsStatusChange (calls j) := by
    cases w
    · exact .inr ⟨m, hj⟩
    · exact .inl ⟨m, hj⟩
  refine ⟨j, ?_, w, hj, ?_, hstat⟩
  · exact List.mem_of_mem_take (hE.order.mem (Nat.le_refl _) (i := j) (by rw [hl]; simp))
  · rcases hor with rfl | hor
    · exact not_before_status hsc (t ++ u)
    · exact hE.notBefore (Nat.le_refl _) hl hor (.inr (.inl hsc))

/-- C40: a global status change returns if and only if no other one takes effect
between its first turn and its second; otherwise it never returns. -/
theorem status_change_returns_iff {i : ι} (hi : IsStatusChange (calls i)) {t1 t2 t3 : List ι}
    (h1 : i ∉ t1) (h2 : i ∉ t2) :
    ∃ log, Explains st h (start st F fuel s calls) (t1 ++ i :: (t2 ++ i :: t3)) log ∧
      i ∉ log (t1.length + 1 + t2.length) ∧
      ((∃ a, ((start st F fuel s calls).exec (t1 ++ i :: (t2 ++ i :: t3))).pool i = .ret a) ↔
        ∀ j ∈ log (t1.length + 1 + t2.length), j ∉ log t1.length → ¬ IsStatusChange (calls j)) :=
  race_iff hF hf hs hi h1 h2

/-- C40: a global status change returns, at its second turn, if no other one is
given a turn while it runs. -/
theorem status_change_alone_returns {i : ι} (hi : IsStatusChange (calls i)) {t1 t2 : List ι}
    (h1 : i ∉ t1) (h2 : ∀ j ∈ t2, ¬ IsStatusChange (calls j)) :
    ∃ a, ((start st F fuel s calls).exec (t1 ++ i :: (t2 ++ [i]))).pool i = .ret a := by
  have hnot : i ∉ t2 := fun hm => h2 i hm hi
  obtain ⟨log, hE, hno, hiff⟩ := status_change_returns_iff (t3 := []) hF hf hs hi h1 hnot
  refine hiff.2 fun j hj hj' hsc => ?_
  have hlen : (t1 ++ i :: (t2 ++ [i])).length = t1.length + 1 + t2.length + 1 := by
    simp only [List.length_append, List.length_cons, List.length_nil]; omega
  obtain ⟨k, hk1, hk2, ⟨hk3, hk4⟩, _⟩ := hE.order.entered (m := t1.length) (by omega) (by omega) hj hj'
  by_cases hk : k = t1.length
  · subst hk
    rw [List.getElem_append_right (by omega)] at hk4
    simp only [Nat.sub_self, List.getElem_cons_zero] at hk4
    exact hno (hk4 ▸ hj)
  · refine h2 j (hk4 ▸ ?_) hsc
    rw [List.getElem_append_right (by omega), List.getElem_cons, dif_neg (by omega),
      List.getElem_append_left (by omega)]
    exact List.getElem_mem _

end

/-- C40 is false: when two global status changes run at the same time the second can
win; the first is then lost, for every continuation of the run: it never returns and
its change is never made. -/
theorem status_change_lost {st : Strategy} {F0 F fuel : Nat} [Fam W] {h : History M W} {s : Rib M W}
    (hs : exec st F0 h = .ok () s) {m m' : Mui} (hne : m ≠ m') (hact : globWd h m = false)
    (u : List Bool) :
    let c := (start st F fuel s fun i : Bool => if i then Call.withdraw m else .withdraw m').exec
      ([true, false, false] ++ u)
    (∀ a, c.pool true ≠ .ret a) ∧ (ribMuiIsWithdrawn m).run c.st = .ok false c.st ∧
      (ribMuiIsWithdrawn m').run c.st = .ok true c.st := by
  intro c
  have hwd := (exec_ok_inv hs).wd
  obtain ⟨h1, h2, h3⟩ := race_lost (st := st) (F := F) (fuel := fuel) (i := true) (j := false)
    (calls := fun i : Bool => if i then Call.withdraw (M := M) (W := W) m else .withdraw m')
    (c := start st F fuel s fun i : Bool => if i then Call.withdraw m else .withdraw m') (by decide)
    (.inl ⟨m, rfl⟩) (.inl ⟨m', rfl⟩) rfl rfl
  have hover := Conf.over_exec u (P := fun x : Rib M W => s.tree.wd.ver < x.tree.wd.ver) (by
      rw [h3]; exact Nat.lt_succ_self _) (fun i => by
    cases i with
    | true => exact .inr h2
    | false => exact .inl h1)
  have hst : c.st = { s with tree := { s.tree with
      wd := ⟨s.tree.wd.ver + 1, muiInsert s.tree.wd.set m'⟩ } } := by
    change (Conf.exec _ (_ ++ u)).st = _
    rw [Conf.exec_append, hover.1, h3]
    rfl
  refine ⟨fun a ha => ?_, ?_, ?_⟩
  · have := hover.2 true h2
    change (Conf.exec _ (_ ++ u)).pool true = _ at ha
    rw [Conf.exec_append] at ha
    exact this.ne a ha
  · have : (ribMuiIsWithdrawn m).run c.st = .ok (c.st.tree.wd.set m) c.st := rfl
    rw [this, hst]
    simp [muiInsert, hwd, hact, hne]
  · have : (ribMuiIsWithdrawn m').run c.st = .ok (c.st.tree.wd.set m') c.st := rfl
    rw [this, hst]
    simp [muiInsert]

/-! ## Examples -/

section
open Demo

/-- Two inserts for the same pair, the second in the middle of the first; the first has
returned: the hypotheses of `concurrent_upsert`, here with `PersistOnly`. -/
example : ∃ s, exec .persistOnly 32 one = .ok () s ∧ ∀ u, ∃ j r' w, j ∈ turns 20 300 300 ++ u ∧
    (r' = rec1 1 5 8 ∨ r' = rec1 1 6 9) ∧
    (ribGetValue .persistOnly ten8.id (some 1#32) true).run (two .persistOnly s
      (.insert ten8 (rec1 1 5 8) none) (.insert ten8 (rec1 1 6 9) none) (turns 20 300 300 ++ u)).st =
      .ok (.ok (some [shownAs w r'])) (two .persistOnly s
        (.insert ten8 (rec1 1 5 8) none) (.insert ten8 (rec1 1 6 9) none) (turns 20 300 300 ++ u)).st := by
  obtain ⟨s, hs, hc⟩ := after_ok (o := exec .persistOnly 32 one) (chk := fun s =>
    ansIs (fun _ => true) ((two .persistOnly s (.insert ten8 (rec1 1 5 8) none)
      (.insert ten8 (rec1 1 6 9) none) (turns 20 300 300)).pool true)) (by decide +kernel)
  obtain ⟨a, ha, _⟩ := ansIs_iff.1 hc
  have hr : Returned (two .persistOnly s (.insert ten8 (rec1 1 5 8) none)
      (.insert ten8 (rec1 1 6 9) none) (turns 20 300 300)) true (.insert ten8 (rec1 1 5 8) none) a :=
    ⟨rfl, ha⟩
  refine ⟨s, hs, fun u => ?_⟩
  have hno : ∀ (i : Bool) p m t, (if i then Call.insert ten8 (rec1 1 5 8) none else
      .insert ten8 (rec1 1 6 9) none : Call Md 32) ≠ .withdrawFor p m t ∧
      (if i then Call.insert ten8 (rec1 1 5 8) none else
      .insert ten8 (rec1 1 6 9) none : Call Md 32) ≠ .activateFor p m t := by
    intro i p m t; cases i <;> exact ⟨by simp, by simp⟩
  obtain ⟨j, hj, r', tbi', w, hcall, _, _, _, hread⟩ := concurrent_upsert (F := 32) (fuel := iterFuel 32)
    (t := turns 20 300 300) (i := true) (p := ten8) (r := rec1 1 5 8) (tbi := none) (a := a) (Nat.le_refl _)
    (calls := fun i : Bool => if i then .insert ten8 (rec1 1 5 8) none else
      .insert ten8 (rec1 1 6 9) none) (Nat.le_refl _) hs (fun _ i p m t => (hno i p m t).2) (fun i t => hno i _ _ t) hr u
  refine ⟨j, r', w, hj, ?_, hread⟩
  cases j
  · injection hcall with _ h2; exact .inr h2.symm
  · injection hcall with _ h2; exact .inl h2.symm

/-- A query that starts after the insert has returned. -/
example : ∃ s, exec .memoryOnly 32 one = .ok () s ∧ ∃ b w, Returned (two .memoryOnly s
    (.insert ten8 (rec1 1 5 8) none) (.getRecords ten8 (some 1#32) true) (turns 300 0 0 ++ turns 0 50 0))
      false (.getRecords ten8 (some 1#32) true) b ∧ b = .ok (some [shownAs w (rec1 1 5 8)]) := by
  obtain ⟨s, hs, hc⟩ := after_ok (o := exec .memoryOnly 32 one) (chk := fun s =>
    ansIs (fun _ => true) ((two .memoryOnly s (.insert ten8 (rec1 1 5 8) none)
      (.getRecords ten8 (some 1#32) true) (turns 300 0 0)).pool true) &&
    ansIs (fun _ => true) ((two .memoryOnly s (.insert ten8 (rec1 1 5 8) none)
      (.getRecords ten8 (some 1#32) true) (turns 300 0 0 ++ turns 0 50 0)).pool false)) (by decide +kernel)
  rw [Bool.and_eq_true] at hc
  obtain ⟨a, ha, _⟩ := ansIs_iff.1 hc.1
  obtain ⟨b, hb, _⟩ := ansIs_iff.1 hc.2
  have hr : Returned (two .memoryOnly s (.insert ten8 (rec1 1 5 8) none)
      (.getRecords ten8 (some 1#32) true) (turns 300 0 0)) true (.insert ten8 (rec1 1 5 8) none) a :=
    ⟨rfl, ha⟩
  have hq : Returned (two .memoryOnly s (.insert ten8 (rec1 1 5 8) none)
      (.getRecords ten8 (some 1#32) true) (turns 300 0 0 ++ turns 0 50 0)) false
      (.getRecords ten8 (some 1#32) true) b := ⟨rfl, hb⟩
  obtain ⟨j, hj, r', tbi', w, hcall, _, _, hread⟩ := concurrent_upsert_query (F := 32) (fuel := iterFuel 32)
    (t := turns 300 0 0) (u := turns 0 50 0) (i := true) (k := false) (p := ten8) (r := rec1 1 5 8)
    (tbi := none) (a := a) (b := b) (calls := fun i : Bool => if i then .insert ten8 (rec1 1 5 8) none else
      .getRecords ten8 (some 1#32) true) (Nat.le_refl _) (Nat.le_refl _) hs (fun h => by cases h)
    (fun i t => by cases i <;> exact ⟨by simp, by simp⟩) hr (false_notMem_turns 300 0) hq
  refine ⟨s, hs, b, w, hq, ?_⟩
  have hr' : rec1 1 5 8 = r' := by
    clear hq hb
    cases j
    · simp at hcall
    · injection hcall
  rw [hread, ← hr']
  rfl

/-- Two status changes one after the other, the hypotheses of `concurrent_status_partial`. -/
example : ∃ s, exec .memoryOnly 32 hist = .ok () s ∧ ∃ a, ((start .memoryOnly 32 (iterFuel 32) s
    (fun i : Bool => if i then Call.withdraw 1#32 else .activate 1#32)).exec
      [true, true, false, false]).pool false = .ret a := by
  obtain ⟨s, hs, _⟩ := exec_inv .memoryOnly 32 hist
  exact ⟨s, hs, status_change_alone_returns (F := 32) (Nat.le_refl _) (Nat.le_refl _) hs
    (calls := fun i : Bool => if i then Call.withdraw 1#32 else .activate 1#32)
    (.inr ⟨1#32, rfl⟩) (t1 := [true, true]) (t2 := []) (by simp) (by simp)⟩

/-- The store of the counterexample. -/
example : ∃ s, exec .memoryOnly 32 hist = .ok () s ∧ globWd hist 1#32 = false := by
  obtain ⟨s, hs, _⟩ := exec_inv .memoryOnly 32 hist
  exact ⟨s, hs, by decide⟩

end

end Rotonda.Props
