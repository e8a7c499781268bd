import Verif.Props.Linear
import Verif.Props.Persist
import Verif.Proofs.LinPersist

/-!
# What concurrent calls persist: C54, C55

As in `Verif.Props.Linear`: a store after any history, any set of concurrent calls, any
schedule.
-/

namespace Rotonda.Props

open Prog Spec

variable {M : Type} [Meta M] {W : Nat} {ι : Type} [DecidableEq ι] {calls : ι → Call M W}

section
variable [Fam W] {F0 F fuel : Nat} (hF : 32 ≤ F) (hf : iterFuel W ≤ fuel)
  {h : History M W} {s : Rib M W}
include hF hf

theorem persisted_stays {st : Strategy} (hs : exec st F0 h = .ok () s) (t u : List ι) {k : Tag W}
    (hk : Persisted ((start st F fuel s calls).exec t).st.lsm k) :
    Persisted ((start st F fuel s calls).exec (t ++ u)).st.lsm k :=
  persisted_grow (run_grow hF hf hs t u).1 hk

/-! ## C54 -/

section
variable (hs : exec .writeAhead F0 h = .ok () s)
include hs

/-- C54: with `WriteAhead` every insert is persisted before it takes effect. -/
theorem write_ahead_in_order (t : List ι) : ∃ log,
    Explains .writeAhead h (start .writeAhead F fuel s calls) t log ∧
    WritesAhead (start .writeAhead F fuel s calls) t log := by
  obtain ⟨log, hE, _, hw, _⟩ := run_explained hF hf hs calls t
  exact ⟨log, hE, hw rfl⟩

omit hF hf in
/-- C54: only records of inserts are persisted, of those made before and of those given a
turn. -/
theorem write_ahead_only_begun {t : List ι} {key b : Bytes}
    (hm : (key, b) ∈ ((start .writeAhead F fuel s calls).exec t).st.lsm) :
    ∃ p r, InsertedBy h calls t p r ∧ key = (tagOf p r).key ∧ b = Meta.toBytes r.md := by
  have := Conf.exec_always (G := fun i => LsmStep (calls i)) (I := fun s : Rib M W => ∀ e ∈ s.lsm,
      ∃ p r, InsertedBy h calls t p r ∧ e.1 = (tagOf p r).key ∧ e.2 = Meta.toBytes r.md) t
    (start .writeAhead F fuel s calls) (fun i hi s s' h0 hg e he => ?_)
    (fun i _ => lsmStep_call _ _ _) (fun e he => ?_) _ hm
  · exact this
  · rcases hg e he with he | ⟨p, r, tbi, hc, rfl⟩
    · exact h0 e he
    · exact ⟨p, r, ⟨tbi, .inr ⟨i, hi, hc⟩⟩, rfl, rfl⟩
  · obtain ⟨p, r, tbi, h1, h2, h3⟩ := write_ahead_only_inserts hs (key := e.1) (value := e.2) he
    exact ⟨p, r, ⟨tbi, .inl h1⟩, h2, h3⟩

/-- C54: what an insert that has returned wrote stays persisted; it can only be overwritten
by an insert with the same prefix, id, time and status. -/
theorem write_ahead_returned {t : List ι} {i : ι} {p : Prefix W} {r : Record M}
    {tbi : Option (Meta.TBI M)} {a : Except StoreError UpsertReport}
    (hr : Returned ((start .writeAhead F fuel s calls).exec t) i (.insert p r tbi) a) (u : List ι) :
    ∃ b, ((tagOf p r).key, b) ∈ ((start .writeAhead F fuel s calls).exec (t ++ u)).st.lsm ∧
      ∃ r', InsertedBy h calls (t ++ u) p r' ∧ tagOf p r' = tagOf p r ∧ b = Meta.toBytes r'.md := by
  obtain ⟨log, hE, hw⟩ := write_ahead_in_order (calls := calls) hF hf hs t
  have hi := hE.inserts t.length (Nat.le_refl _) i p r tbi a (by rw [List.take_length]; exact hr)
  have hk := hw t.length (Nat.le_refl _) i hi p r tbi hr.1
  rw [List.take_length] at hk
  obtain ⟨b, hb⟩ := persisted_stays hF hf hs t u hk
  refine ⟨b, hb, ?_⟩
  obtain ⟨p', r', h1, h2, h3⟩ := write_ahead_only_begun hs hb
  have h4 := Tag.key_inj h2
  obtain rfl : p = p' := congrArg Tag.pfx h4
  exact ⟨r', h1, h4.symm, h3⟩

theorem write_ahead_known {t : List ι} {log : ℕ → List ι}
    (hE : Explains .writeAhead h (start .writeAhead F fuel s calls) t log)
    (hw : WritesAhead (start .writeAhead F fuel s calls) t log) {H : History M W} {n : ℕ}
    (hn : n ≤ t.length) {mui : Option Mui} {iw : Bool} {p : Prefix W} {r : Record M}
    (hH : ∀ p m, storedRec .writeAhead H p m =
      storedRec .writeAhead (histAfter h calls (log n)) p m)
    (hr : Shown .writeAhead H mui iw p r) : ∃ r', InsertedBy h calls t p r' ∧ r'.mui = r.mui ∧
      r'.md = r.md ∧ Persisted ((start .writeAhead F fuel s calls).exec t).st.lsm (tagOf p r') := by
  obtain ⟨r0, h0, _, h2⟩ := hr
  have hmd : r0.md = r.md := by
    cases iw with
    | true =>
      simp only at h2
      rw [h2, effective]
      split <;> rfl
    | false => rw [h2.1]
  rw [hH] at h0
  obtain ⟨r', tbi, h3, h4, h5, _⟩ := recOf_origin (H := histAfter h calls (log n)) h0
  rcases insert_mem_histAfter h3 with h6 | ⟨j, hj, h6⟩
  · refine ⟨r', ⟨tbi, .inl h6⟩, h4, h5.trans hmd, ?_⟩
    obtain ⟨b, hb⟩ := persisted_inserted h6
    exact persisted_stays (calls := calls) hF hf hs [] t
      ⟨b, (write_ahead hs _ _).2 ⟨_, hb, rfl⟩⟩
  · refine ⟨r', ⟨tbi, .inr ⟨j, List.mem_of_mem_take (hE.order.mem hn hj), h6⟩⟩, h4, h5.trans hmd, ?_⟩
    have := persisted_stays (calls := calls) hF hf hs _ (t.drop n) (hw n hn j hj p r' tbi h6)
    rwa [List.take_append_drop] at this

/-- C54: every record that a query shows in some state of a run is already persisted, with
the time and status with which it was inserted. -/
theorem write_ahead_shown {t : List ι} {p : Prefix W} {mui : Option Mui} {iw : Bool}
    {v : Option (List (Record M))} {s' : Rib M W}
    (hq : (ribGetValue .writeAhead p.id mui iw).run ((start .writeAhead F fuel s calls).exec t).st =
      .ok (.ok v) s') {r : Record M} (hr : r ∈ v.getD []) :
    ∃ r', InsertedBy h calls t p r' ∧ r'.mui = r.mui ∧ r'.md = r.md ∧
      Persisted ((start .writeAhead F fuel s calls).exec t).st.lsm (tagOf p r') := by
  obtain ⟨log, hE, hw⟩ := write_ahead_in_order (calls := calls) hF hf hs t
  obtain ⟨v', hv, ha⟩ := hE.records (fun c => by cases c) t.length (Nat.le_refl _) p mui iw
  rw [List.take_length, hq] at hv
  cases hv
  exact write_ahead_known hF hf hs hE hw (Nat.le_refl _) (fun _ _ => rfl) ((ha.1.2 r).1 hr)

/-- C54: the same for a query that runs at the same time as other calls: when it returns,
every record in its answer is persisted. -/
theorem write_ahead_read {t : List ι} {i : ι} {p : Prefix W} {mui : Option Mui} {iw : Bool}
    {v : Option (List (Record M))}
    (hq : Returned ((start .writeAhead F fuel s calls).exec t) i (.getRecords p mui iw) (.ok v))
    {r : Record M} (hr : r ∈ v.getD []) :
    ∃ r', InsertedBy h calls t p r' ∧ r'.mui = r.mui ∧ r'.md = r.md ∧
      Persisted ((start .writeAhead F fuel s calls).exec t).st.lsm (tagOf p r') := by
  obtain ⟨log, hE, hw⟩ := write_ahead_in_order (calls := calls) hF hf hs t
  obtain ⟨v', n1, n2, hv, _, _, hn, ha⟩ := hE.readRecords (fun c => by cases c) t.length (Nat.le_refl _)
    i p mui iw (.ok v) (by rw [List.take_length]; exact hq) 0 (by omega) (by simp)
  cases hv
  exact write_ahead_known hF hf hs hE hw hn (fun _ _ => storedRec_under _ _ _ _ _) ((ha.1.2 r).1 hr)

end

/-! ## C55 -/

section
variable (hs : exec .persistHistory F0 h = .ok () s)
include hs

/-- C55: with `PersistHistory` an insert that has returned `Ok` has persisted the record it
replaced, a status change that has returned `Ok` a marker, and nothing else is persisted. -/
theorem persist_history_in_order (t : List ι) : ∃ log,
    Explains .persistHistory h (start .persistHistory F fuel s calls) t log ∧
    KeepsHistory h (start .persistHistory F fuel s calls) t log := by
  obtain ⟨log, hE, _, _, hw, _⟩ := run_explained hF hf hs calls t
  exact ⟨log, hE, hw rfl⟩

/-- C55: whatever is persisted was persisted before the calls started, is an inserted record
(possibly with the status and time of a status change) with its metadata, of a route for
which one of the calls is an insert, or is the marker of a status change. -/
theorem persist_history_only_replaced {t : List ι} {key b : Bytes}
    (hm : (key, b) ∈ ((start .persistHistory F fuel s calls).exec t).st.lsm) :
    (key, b) ∈ s.lsm ∨
    (∃ i ∈ t, ∃ p r' tbi, calls i = .insert p r' tbi ∧ ∃ r, InsertedBy h calls t p r ∧
      r.mui = r'.mui ∧ b = Meta.toBytes r.md ∧ (key = (tagOf p r).key ∨
        ∃ tm rs, MarkedBy h calls t p r.mui tm rs ∧ key = (⟨p, r.mui, tm, rs⟩ : Tag W).key)) ∨
    ∃ i ∈ t, ∃ p m tm rs, MarksRoute (calls i) p m tm rs ∧
      key = (⟨p, m, tm, .withdrawn⟩ : Tag W).key ∧ b = [] := by
  obtain ⟨log, hE, hK⟩ := persist_history_in_order (calls := calls) hF hf hs t
  have hl : ∀ i ∈ log t.length, i ∈ t := fun i hi =>
    List.mem_of_mem_take (hE.order.mem (Nat.le_refl _) hi)
  rcases hK.only t.length (Nat.le_refl _) key b (by rw [List.take_length]; exact hm) with
    h1 | ⟨k, rfl, ⟨i, l', p, r', tbi, old, h1, h2, h3, rfl, h4⟩ | ⟨i, h1, p, m, tm, rs, h2, _, rfl, h3⟩⟩
  · exact .inl h1
  · refine .inr (.inl ⟨i, hl i (h1.subset List.mem_cons_self), p, r', tbi, h2, ?_⟩)
    obtain ⟨r, h5, h6, h7, h8⟩ := recOf_origin_run (t := t)
      (fun j hj => hl j (h1.subset (List.mem_cons_of_mem _ hj))) h3
    refine ⟨r, h5, h6, by rw [h7, h4], ?_⟩
    rcases h8 with rfl | ⟨tm, rs, h8, rfl⟩
    · exact .inl rfl
    · exact .inr ⟨tm, rs, by rw [h6]; exact h8, rfl⟩
  · exact .inr (.inr ⟨i, hl i h1, p, m, tm, rs, h2, rfl, h3⟩)

/-- C55: no record is lost: when the inserts for `(p, m)` have returned `Ok`, each of their
records, and the one stored before, is the one shown or something is persisted under its
tag, in both cases possibly with the status and time of a status change of `(p, m)`.
Partial: an insert that fails can lose the record it replaced, see
`persist_history_loses_record`, and the metadata persisted can be overwritten with the
empty metadata of a marker, see `persist_history_marker_overwrites`. -/
theorem persist_history_kept_partial {t : List ι} {p : Prefix W} {r : Record M}
    (hok : ∀ j ∈ t, ∀ r' tbi', calls j = .insert p r' tbi' → r'.mui = r.mui →
      ∃ rep, Returned ((start .persistHistory F fuel s calls).exec t) j (.insert p r' tbi') (.ok rep))
    (hr : recOf h p r.mui = some r ∨ ∃ i ∈ t, ∃ tbi, calls i = .insert p r tbi) :
    ∃ r0, (r0 = r ∨ ∃ k ∈ t, ∃ tm rs, MarksRoute (calls k) p r.mui tm rs ∧
        r0 = { r with ltime := tm, status := rs }) ∧
      ((∃ w, (ribMuiIsWithdrawn r.mui).run ((start .persistHistory F fuel s calls).exec t).st =
          .ok w ((start .persistHistory F fuel s calls).exec t).st ∧
        (ribGetValue .persistHistory p.id (some r.mui) true).run
            ((start .persistHistory F fuel s calls).exec t).st =
          .ok (.ok (some [shownAs w r0])) ((start .persistHistory F fuel s calls).exec t).st) ∨
      Persisted ((start .persistHistory F fuel s calls).exec t).st.lsm (tagOf p r0)) := by
  obtain ⟨log, hE, hK⟩ := persist_history_in_order (calls := calls) hF hf hs t
  have hl : ∀ i ∈ log t.length, i ∈ t := fun i hi =>
    List.mem_of_mem_take (hE.order.mem (Nat.le_refl _) hi)
  obtain ⟨l, l0, hll, h0⟩ : ∃ l l0, log t.length = l ++ l0 ∧
      recOf (histAfter h calls l0) p r.mui = some r := by
    rcases hr with hr | ⟨i, hi, tbi, hc⟩
    · exact ⟨log t.length, [], (List.append_nil _).symm, hr⟩
    · obtain ⟨rep, hret⟩ := hok i hi r tbi hc rfl
      have hin := hE.inserts t.length (Nat.le_refl _) i p r tbi _ (by rw [List.take_length]; exact hret)
      obtain ⟨l1, l2, hl2⟩ := List.append_of_mem hin
      refine ⟨l1, i :: l2, hl2, ?_⟩
      simp [histAfter, hc, changeOf, recOf]
  have hmark : ∀ {l2 : List ι} {r0 : Record M}, (∀ k ∈ l2, k ∈ t) →
      (r0 = r ∨ ∃ k ∈ l2, ∃ tm rs, MarksRoute (calls k) p r.mui tm rs ∧
        r0 = { r with ltime := tm, status := rs }) →
      (r0 = r ∨ ∃ k ∈ t, ∃ tm rs, MarksRoute (calls k) p r.mui tm rs ∧
        r0 = { r with ltime := tm, status := rs }) :=
    fun h1 h2 => h2.imp_right fun ⟨k, hk, h3⟩ => ⟨k, h1 k hk, h3⟩
  rcases recOf_until_insert h0 l with ⟨r0, h1, h2⟩ | ⟨l1, j, l2, r', tbi', r0, rfl, hj, hm, h1, h2⟩
  · refine ⟨r0, hmark (fun k hk => hl k (by rw [hll]; exact List.mem_append_left _ hk)) h2,
      .inl ⟨globWd (histAfter h calls (log t.length)) r.mui, ?_, ?_⟩⟩
    · have := hE.status t.length (Nat.le_refl _) r.mui
      rwa [List.take_length] at this
    · obtain ⟨v, hv, ha⟩ := hE.records (fun c => by cases c) t.length (Nat.le_refl _) p (some r.mui) true
      rw [List.take_length] at hv
      rw [hv, answers_one (r0 := r0) ?_ ?_ ha]
      · rcases h2 with rfl | ⟨_, _, _, _, _, rfl⟩ <;> rfl
      · rw [hll]; exact h1
  · refine ⟨r0, hmark (fun k hk => hl k (by rw [hll]; simp [hk])) h2, .inr ?_⟩
    obtain ⟨rep, hret⟩ := hok j (hl j (by rw [hll]; simp)) r' tbi' hj hm
    obtain ⟨l3, l4, h3, h4⟩ := hK.replaced t.length (Nat.le_refl _) j p r' tbi' rep
      (by rw [List.take_length]; exact hret)
    have hnd := hE.order.nodup (Nat.le_refl t.length)
    have h5 : l4 = l2 ++ l0 := by
      have h6 : l3 ++ j :: l4 = l1 ++ j :: (l2 ++ l0) := by
        rw [← h3, hll]; simp
      have h7 : j ∉ l1 ∧ j ∉ l2 ++ l0 := by
        rw [h3, h6] at hnd
        exact ⟨fun c => (List.nodup_append.1 hnd).2.2 j c j List.mem_cons_self rfl,
          (List.nodup_cons.1 (List.nodup_append.1 hnd).2.1).1⟩
      exact ((List.append_cons_inj_of_notMem h7.1 h7.2).1 h6.symm).2.2.symm
    rw [List.take_length, h5, hm] at h4
    exact h4 r0 h1

/-- C55: the whole history of a route whose status is not changed by itself can be read
back: of all records inserted for `(p, m)` one is shown, and the others are persisted with
their metadata, provided that different records have different times or statuses.  Partial
as `persist_history_kept_partial`. -/
theorem persist_history_lossless_partial {t : List ι} {p : Prefix W} {r : Record M}
    (hok : ∀ j ∈ t, ∀ r' tbi', calls j = .insert p r' tbi' → r'.mui = r.mui →
      ∃ rep, Returned ((start .persistHistory F fuel s calls).exec t) j (.insert p r' tbi') (.ok rep))
    (hn : ∀ tm rs, ¬ MarkedBy h calls t p r.mui tm rs)
    (hu : ∀ r', InsertedBy h calls t p r' → tagOf p r' = tagOf p r → r'.md = r.md)
    (hr : InsertedBy h calls t p r) :
    (∃ w, (ribMuiIsWithdrawn r.mui).run ((start .persistHistory F fuel s calls).exec t).st =
        .ok w ((start .persistHistory F fuel s calls).exec t).st ∧
      (ribGetValue .persistHistory p.id (some r.mui) true).run
          ((start .persistHistory F fuel s calls).exec t).st =
        .ok (.ok (some [shownAs w r])) ((start .persistHistory F fuel s calls).exec t).st) ∨
    ((tagOf p r).key, Meta.toBytes r.md) ∈ ((start .persistHistory F fuel s calls).exec t).st.lsm := by
  have hn' : ∀ tm, Op.withdrawFor p r.mui tm ∉ h ∧ Op.activateFor p r.mui tm ∉ h :=
    fun tm => ⟨fun c => hn tm _ (.inl ⟨c, rfl⟩), fun c => hn tm _ (.inr (.inl ⟨c, rfl⟩))⟩
  have hval : Persisted ((start .persistHistory F fuel s calls).exec t).st.lsm (tagOf p r) →
      ((tagOf p r).key, Meta.toBytes r.md) ∈ ((start .persistHistory F fuel s calls).exec t).st.lsm := by
    rintro ⟨b, hb⟩
    have : b = Meta.toBytes r.md := by
      rcases persist_history_only_replaced hF hf hs hb with
        h1 | ⟨_, _, q, _, _, _, r1, h2, _, h3, h4 | ⟨tm, rs, h4, h5⟩⟩ | ⟨i, h1, q, m, tm, rs, h2, h3, _⟩
      · obtain ⟨k, h2, h3⟩ := (persist_history_exact hs _ _).1 h1
        obtain rfl := Tag.key_inj h3
        obtain ⟨r1, tbi, h4, h5, h6⟩ := superseded_origin hn' h2
        rw [h6, hu r1 ⟨tbi, .inl h4⟩ h5]
      · have h5 := Tag.key_inj h4
        obtain rfl : p = q := congrArg Tag.pfx h5
        rw [h3, hu r1 h2 h5.symm]
      · have h6 := Tag.key_inj h5
        obtain rfl : p = q := congrArg Tag.pfx h6
        have h7 : r.mui = r1.mui := congrArg Tag.mui h6
        exact absurd (h7 ▸ h4) (hn tm rs)
      · have h6 := Tag.key_inj h3
        obtain rfl : p = q := congrArg Tag.pfx h6
        obtain rfl : r.mui = m := congrArg Tag.mui h6
        exact absurd (.inr (.inr ⟨i, h1, h2⟩)) (hn tm rs)
    rwa [← this]
  have hcur : (recOf h p r.mui = some r ∨ ∃ i ∈ t, ∃ tbi, calls i = .insert p r tbi) ∨
      ∃ b, supersededCode h (tagOf p r) = some b := by
    obtain ⟨tbi, hr | ⟨i, hi, hc⟩⟩ := hr
    · exact (superseded_inserted hn' hr).imp_left .inl
    · exact .inl (.inr ⟨i, hi, tbi, hc⟩)
  rcases hcur with hcur | ⟨b, hb⟩
  · obtain ⟨r0, h1, h2⟩ := persist_history_kept_partial hF hf hs hok hcur
    rcases h1 with rfl | ⟨k, hk, tm, rs, h1, _⟩
    · exact h2.imp_right hval
    · exact absurd (.inr (.inr ⟨k, hk, h1⟩)) (hn tm rs)
  · exact .inr (hval (persisted_stays (calls := calls) hF hf hs [] t
      ⟨b, (persist_history_exact hs _ _).2 ⟨_, hb, rfl⟩⟩))

end
end

/-! ## Counterexamples and examples -/

section
open Rotonda.Demo

instance (l : Lsm) (k : Bytes) : Decidable (∃ b, (k, b) ∈ l) :=
  decidable_of_iff (l.any fun e => e.1 = k) (by simp)

/-- C55 is false for an insert that fails: it has replaced the record of the route, then its
path selection is refused because another insert came in between, and the replaced record
is not persisted.  It is neither shown nor persisted any more. -/
theorem persist_history_loses_record :
    ∃ s, exec .persistHistory 32 one = .ok () s ∧ ∃ t rep,
      Returned (two .persistHistory s (.insert ten8 (rec1 1 2 3) (some ()))
        (.insert ten8 (rec1 3 2 3) (some ())) t) true
        (.insert ten8 (rec1 1 2 3) (some ())) (.error .pathSelectionOutdated) ∧
      Returned (two .persistHistory s (.insert ten8 (rec1 1 2 3) (some ()))
        (.insert ten8 (rec1 3 2 3) (some ())) t) false
        (.insert ten8 (rec1 3 2 3) (some ())) (.ok rep) ∧
      recOf one ten8 1#32 = some (rec1 1 1 7) ∧
      (∃ s', (ribGetValue .persistHistory ten8.id (some 1#32) true).run (two .persistHistory s
        (.insert ten8 (rec1 1 2 3) (some ())) (.insert ten8 (rec1 3 2 3) (some ())) t).st =
        .ok (.ok (some [rec1 1 2 3])) s') ∧
      ¬ Persisted (two .persistHistory s (.insert ten8 (rec1 1 2 3) (some ()))
        (.insert ten8 (rec1 3 2 3) (some ())) t).st.lsm (tagOf ten8 (rec1 1 1 7)) := by
  obtain ⟨s, hs, hc⟩ := after_ok (o := exec .persistHistory 32 one) (chk := fun s =>
    let c := two .persistHistory s (.insert ten8 (rec1 1 2 3) (some ()))
      (.insert ten8 (rec1 3 2 3) (some ())) (turns 14 60 20)
    ansIs (fun x : Except StoreError UpsertReport => match x with
      | .error .pathSelectionOutdated => true
      | _ => false) (c.pool true) &&
    (ansIs (fun x : Except StoreError UpsertReport => match x with | .ok _ => true | _ => false)
      (c.pool false) &&
    ((match (ribGetValue .persistHistory ten8.id (some 1#32) true).run c.st with
    | .ok (.ok (some [r])) _ => decide (r = rec1 1 2 3)
    | _ => false) &&
    !decide (∃ b, ((tagOf ten8 (rec1 1 1 7)).key, b) ∈ c.st.lsm)))) (by decide +kernel)
  simp only [Bool.and_eq_true] at hc
  obtain ⟨h1, h2, h3, h4⟩ := hc
  obtain ⟨a, ha, g1⟩ := ansIs_iff.1 h1
  obtain ⟨b, hb, g2⟩ := ansIs_iff.1 h2
  refine ⟨s, hs, turns 14 60 20, ?_⟩
  generalize two .persistHistory s (.insert ten8 (rec1 1 2 3) (some ()))
    (.insert ten8 (rec1 3 2 3) (some ())) (turns 14 60 20) = d at *
  split at g1
  · cases b with
    | error => cases g2
    | ok b =>
      refine ⟨b, ⟨rfl, ha⟩, ⟨rfl, hb⟩, by decide, ?_, ?_⟩
      · split at h3
        · rename_i r s' he
          exact ⟨s', by rw [he, of_decide_eq_true h3]⟩
        · cases h3
      · simp only [Bool.not_eq_true', decide_eq_false_iff_not] at h4
        exact h4
  · cases g1

/-- C55 is false of the metadata: a status change marks the record in memory, an insert
replaces the marked record and persists it, then the status change writes its marker under
the same key.  In either order of the two calls the metadata stays persisted. -/
theorem persist_history_marker_overwrites :
    ∃ s, exec .persistHistory 32 one = .ok () s ∧ ∃ t rep,
      Returned (two .persistHistory s (.withdrawFor ten8 1#32 9#64) (.insert ten8 (rec1 1 5 8) none) t)
        true (.withdrawFor ten8 1#32 9#64) (.ok ()) ∧
      Returned (two .persistHistory s (.withdrawFor ten8 1#32 9#64) (.insert ten8 (rec1 1 5 8) none) t)
        false (.insert ten8 (rec1 1 5 8) none) (.ok rep) ∧
      (two .persistHistory s (.withdrawFor ten8 1#32 9#64) (.insert ten8 (rec1 1 5 8) none) t).st.lsm =
        [((⟨ten8, 1#32, 9#64, .withdrawn⟩ : Tag 32).key, [])] ∧
      superseded (.insert ten8 (rec1 1 5 8) none :: .withdrawFor ten8 1#32 9#64 :: one)
        ⟨ten8, 1#32, 9#64, .withdrawn⟩ = some [7#8] ∧
      superseded (.withdrawFor ten8 1#32 9#64 :: .insert ten8 (rec1 1 5 8) none :: one)
        (tagOf ten8 (rec1 1 1 7)) = some [7#8] := by
  obtain ⟨s, hs, hc⟩ := after_ok (o := exec .persistHistory 32 one) (chk := fun s =>
    let c := two .persistHistory s (.withdrawFor ten8 1#32 9#64) (.insert ten8 (rec1 1 5 8) none)
      (turns 3 60 20)
    ansIs (fun a : Except StoreError Unit => match a with | .ok _ => true | _ => false) (c.pool true) &&
    (ansIs (fun x : Except StoreError UpsertReport => match x with | .ok _ => true | _ => false)
      (c.pool false) &&
    decide (c.st.lsm = [((⟨ten8, 1#32, 9#64, .withdrawn⟩ : Tag 32).key, [])]))) (by decide +kernel)
  simp only [Bool.and_eq_true] at hc
  obtain ⟨h1, h2, h3⟩ := hc
  obtain ⟨a, ha, h1⟩ := ansIs_iff.1 h1
  obtain ⟨b, hb, h2⟩ := ansIs_iff.1 h2
  refine ⟨s, hs, turns 3 60 20, ?_⟩
  generalize two .persistHistory s (.withdrawFor ten8 1#32 9#64) (.insert ten8 (rec1 1 5 8) none)
    (turns 3 60 20) = d at *
  cases a with
  | error => cases h1
  | ok a =>
    cases b with
    | error => cases h2
    | ok b =>
      exact ⟨b, ⟨rfl, ha⟩, ⟨rfl, hb⟩, of_decide_eq_true h3, by decide +kernel, by decide +kernel⟩

/-- Two inserts of the same route at the same time. -/
def twiceCalls : Bool → Call Md 32 := fun i =>
  if i then .insert ten8 (rec1 1 5 8) none else .insert ten8 (rec1 1 6 9) none

def twice (st : Strategy) (s : Rib Md 32) : Conf (Rib Md 32) Bool (fun i => (twiceCalls i).Ans) :=
  (start st 32 (iterFuel 32) s twiceCalls).exec (turns 10 60 60)

theorem twice_eq (st : Strategy) (s : Rib Md 32) :
    (start st 32 (iterFuel 32) s twiceCalls).exec (turns 10 60 60) = twice st s := rfl

theorem twice_returned (st : Strategy) (hc : (match exec st 32 one with
    | .ok _ s => ansIs (fun x : Except StoreError UpsertReport => match x with | .ok _ => true | _ => false)
        ((twice st s).pool true) &&
      ansIs (fun x : Except StoreError UpsertReport => match x with | .ok _ => true | _ => false)
        ((twice st s).pool false)
    | _ => false) = true) : ∃ s, exec st 32 one = .ok () s ∧ ∃ rep rep',
    Returned (twice st s) true (.insert ten8 (rec1 1 5 8) none) (.ok rep) ∧
    Returned (twice st s) false (.insert ten8 (rec1 1 6 9) none) (.ok rep') := by
  split at hc
  · rename_i s hs
    rw [Bool.and_eq_true] at hc
    obtain ⟨h1, h2⟩ := hc
    obtain ⟨a, ha, h1⟩ := ansIs_iff.1 h1
    obtain ⟨b, hb, h2⟩ := ansIs_iff.1 h2
    refine ⟨s, hs, ?_⟩
    generalize twice st s = d at *
    cases a with
    | error => cases h1
    | ok a =>
      cases b with
      | error => cases h2
      | ok b => exact ⟨a, b, ⟨rfl, ha⟩, ⟨rfl, hb⟩⟩
  · cases hc

attribute [irreducible] twice

/-- With `WriteAhead` both records are persisted. -/
example : ∃ s, exec .writeAhead 32 one = .ok () s ∧
    ∀ r ∈ [rec1 1 5 8, rec1 1 6 9], Persisted (twice .writeAhead s).st.lsm (tagOf ten8 r) := by
  obtain ⟨s, hs, rep, rep', h1, h2⟩ := twice_returned .writeAhead (by decide +kernel)
  refine ⟨s, hs, fun r hr => ?_⟩
  have e1 := write_ahead_returned (F := 32) (fuel := iterFuel 32) (Nat.le_refl _) (Nat.le_refl _) hs
    (calls := twiceCalls)
    (t := turns 10 60 60) (by rw [twice_eq]; exact h1) []
  have e2 := write_ahead_returned (F := 32) (fuel := iterFuel 32) (Nat.le_refl _) (Nat.le_refl _) hs
    (calls := twiceCalls)
    (t := turns 10 60 60) (by rw [twice_eq]; exact h2) []
  rw [List.append_nil, twice_eq] at e1 e2
  rcases List.mem_cons.1 hr with rfl | hr
  · exact ⟨_, e1.choose_spec.1⟩
  · obtain rfl := List.mem_singleton.1 hr
    exact ⟨_, e2.choose_spec.1⟩

/-- With `PersistHistory` each of the three records of the route is the one shown or is
persisted with its metadata. -/
example : ∃ s, exec .persistHistory 32 one = .ok () s ∧
    ∀ r ∈ [rec1 1 1 7, rec1 1 5 8, rec1 1 6 9],
      (∃ w s', (ribGetValue .persistHistory ten8.id (some 1#32) true).run (twice .persistHistory s).st =
        .ok (.ok (some [shownAs w r])) s') ∨
      ((tagOf ten8 r).key, r.md.bytes) ∈ (twice .persistHistory s).st.lsm := by
  obtain ⟨s, hs, rep, rep', h1, h2⟩ := twice_returned .persistHistory (by decide +kernel)
  refine ⟨s, hs, fun r hr => ?_⟩
  have hm : r.mui = 1#32 := by
    rcases List.mem_cons.1 hr with rfl | hr
    · rfl
    rcases List.mem_cons.1 hr with rfl | hr
    · rfl
    · obtain rfl := List.mem_singleton.1 hr
      rfl
  have hin : ∀ r', InsertedBy one twiceCalls (turns 10 60 60) ten8 r' →
      r' ∈ [rec1 1 1 7, rec1 1 5 8, rec1 1 6 9] := by
    rintro r' ⟨tbi, h3 | ⟨i, _, h3⟩⟩
    · cases List.mem_singleton.1 h3
      simp
    · cases i
      · cases h3
        simp
      · cases h3
        simp
  have := persist_history_lossless_partial (F := 32) (fuel := iterFuel 32) (Nat.le_refl _) (Nat.le_refl _) hs
    (calls := twiceCalls)
    (t := turns 10 60 60) (p := ten8) (r := r) ?_ ?_ ?_ ?_
  · rw [hm, twice_eq] at this
    refine this.imp_left ?_
    rintro ⟨w, _, h3⟩
    exact ⟨w, _, h3⟩
  · rintro (_ | _) _ r' tbi' hc _
    · cases hc
      rw [twice_eq]
      exact ⟨rep', h2⟩
    · cases hc
      rw [twice_eq]
      exact ⟨rep, h1⟩
  · rintro tm rs (⟨h3, _⟩ | ⟨h3, _⟩ | ⟨i, _, h3⟩)
    · cases List.mem_singleton.1 h3
    · cases List.mem_singleton.1 h3
    · cases i
      · rcases h3 with ⟨h3, _⟩ | ⟨h3, _⟩ <;> cases h3
      · rcases h3 with ⟨h3, _⟩ | ⟨h3, _⟩ <;> cases h3
  · intro r' hr' ht
    have hall : ∀ a ∈ [rec1 1 1 7, rec1 1 5 8, rec1 1 6 9], ∀ b ∈ [rec1 1 1 7, rec1 1 5 8, rec1 1 6 9],
        tagOf ten8 a = tagOf ten8 b → a.md = b.md := by decide
    exact hall r' (hin r' hr') r hr ht
  · rcases List.mem_cons.1 hr with rfl | hr
    · exact ⟨none, .inl List.mem_cons_self⟩
    rcases List.mem_cons.1 hr with rfl | hr
    · exact ⟨none, .inr ⟨true, by decide, rfl⟩⟩
    · obtain rfl := List.mem_singleton.1 hr
      exact ⟨none, .inr ⟨false, by decide, rfl⟩⟩

end

end Rotonda.Props
