import Verif.Proofs.DiskWrites
import Verif.Props.Demo

/-!
# A faulty disk: C64

With `PersistOnly`, and a disk `D` that may fail in any way: scans may end in errors, entries
may hold any bytes.  A scan of a query may be answered differently from any other
scan of it, since no query scans for the same prefix twice.
-/

namespace Rotonda.Props

open Prog Spec

variable {M : Type} [Meta M] {W : Nat}

/-! ## The records of one prefix -/

/-- `get_value`: panics exactly when an entry is too short, and otherwise answers what the items
that the disk yields for this prefix allow. -/
theorem disk_get_records [Fam W] (D : Disk) (s : Rib M W) (p : PrefixId W) (mui : Option Mui)
    (iw : Bool) :
    ((∃ kv, .ok kv ∈ D (keyOf p mui) ∧ Short W kv) →
      (diskGetValue (M := M) D mui iw p).run s = .panic) ∧
    ((∀ kv, .ok kv ∈ D (keyOf p mui) → ¬ Short W kv) →
      ∃ a, (diskGetValue D mui iw p).run s = .ok a s ∧
        DiskAnswer W (D (keyOf p mui)) s.tree.wd.set iw a) :=
  ⟨fun ⟨_, h1, h2⟩ => run_diskGetValue_panic h1 h2, fun h => run_diskGetValue s h⟩

/-- No records are made up: what is answered was read, all of it, for this prefix. -/
theorem disk_no_invention [Fam W] {items : List DiskItem} {wd : Mui → Bool} {iw : Bool}
    {rs : List (Record M)} (h : DiskAnswer W items wd iw (.ok (some rs))) :
    ∃ l : List (Record M),
      List.Forall₂ (fun it r => ∃ kv, it = .ok kv ∧ HoldsRecord W kv r) items l ∧
      rs = shownOf wd iw l := by
  have h1 : .error () ∉ items := fun hc => by have := h.failed hc; cases this
  have h2 : ∀ kv, .ok kv ∈ items → Sound W kv := by
    intro kv hk
    by_contra hc
    have := h.damaged h1 ⟨kv, hk, hc⟩
    cases this
  have h3 : ∃ l : List (Record M),
      List.Forall₂ (fun it r => ∃ kv, it = .ok kv ∧ HoldsRecord W kv r) items l := by
    clear h
    induction items with
    | nil => exact ⟨[], .nil⟩
    | cons it items ih =>
      obtain ⟨l, hl⟩ := ih (fun hc => h1 (List.mem_cons_of_mem _ hc))
        (fun kv hk => h2 kv (List.mem_cons_of_mem _ hk))
      cases it with
      | error e => exact absurd List.mem_cons_self h1
      | ok kv =>
        obtain ⟨z, hz⟩ := sound_iff.1 (h2 kv List.mem_cons_self)
        exact ⟨z.toRecord :: l, .cons ⟨kv, rfl, holdsRecord_iff.2 ⟨z, hz, rfl⟩⟩ hl⟩
  obtain ⟨l, hl⟩ := h3
  refine ⟨l, hl, ?_⟩
  obtain ⟨h4, h5⟩ := h.sound l hl
  by_cases hc : shownOf wd iw l = []
  · have := h4 hc; cases this
  · have := h5 hc; cases this; rfl

/-- The answer for a prefix depends only on what the disk yields for it. -/
theorem disk_isolated {D D' : Disk} {p : PrefixId W} {mui : Option Mui} (iw : Bool)
    (h : D (keyOf p mui) = D' (keyOf p mui)) :
    (diskGetValue D mui iw p : Prog (Rib M W) _) = diskGetValue D' mui iw p := by
  unfold diskGetValue
  simp only [diskRecords_key, h]

/-! ## Queries -/

/-- `match_prefix`: never panics without too short entries, and answers, for each prefix, what
the disk allows for that prefix. -/
theorem disk_match [Fam W] {F : Nat} {h : History M W} {s : Rib M W}
    (hs : exec .persistOnly F h = .ok () s) (D : Disk)
    (hD : ∀ k kv, .ok kv ∈ D k → ¬ Short W kv) (p : Prefix W) (o : MatchOptions) :
    ∃ v : Values M W,
      (∀ q, DiskAnswer W (D (keyOf q.id o.mui)) (globWd h) o.includeWithdrawn (v q)) ∧
      ∃ N, ∀ fuel, N ≤ fuel → ∃ a, (diskMatchPrefix D fuel p.id o).run s = .ok a s ∧
        MatchAnswer h p o v a := by
  have hi := exec_ok_inv hs
  have hg : ∀ q : Prefix W, ∃ a, (diskGetValue D o.mui o.includeWithdrawn q.id).run s = .ok a s ∧
      DiskAnswer W (D (keyOf q.id o.mui)) (globWd h) o.includeWithdrawn a := by
    intro q
    rw [← hi.wd]
    exact run_diskGetValue s (hD _)
  choose v hv using hg
  exact ⟨v, fun q => (hv q).2, run_gvMatch hi (fun q => (hv q).1) p o⟩

/-- `more_specifics_iter_from`: an error for one prefix is one item, the iteration goes on. -/
theorem disk_more_specifics_iter [Fam W] {F : Nat} {h : History M W} {s : Rib M W}
    (hs : exec .persistOnly F h = .ok () s) (D : Disk)
    (hD : ∀ k kv, .ok kv ∈ D k → ¬ Short W kv) (p : Prefix W) (mui : Option Mui) (iw : Bool)
    (hgo : ∀ m, mui = some m → iw = false → globWd h m = false) :
    ∃ v : Values M W, (∀ q, DiskAnswer W (D (keyOf q.id mui)) (globWd h) iw (v q)) ∧
      ∃ N, ∀ fuel, N ≤ fuel → ∃ l, (diskMoreIter D fuel p.id mui iw).run s = .ok l s ∧
        IterAnswer v (fun q => p.len < W ∧ Proper h q ∧ Covers p q) l := by
  have hi := exec_ok_inv hs
  have hg : ∀ q : Prefix W, ∃ a, (diskGetValue D mui iw q.id).run s = .ok a s ∧
      DiskAnswer W (D (keyOf q.id mui)) (globWd h) iw a := by
    intro q
    rw [← hi.wd]
    exact run_diskGetValue s (hD _)
  choose v hv using hg
  obtain ⟨l, N, h1, h2, h3⟩ := run_gvMoreIter hi p
  refine ⟨v, fun q => (hv q).2, N, fun fuel hf => ⟨_, ?_, l, h1, h2, rfl⟩⟩
  have hns : stopped h mui iw = false := by
    unfold stopped
    cases mui with
    | none => rfl
    | some m =>
      cases iw with
      | true => rfl
      | false => exact hgo m rfl rfl
  rw [run_diskMoreIter hi, hns, if_neg (by decide)]
  exact h3 _ v (fun q => (hv q).1) fuel hf

/-- `less_specifics_iter_from`. -/
theorem disk_less_specifics_iter [Fam W] {F : Nat} {h : History M W} {s : Rib M W}
    (hs : exec .persistOnly F h = .ok () s) (D : Disk)
    (hD : ∀ k kv, .ok kv ∈ D k → ¬ Short W kv) (p : Prefix W) (mui : Option Mui) (iw : Bool) :
    ∃ v : Values M W, (∀ q, DiskAnswer W (D (keyOf q.id mui)) (globWd h) iw (v q)) ∧
      ∃ l, (diskLessIter D p.id mui iw).run s = .ok l s ∧ IterAnswer v (Spec.Above h p) l := by
  have hi := exec_ok_inv hs
  have hg : ∀ q : Prefix W, ∃ a, (diskGetValue D mui iw q.id).run s = .ok a s ∧
      DiskAnswer W (D (keyOf q.id mui)) (globWd h) iw a := by
    intro q
    rw [← hi.wd]
    exact run_diskGetValue s (hD _)
  choose v hv using hg
  obtain ⟨l, h1, h2, h3⟩ := run_gvLessIter hi p
  exact ⟨v, fun q => (hv q).2, _, h3 _ v (fun q => (hv q).1), l, h1, h2, rfl⟩

/-- `prefixes_iter`: every prefix once, with its records; an error of the disk shows as no
records. -/
theorem disk_prefixes_iter [Fam W] {F : Nat} {h : History M W} {s : Rib M W}
    (hs : exec .persistOnly F h = .ok () s) (D : Disk)
    (hD : ∀ k kv, .ok kv ∈ D k → ¬ Short W kv) :
    ∃ v : Values M W, (∀ q, DiskAnswer W (D (keyOf q.id none)) (globWd h) true (v q)) ∧
      ∃ (qs : List (Prefix W)) (N : Nat), qs.Nodup ∧ (∀ q, q ∈ qs ↔ Proper h q) ∧
        ∀ fuel, N ≤ fuel → (diskPrefixesIter D fuel).run s = .ok (qs.map fun q =>
          match v q with
          | .ok (some rs) => .ok (q, rs)
          | .ok none => .ok (q, [])
          | .error e => .error e) s := by
  have hi := exec_ok_inv hs
  have hg : ∀ q : Prefix W, ∃ a, (diskGetValue D none true q.id).run s = .ok a s ∧
      DiskAnswer W (D (keyOf q.id none)) (globWd h) true a := by
    intro q
    rw [← hi.wd]
    exact run_diskGetValue s (hD _)
  choose v hv using hg
  obtain ⟨l, N, h1, h2, h3⟩ := run_gvPrefixesIter hi
  refine ⟨v, fun q => (hv q).2, l, N, h1, h2, fun fuel hf => ?_⟩
  unfold diskPrefixesIter
  rw [h3 _ v (fun q => (hv q).1) fuel hf]
  congr 2
  funext q
  unfold pfxItemOf
  rcases v q with e | (_ | rs) <;> rfl

/-! ## Without faults these are the calls of the other theorems -/

theorem disk_healthy [Fam W] {F : Nat} {h : History M W} {s : Rib M W}
    (hs : exec .persistOnly F h = .ok () s) :
    (∀ p mui iw, (diskGetValue s.lsm.disk mui iw p).run s =
      (ribGetValue .persistOnly p mui iw).run s) ∧
    (∀ (p : Prefix W) o, ∃ N, ∀ fuel, N ≤ fuel → (diskMatchPrefix s.lsm.disk fuel p.id o).run s =
      (ribMatchPrefix .persistOnly fuel p.id o).run s) ∧
    (∀ (p : PrefixId W) m t, (diskMarkWithdrawn s.lsm.disk p m t).run s =
      (ribMarkWithdrawnForPrefix .persistOnly p m t).run s) ∧
    (∀ (p : PrefixId W) m t, (diskMarkActive s.lsm.disk p m t).run s =
      (ribMarkActiveForPrefix .persistOnly p m t).run s) ∧
    (ribPersistPrefixesIter .persistOnly).run s =
      (Prog.ofOption (diskPersistIter (M := M) W s.lsm.disk)).run s := by
  have hi := exec_ok_inv hs
  refine ⟨fun p mui iw => run_diskGetValue_healthy s p mui iw, fun p o => ?_, fun p m t => ?_,
    fun p m t => ?_, ?_⟩
  · have h1 : ∀ q : Prefix W, (ribGetValue .persistOnly q.id o.mui o.includeWithdrawn).run s =
        .ok (.ok (valueOf .persistOnly h q o.mui o.includeWithdrawn)) s :=
      fun q => run_ribGetValue hi.toQ q o.mui o.includeWithdrawn
    obtain ⟨N, hN⟩ := run_gvMatch_congr hi (gv := diskGetValue s.lsm.disk o.mui o.includeWithdrawn)
      (gv' := fun p => ribGetValue .persistOnly p o.mui o.includeWithdrawn)
      (v := fun q => .ok (valueOf .persistOnly h q o.mui o.includeWithdrawn))
      (fun q => by rw [run_diskGetValue_healthy]; exact h1 q) h1 p o
    refine ⟨N, fun fuel hf => ?_⟩
    rw [← gvMatch_rib]
    exact hN fuel hf
  · have hr : ∀ (l : List (Bytes × Bytes)), (diskRewriteAll (M := M) W t .withdrawn
        (l.map fun kv => .ok (kv.1 ++ kv.2))) =
        rewriteAll W t .withdrawn (l.map fun kv => kv.1 ++ kv.2) := by
      intro l
      induction l with
      | nil => rfl
      | cons kv l ih => simp only [List.map_cons, diskRewriteAll, rewriteAll, ih]; rfl
    have hk : diskRecordsWithKeys s.lsm.disk p m =
        (s.lsm.scan (shortKeyBytes p m)).map fun kv => .ok (kv.1 ++ kv.2) := by
      unfold diskRecordsWithKeys Lsm.disk
      rw [List.map_map]
      rfl
    unfold diskMarkWithdrawn
    rw [hk, hr]
    rfl
  · have hm : diskMostRecent s.lsm.disk p m = mostRecentRecord s.lsm p m := by
      unfold diskMostRecent mostRecentRecord Lsm.disk
      rw [List.foldlM_map]
    unfold diskMarkActive
    rw [hm]
    simp only [ribMarkActiveForPrefix, run_bind, Prog.read, run]
    simp only [Outcome.andThen]
    cases mostRecentRecord s.lsm p m <;> rfl
  · have hsc : s.lsm.disk [] = s.lsm.map .ok := by
      unfold Lsm.disk Lsm.scan
      simp
    unfold diskPersistIter
    rw [hsc, List.length_map, diskIterCollect_healthy]
    simp only [ribPersistPrefixesIter, run_bind, Prog.read, run, lsmPrefixesIter]
    simp only [Outcome.andThen]
    obtain ⟨gs, hg, -⟩ := diskIterCollect_total (W := W) (all := s.lsm.map .ok) (s.lsm.length + 1) none
      (s.lsm.map .ok) (fun b h => (by cases h)) (fun it h => h) (by simp)
    rw [diskIterCollect_healthy] at hg
    rw [hg]

/-! ## Status changes -/

/-- `mark_mui_as_withdrawn_for_prefix` reports success exactly when all records of the prefix and
the mui could be read; it has then rewritten the header of each, otherwise of those
before the first fault. -/
theorem disk_withdraw [Fam W] (D : Disk) (s : Rib M W) (p : PrefixId W) (m : Mui) (t : LTime) :
    ∃ (ans : Except StoreError Unit) (a b : List DiskItem) (done : List (PrefixId W × Mui)),
      (diskMarkWithdrawn D p m t).run s = .ok ans { s with lsm := done.foldl (fun lsm x =>
        lsm.insert (shortKeyBytes x.1 x.2) (headerBytes t .withdrawn)) s.lsm } ∧
      D (shortKeyBytes p m) = a ++ b ∧
      List.Forall₂ (fun it x => ∃ kv t' st md, it = .ok kv ∧ x.1.len < 256 ∧
        kv.1 ++ kv.2 = longKeyBytes x.1 x.2 t' st ++ md) a done ∧
      (ans = .ok () ↔ b = []) ∧ (ans ≠ .ok () → ans = .error .storeNotReady) ∧
      (∀ x b', b = x :: b' → x = .error () ∨ ∃ kv, x = .ok kv ∧ ¬ Sound W kv) := by
  obtain ⟨a, b, done, ok, h1, h2, h3, h4, h5⟩ :=
    run_diskRewriteAll t .withdrawn (D (shortKeyBytes p m)) s
  refine ⟨if ok then .ok () else .error .storeNotReady, a, b, done, ?_, h1, ?_, ?_, ?_, ?_⟩
  · unfold diskMarkWithdrawn
    rw [run_bind, diskRecordsWithKeys_eq, h5]
    cases ok <;> rfl
  · refine h2.imp ?_
    rintro it x ⟨kv, z, rfl, hz, rfl⟩
    obtain ⟨e1, e2⟩ := decodeRecord_some hz
    exact ⟨kv, _, _, _, rfl, e1, e2⟩
  · rw [← h3]
    cases ok
    · exact ⟨fun h => (by cases h), fun h => (by cases h)⟩
    · exact ⟨fun _ => rfl, fun _ => rfl⟩
  · cases ok
    · exact fun _ => rfl
    · exact fun h => absurd rfl h
  · intro x b' hb
    cases x with
    | error e => exact .inl rfl
    | ok kv =>
      refine .inr ⟨kv, rfl, fun hs => ?_⟩
      obtain ⟨z, hz⟩ := sound_iff.1 hs
      rw [h4 _ b' hb kv rfl] at hz
      cases hz

/-- `mark_mui_as_active_for_prefix` reports success whatever the disk does; when a read fails it
has changed nothing. -/
theorem disk_activate_silent (D : Disk) (s : Rib M W) (p : PrefixId W) (m : Mui) (t : LTime) :
    ∃ s', (diskMarkActive D p m t).run s = .ok (.ok ()) s' ∧
      (.error () ∈ D (shortKeyBytes p m) → s' = s) :=
  run_diskMarkActive D p m t s

/-! ## The iteration over all entries -/

/-- `persist_prefixes_iter` ends, and every record it yields was read, as was the prefix. -/
theorem disk_iteration_sound [Fam W] (D : Disk) :
    (∃ gs, diskIterCollect W ((D []).length + 1) none (D []) = some gs) ∧
    ∀ l, diskPersistIter (M := M) W D = some l → ∀ q rs, .ok (q, rs) ∈ l →
      (∃ kv m t st md, .ok kv ∈ D [] ∧ kv.1 ++ kv.2 = longKeyBytes q.id m t st ++ md) ∧
      ∀ r ∈ rs, ∃ kv, .ok kv ∈ D [] ∧ HoldsRecord W kv r := by
  obtain ⟨gs, hg, hfrom⟩ := diskIterCollect_total (W := W) (all := D []) ((D []).length + 1) none (D [])
    (fun b h => (by cases h)) (fun it h => h) (by simp)
  refine ⟨⟨gs, hg⟩, fun l hl q rs hm => ?_⟩
  unfold diskPersistIter at hl
  rw [hg] at hl
  obtain ⟨p, hp, hpq⟩ := groupsToPrefix_mem hl hm
  obtain ⟨g, hgm, hge⟩ := List.mem_map.1 hp
  obtain ⟨⟨b, z, hb, hz, hzp⟩, hrs⟩ := persistGroupRecord_ok hge
  refine ⟨?_, fun r hr => ?_⟩
  · obtain ⟨kv, hk, rfl⟩ := hfrom g hgm b hb
    obtain ⟨e1, e2⟩ := decodeRecord_some hz
    have : q.id = p := id_of_toPrefix hpq
    rw [this, ← hzp]
    exact ⟨kv, _, _, _, _, hk, e2⟩
  · obtain ⟨b, z, hb, hz, rfl⟩ := hrs r hr
    obtain ⟨kv, hk, rfl⟩ := hfrom g hgm b hb
    exact ⟨kv, hk, holdsRecord_iff.2 ⟨z, hz, rfl⟩⟩

/-! ## What is not reported -/

/-- Faults are reported to the caller. -/
def FaultsReported (M : Type) [Meta M] (W : Nat) : Prop :=
  ∀ (D : Disk) (s : Rib M W) (p : PrefixId W) (mui : Option Mui) (iw : Bool),
    (∀ kv, .ok kv ∈ D (keyOf p mui) → ¬ Short W kv) →
    (.error () ∈ D (keyOf p mui) ∨ ∃ kv, .ok kv ∈ D (keyOf p mui) ∧ ¬ Sound W kv) →
    (diskGetValue (M := M) D mui iw p).run s = .ok (.error ()) s

/-- C64 as stated does not hold: a failed read is answered as if there were no records. -/
theorem disk_error_hidden [Fam W] (D : Disk) (s : Rib M W) (p : PrefixId W) (mui : Option Mui)
    (iw : Bool) (hl : ∀ kv, .ok kv ∈ D (keyOf p mui) → ¬ Short W kv)
    (he : .error () ∈ D (keyOf p mui)) : (diskGetValue (M := M) D mui iw p).run s = .ok (.ok none) s := by
  obtain ⟨a, h1, h2⟩ := (disk_get_records D s p mui iw).2 hl
  rw [h1, h2.failed he]

theorem disk_faults_not_reported : ¬ FaultsReported Demo.Md 32 := by
  intro hall
  have hs : ∀ kv, (.ok kv : DiskItem) ∈ [(.error () : DiskItem)] → ¬ Short 32 kv := by
    intro kv hk
    rcases List.mem_cons.1 hk with h | h <;> cases h
  have h1 := hall (fun _ => [.error ()]) Rib.empty Demo.ten8.id none true hs (.inl List.mem_cons_self)
  rw [disk_error_hidden (fun _ => [.error ()]) Rib.empty Demo.ten8.id none true hs
    List.mem_cons_self] at h1
  cases h1

/-- Faults are reported, except failed reads. -/
theorem disk_damage_reported_partial [Fam W] (D : Disk) (s : Rib M W) (p : PrefixId W)
    (mui : Option Mui) (iw : Bool) (hl : ∀ kv, .ok kv ∈ D (keyOf p mui) → ¬ Short W kv)
    (hn : .error () ∉ D (keyOf p mui)) (hd : ∃ kv, .ok kv ∈ D (keyOf p mui) ∧ ¬ Sound W kv) :
    (diskGetValue (M := M) D mui iw p).run s = .ok (.error ()) s := by
  obtain ⟨a, h1, h2⟩ := (disk_get_records D s p mui iw).2 hl
  rw [h1, h2.damaged hn hd]

/-- `match_prefix` does not even report damaged entries of the prefix it has found. -/
theorem disk_match_hides [Fam W] {F : Nat} {h : History M W} {s : Rib M W}
    (hs : exec .persistOnly F h = .ok () s) (D : Disk)
    (hD : ∀ k kv, .ok kv ∈ D k → ¬ Short W kv) (p q : Prefix W) (o : MatchOptions)
    (hq : Matches h p o q) (hl : o.includeLessSpecifics = false) (hm : o.includeMoreSpecifics = false)
    (hf : .error () ∈ D (keyOf q.id o.mui) ∨ ∃ kv, .ok kv ∈ D (keyOf q.id o.mui) ∧ ¬ Sound W kv) :
    ∃ N, ∀ fuel, N ≤ fuel → (diskMatchPrefix D fuel p.id o).run s =
      .ok (.ok ⟨.emptyMatch, none, [], none, none⟩) s := by
  obtain ⟨v, hv, N, hN⟩ := disk_match hs D hD p o
  refine ⟨N, fun fuel hfu => ?_⟩
  obtain ⟨a, hrun, ha⟩ := hN fuel hfu
  rw [hrun]
  have hvq : ∀ rs, v q ≠ .ok (some rs) := by
    intro rs hc
    by_cases he : .error () ∈ D (keyOf q.id o.mui)
    · rw [(hv q).failed he] at hc; cases hc
    · rcases hf with hf | hf
      · exact he hf
      · rw [(hv q).damaged he hf] at hc; cases hc
  cases a with
  | error e =>
    rcases ha.error.1 rfl with ⟨h1, _⟩ | ⟨h1, _⟩
    · rw [hm] at h1; cases h1
    · rw [hl] at h1; cases h1
  | ok res =>
    have e0 : res.prefix_ = none := by
      cases hp : res.prefix_ with
      | none => rfl
      | some q' =>
        obtain ⟨h1, h2, h3⟩ := ha.only res q' rfl hp
        have : q' = q := by
          have e1 := h1.1
          have e2 := hq.1
          have hlen : q'.len = q.len :=
            Nat.le_antisymm (e2.2.2 _ e1.1 e1.2.1) (e1.2.2 _ e2.1 e2.2.1)
          apply Prefix.id_inj
          rw [← (covers_trunc.1 e1.2.1).2, ← (covers_trunc.1 e2.2.1).2, hlen]
        subst this
        exact absurd h2 (hvq _)
    obtain ⟨e1, e2⟩ := ha.empty res rfl e0
    have e3 := ha.more res rfl
    have e4 := ha.less res rfl
    rw [hm, if_neg (by decide)] at e3
    rw [hl, if_neg (by decide)] at e4
    obtain ⟨a1, a2, a3, a4, a5⟩ := res
    simp only at e0 e1 e2 e3 e4
    rw [e0, e1, e2, e3, e4]

/-- `persist_prefixes_iter` yields nothing when the first read fails. -/
theorem disk_iteration_stops (D : Disk) (rest : List DiskItem) (h : D [] = .error () :: rest) :
    diskPersistIter (M := M) W D = some [] := by
  unfold diskPersistIter
  rw [h]
  rfl

/-- A failed read between two entries is left out. -/
theorem disk_iteration_skips (D D' : Disk) (kv : Bytes × Bytes) (rest : List DiskItem) (z : ZRec W)
    (hz : decodeHeader W (kv.1 ++ kv.2) = some z) (h : D [] = .ok kv :: .error () :: rest)
    (h' : D' [] = .ok kv :: rest) :
    diskPersistIter (M := M) W D = diskPersistIter (M := M) W D' := by
  unfold diskPersistIter
  have hn : diskIterNext W none (D []) = diskIterNext W none (D' []) := by
    rw [h, h']
    simp only [diskIterNext, Option.map_some, hz, diskGroup]
  have hc : ∀ n, diskIterCollect W (n + 1) none (D []) = diskIterCollect W (n + 1) none (D' []) := by
    intro n
    unfold diskIterCollect
    rw [hn]
  obtain ⟨gs, hg, -⟩ := diskIterCollect_total (W := W) (all := D' []) ((D' []).length + 1) none (D' [])
    (fun b h => (by cases h)) (fun it h => h) (by simp)
  rw [hc, hg, diskIterCollect_mono hg (m := (D []).length + 1) (by rw [h, h']; simp)]

/-! ## Examples -/

/-- One route of 10.0.0.0/8 can be read, reading 10.1.0.0/16 fails, the entry of
192.168.0.0/16 is damaged: its status is no status. -/
def someDisk : Disk := fun k =>
  if k = prefixBytes Demo.ten8.id then
    [.ok (longKeyBytes Demo.ten8.id 1#32 1#64 .active, [7#8])]
  else if k = prefixBytes Demo.ten16.id then [.error ()]
  else if k = prefixBytes Demo.other.id then
    [.ok (shortKeyBytes Demo.other.id 1#32 ++ natToLE 8 1 ++ [9#8], [7#8])]
  else []

theorem someDisk_long : ∀ k kv, .ok kv ∈ someDisk k → ¬ Short 32 kv := by
  intro k kv hk
  unfold someDisk at hk
  split at hk
  · rcases List.mem_cons.1 hk with h | h
    · cases h; unfold Short; decide
    · cases h
  · split at hk
    · rcases List.mem_cons.1 hk with h | h <;> cases h
    · split at hk
      · rcases List.mem_cons.1 hk with h | h
        · cases h; unfold Short; decide
        · cases h
      · cases hk

/-- The route that can be read is answered, and reading the other two fails, one of them
silently. -/
example (s : Rib Demo.Md 32) :
    (∃ a, (diskGetValue someDisk none true Demo.ten8.id).run s = .ok a s ∧
      (s.tree.wd.set 1#32 = false → a = .ok (some [Demo.rec1 1 1 7]))) ∧
    (diskGetValue (M := Demo.Md) someDisk none true Demo.ten16.id).run s = .ok (.ok none) s ∧
    (diskGetValue (M := Demo.Md) someDisk none true Demo.other.id).run s = .ok (.error ()) s := by
  refine ⟨?_, ?_, ?_⟩
  · obtain ⟨a, h1, h2⟩ := (disk_get_records someDisk s Demo.ten8.id none true).2
      (someDisk_long _)
    refine ⟨a, h1, fun hw => ?_⟩
    have h3 := (h2.sound [Demo.rec1 1 1 7] (.cons ⟨_, rfl, Demo.ten8.id, [7#8], by decide, rfl, rfl⟩
      .nil)).2
    have h4 : shownOf s.tree.wd.set true [Demo.rec1 1 1 7] = [Demo.rec1 1 1 7] := by
      simp only [shownOf, if_true, List.map_cons, List.map_nil]
      have : (Demo.rec1 1 1 7).mui = 1#32 := rfl
      rw [this, hw]
      rfl
    rw [h4] at h3
    exact h3 (by simp)
  · exact disk_error_hidden someDisk s _ none true (someDisk_long _) (by decide)
  · refine disk_damage_reported_partial someDisk s _ none true (someDisk_long _) (by decide)
      ⟨(shortKeyBytes Demo.other.id 1#32 ++ natToLE 8 1 ++ [9#8], [7#8]), by decide, ?_⟩
    rw [sound_iff]
    rintro ⟨z, hz⟩
    have : decodeRecord 32 ((shortKeyBytes Demo.other.id 1#32 ++ natToLE 8 1 ++ [9#8]) ++ [7#8]) = none := by
      decide +kernel
    rw [this] at hz
    cases hz

/-- Both prefixes are stored, and looked up as if they were not. -/
example : ∃ s, exec .persistOnly 3 Demo.hist = .ok () s ∧
    (∃ N, ∀ fuel, N ≤ fuel → (diskMatchPrefix someDisk fuel Demo.ten16.id
      ⟨.exactMatch, true, false, false, none⟩).run s = .ok (.ok ⟨.emptyMatch, none, [], none, none⟩) s) ∧
    (∃ N, ∀ fuel, N ≤ fuel → ∃ a, (diskMatchPrefix someDisk fuel Demo.ten8.id
      ⟨.exactMatch, true, false, true, none⟩).run s = .ok a s) := by
  obtain ⟨s, hs, _⟩ := exec_inv .persistOnly 3 Demo.hist
  refine ⟨s, hs, ?_, ?_⟩
  · refine disk_match_hides hs someDisk someDisk_long Demo.ten16 Demo.ten16 _ ⟨⟨?_, ?_, ?_⟩, fun _ => rfl⟩
      rfl rfl (.inl (by decide))
    · decide
    · decide
    · intro q _ hq; exact hq.1
  · obtain ⟨v, -, N, hN⟩ := disk_match hs someDisk someDisk_long Demo.ten8
      ⟨.exactMatch, true, false, true, none⟩
    refine ⟨N, fun fuel hf => ?_⟩
    obtain ⟨a, ha, -⟩ := hN fuel hf
    exact ⟨a, ha⟩

/-- The first entry can be read, then a read fails: nothing of that is seen. -/
example : diskPersistIter (M := Demo.Md) 32 (fun _ =>
      [.ok (longKeyBytes Demo.ten8.id 1#32 1#64 .active, []), .error (),
        .ok (longKeyBytes Demo.other.id 1#32 1#64 .active, [])]) =
    some [.ok (Demo.ten8, [⟨1#32, 1#64, .active, ⟨[]⟩⟩]), .ok (Demo.other, [⟨1#32, 1#64, .active, ⟨[]⟩⟩])] ∧
    diskPersistIter (M := Demo.Md) 32 (fun _ =>
      [.error (), .ok (longKeyBytes Demo.other.id 1#32 1#64 .active, [])]) = some [] := by
  exact ⟨by decide +kernel, disk_iteration_stops _ _ rfl⟩

end Rotonda.Props
