import Verif.Proofs.Persist
import Verif.Props.Records

/-!
# Persistence: C29, C30, C31, C32
-/

namespace Rotonda.Props

open Spec Prog

variable {M : Type} {W : Nat} [Meta M]

/-! ## C29 -/

theorem keptOf_recOf {h : History M W} (hn : NoStatusChange h) (p : Prefix W) (m : Mui) :
    keptOf h p m = (recOf h p m).map fun r => ⟨r.ltime, r.status, Meta.toBytes r.md⟩ := by
  induction h with
  | nil => rfl
  | cons op h ih =>
    cases op with
    | insert q r tbi =>
      simp only [keptOf, recOf]
      split
      · rfl
      · exact ih hn
    | withdrawFor q k t => exact absurd hn (by simp [NoStatusChange])
    | activateFor q k t => exact absurd hn (by simp [NoStatusChange])
    | withdraw k => exact ih hn
    | activate k => exact ih hn
    | calcBest q tbi => exact ih hn

/-- C29: with `PersistOnly`, after inserts and global status changes, a record query
shows for each pair the last inserted record, its metadata rebuilt from its bytes,
subject to the withdrawal filters. -/
theorem persist_only_last_write [Fam W] {F : Nat} {h : History M W} {s : Rib M W}
    (hs : exec .persistOnly F h = .ok () s) (hn : NoStatusChange h) (p : Prefix W)
    (mui : Option Mui) (iw : Bool) :
    ∃ o, (ribGetValue .persistOnly p.id mui iw).run s = .ok (.ok o) s ∧
      (o.getD []).Pairwise (fun a b => a.mui ≠ b.mui) ∧
      ∀ r, r ∈ o.getD [] ↔ ∃ r0, recOf h p r.mui = some r0 ∧ (∀ m, mui = some m → r.mui = m) ∧
        match iw with
        | true => r = effective h { r0 with md := Meta.ofBytes (Meta.toBytes r0.md) }
        | false => r = { r0 with md := Meta.ofBytes (Meta.toBytes r0.md) } ∧
            r0.status ≠ .withdrawn ∧ globWd h r.mui = false := by
  obtain ⟨o, hr, ⟨hp, hm⟩, _⟩ := get_records hs p mui iw
  refine ⟨o, hr, hp, fun r => ?_⟩
  rw [hm]
  have hst : ∀ m, storedRec .persistOnly h p m =
      (recOf h p m).map fun r0 => { r0 with md := Meta.ofBytes (Meta.toBytes r0.md) } := by
    intro m
    simp only [storedRec, keptOf_recOf hn]
    cases hr0 : recOf h p m with
    | none => rfl
    | some r0 =>
      have := recOf_mui hr0
      subst this
      rfl
  unfold Shown
  rw [hst]
  constructor
  · rintro ⟨r1, h1, h2, h3⟩
    cases hr0 : recOf h p r.mui with
    | none => rw [hr0] at h1; cases h1
    | some r0 =>
      rw [hr0] at h1
      cases h1
      refine ⟨r0, rfl, h2, ?_⟩
      cases iw with
      | true => exact h3
      | false =>
        obtain ⟨a, b, c⟩ := h3
        refine ⟨a, b, ?_⟩
        rcases c with c | c
        · exact c
        · cases c.1
  · rintro ⟨r0, h1, h2, h3⟩
    refine ⟨_, by rw [h1]; rfl, h2, ?_⟩
    cases iw with
    | true => exact h3
    | false => exact ⟨h3.1, h3.2.1, .inl h3.2.2⟩

/-- C29: the metadata shown has the bytes that were inserted, for metadata types
whose bytes survive the conversion. -/
theorem persist_only_bytes [Fam W] (hlaw : ∀ b, Meta.toBytes (Meta.ofBytes b : M) = b) {F : Nat}
    {h : History M W} {s : Rib M W} (hs : exec .persistOnly F h = .ok () s) (hn : NoStatusChange h)
    (p : Prefix W) (mui : Option Mui) (iw : Bool) :
    ∃ o, (ribGetValue .persistOnly p.id mui iw).run s = .ok (.ok o) s ∧
      ∀ r ∈ o.getD [], ∃ r0, recOf h p r.mui = some r0 ∧
        Meta.toBytes r.md = Meta.toBytes r0.md := by
  obtain ⟨o, hr, _, hm⟩ := persist_only_last_write hs hn p mui iw
  refine ⟨o, hr, fun r hr => ?_⟩
  obtain ⟨r0, h1, _, h3⟩ := (hm r).1 hr
  refine ⟨r0, h1, ?_⟩
  cases iw with
  | true =>
    simp only at h3
    rw [h3]
    unfold effective
    split <;> exact hlaw _
  | false => rw [h3.1]; exact hlaw _

/-- Inserts and global status changes. -/
def plain : History Demo.Md 32 :=
  [.withdraw 2#32, .insert Demo.ten16 (Demo.rec1 2 5 6) none, .insert Demo.ten8 (Demo.rec1 1 4 2) none,
    .insert Demo.ten8 (Demo.rec1 1 3 1) none]

example : NoStatusChange plain ∧ (recOf plain Demo.ten8 1#32 = some (Demo.rec1 1 4 2)) ∧
    (∀ b, Meta.toBytes (Meta.ofBytes b : Demo.Md) = b) ∧
    ∃ s, exec .persistOnly 0 plain = .ok () s := by
  obtain ⟨s, hs, _⟩ := exec_inv .persistOnly 0 plain
  exact ⟨by simp [plain, NoStatusChange], by decide, fun _ => rfl, s, hs⟩

/-! ## C30 -/

/-- C30: with `WriteAhead` the persisted content is: for every prefix, id, time and
status the metadata of the last insert with these, and nothing else. -/
theorem write_ahead [Fam W] {F : Nat} {h : History M W} {s : Rib M W}
    (hs : exec .writeAhead F h = .ok () s) (key value : Bytes) :
    (key, value) ∈ s.lsm ↔ ∃ k, writtenAhead h k = some value ∧ key = k.key := by
  rw [(exec_ok_inv hs).lsm, (lrep_writeAhead h).mem]

/-- C30: the record of every insert is persisted unless a later insert has the same
key. -/
theorem write_ahead_every_insert [Fam W] {F : Nat} {h1 h2 : History M W} {s : Rib M W}
    {p : Prefix W} {r : Record M} {tbi : Option (Meta.TBI M)}
    (hs : exec .writeAhead F (h1 ++ .insert p r tbi :: h2) = .ok () s)
    (hlast : ∀ q r' tbi', Op.insert q r' tbi' ∈ h1 → tagOf q r' ≠ tagOf p r) :
    ((tagOf p r).key, Meta.toBytes r.md) ∈ s.lsm := by
  refine (write_ahead hs _ _).2 ⟨tagOf p r, ?_, rfl⟩
  clear hs
  induction h1 with
  | nil => simp [writtenAhead]
  | cons op h1 ih =>
    have ih := ih (fun q r' t ho => hlast q r' t (List.mem_cons_of_mem _ ho))
    cases op with
    | insert q r' tbi' =>
      simp only [List.cons_append, writtenAhead]
      rw [if_neg (fun e => hlast q r' tbi' (by simp) e.symm), ih]
    | _ => exact ih

/-- C30: only records of inserts are persisted. -/
theorem write_ahead_only_inserts [Fam W] {F : Nat} {h : History M W} {s : Rib M W}
    (hs : exec .writeAhead F h = .ok () s) {key value : Bytes} (hm : (key, value) ∈ s.lsm) :
    ∃ p r tbi, Op.insert p r tbi ∈ h ∧ key = (tagOf p r).key ∧ value = Meta.toBytes r.md := by
  obtain ⟨k, hk, rfl⟩ := (write_ahead hs _ _).1 hm
  clear hs hm
  induction h with
  | nil => cases hk
  | cons op h ih =>
    have lift : writtenAhead h k = some value → ∃ p r tbi, Op.insert p r tbi ∈ op :: h ∧
        k.key = (tagOf p r).key ∧ value = Meta.toBytes r.md := by
      intro hk
      obtain ⟨p, r, t, h1, h2⟩ := ih hk
      exact ⟨p, r, t, List.mem_cons_of_mem _ h1, h2⟩
    cases op with
    | insert p r tbi =>
      simp only [writtenAhead] at hk
      split at hk
      · rename_i c
        cases hk
        exact ⟨p, r, tbi, by simp, by rw [c], rfl⟩
      · exact lift hk
    | _ => exact lift hk

example : (∃ s, exec .writeAhead 0 plain = .ok () s) ∧
    writtenAhead plain (tagOf Demo.ten8 (Demo.rec1 1 3 1)) = some [1#8] ∧
    writtenAhead plain (tagOf Demo.ten8 (Demo.rec1 1 4 2)) = some [2#8] ∧
    writtenAhead plain (tagOf Demo.ten16 (Demo.rec1 1 4 2)) = none := by
  obtain ⟨s, hs, _⟩ := exec_inv .writeAhead 0 plain
  exact ⟨⟨s, hs⟩, by decide, by decide, by decide⟩

/-! ## C31 -/

/-- C31: with `PersistHistory` the persisted content is exactly the superseded
records and the withdrawal markers, provided no pair with a record was activated.
Missing: activations, see `persist_history_activation_fails`. -/
theorem persist_history_partial [Fam W] {F : Nat} {h : History M W} {s : Rib M W}
    (hs : exec .persistHistory F h = .ok () s) (hn : NoActivation h) (key value : Bytes) :
    (key, value) ∈ s.lsm ↔ ∃ k, superseded h k = some value ∧ key = k.key := by
  rw [(exec_ok_inv hs).lsm, (lrep_persistHistory h).mem, supersededCode_eq hn]

/-- C31: what is persisted when there are activations. -/
theorem persist_history_exact [Fam W] {F : Nat} {h : History M W} {s : Rib M W}
    (hs : exec .persistHistory F h = .ok () s) (key value : Bytes) :
    (key, value) ∈ s.lsm ↔ ∃ k, supersededCode h k = some value ∧ key = k.key := by
  rw [(exec_ok_inv hs).lsm, (lrep_persistHistory h).mem]

/-- C31: a record that an insert replaces is persisted unchanged, at least until
something with the same key is persisted. -/
theorem persist_history_replaced [Fam W] {F : Nat} {h : History M W} {s : Rib M W} {p : Prefix W}
    {r old : Record M} {tbi : Option (Meta.TBI M)} (hold : recOf h p r.mui = some old)
    (hs : exec .persistHistory F (.insert p r tbi :: h) = .ok () s) :
    ((tagOf p old).key, Meta.toBytes old.md) ∈ s.lsm := by
  refine (persist_history_exact hs _ _).2 ⟨tagOf p old, ?_, rfl⟩
  simp only [supersededCode, hold, if_true]

/-- C31 is false: the activation of a pair persists a withdrawn record. -/
theorem persist_history_activation_fails : ∃ s,
    exec .persistHistory 0 [.activateFor Demo.ten8 1#32 5#64, .insert Demo.ten8 (Demo.rec1 1 3 1) none]
      = .ok () s ∧
    ((⟨Demo.ten8, 1#32, 5#64, .withdrawn⟩ : Tag 32).key, []) ∈ s.lsm := by
  obtain ⟨s, hs, _⟩ := exec_inv .persistHistory 0
    [.activateFor Demo.ten8 1#32 5#64, .insert Demo.ten8 (Demo.rec1 1 3 1) none]
  refine ⟨s, hs, (persist_history_exact hs _ _).2 ⟨⟨Demo.ten8, 1#32, 5#64, .withdrawn⟩, ?_, rfl⟩⟩
  decide

/-- Replacement and withdrawal. -/
def replaced : History Demo.Md 32 :=
  [.withdrawFor Demo.ten8 1#32 9#64, .insert Demo.ten8 (Demo.rec1 1 4 2) none,
    .insert Demo.ten8 (Demo.rec1 1 3 1) none]

example : NoActivation replaced ∧
    superseded replaced (tagOf Demo.ten8 (Demo.rec1 1 3 1)) = some [1#8] ∧
    superseded replaced (tagOf Demo.ten8 (Demo.rec1 1 4 2)) = none ∧
    superseded replaced ⟨Demo.ten8, 1#32, 9#64, .withdrawn⟩ = some [] ∧
    ∃ s, exec .persistHistory 0 replaced = .ok () s := by
  obtain ⟨s, hs, _⟩ := exec_inv .persistHistory 0 replaced
  exact ⟨by simp [replaced, NoActivation], by decide, by decide, by decide, s, hs⟩

/-! ## C32 -/

/-- What is persisted by the strategies with long keys. -/
def persistedBy (st : Strategy) (h : History M W) : Tag W → Option Bytes :=
  match st with
  | .writeAhead => writtenAhead h
  | .persistHistory => supersededCode h
  | _ => fun _ => none

theorem lrep_persistedBy [Fam W] {st : Strategy} (hst : st ≠ .persistOnly) (h : History M W) :
    LRep (persistedBy st h) (lsmOf st h) := by
  cases st with
  | writeAhead => exact lrep_writeAhead h
  | persistHistory => exact lrep_persistHistory h
  | memoryOnly => rw [lsmOf_memoryOnly]; exact LRep.empty
  | persistOnly => exact absurd rfl hst

/-- The iteration over records with long keys, when the first record of each prefix has no
metadata. -/
theorem iter_complete [Fam W] {st : Strategy} (hmo : st ≠ .memoryOnly) {s : Rib M W}
    {g : Tag W → Option Bytes} (hrep : LRep g s.lsm)
    (hfirst : ∀ k b, g k = some b →
      (∀ k', g k' ≠ none → k'.pfx = k.pfx → k' ≠ k → bytesLt k.key k'.key = true) → b = []) :
    ∃ l : List (PrefixRecord M W),
      (ribPersistPrefixesIter st).run s = .ok (l.map .ok) s ∧ (l.map Prod.fst).Nodup ∧
      (∀ q, (∃ rs, (q, rs) ∈ l) ↔ ∃ k b, k.pfx = q ∧ g k = some b) ∧
      ∀ q rs, (q, rs) ∈ l → ∃ ks : List (Tag W × Bytes), ks.Nodup ∧
        (∀ k b, (k, b) ∈ ks ↔ k.pfx = q ∧ g k = some b) ∧
        rs = ks.map fun x => x.1.record x.2 := by
  obtain ⟨L, gs, hsort, hmem, hG, hrun⟩ := run_persistIter_long (M := M) hmo hrep
  obtain ⟨l, rfl, hnd, hq, hrs⟩ := groups_complete hG hsort (fun e he hmin =>
    hfirst e.1 e.2 ((hmem e).1 he) fun k' hk' hp hne => by
      cases hb : g k' with
      | none => exact absurd hb hk'
      | some b =>
        exact hmin (k', b) ((hmem (k', b)).2 hb) hp (fun c => hne (congrArg Prod.fst c)))
  refine ⟨l.map fun x => (x.1, x.2.map fun e => e.1.record e.2), ?_, ?_, ?_, ?_⟩
  · rw [hrun]
    congr 1
    rw [List.map_map, List.map_map]
    rfl
  · rw [List.map_map]
    exact hnd
  · intro q
    constructor
    · rintro ⟨rs, hm⟩
      obtain ⟨⟨q', y⟩, hx, he⟩ := List.mem_map.1 hm
      cases he
      obtain ⟨e, he, hp⟩ := (hq q').1 ⟨y, hx⟩
      exact ⟨e.1, e.2, hp, (hmem e).1 he⟩
    · rintro ⟨k, b, hp, hk⟩
      obtain ⟨y, hg⟩ := (hq q).2 ⟨(k, b), (hmem (k, b)).2 hk, hp⟩
      exact ⟨_, List.mem_map.2 ⟨(q, y), hg, rfl⟩⟩
  · intro q rs hm
    obtain ⟨⟨q', y⟩, hx, he⟩ := List.mem_map.1 hm
    cases he
    obtain ⟨h1, h2⟩ := hrs q' y hx
    refine ⟨y, h1, fun k b => ?_, rfl⟩
    rw [h2]
    constructor
    · rintro ⟨h3, h4⟩; exact ⟨h4, (hmem (k, b)).1 h3⟩
    · rintro ⟨h3, h4⟩; exact ⟨(hmem (k, b)).2 h4, h3⟩

/-- Whatever the metadata, the items that are not errors are right. -/
theorem iter_sound [Fam W] {st : Strategy} (hmo : st ≠ .memoryOnly) {s : Rib M W}
    {g : Tag W → Option Bytes} (hrep : LRep g s.lsm) :
    ∃ l : List (FatalResult (PrefixRecord M W)),
      (ribPersistPrefixesIter st).run s = .ok l s ∧
      ∀ q rs, .ok (q, rs) ∈ l → ∀ r ∈ rs, ∃ k b, k.pfx = q ∧ g k = some b ∧ r = k.record b := by
  obtain ⟨L, gs, _, hmem, hG, hrun⟩ := run_persistIter_long (M := M) hmo hrep
  refine ⟨_, hrun, fun q rs hm r hr => ?_⟩
  obtain ⟨x, hx, he⟩ := List.mem_map.1 hm
  cases x with
  | error e => cases he
  | ok x =>
    obtain ⟨p, y⟩ := x
    simp only [groupRecords, Except.ok.injEq, Prod.mk.injEq] at he
    obtain ⟨rfl, rfl⟩ := he
    obtain ⟨_, h2, h3, _⟩ := groups_cons hG p y hx
    obtain ⟨e, heg, rfl⟩ := List.mem_map.1 hr
    exact ⟨e.1, e.2, h2 e heg, (hmem e).1 (h3 e heg), rfl⟩

/-- C32: if the first persisted record of each prefix has no metadata, the iteration
yields every persisted prefix once with all its persisted records and no errors.
Missing: any metadata in the first record, and `PersistOnly`; see
`persist_iter_fails` and `persist_iter_persist_only_fails`. -/
theorem persist_iter_partial [Fam W] {st : Strategy} (hst : st ≠ .persistOnly) {F : Nat}
    {h : History M W} {s : Rib M W} (hs : exec st F h = .ok () s)
    (hfirst : ∀ k b, persistedBy st h k = some b →
      (∀ k', persistedBy st h k' ≠ none → k'.pfx = k.pfx → k' ≠ k → bytesLt k.key k'.key = true) →
      b = []) :
    ∃ l : List (PrefixRecord M W),
      (ribPersistPrefixesIter st).run s = .ok (l.map .ok) s ∧ (l.map Prod.fst).Nodup ∧
      (∀ q, (∃ rs, (q, rs) ∈ l) ↔ ∃ k b, k.pfx = q ∧ persistedBy st h k = some b) ∧
      ∀ q rs, (q, rs) ∈ l → ∃ ks : List (Tag W × Bytes), ks.Nodup ∧
        (∀ k b, (k, b) ∈ ks ↔ k.pfx = q ∧ persistedBy st h k = some b) ∧
        rs = ks.map fun x => x.1.record x.2 := by
  by_cases hmo : st = .memoryOnly
  · subst hmo
    exact ⟨[], rfl, by simp, by simp [persistedBy], by simp⟩
  exact iter_complete hmo (by rw [(exec_ok_inv hs).lsm]; exact lrep_persistedBy hst h) hfirst

/-- C32: whatever the metadata, every item that is not an error is a prefix with
persisted records of that prefix. -/
theorem persist_iter_sound [Fam W] {st : Strategy} (hst : st ≠ .persistOnly) {F : Nat}
    {h : History M W} {s : Rib M W} (hs : exec st F h = .ok () s) :
    ∃ l : List (FatalResult (PrefixRecord M W)),
      (ribPersistPrefixesIter st).run s = .ok l s ∧
      ∀ q rs, .ok (q, rs) ∈ l → ∀ r ∈ rs, ∃ k b, k.pfx = q ∧ persistedBy st h k = some b ∧
        r = k.record b := by
  by_cases hmo : st = .memoryOnly
  · subst hmo
    exact ⟨[], rfl, by simp⟩
  exact iter_sound hmo (by rw [(exec_ok_inv hs).lsm]; exact lrep_persistedBy hst h)

/-- C32 is false: with `WriteAhead` a single record with metadata makes the iteration
yield an error instead of the record. -/
theorem persist_iter_fails : ∃ s,
    exec .writeAhead 0 [.insert Demo.ten8 (Demo.rec1 1 3 1) none] = .ok () s ∧
    (ribPersistPrefixesIter (M := Demo.Md) (W := 32) .writeAhead).run s = .ok [.error ()] s := by
  obtain ⟨s, hs, hi⟩ := exec_inv .writeAhead 0
    ([.insert Demo.ten8 (Demo.rec1 1 3 1) none] : History Demo.Md 32)
  refine ⟨s, hs, run_persistIter (by decide) (gs := [[.error ()]]) ?_ rfl⟩
  rw [hi.lsm]
  decide

/-- C32 is false: with `PersistOnly` two prefixes without any metadata are yielded as
one error. -/
theorem persist_iter_persist_only_fails : ∃ s,
    exec .persistOnly 0 [.insert Demo.ten16 ⟨1#32, 3#64, .active, ⟨[]⟩⟩ none,
      .insert Demo.ten8 ⟨1#32, 3#64, .active, ⟨[]⟩⟩ none] = .ok () s ∧
    (ribPersistPrefixesIter (M := Demo.Md) (W := 32) .persistOnly).run s = .ok [.error ()] s := by
  obtain ⟨s, hs, hi⟩ := exec_inv .persistOnly 0
    ([.insert Demo.ten16 ⟨1#32, 3#64, .active, ⟨[]⟩⟩ none,
      .insert Demo.ten8 ⟨1#32, 3#64, .active, ⟨[]⟩⟩ none] : History Demo.Md 32)
  refine ⟨s, hs, ?_⟩
  have : ∃ gs, lsmPrefixesIter 32 s.lsm = some gs ∧
      gs.map (persistGroupRecord (M := Demo.Md) 32) = [.error ()] := by
    rw [hi.lsm]
    exact ⟨_, rfl, by decide⟩
  obtain ⟨gs, h1, h2⟩ := this
  exact run_persistIter (by decide) h1 (by rw [h2]; rfl)

/-- A withdrawal marker, then a record with metadata, for one prefix. -/
def marked : History Demo.Md 32 :=
  [.insert Demo.ten8 (Demo.rec1 2 9 1) none, .insert Demo.ten8 (Demo.rec1 2 9 5) none,
    .withdrawFor Demo.ten8 1#32 3#64, .insert Demo.ten8 ⟨1#32, 3#64, .active, ⟨[]⟩⟩ none]

/-- The hypothesis of `persist_iter_partial` allows metadata. -/
example : persistedBy .persistHistory marked (tagOf Demo.ten8 (Demo.rec1 2 9 5)) = some [5#8] ∧
    ∀ k b, persistedBy .persistHistory marked k = some b →
      (∀ k', persistedBy .persistHistory marked k' ≠ none → k'.pfx = k.pfx → k' ≠ k →
        bytesLt k.key k'.key = true) → b = [] := by
  refine ⟨by decide, fun k b hk hmin => ?_⟩
  by_cases h1 : k = ⟨Demo.ten8, 1#32, 3#64, .withdrawn⟩
  · subst h1
    have : persistedBy .persistHistory marked ⟨Demo.ten8, 1#32, 3#64, .withdrawn⟩ = some [] := by
      decide
    rw [this] at hk
    cases hk; rfl
  · by_cases h2 : k = tagOf Demo.ten8 (Demo.rec1 2 9 5)
    · subst h2
      have := hmin ⟨Demo.ten8, 1#32, 3#64, .withdrawn⟩ (by decide) rfl (by decide)
      exact absurd this (by decide)
    · have hno : persistedBy .persistHistory marked k = none := by
        have r1 : recOf (marked.drop 1) Demo.ten8 2#32 = some (Demo.rec1 2 9 5) := by decide
        have r2 : recOf (marked.drop 2) Demo.ten8 2#32 = none := by decide
        have r3 : recOf (marked.drop 3) Demo.ten8 1#32 ≠ none := by decide
        have r4 : recOf (marked.drop 4) Demo.ten8 1#32 = none := by decide
        simp only [marked, List.drop_succ_cons, List.drop_zero] at r1 r2 r3 r4
        simp only [persistedBy, marked, supersededCode]
        simp only [Demo.rec1] at r1 r2 h2 ⊢
        simp only [r1, r2, r4, h1, false_and, if_false]
        rw [if_neg h2]
      rw [hno] at hk; cases hk

end Rotonda.Props
