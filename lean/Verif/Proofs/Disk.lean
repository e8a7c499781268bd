import Verif.Spec.Disk
import Verif.Proofs.QuerySeq

/-!
# Reading from a faulty disk
-/

namespace Rotonda

open Prog Spec

variable {M : Type} [Meta M] {W : Nat}

/-! ## Decoding -/

theorem natToLE_leToNat (l : Bytes) : natToLE l.length (leToNat l) = l := by
  induction l with
  | nil => rfl
  | cons b l ih =>
    have hb : b.toNat < 256 := b.isLt
    simp only [List.length_cons, natToLE, leToNat]
    rw [Nat.add_mul_div_left _ _ (by omega), Nat.div_eq_of_lt hb, Nat.zero_add, ih]
    congr 1
    apply BitVec.eq_of_toNat_eq
    rw [BitVec.toNat_ofNat]
    have : (2 : Nat) ^ 8 = 256 := rfl
    rw [this, Nat.add_mul_mod_self_left, Nat.mod_eq_of_lt hb]

theorem leToNat_lt (l : Bytes) : leToNat l < 256 ^ l.length := by
  induction l with
  | nil => simp [leToNat]
  | cons b l ih =>
    have hb : b.toNat < 256 := b.isLt
    simp only [List.length_cons, leToNat, Nat.pow_succ']
    have : 256 * (leToNat l + 1) ≤ 256 * 256 ^ l.length := Nat.mul_le_mul_left _ ih
    omega

theorem status_toByte_ofByte {b : Byte} {st : RouteStatus} (h : RouteStatus.ofByte b = some st) :
    st.toByte = b := by
  unfold RouteStatus.ofByte at h
  split at h
  · cases h; rename_i h1; exact h1.symm
  · split at h
    · cases h; rename_i h1; exact h1.symm
    · split at h
      · cases h; rename_i h1; exact h1.symm
      · cases h

/-- What is read was written. -/
theorem decodeRecord_some [hW : Fam W] {b : Bytes} {z : ZRec W} (h : decodeRecord W b = some z) :
    z.pfx.len < 256 ∧ b = longKeyBytes z.pfx z.mui z.ltime z.status ++ z.md := by
  unfold decodeRecord at h
  split at h
  · rename_i hl
    obtain ⟨st, hst, rfl⟩ := Option.map_eq_some_iff.1 h
    have hk : keySize W = W / 8 + 14 := rfl
    rw [hk] at hl
    refine ⟨(b.getD 0 0#8).isLt, ?_⟩
    have h8 : 8 * (W / 8) = W := by rcases hW.width with rfl | rfl <;> rfl
    -- the parts
    have e1 : ((b.drop 1).take (W / 8)).reverse.length = W / 8 := by simp; omega
    have e2 : ((b.drop (W / 8 + 1)).take 4).length = 4 := by simp; omega
    have e3 : ((b.drop (W / 8 + 5)).take 8).length = 8 := by simp; omega
    have p1 : natToLE (W / 8) (BitVec.ofNat W (leToNat ((b.drop 1).take (W / 8)).reverse)).toNat =
        ((b.drop 1).take (W / 8)).reverse := by
      have := leToNat_lt ((b.drop 1).take (W / 8)).reverse
      rw [e1, pow256, h8] at this
      rw [BitVec.toNat_ofNat, Nat.mod_eq_of_lt this]
      conv => lhs; arg 1; rw [← e1]
      exact natToLE_leToNat _
    have p2 : natToLE 4 (BitVec.ofNat 32 (leToNat ((b.drop (W / 8 + 1)).take 4))).toNat =
        (b.drop (W / 8 + 1)).take 4 := by
      have := leToNat_lt ((b.drop (W / 8 + 1)).take 4)
      rw [e2, pow256] at this
      rw [BitVec.toNat_ofNat, Nat.mod_eq_of_lt this]
      conv => lhs; arg 1; rw [← e2]
      exact natToLE_leToNat _
    have p3 : natToLE 8 (BitVec.ofNat 64 (leToNat ((b.drop (W / 8 + 5)).take 8))).toNat =
        (b.drop (W / 8 + 5)).take 8 := by
      have := leToNat_lt ((b.drop (W / 8 + 5)).take 8)
      rw [e3, pow256] at this
      rw [BitVec.toNat_ofNat, Nat.mod_eq_of_lt this]
      conv => lhs; arg 1; rw [← e3]
      exact natToLE_leToNat _
    have p0 : BitVec.ofNat 8 (b.getD 0 0#8).toNat = b.getD 0 0#8 := by simp
    simp only [longKeyBytes, shortKeyBytes, prefixBytes, headerBytes, p0, p1, p2, p3,
      status_toByte_ofByte hst, List.reverse_reverse]
    have split : ∀ i k, b.drop i = (b.drop i).take k ++ b.drop (i + k) := by
      intro i k
      rw [← List.drop_drop, List.take_append_drop]
    have d0 : b = b.getD 0 0#8 :: b.drop 1 := by
      cases b with
      | nil => simp at hl
      | cons x l => simp
    have d4 : b.drop (W / 8 + 13) = b.getD (W / 8 + 13) 0#8 :: b.drop (W / 8 + 14) := by
      rw [List.drop_eq_getElem_cons (by omega)]
      congr 1
      rw [List.getD_eq_getElem?_getD, List.getElem?_eq_getElem (by omega)]
      rfl
    conv => lhs; rw [d0, split 1 (W / 8), Nat.add_comm 1, split (W / 8 + 1) 4, split (W / 8 + 5) 8, d4]
    simp [hk]
  · cases h

theorem sound_iff [Fam W] {kv : Bytes × Bytes} :
    Sound W kv ↔ ∃ z, decodeRecord W (kv.1 ++ kv.2) = some z := by
  constructor
  · rintro ⟨p, m, t, st, md, hp, h⟩
    exact ⟨_, by rw [h, decodeRecord_encode hp]⟩
  · rintro ⟨z, hz⟩
    obtain ⟨h1, h2⟩ := decodeRecord_some hz
    exact ⟨_, _, _, _, _, h1, h2⟩

theorem holdsRecord_iff [Fam W] {kv : Bytes × Bytes} {r : Record M} :
    HoldsRecord W kv r ↔ ∃ z, decodeRecord W (kv.1 ++ kv.2) = some z ∧ r = z.toRecord := by
  constructor
  · rintro ⟨p, md, hp, hmd, h⟩
    refine ⟨_, by rw [h, decodeRecord_encode hp], ?_⟩
    cases r
    simp only at hmd
    simp [ZRec.toRecord, hmd]
  · rintro ⟨z, hz, rfl⟩
    obtain ⟨h1, h2⟩ := decodeRecord_some hz
    exact ⟨z.pfx, z.md, h1, rfl, h2⟩

theorem not_sound_of_short [Fam W] {kv : Bytes × Bytes} (h : Short W kv) : ¬ Sound W kv := by
  rintro ⟨p, m, t, st, md, _, he⟩
  unfold Short at h
  rw [he, List.length_append, longKeyBytes_length] at h
  unfold keySize at h
  omega

theorem decodeHeader_take [Fam W] {b : Bytes} (h : keySize W ≤ b.length) :
    decodeHeader W (b.take (keySize W)) = (decodeRecord W b).map fun z => { z with md := [] } := by
  cases hz : decodeRecord W b with
  | some z =>
    obtain ⟨h1, h2⟩ := decodeRecord_some hz
    rw [h2, List.take_left' (by simp), decodeHeader_encode h1]
    rfl
  | none =>
    unfold decodeHeader
    rw [if_pos (by rw [List.length_take]; omega)]
    cases hz' : decodeRecord W (b.take (keySize W)) with
    | none => rfl
    | some z =>
      obtain ⟨h1, h2⟩ := decodeRecord_some hz'
      have hb : b = longKeyBytes z.pfx z.mui z.ltime z.status ++ (z.md ++ b.drop (keySize W)) := by
        rw [← List.append_assoc, ← h2, List.take_append_drop]
      rw [hb, decodeRecord_encode h1] at hz
      cases hz

/-! ## The records of the entries -/

/-- What is shown of an entry. -/
def entryShown (W : Nat) (wd : Mui → Bool) (iw : Bool) (kv : Bytes × Bytes) :
    Option (FatalResult (Record M)) :=
  match decodeRecord W (kv.1 ++ kv.2) with
  | none => some (.error ())
  | some z =>
    if iw then some (.ok (shownAs (wd z.mui) z.toRecord))
    else if z.status = .withdrawn ∨ wd z.mui = true then none else some (.ok z.toRecord)

theorem includeEntry_long [Fam W] {wd : Mui → Bool} {kv : Bytes × Bytes} (h : ¬ Short W kv) :
    ∃ y, includeEntry W wd kv = some y ∧
      entryShown (M := M) W wd true kv = some (decodeEntry W y) := by
  unfold Short at h
  have hk : keySize W ≤ (kv.1 ++ kv.2).length := by unfold keySize; omega
  simp only [includeEntry, if_neg (Nat.not_lt.2 hk), decodeHeader_take hk]
  unfold entryShown
  cases hz : decodeRecord W (kv.1 ++ kv.2) with
  | none => exact ⟨_, rfl, rfl⟩
  | some z =>
    obtain ⟨h1, h2⟩ := decodeRecord_some hz
    simp only [Option.map_some, if_true]
    refine ⟨_, rfl, ?_⟩
    cases hw : wd z.mui with
    | false =>
      simp only [Bool.false_eq_true, if_false, shownAs, decodeEntry, hz]
    | true =>
      simp only [if_true, shownAs, decodeEntry]
      have : (kv.1 ++ kv.2).set (keySize W - 1) RouteStatus.withdrawn.toByte =
          longKeyBytes z.pfx z.mui z.ltime .withdrawn ++ z.md := by
        rw [h2]
        exact set_status _ _ _ _ _ _
      rw [this, decodeRecord_encode h1]
      rfl

theorem excludeEntry_long [Fam W] {wd : Mui → Bool} {kv : Bytes × Bytes} (h : ¬ Short W kv) :
    ∃ y, excludeEntry W wd kv = some y ∧
      entryShown (M := M) W wd false kv = y.map (decodeEntry W) := by
  unfold Short at h
  have hk : keySize W ≤ (kv.1 ++ kv.2).length := by unfold keySize; omega
  simp only [excludeEntry, if_neg (Nat.not_lt.2 hk), decodeHeader_take hk]
  unfold entryShown
  cases hz : decodeRecord W (kv.1 ++ kv.2) with
  | none => exact ⟨_, rfl, rfl⟩
  | some z =>
    simp only [Option.map_some, Bool.false_eq_true, if_false]
    refine ⟨_, rfl, ?_⟩
    split
    · rfl
    · simp only [Option.map_some, decodeEntry, hz]

theorem include_list [Fam W] {wd : Mui → Bool} {kvs : List (Bytes × Bytes)}
    (h : ∀ kv ∈ kvs, ¬ Short W kv) :
    ∃ L, kvs.mapM (includeEntry W wd) = some L ∧
      kvs.filterMap (entryShown (M := M) W wd true) = L.map (decodeEntry W) := by
  induction kvs with
  | nil => exact ⟨[], rfl, rfl⟩
  | cons kv kvs ih =>
    obtain ⟨L, h1, h2⟩ := ih fun x hx => h x (List.mem_cons_of_mem _ hx)
    obtain ⟨y, h3, h4⟩ := includeEntry_long (M := M) (wd := wd) (h kv List.mem_cons_self)
    refine ⟨y :: L, ?_, ?_⟩
    · rw [List.mapM_cons, h3, h1]; rfl
    · rw [List.filterMap_cons, h4, h2]; rfl

theorem exclude_list [Fam W] {wd : Mui → Bool} {kvs : List (Bytes × Bytes)}
    (h : ∀ kv ∈ kvs, ¬ Short W kv) :
    ∃ L, kvs.mapM (excludeEntry W wd) = some L ∧
      kvs.filterMap (entryShown (M := M) W wd false) = (L.filterMap id).map (decodeEntry W) := by
  induction kvs with
  | nil => exact ⟨[], rfl, rfl⟩
  | cons kv kvs ih =>
    obtain ⟨L, h1, h2⟩ := ih fun x hx => h x (List.mem_cons_of_mem _ hx)
    obtain ⟨y, h3, h4⟩ := excludeEntry_long (M := M) (wd := wd) (h kv List.mem_cons_self)
    refine ⟨y :: L, ?_, ?_⟩
    · rw [List.mapM_cons, h3, h1]; rfl
    · rw [List.filterMap_cons, h4, h2]
      cases y <;> rfl

omit [Meta M] in
theorem mapM_decode_eq {α : Type} (f : α → FatalResult (Record M)) (L : List α) :
    L.mapM f = collectFatal (L.map f) := by
  induction L with
  | nil => rfl
  | cons a L ih =>
    rw [List.mapM_cons, List.map_cons, ih]
    cases f a with
    | error e => rfl
    | ok b =>
      simp only [collectFatal]
      cases collectFatal (L.map f) <;> rfl

theorem collectFatal_error {α : Type} {l : List (FatalResult α)} (h : .error () ∈ l) :
    collectFatal l = .error () := by
  induction l with
  | nil => cases h
  | cons a l ih =>
    cases a with
    | error e => rfl
    | ok a =>
      rcases List.mem_cons.1 h with h | h
      · cases h
      · simp only [collectFatal, ih h]

/-! ## Scans with errors -/

theorem eachEntry_ok {β : Type} (f : Bytes × Bytes → Option β) (kvs : List (Bytes × Bytes)) :
    eachEntry f (kvs.map .ok) = (kvs.mapM f).map fun L => L.map .ok := by
  unfold eachEntry
  induction kvs with
  | nil => rfl
  | cons kv kvs ih =>
    rw [List.map_cons, List.mapM_cons, ih, List.mapM_cons]
    dsimp only
    cases f kv with
    | none => rfl
    | some y => cases kvs.mapM f <;> rfl

theorem allOk_ok {β : Type} (L : List β) : allOk (L.map .ok) = some L := by
  induction L with
  | nil => rfl
  | cons a L ih => simp only [List.map_cons, allOk, ih, Option.map_some]

theorem transposed_ok {β : Type} (L : List (Option β)) :
    (L.map .ok).filterMap transposed = (L.filterMap id).map .ok := by
  induction L with
  | nil => rfl
  | cons a L ih =>
    rw [List.map_cons, List.filterMap_cons, ih]
    cases a <;> rfl

theorem allOk_error {β : Type} {L : List (Except Unit β)} (h : .error () ∈ L) : allOk L = none := by
  induction L with
  | nil => cases h
  | cons a L ih =>
    cases a with
    | error e => rfl
    | ok a =>
      rcases List.mem_cons.1 h with h | h
      · cases h
      · simp only [allOk, ih h, Option.map_none]

theorem eachEntry_total {β : Type} {f : Bytes × Bytes → Option β} {items : List DiskItem}
    (h : ∀ kv, .ok kv ∈ items → ∃ y, f kv = some y) :
    ∃ L, eachEntry f items = some L ∧ (.error () ∈ items → .error () ∈ L) := by
  unfold eachEntry
  induction items with
  | nil => exact ⟨[], rfl, fun h => by cases h⟩
  | cons it items ih =>
    obtain ⟨L, h1, h2⟩ := ih fun kv hkv => h kv (List.mem_cons_of_mem _ hkv)
    cases it with
    | error e => exact ⟨.error e :: L, by rw [List.mapM_cons, h1]; rfl, fun _ => List.mem_cons_self⟩
    | ok kv =>
      obtain ⟨y, hy⟩ := h kv List.mem_cons_self
      refine ⟨.ok y :: L, by rw [List.mapM_cons, h1]; dsimp only; rw [hy]; rfl, fun hm => ?_⟩
      rcases List.mem_cons.1 hm with hm | hm
      · cases hm
      · exact List.mem_cons_of_mem _ (h2 hm)

theorem eachEntry_panic {β : Type} {f : Bytes × Bytes → Option β} {items : List DiskItem}
    {kv : Bytes × Bytes} (hm : .ok kv ∈ items) (h : f kv = none) : eachEntry f items = none := by
  unfold eachEntry
  induction items with
  | nil => cases hm
  | cons it items ih =>
    rw [List.mapM_cons]
    rcases List.mem_cons.1 hm with rfl | hm
    · simp only [h, Option.map_none]; rfl
    · rw [ih hm]
      cases it with
      | error e => rfl
      | ok kv' => dsimp only; cases f kv' <;> rfl

theorem items_cases (items : List DiskItem) :
    .error () ∈ items ∨ ∃ kvs : List (Bytes × Bytes), items = kvs.map .ok := by
  induction items with
  | nil => exact .inr ⟨[], rfl⟩
  | cons it items ih =>
    cases it with
    | error e => exact .inl List.mem_cons_self
    | ok kv =>
      rcases ih with h | ⟨kvs, rfl⟩
      · exact .inl (List.mem_cons_of_mem _ h)
      · exact .inr ⟨kv :: kvs, rfl⟩

theorem includeEntry_total {wd : Mui → Bool} {kv : Bytes × Bytes} (h : ¬ Short W kv) :
    ∃ y, includeEntry W wd kv = some y := by
  have hk : ¬ (kv.1 ++ kv.2).length < keySize W := h
  simp only [includeEntry, if_neg hk]
  exact ⟨_, rfl⟩

theorem excludeEntry_total {wd : Mui → Bool} {kv : Bytes × Bytes} (h : ¬ Short W kv) :
    ∃ y, excludeEntry W wd kv = some y := by
  have hk : ¬ (kv.1 ++ kv.2).length < keySize W := h
  simp only [excludeEntry, if_neg hk]
  exact ⟨_, rfl⟩

theorem diskRecords_key (D : Disk) (p : PrefixId W) (mui : Option Mui) (iw : Bool)
    (wd : Mui → Bool) :
    diskRecordsForPrefix D p mui iw wd =
      match iw with
      | true => (eachEntry (includeEntry W wd) (D (keyOf p mui))).map fun l =>
          (allOk l).bind noneIfEmpty
      | false => (eachEntry (excludeEntry W wd) (D (keyOf p mui))).map fun l =>
          (allOk (l.filterMap transposed)).bind noneIfEmpty := by
  cases mui <;> rfl

theorem diskRecords_error {D : Disk} {p : PrefixId W} {mui : Option Mui} {iw : Bool}
    {wd : Mui → Bool} (hl : ∀ kv, .ok kv ∈ D (keyOf p mui) → ¬ Short W kv)
    (he : .error () ∈ D (keyOf p mui)) : diskRecordsForPrefix D p mui iw wd = some none := by
  rw [diskRecords_key]
  cases iw with
  | true =>
    obtain ⟨L, h1, h2⟩ := eachEntry_total (f := includeEntry W wd) fun kv hkv =>
      includeEntry_total (hl kv hkv)
    simp only [h1, Option.map_some, allOk_error (h2 he), Option.bind_none]
  | false =>
    obtain ⟨L, h1, h2⟩ := eachEntry_total (f := excludeEntry W wd) fun kv hkv =>
      excludeEntry_total (hl kv hkv)
    have : (.error () : Except Unit (FatalResult Bytes)) ∈ L.filterMap transposed :=
      List.mem_filterMap.2 ⟨_, h2 he, rfl⟩
    simp only [h1, Option.map_some, allOk_error this, Option.bind_none]

theorem diskRecords_panic {D : Disk} {p : PrefixId W} {mui : Option Mui} {iw : Bool}
    {wd : Mui → Bool} {kv : Bytes × Bytes} (hm : .ok kv ∈ D (keyOf p mui)) (h : Short W kv) :
    diskRecordsForPrefix D p mui iw wd = none := by
  have hk : (kv.1 ++ kv.2).length < keySize W := h
  rw [diskRecords_key]
  cases iw with
  | true =>
    simp only [eachEntry_panic (f := includeEntry W wd) hm (by simp only [includeEntry, if_pos hk]),
      Option.map_none]
  | false =>
    simp only [eachEntry_panic (f := excludeEntry W wd) hm (by simp only [excludeEntry, if_pos hk]),
      Option.map_none]

theorem diskRecords_ok [Fam W] {D : Disk} {p : PrefixId W} {mui : Option Mui} {iw : Bool}
    {wd : Mui → Bool} {kvs : List (Bytes × Bytes)} (hl : ∀ kv ∈ kvs, ¬ Short W kv)
    (he : D (keyOf p mui) = kvs.map .ok) : ∃ L, diskRecordsForPrefix D p mui iw wd =
      some (noneIfEmpty L) ∧ kvs.filterMap (entryShown (M := M) W wd iw) = L.map (decodeEntry W) := by
  rw [diskRecords_key, he]
  cases iw with
  | true =>
    obtain ⟨L, h1, h2⟩ := include_list (M := M) (wd := wd) hl
    exact ⟨L, by simp only [eachEntry_ok, h1, Option.map_some, allOk_ok, Option.bind_some], h2⟩
  | false =>
    obtain ⟨L, h1, h2⟩ := exclude_list (M := M) (wd := wd) hl
    exact ⟨L.filterMap id, by simp only [eachEntry_ok, h1, Option.map_some, transposed_ok, allOk_ok,
      Option.bind_some], h2⟩

/-! ## The records of a prefix -/

theorem run_wd (s : Rib M W) : (withdrawnMuis.zoom Rib.treeL : Prog (Rib M W) (Mui → Bool)).run s =
    .ok s.tree.wd.set s := by
  rw [run_tree]
  rfl

theorem run_diskGetValue_panic {D : Disk} {p : PrefixId W} {mui : Option Mui} {iw : Bool}
    {s : Rib M W} {kv : Bytes × Bytes} (hm : .ok kv ∈ D (keyOf p mui)) (h : Short W kv) :
    (diskGetValue D mui iw p).run s = .panic := by
  unfold diskGetValue
  rw [run_bind, run_wd]
  simp only [Outcome.andThen, diskRecords_panic hm h, ofOption]
  rfl

theorem entryShown_sound [Fam W] {wd : Mui → Bool} {iw : Bool} {kvs : List (Bytes × Bytes)}
    {l : List (Record M)} (h : List.Forall₂ (fun kv r => HoldsRecord W kv r) kvs l) :
    kvs.filterMap (entryShown W wd iw) = (shownOf wd iw l).map .ok := by
  induction h with
  | nil => cases iw <;> rfl
  | cons hr _ ih =>
    obtain ⟨z, hz, rfl⟩ := holdsRecord_iff.1 hr
    rw [List.filterMap_cons, ih]
    unfold entryShown shownOf
    rw [hz]
    cases iw with
    | true => simp only [if_true, List.map_cons]; rfl
    | false =>
      simp only [Bool.false_eq_true, if_false, List.filter_cons]
      have e1 : (ZRec.toRecord (M := M) z).status = z.status := rfl
      have e2 : (ZRec.toRecord (M := M) z).mui = z.mui := rfl
      rw [e1, e2]
      by_cases h1 : z.status = .withdrawn
      · simp [h1]
      · cases h2 : wd z.mui <;> simp [h1]

theorem run_diskGetValue [Fam W] {D : Disk} {p : PrefixId W} {mui : Option Mui} {iw : Bool}
    (s : Rib M W) (hl : ∀ kv, .ok kv ∈ D (keyOf p mui) → ¬ Short W kv) :
    ∃ a, (diskGetValue D mui iw p).run s = .ok a s ∧
      DiskAnswer W (D (keyOf p mui)) s.tree.wd.set iw a := by
  unfold diskGetValue
  rw [run_bind, run_wd]
  simp only [Outcome.andThen]
  rcases items_cases (D (keyOf p mui)) with he | ⟨kvs, he⟩
  · rw [diskRecords_error hl he]
    simp only [ofOption, ret_bind]
    refine ⟨_, rfl, ⟨fun _ => rfl, fun h => absurd he h, fun l hf => ?_⟩⟩
    exfalso
    generalize D (keyOf p mui) = items at he hf
    induction hf with
    | nil => cases he
    | cons h _ ih =>
      rcases List.mem_cons.1 he with rfl | he
      · obtain ⟨kv, hkv, _⟩ := h; cases hkv
      · exact ih he
  · rw [he] at hl
    have hl' : ∀ kv ∈ kvs, ¬ Short W kv := fun kv hkv => hl kv (List.mem_map_of_mem hkv)
    obtain ⟨L, h1, h2⟩ := diskRecords_ok (M := M) (p := p) (mui := mui) (iw := iw) (wd := s.tree.wd.set) hl' he
    rw [h1]
    have hno : ∀ e, (.error e : DiskItem) ∉ kvs.map .ok := by
      intro e hc
      obtain ⟨_, _, h⟩ := List.mem_map.1 hc
      cases h
    simp only [ofOption, ret_bind, he]
    have hbad : (∃ kv, (.ok kv : DiskItem) ∈ kvs.map .ok ∧ ¬ Sound W kv) →
        L ≠ [] ∧ L.mapM (decodeEntry (M := M) W) = .error () := by
      rintro ⟨kv, hkv, hs⟩
      obtain ⟨kv', hkv', h⟩ := List.mem_map.1 hkv
      cases h
      have hmem : (.error () : FatalResult (Record M)) ∈ L.map (decodeEntry W) := by
        rw [← h2, List.mem_filterMap]
        refine ⟨kv, hkv', ?_⟩
        unfold entryShown
        cases hz : decodeRecord W (kv.1 ++ kv.2) with
        | none => rfl
        | some z => exact absurd (sound_iff.2 ⟨z, hz⟩) hs
      refine ⟨?_, ?_⟩
      · rintro rfl; cases hmem
      · rw [mapM_decode_eq, collectFatal_error hmem]
    have hgood : ∀ l : List (Record M),
        List.Forall₂ (fun (it : DiskItem) r => ∃ kv, it = .ok kv ∧ HoldsRecord W kv r)
          (kvs.map .ok) l →
        L.map (decodeEntry W) = (shownOf s.tree.wd.set iw l).map .ok := by
      intro l hf
      rw [← h2]
      apply entryShown_sound
      rw [List.forall₂_map_left_iff] at hf
      refine hf.imp ?_
      rintro kv r ⟨kv', hk, hr⟩
      cases hk
      exact hr
    cases L with
    | nil =>
      simp only [noneIfEmpty]
      refine ⟨_, rfl, ⟨fun h => absurd h (hno _), fun _ h => absurd rfl (hbad h).1, fun l hf => ?_⟩⟩
      have := hgood l hf
      exact ⟨fun _ => rfl, fun h => absurd (List.map_eq_nil_iff.1 this.symm) h⟩
    | cons x L =>
      simp only [noneIfEmpty]
      cases hm : (x :: L).mapM (decodeEntry (M := M) W) with
      | error e =>
        refine ⟨_, rfl, ⟨fun h => absurd h (hno _), fun _ _ => rfl, fun l hf => ?_⟩⟩
        rw [mapM_decode_eq, hgood l hf, collectFatal_ok] at hm
        cases hm
      | ok rs =>
        refine ⟨_, rfl, ⟨fun h => absurd h (hno _), fun _ h => ?_, fun l hf => ?_⟩⟩
        · rw [(hbad h).2] at hm; cases hm
        · rw [mapM_decode_eq, hgood l hf, collectFatal_ok] at hm
          cases hm
          refine ⟨fun h => ?_, fun _ => rfl⟩
          have := hgood l hf
          rw [h] at this
          cases this

end Rotonda
