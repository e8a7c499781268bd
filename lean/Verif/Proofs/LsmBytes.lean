import Verif.Model.Lsm
import Verif.Proofs.Bits

/-!
# Encodings and the sorted map of the persistence store
-/

namespace Rotonda

variable {W : Nat}

@[simp] theorem natToLE_length (k n : Nat) : (natToLE k n).length = k := by
  induction k generalizing n with
  | zero => rfl
  | succ k ih => simp [natToLE, ih]

theorem leToNat_natToLE (k n : Nat) : leToNat (natToLE k n) = n % 256 ^ k := by
  induction k generalizing n with
  | zero => simp [natToLE, leToNat, Nat.mod_one]
  | succ k ih =>
    simp only [natToLE, leToNat, ih, BitVec.toNat_ofNat]
    have h256 : (2 : Nat) ^ 8 = 256 := rfl
    rw [h256, show 256 ^ (k + 1) = 256 * 256 ^ k from Nat.pow_succ', Nat.mod_mul (x := n)]

theorem natToLE_inj {k a b : Nat} (ha : a < 256 ^ k) (hb : b < 256 ^ k)
    (h : natToLE k a = natToLE k b) : a = b := by
  have := congrArg leToNat h
  rwa [leToNat_natToLE, leToNat_natToLE, Nat.mod_eq_of_lt ha, Nat.mod_eq_of_lt hb] at this

theorem pow256 (k : Nat) : 256 ^ k = 2 ^ (8 * k) := by
  rw [Nat.pow_mul]

theorem bits_lt [hW : Fam W] (x : BitVec W) : x.toNat < 256 ^ (W / 8) := by
  have := x.isLt
  rw [pow256]
  have h8 : 8 * (W / 8) = W := by rcases hW.width with rfl | rfl <;> rfl
  rwa [h8]

theorem mui_lt (m : Mui) : m.toNat < 256 ^ 4 := m.isLt
theorem ltime_lt (t : LTime) : t.toNat < 256 ^ 8 := t.isLt

@[simp] theorem prefixBytes_length (p : PrefixId W) : (prefixBytes p).length = W / 8 + 1 := by
  simp [prefixBytes]

@[simp] theorem shortKeyBytes_length (p : PrefixId W) (m : Mui) :
    (shortKeyBytes p m).length = W / 8 + 5 := by
  simp [shortKeyBytes]

@[simp] theorem headerBytes_length (t : LTime) (st : RouteStatus) : (headerBytes t st).length = 9 := by
  simp [headerBytes]

@[simp] theorem longKeyBytes_length (p : PrefixId W) (m : Mui) (t : LTime) (st : RouteStatus) :
    (longKeyBytes p m t st).length = keySize W := by
  simp [longKeyBytes, keySize]

theorem prefixBytes_inj [Fam W] {p q : PrefixId W} (hp : p.len < 256) (hq : q.len < 256)
    (h : prefixBytes p = prefixBytes q) : p = q := by
  simp only [prefixBytes, List.cons.injEq, List.reverse_inj] at h
  obtain ⟨h1, h2⟩ := h
  have h3 := natToLE_inj (bits_lt _) (bits_lt _) h2
  have h4 := congrArg BitVec.toNat h1
  simp only [BitVec.toNat_ofNat] at h4
  rw [Nat.mod_eq_of_lt (by omega), Nat.mod_eq_of_lt (by omega)] at h4
  cases p; cases q
  simp only at h3 h4
  rw [BitVec.eq_of_toNat_eq h3, h4]

theorem mui_inj {m k : Mui} (h : natToLE 4 m.toNat = natToLE 4 k.toNat) : m = k :=
  BitVec.eq_of_toNat_eq (natToLE_inj (mui_lt _) (mui_lt _) h)

theorem ltime_inj {m k : LTime} (h : natToLE 8 m.toNat = natToLE 8 k.toNat) : m = k :=
  BitVec.eq_of_toNat_eq (natToLE_inj (ltime_lt _) (ltime_lt _) h)

theorem status_ofByte_toByte (s : RouteStatus) : RouteStatus.ofByte s.toByte = some s := by
  cases s <;> decide

theorem status_toByte_inj {s t : RouteStatus} (h : s.toByte = t.toByte) : s = t := by
  have := congrArg RouteStatus.ofByte h
  rw [status_ofByte_toByte, status_ofByte_toByte] at this
  exact Option.some.inj this

theorem shortKeyBytes_inj [Fam W] {p q : PrefixId W} {m k : Mui} (hp : p.len < 256)
    (hq : q.len < 256) (h : shortKeyBytes p m = shortKeyBytes q k) : p = q ∧ m = k := by
  unfold shortKeyBytes at h
  obtain ⟨h1, h2⟩ := List.append_inj h (by simp)
  exact ⟨prefixBytes_inj hp hq h1, mui_inj h2⟩

theorem longKeyBytes_inj [Fam W] {p q : PrefixId W} {m k : Mui} {t u : LTime} {a b : RouteStatus}
    (hp : p.len < 256) (hq : q.len < 256) (h : longKeyBytes p m t a = longKeyBytes q k u b) :
    p = q ∧ m = k ∧ t = u ∧ a = b := by
  unfold longKeyBytes at h
  obtain ⟨h1, h2⟩ := List.append_inj h (by simp)
  unfold headerBytes at h2
  obtain ⟨h3, h4⟩ := List.append_inj h2 (by simp)
  obtain ⟨h5, h6⟩ := shortKeyBytes_inj hp hq h1
  exact ⟨h5, h6, ltime_inj h3, status_toByte_inj (by simpa using h4)⟩

theorem isPrefixOf_append {a b c : Bytes} (h : a.length = b.length) :
    a.isPrefixOf (b ++ c) = true ↔ a = b := by
  rw [List.isPrefixOf_iff_prefix]
  constructor
  · rintro ⟨d, hd⟩
    exact (List.append_inj hd h).1
  · rintro rfl; exact ⟨c, rfl⟩

theorem isPrefixOf_same {a b : Bytes} (h : a.length = b.length) :
    a.isPrefixOf b = true ↔ a = b := by
  have := isPrefixOf_append (c := []) h
  rwa [List.append_nil] at this

/-- Reading back what was written. -/
theorem decodeRecord_encode [hW : Fam W] {p : PrefixId W} (hp : p.len < 256) (m : Mui) (t : LTime)
    (st : RouteStatus) (md : Bytes) :
    decodeRecord W (longKeyBytes p m t st ++ md) = some ⟨p, m, t, st, md⟩ := by
  have hb : longKeyBytes p m t st ++ md =
      BitVec.ofNat 8 p.len :: ((natToLE (W / 8) p.bits.toNat).reverse ++ (natToLE 4 m.toNat ++
        (natToLE 8 t.toNat ++ (st.toByte :: md)))) := by
    simp [longKeyBytes, shortKeyBytes, prefixBytes, headerBytes]
  have hlen : ((natToLE (W / 8) p.bits.toNat).reverse).length = W / 8 := by simp
  unfold decodeRecord
  rw [if_pos (by simp)]
  have hst : (longKeyBytes p m t st ++ md).getD (W / 8 + 13) 0#8 = st.toByte := by
    rw [hb, List.getD_eq_getElem?_getD, List.getElem?_cons_succ,
      List.getElem?_append_right (by simp), List.getElem?_append_right (by simp),
      List.getElem?_append_right (by simp)]
    simp
  rw [hst, status_ofByte_toByte]
  have hd : (longKeyBytes p m t st ++ md).drop (keySize W) = md := by
    rw [List.drop_left' (by simp)]
  rw [hd]
  simp only [Option.map_some, Option.some.injEq, ZRec.mk.injEq, and_true]
  have h0 : ((longKeyBytes p m t st ++ md).getD 0 0#8).toNat = p.len := by
    rw [hb]; simp; omega
  have h1 : (((longKeyBytes p m t st ++ md).drop 1).take (W / 8)).reverse =
      natToLE (W / 8) p.bits.toNat := by
    rw [hb, List.drop_succ_cons, List.drop_zero, List.take_left' hlen, List.reverse_reverse]
  have h2 : ((longKeyBytes p m t st ++ md).drop (W / 8 + 1)).take 4 = natToLE 4 m.toNat := by
    rw [hb, List.drop_succ_cons, List.drop_left' hlen, List.take_left' (by simp)]
  have h3 : ((longKeyBytes p m t st ++ md).drop (W / 8 + 5)).take 8 = natToLE 8 t.toNat := by
    rw [hb, List.drop_succ_cons, ← List.drop_drop (i := 4), List.drop_left' hlen,
      List.drop_left' (by simp), List.take_left' (by simp)]
  rw [h0, h1, h2, h3, leToNat_natToLE, leToNat_natToLE, leToNat_natToLE,
    Nat.mod_eq_of_lt (bits_lt _), Nat.mod_eq_of_lt (mui_lt _), Nat.mod_eq_of_lt (ltime_lt _)]
  simp

theorem decodeHeader_encode [Fam W] {p : PrefixId W} (hp : p.len < 256) (m : Mui) (t : LTime)
    (st : RouteStatus) : decodeHeader W (longKeyBytes p m t st) = some ⟨p, m, t, st, []⟩ := by
  unfold decodeHeader
  rw [if_pos (by simp)]
  have := decodeRecord_encode hp m t st []
  rwa [List.append_nil] at this

theorem decodeHeader_append [Fam W] (p : PrefixId W) (m : Mui) (t : LTime)
    (st : RouteStatus) {md : Bytes} (h : md ≠ []) :
    decodeHeader W (longKeyBytes p m t st ++ md) = none := by
  unfold decodeHeader
  rw [if_neg]
  rw [List.length_append, longKeyBytes_length]
  have : 0 < md.length := List.length_pos_iff.2 h
  omega

/-- Writing the status byte. -/
theorem set_status (p : PrefixId W) (m : Mui) (t : LTime) (st st' : RouteStatus) (md : Bytes) :
    (longKeyBytes p m t st ++ md).set (keySize W - 1) st'.toByte = longKeyBytes p m t st' ++ md := by
  unfold longKeyBytes headerBytes
  rw [List.append_assoc, List.append_assoc, List.append_assoc,
    List.set_append_right _ _ (by simp [keySize]), List.set_append_right _ _ (by simp [keySize])]
  have : keySize W - 1 - (shortKeyBytes p m).length - (natToLE 8 t.toNat).length = 0 := by
    simp [keySize]
  rw [this]
  simp

/-! ## The order of keys -/

theorem bytesLt_irrefl (a : Bytes) : bytesLt a a = false := by
  induction a with
  | nil => rfl
  | cons x a ih => simp [bytesLt, ih]

theorem bytesLt_trans {a b c : Bytes} (h1 : bytesLt a b = true) (h2 : bytesLt b c = true) :
    bytesLt a c = true := by
  induction a generalizing b c with
  | nil =>
    cases c with
    | nil => cases b <;> simp [bytesLt] at h2
    | cons => rfl
  | cons x a ih =>
    cases b with
    | nil => simp [bytesLt] at h1
    | cons y b =>
      cases c with
      | nil => simp [bytesLt] at h2
      | cons z c =>
        simp only [bytesLt] at h1 h2 ⊢
        split at h1
        · rename_i e; subst e
          split at h2
          · rename_i e; subst e; rw [if_pos rfl]; exact ih h1 h2
          · rename_i e; rw [if_neg e]; exact h2
        · rename_i e
          split at h2
          · rename_i e'; subst e'; rw [if_neg e]; exact h1
          · have h3 : x < z := BitVec.lt_trans (by simpa using h1) (by simpa using h2)
            rw [if_neg (fun e => by subst e; exact absurd h3 (BitVec.lt_irrefl _))]
            simpa using h3

theorem bytesLt_total {a b : Bytes} (h : a ≠ b) : bytesLt a b = true ∨ bytesLt b a = true := by
  induction a generalizing b with
  | nil => cases b with
    | nil => exact absurd rfl h
    | cons => exact .inl rfl
  | cons x a ih =>
    cases b with
    | nil => exact .inr rfl
    | cons y b =>
      simp only [bytesLt]
      by_cases e : x = y
      · subst e
        simp only [if_true]
        exact ih (fun e => h (by rw [e]))
      · rw [if_neg e, if_neg (fun e' => e e'.symm)]
        have : x.toNat ≠ y.toNat := fun e' => e (BitVec.eq_of_toNat_eq e')
        rcases Nat.lt_or_gt_of_ne this with h1 | h1
        · exact .inl (by simpa [BitVec.lt_def] using h1)
        · exact .inr (by simpa [BitVec.lt_def] using h1)

/-- Sorted by key, without repetition. -/
def Lsm.Sorted (t : Lsm) : Prop := t.Pairwise (fun a b => bytesLt a.1 b.1 = true)

theorem Lsm.mem_insert_sub {k v : Bytes} {t : Lsm} {x : Bytes × Bytes} (h : x ∈ t.insert k v) :
    x = (k, v) ∨ x ∈ t := by
  induction t with
  | nil => simp [Lsm.insert] at h; exact .inl h
  | cons y t ih =>
    obtain ⟨k', v'⟩ := y
    simp only [Lsm.insert] at h
    split at h
    · rcases List.mem_cons.1 h with h | h
      · exact .inl h
      · exact .inr (List.mem_cons_of_mem _ h)
    · split at h
      · rcases List.mem_cons.1 h with h | h
        · exact .inl h
        · exact .inr h
      · rcases List.mem_cons.1 h with h | h
        · exact .inr (by rw [h]; simp)
        · rcases ih h with h | h
          · exact .inl h
          · exact .inr (List.mem_cons_of_mem _ h)

theorem Lsm.self_mem_insert (k v : Bytes) (t : Lsm) : (k, v) ∈ t.insert k v := by
  induction t with
  | nil => simp [Lsm.insert]
  | cons y t ih =>
    obtain ⟨k', v'⟩ := y
    simp only [Lsm.insert]
    split
    · simp
    · split
      · simp
      · exact List.mem_cons_of_mem _ ih

theorem Lsm.Sorted.insert {t : Lsm} (h : t.Sorted) (k v : Bytes) : (t.insert k v).Sorted := by
  unfold Lsm.Sorted at *
  induction t with
  | nil => simp [Lsm.insert]
  | cons y t ih =>
    obtain ⟨k', v'⟩ := y
    rw [List.pairwise_cons] at h
    simp only [Lsm.insert]
    split
    · rename_i e; subst e
      rw [List.pairwise_cons]; exact h
    · rename_i e
      split
      · rename_i hl
        rw [List.pairwise_cons, List.pairwise_cons]
        refine ⟨fun x hx => ?_, h⟩
        rcases List.mem_cons.1 hx with rfl | hx
        · exact hl
        · exact bytesLt_trans hl (h.1 x hx)
      · rename_i hl
        rw [List.pairwise_cons]
        refine ⟨fun x hx => ?_, ih h.2⟩
        rcases Lsm.mem_insert_sub hx with rfl | hx
        · rcases bytesLt_total e with h1 | h1
          · exact h1
          · exact absurd h1 hl
        · exact h.1 x hx

theorem Lsm.mem_insert {t : Lsm} (h : t.Sorted) {k v : Bytes} {x : Bytes × Bytes} :
    x ∈ t.insert k v ↔ x = (k, v) ∨ (x.1 ≠ k ∧ x ∈ t) := by
  unfold Lsm.Sorted at h
  induction t with
  | nil => simp [Lsm.insert]
  | cons y t ih =>
    obtain ⟨k', v'⟩ := y
    rw [List.pairwise_cons] at h
    simp only [Lsm.insert]
    split
    · rename_i e; subst e
      rw [List.mem_cons, List.mem_cons]
      constructor
      · rintro (h1 | h1)
        · exact .inl h1
        · refine .inr ⟨fun e => ?_, .inr h1⟩
          have := h.1 x h1
          rw [e, bytesLt_irrefl] at this
          cases this
      · rintro (h1 | ⟨h1, h2 | h2⟩)
        · exact .inl h1
        · rw [h2] at h1; exact absurd rfl h1
        · exact .inr h2
    · rename_i e
      split
      · rename_i hl
        rw [List.mem_cons]
        constructor
        · rintro (h1 | h1)
          · exact .inl h1
          · refine .inr ⟨fun e' => ?_, h1⟩
            rcases List.mem_cons.1 h1 with rfl | h1
            · exact e e'
            · have := bytesLt_trans hl (h.1 x h1)
              rw [e', bytesLt_irrefl] at this
              cases this
        · rintro (h1 | h1)
          · exact .inl h1
          · exact .inr h1.2
      · rw [List.mem_cons, ih h.2, List.mem_cons]
        constructor
        · rintro (h1 | h1 | h1)
          · refine .inr ⟨?_, .inl h1⟩
            rw [h1]; exact e
          · exact .inl h1
          · exact .inr ⟨h1.1, .inr h1.2⟩
        · rintro (h1 | ⟨h1, h2 | h2⟩)
          · exact .inr (.inl h1)
          · exact .inl h2
          · exact .inr (.inr ⟨h1, h2⟩)

theorem Lsm.Sorted.unique {t : Lsm} (h : t.Sorted) {k v v' : Bytes} (h1 : (k, v) ∈ t)
    (h2 : (k, v') ∈ t) : v = v' := by
  unfold Lsm.Sorted at h
  induction t with
  | nil => cases h1
  | cons y t ih =>
    rw [List.pairwise_cons] at h
    rcases List.mem_cons.1 h1 with e1 | e1 <;> rcases List.mem_cons.1 h2 with e2 | e2
    · rw [← e1] at e2; cases e2; rfl
    · have := h.1 _ e2; rw [← e1, bytesLt_irrefl] at this; cases this
    · have := h.1 _ e1; rw [← e2, bytesLt_irrefl] at this; cases this
    · exact ih h.2 e1 e2

theorem Lsm.Sorted.scan {t : Lsm} (h : t.Sorted) (pre : Bytes) : (t.scan pre).Sorted :=
  List.Pairwise.sublist List.filter_sublist h

end Rotonda
