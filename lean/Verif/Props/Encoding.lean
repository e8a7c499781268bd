import Verif.Proofs.IterBits
import Verif.Props.Demo

/-!
# Bit arithmetic and byte encodings: C22, C23, C24, C28, C33
-/

namespace Rotonda.Props

open Spec

variable {M : Type} {W : Nat}

/-! ## C22 -/

/-- C22: truncation keeps the first `len` bits and clears all others. -/
theorem truncate_bits (x : BitVec W) {len : Nat} (hl : len ≤ W) (i : Nat) :
    (truncateToLen x len).getMsbD i = if i < len then x.getMsbD i else false := by
  rw [getMsbD_truncateToLen x hl]
  by_cases h : i < len <;> simp [h]

/-- C22: truncating twice is truncating to the smaller length. -/
theorem truncate_compose (x : BitVec W) {a b : Nat} (ha : a ≤ W) (hb : b ≤ W) :
    truncateToLen (truncateToLen x a) b = truncateToLen x (min a b) := by
  apply ext_msb
  intro i _
  rw [truncate_bits _ hb, truncate_bits _ ha, truncate_bits _ (by omega)]
  by_cases h1 : i < a <;> by_cases h2 : i < b <;> simp [h1, h2]

/-- C22: truncation is idempotent. -/
theorem truncate_idempotent (x : BitVec W) {a : Nat} (ha : a ≤ W) :
    truncateToLen (truncateToLen x a) a = truncateToLen x a := by
  rw [truncate_compose x ha ha, Nat.min_self]

/-- C22: as a number, the result is `x` rounded down to a multiple of `2 ^ (W - len)`. -/
theorem truncate_toNat (x : BitVec W) {len : Nat} (hl : len ≤ W) :
    (truncateToLen x len).toNat = x.toNat / 2 ^ (W - len) * 2 ^ (W - len) := by
  have h : truncateToLen x len = BitVec.ofNat W (x.toNat / 2 ^ (W - len) * 2 ^ (W - len)) := by
    apply ext_msb
    intro i hi
    rw [truncate_bits _ hl, BitVec.getMsbD_eq_getLsbD, BitVec.getMsbD_eq_getLsbD,
      BitVec.getLsbD_ofNat, Nat.testBit_mul_two_pow, Nat.testBit_div_two_pow,
      ← BitVec.testBit_toNat]
    by_cases h : i < len
    · have h1 : W - len ≤ W - 1 - i := by omega
      have h2 : W - 1 - i - (W - len) + (W - len) = W - 1 - i := by omega
      have h3 : W - 1 - i < W := by omega
      simp [h, hi, h1, h2, h3]
    · have h1 : ¬ W - len ≤ W - 1 - i := by omega
      simp [h, h1]
  rw [h, BitVec.toNat_ofNat]
  apply Nat.mod_eq_of_lt
  exact lt_of_le_of_lt (Nat.div_mul_le_self _ _) x.isLt

/-- C22: truncation is monotone in the address. -/
theorem truncate_monotone {x y : BitVec W} {len : Nat} (hl : len ≤ W) (h : x.toNat ≤ y.toNat) :
    (truncateToLen x len).toNat ≤ (truncateToLen y len).toNat := by
  rw [truncate_toNat x hl, truncate_toNat y hl]
  exact Nat.mul_le_mul_right _ (Nat.div_le_div_right h)

/-- C22: truncation is monotone in the length. -/
theorem truncate_monotone_len (x : BitVec W) {a b : Nat} (hb : b ≤ W) (h : a ≤ b) :
    (truncateToLen x a).toNat ≤ (truncateToLen x b).toNat := by
  have hc := truncate_compose x hb (by omega : a ≤ W)
  rw [Nat.min_eq_right h] at hc
  rw [← hc, truncate_toNat _ (by omega : a ≤ W)]
  exact Nat.div_mul_le_self _ _

example : truncateToLen 0x0A0B0CFF#32 23 = 0x0A0B0C00#32 ∧ truncateToLen 0x0A0B0CFF#32 0 = 0#32 ∧
    truncateToLen 0x0A0B0CFF#32 32 = 0x0A0B0CFF#32 := by decide

/-! ## C23 -/

/-- C23: the computed position of a prefix is a node on a stride boundary and a
bit span of one to four bits in it, and putting both together gives the prefix. -/
theorem position_lossless [Fam W] (p : Prefix W) (h0 : 0 < p.len) :
    ∃ n bs, nodeIdForPrefix p.id = some (n, bs) ∧ 4 ∣ n.len ∧ n.len < p.len ∧ 0 < bs.len ∧
      bs.len ≤ 4 ∧ bs.bits < 2 ^ bs.len ∧ n.addBitSpan bs = some p.id := by
  have hc := p.clean
  have hl := hostLen_lt h0
  have hl4 := hostLen_le4 (len := p.len)
  have hle := p.le
  refine ⟨_, _, nodeIdForPrefix_eq hc h0, hostLen_dvd _, hl, ?_, hl4, ?_, ?_⟩
  · exact Nat.sub_pos_of_lt hl
  · exact nib_lt _ (by show hostLen p.len + (p.len - hostLen p.len) ≤ W; omega)
  · have hhc : (hostId p.id).Clean := clean_truncate p.bits (len := hostLen p.len) (by omega)
    have hsum : (hostId p.id).len + (p.len - hostLen p.len) = p.len := by
      show hostLen p.len + (p.len - hostLen p.len) = p.len
      omega
    obtain ⟨c, hc1, hc2, hc3, hc4, hc5⟩ := addBitSpan_spec hhc (l := p.len - hostLen p.len)
      (v := nib p.bits (hostLen p.len) (p.len - hostLen p.len)) (by omega) (by omega)
      (nib_lt _ (by omega))
    refine hc1.trans (congrArg some ?_)
    have hcl : c.len = p.len := hc3.trans hsum
    have h1 : truncateToLen c.bits (hostLen p.len + (p.len - hostLen p.len)) =
        truncateToLen p.bits (hostLen p.len + (p.len - hostLen p.len)) := by
      rw [truncate_add (by omega)]
      exact ⟨hc4, hc5⟩
    have h2 : hostLen p.len + (p.len - hostLen p.len) = p.len := by omega
    rw [h2] at h1
    apply Clean.eq_of_bits hc2 hc hcl
    intro i hi
    have := congrArg (fun x => x.getMsbD i) h1
    simp only [truncate_bits _ p.le, if_pos (hcl ▸ hi : i < p.len)] at this
    exact this

/-- C23: different prefixes have different positions. -/
theorem position_injective [Fam W] (p q : Prefix W) (hp : 0 < p.len) (hq : 0 < q.len)
    (h : nodeIdForPrefix p.id = nodeIdForPrefix q.id) : p = q := by
  obtain ⟨n, bs, h1, _, _, _, _, _, h2⟩ := position_lossless p hp
  obtain ⟨n', bs', h1', _, _, _, _, _, h2'⟩ := position_lossless q hq
  rw [h1, h1'] at h
  cases h
  exact Prefix.id_inj (Option.some.inj (h2.symm.trans h2'))

/-- C23: a bit span of a prefix has its own bit in the 32 bit array of the node,
and the index of that bit gives the bit span back. -/
theorem bit_position [Fam W] (p : Prefix W) (h0 : 0 < p.len) :
    ∃ n bs i, nodeIdForPrefix p.id = some (n, bs) ∧ 0 < i ∧ i < 31 ∧
      bs.intoBitPos = some (1#32 <<< (31 - i)) ∧ BitSpan.fromBitPosIndex i = some bs := by
  obtain ⟨n, bs, h1, _, _, hb1, hb2, hb3, _⟩ := position_lossless p h0
  have h16 : (2 : Nat) ^ bs.len ≤ 2 ^ 4 := Nat.pow_le_pow_right (by omega) hb2
  have h2 : 2 ≤ (2 : Nat) ^ bs.len := by
    calc 2 = 2 ^ 1 := rfl
      _ ≤ _ := Nat.pow_le_pow_right (by omega) hb1
  refine ⟨n, bs, 2 ^ bs.len - 1 + bs.bits, h1, by omega, by omega, ?_, ?_⟩
  · exact intoBitPos_eq hb2 hb3
  · obtain ⟨l, hl, v, hv, hvl, hi, he⟩ := fromBitPosIndex_spec (2 ^ bs.len - 1 + bs.bits) (by omega)
    rw [he]
    have hll : l = bs.len := by
      rcases Nat.lt_trichotomy l bs.len with c | c | c
      · have := Nat.pow_le_pow_right (n := 2) (by omega) c
        rw [Nat.pow_succ] at this; omega
      · exact c
      · have := Nat.pow_le_pow_right (n := 2) (by omega) c
        rw [Nat.pow_succ] at this; omega
    subst hll
    have : v = bs.bits := by omega
    rw [this]

example : 0 < Demo.ten23.len ∧ nodeIdForPrefix Demo.ten23.id =
    some (⟨0x0A010000#32, 20⟩, ⟨1, 3⟩) := by decide

/-! ## C24 -/

/-- C24: at every level below the length of the id, all shifts are smaller than
the width and the slot index is smaller than the number of slots of that level. -/
theorem hash_in_bucket [Fam W] (p : Prefix W) {lvl : Nat} (h : 4 * lvl < p.len) :
    ∃ i n, hashId p.id lvl = some i ∧ nodesetSize p.len lvl = some n ∧ i < slotsForP2 n := by
  have hv : ValidLevel p.id.len lvl := .inr h
  have hb : 4 * (lvl + 1) ≤ 255 := by
    have := p.le
    have := (inferInstance : Fam W).width
    omega
  refine ⟨_, _, hashId_eq p.clean hv, nodesetSize_eq hb, ?_⟩
  have h1 := hIdx_lt p.clean hv
  have h2 : 4 - (4 * (lvl + 1) - p.len) = lvlBits p.len lvl := by unfold lvlBits; omega
  rw [h2, slotsForP2, if_neg (by unfold lvlBits; omega)]
  exact h1

/-- C24: the root buckets have 16 slots; that is enough for level 0, also for the
default route. -/
theorem hash_in_root [Fam W] (p : Prefix W) :
    ∃ i b, hashId p.id 0 = some i ∧ prefixRoot W p.len = some b ∧ b.size = 16 ∧ i < b.size := by
  have hv : ValidLevel p.id.len 0 := .inl rfl
  refine ⟨_, _, hashId_eq p.clean hv, prefixRoot_eq p.clean, rfl, ?_⟩
  have h1 := hIdx_lt p.clean hv
  have h2 : 2 ^ lvlBits p.len 0 ≤ 2 ^ 4 := Nat.pow_le_pow_right (by omega) (by unfold lvlBits; omega)
  exact lt_of_lt_of_le h1 h2

/-- A walk for `id` looks at the bucket `b` of level `lvl`: it starts at the root
bucket and goes on below an entry with another id, into the bucket that hangs
off that entry. -/
inductive Visits {E : Type} [Entry E W] (s : Slots E) (root : Bucket) (id : PrefixId W) :
    Nat → Bucket → Prop
  | start : Visits s root id 0 root
  | down {lvl : Nat} {b : Bucket} {i : Nat} {e : E} : Visits s root id lvl b →
      hashId id lvl = some i → s (b.slot i) = some e → (Entry.id e : PrefixId W) ≠ id →
      Visits s root id (lvl + 1) (b.child i (Entry.next e))

theorem Visits.walk {E : Type} [Entry E W] [Fam W] {C : Layout W} {s : Slots E} (hs : ChainInv C s)
    {id : PrefixId W} (hok : C.ok id) {lvl : Nat} {b : Bucket}
    (h : Visits s (bucketAt C id 0 16) id lvl b) :
    ∃ size, b = bucketAt C id lvl size ∧ WalkAt C s id lvl size := by
  induction h with
  | start => exact ⟨16, rfl, WalkAt.start hs hok⟩
  | down _ hi he hne ih =>
    obtain ⟨size, rfl, hw⟩ := ih
    rw [hw.hash] at hi
    cases hi
    rw [bucketAt_slot] at he
    exact ⟨_, bucketAt_child .., (hw.down he hne).2⟩

variable [Meta M]

/-- C24: in every reachable store, every bucket of the record table that a walk for
a prefix can get to has the slot that the walk then looks at, at a level below 32. -/
theorem record_walk_in_bounds [Fam W] {st : Strategy} {F : Nat} {h : History M W} {s : Rib M W}
    (hs : exec st F h = .ok () s) (p : Prefix W) {root : Bucket}
    (hroot : prefixRoot W p.len = some root) {lvl : Nat} {b : Bucket}
    (hv : Visits s.cht.slots root p.id lvl b) :
    lvl < 32 ∧ ∃ i, hashId p.id lvl = some i ∧ i < b.size := by
  rw [show p.len = p.id.len from rfl, prefixRoot_eq p.clean] at hroot
  cases hroot
  obtain ⟨size, rfl, hw⟩ := hv.walk (exec_ok_inv hs).tab.inv p.clean
  exact ⟨hw.bound, _, hw.hash, hw.size⟩

/-- C24: the same for the table of tree nodes, for every node id on a stride
boundary. -/
theorem node_walk_in_bounds [Fam W] {st : Strategy} {F : Nat} {h : History M W} {s : Rib M W}
    (hs : exec st F h = .ok () s) (n : Prefix W) (h4 : 4 ∣ n.len) (hlt : n.len < W)
    {root : Bucket} (hroot : nodeRoot W n.len = some root) {lvl : Nat} {b : Bucket}
    (hv : Visits s.tree.slots root n.id lvl b) :
    lvl < 32 ∧ ∃ i, hashId n.id lvl = some i ∧ i < b.size := by
  have hok : (nodeLayout W).ok n.id := ⟨n.clean, h4, hlt⟩
  rw [show n.len = n.id.len from rfl, nodeRoot_eq hok] at hroot
  cases hroot
  obtain ⟨size, rfl, hw⟩ := hv.walk (exec_ok_inv hs).tree.inv hok
  exact ⟨hw.bound, _, hw.hash, hw.size⟩

/-- The hypotheses are met: two prefixes that share their first nibble and a walk
that goes down one level. -/
example : ∃ s : PSlots Demo.Md 32, ∃ b, Visits s ⟨16, [], 16⟩ (Demo.ten16.id) 1 b ∧ b.size = 16 :=
  ⟨fun a => if a = ⟨16, [0]⟩ then some (StoredPrefix.new (Demo.pfx 0x0B010000#32 16 (by decide)).id 4)
      else none, _,
    .down .start (i := 0) (by decide) rfl (by decide), rfl⟩

/-! ## C28 -/

omit [Meta M] in
/-- C28: the keys have fixed lengths, 9 and 18 bytes for IPv4, 21 and 30 for IPv6. -/
theorem key_lengths (p : Prefix 32) (q : Prefix 128) (m : Mui) (t : LTime) (st : RouteStatus) :
    (shortKeyBytes p.id m).length = 9 ∧ (longKeyBytes p.id m t st).length = 18 ∧
    (shortKeyBytes q.id m).length = 21 ∧ (longKeyBytes q.id m t st).length = 30 := by
  simp [keySize]

theorem len_lt [hW : Fam W] (p : Prefix W) : p.id.len < 256 := by
  have := p.le
  have := hW.width
  show p.len < 256
  omega

/-- C28: the short key determines prefix and id. -/
theorem short_key_injective [Fam W] {p q : Prefix W} {m k : Mui}
    (h : shortKeyBytes p.id m = shortKeyBytes q.id k) : p = q ∧ m = k := by
  obtain ⟨h1, h2⟩ := shortKeyBytes_inj (len_lt p) (len_lt q) h
  exact ⟨Prefix.id_inj h1, h2⟩

/-- C28: the long key determines prefix, id, time and status. -/
theorem long_key_injective [Fam W] {p q : Prefix W} {m k : Mui} {t u : LTime} {a b : RouteStatus}
    (h : longKeyBytes p.id m t a = longKeyBytes q.id k u b) : p = q ∧ m = k ∧ t = u ∧ a = b := by
  obtain ⟨h1, h2⟩ := longKeyBytes_inj (len_lt p) (len_lt q) h
  exact ⟨Prefix.id_inj h1, h2⟩

/-- C28: a long key decodes to what was encoded. -/
theorem long_key_decodes [Fam W] (p : Prefix W) (m : Mui) (t : LTime) (st : RouteStatus) :
    decodeHeader W (longKeyBytes p.id m t st) = some ⟨p.id, m, t, st, []⟩ :=
  decodeHeader_encode (len_lt p) m t st

/-- C28: a persisted record, key and value together, decodes to what was encoded,
with a long key as well as with a short key and a header in the value. -/
theorem record_decodes [Fam W] (p : Prefix W) (m : Mui) (t : LTime) (st : RouteStatus) (md : Bytes) :
    decodeRecord W (longKeyBytes p.id m t st ++ md) = some ⟨p.id, m, t, st, md⟩ ∧
    decodeRecord W (shortKeyBytes p.id m ++ (headerBytes t st ++ md)) =
      some ⟨p.id, m, t, st, md⟩ := by
  have h := decodeRecord_encode (len_lt p) m t st md
  refine ⟨h, ?_⟩
  rw [← List.append_assoc]
  exact h

omit [Meta M] in
theorem isPrefixOf_pad {a b c : Bytes} (h : a.length = b.length) :
    a.isPrefixOf (b ++ c) = true ↔ a = b := isPrefixOf_append h

/-- C28: a scan for a prefix finds an entry with a short key exactly when the key is
one of that prefix. -/
theorem scan_prefix_short [Fam W] (t : Lsm) (p q : Prefix W) (m : Mui) (v : Bytes)
    (hm : (shortKeyBytes q.id m, v) ∈ t) :
    (shortKeyBytes q.id m, v) ∈ t.scan (prefixBytes p.id) ↔ q = p := by
  unfold Lsm.scan
  rw [List.mem_filter, shortKeyBytes, isPrefixOf_append (by simp)]
  constructor
  · rintro ⟨_, h⟩; exact (Prefix.id_inj (prefixBytes_inj (len_lt p) (len_lt q) h)).symm
  · rintro rfl; exact ⟨hm, rfl⟩

/-- C28: the same for long keys. -/
theorem scan_prefix_long [Fam W] (t : Lsm) (p q : Prefix W) (m : Mui) (lt : LTime)
    (st : RouteStatus) (v : Bytes) (hm : (longKeyBytes q.id m lt st, v) ∈ t) :
    (longKeyBytes q.id m lt st, v) ∈ t.scan (prefixBytes p.id) ↔ q = p := by
  have hk : longKeyBytes q.id m lt st =
      prefixBytes q.id ++ (natToLE 4 m.toNat ++ headerBytes lt st) := by
    simp [longKeyBytes, shortKeyBytes]
  unfold Lsm.scan
  rw [List.mem_filter, hk, isPrefixOf_append (by simp), ← hk]
  constructor
  · rintro ⟨_, h⟩; exact (Prefix.id_inj (prefixBytes_inj (len_lt p) (len_lt q) h)).symm
  · rintro rfl; exact ⟨hm, rfl⟩

/-- C28: a scan for a prefix and an id finds exactly the entries of both. -/
theorem scan_mui_short [Fam W] (t : Lsm) (p q : Prefix W) (m k : Mui) (v : Bytes)
    (hm : (shortKeyBytes q.id k, v) ∈ t) :
    (shortKeyBytes q.id k, v) ∈ t.scan (shortKeyBytes p.id m) ↔ q = p ∧ k = m := by
  unfold Lsm.scan
  rw [List.mem_filter, isPrefixOf_same (by simp)]
  constructor
  · rintro ⟨_, h⟩
    obtain ⟨h1, h2⟩ := short_key_injective h
    exact ⟨h1.symm, h2.symm⟩
  · rintro ⟨rfl, rfl⟩; exact ⟨hm, rfl⟩

/-- C28: the same for long keys. -/
theorem scan_mui_long [Fam W] (t : Lsm) (p q : Prefix W) (m k : Mui) (lt : LTime)
    (st : RouteStatus) (v : Bytes) (hm : (longKeyBytes q.id k lt st, v) ∈ t) :
    (longKeyBytes q.id k lt st, v) ∈ t.scan (shortKeyBytes p.id m) ↔ q = p ∧ k = m := by
  unfold Lsm.scan
  rw [List.mem_filter, longKeyBytes, isPrefixOf_append (by simp)]
  constructor
  · rintro ⟨_, h⟩
    obtain ⟨h1, h2⟩ := short_key_injective h
    exact ⟨h1.symm, h2.symm⟩
  · rintro ⟨rfl, rfl⟩; exact ⟨hm, rfl⟩

example : shortKeyBytes Demo.ten16.id 0x01020304#32 =
    [16#8, 10#8, 1#8, 0#8, 0#8, 4#8, 3#8, 2#8, 1#8] ∧
    (shortKeyBytes Demo.ten16.id 5#32, [7#8]) ∈
      ([(shortKeyBytes Demo.ten16.id 5#32, [7#8])] : Lsm) := by decide

/-! ## C33 -/

/-- C33: every status decodes to itself. -/
theorem status_roundtrip (st : RouteStatus) : RouteStatus.ofByte st.toByte = some st :=
  status_ofByte_toByte st

/-- C33: a byte decodes to a status only if it is the byte of that status; all other
bytes are rejected. -/
theorem status_rejects (b : Byte) (st : RouteStatus) (h : RouteStatus.ofByte b = some st) :
    b = st.toByte := by
  unfold RouteStatus.ofByte at h
  split at h
  · cases h; assumption
  · split at h
    · cases h; assumption
    · split at h
      · cases h; assumption
      · cases h

example : RouteStatus.ofByte 2#8 = some .inActive ∧ RouteStatus.ofByte 0#8 = none := by decide

end Rotonda.Props
