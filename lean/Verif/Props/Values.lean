import Verif.Proofs.Values
import Verif.Props.Encoding

/-!
# C77: conversions and bit arithmetic of addresses, prefixes and spans

`AddressFamily`, `IPv4`, `IPv6` and `IntoIpAddr` are public, so every argument counts, also those
the store never passes.  `none` is a panic (of a checked build).
-/

namespace Rotonda.Props

variable {W : Nat}

/-! ## Addresses and octets -/

/-- The octets of an address are the octets of its number, the first one the most significant. -/
theorem address_octets [Fam W] (x : BitVec W) :
    (beBytes x).length = W / 8 ∧
    ∀ i, i < W / 8 → (beBytes x)[i]? = some (BitVec.ofNat 8 (Spec.octet x i)) :=
  ⟨beBytes_length x, fun _ h => beBytes_get x h⟩

/-- `from_ipaddr` is the inverse of `into_ipaddr`, both ways. -/
theorem address_roundtrip :
    (∀ x : BitVec 32, afFromOctets 32 (intoIpaddr4 x).octets = x) ∧
    (∀ x : BitVec 128, afFromOctets 128 (intoIpaddr6 x).octets = x) ∧
    (∀ x : BitVec 32, intoIpaddr4 (afFromOctets 32 (IpAddr.v4 x).octets) = .v4 x) ∧
    (∀ x : BitVec 128, intoIpaddr6 (afFromOctets 128 (IpAddr.v6 x).octets) = .v6 x) :=
  ⟨fun x => fromOctets_beBytes x, fun x => fromOctets_beBytes x,
    fun x => congrArg IpAddr.v4 (fromOctets_beBytes x),
    fun x => congrArg IpAddr.v6 (fromOctets_beBytes x)⟩

/-- Every sequence of octets of the right length is the octets of one address. -/
theorem octets_roundtrip [Fam W] {b : Bytes} (h : b.length = W / 8) :
    beBytes (afFromOctets W b) = b ∧ ∀ x : BitVec W, beBytes x = b → x = afFromOctets W b :=
  ⟨beBytes_fromOctets h, fun x hx => by rw [← hx, fromOctets_beBytes]⟩

/-- `from_u32`, `from_u8` and `dangerously_truncate_to_u32`: the numbers stay what they are; what
is truncated is the high part. -/
theorem address_numbers [hW : Fam W] :
    (∀ v : BitVec 32, (afFromU32 W v).toNat = v.toNat ∧ truncU32 (afFromU32 W v) = v) ∧
    (∀ v : Byte, (afFromU8 W v).toNat = v.toNat) ∧
    ∀ x : BitVec W, (truncU32 x).toNat = x.toNat % 2 ^ 32 := by
  have hp : 2 ^ 32 ≤ 2 ^ W := Nat.pow_le_pow_right (by omega) (by rcases hW.width with rfl | rfl <;> omega)
  have h1 : ∀ v : BitVec 32, (afFromU32 W v).toNat = v.toNat := fun v => by
    unfold afFromU32
    rw [BitVec.toNat_ofNat, Nat.mod_eq_of_lt (lt_of_lt_of_le v.isLt hp)]
  refine ⟨fun v => ⟨h1 v, ?_⟩, fun v => ?_, fun x => by simp [truncU32]⟩
  · unfold truncU32
    rw [h1]; simp
  · unfold afFromU8 afFromOctets
    have h0 : ∀ k, leToNat (List.replicate k 0#8) = 0 := fun k => by
      induction k with
      | zero => rfl
      | succ k ih => simp [List.replicate_succ, leToNat, ih]
    rw [List.reverse_append, List.reverse_replicate, BitVec.toNat_ofNat]
    simp only [List.reverse_cons, List.reverse_nil, List.nil_append, List.cons_append, leToNat, h0]
    have : v.toNat < 2 ^ 8 := v.isLt
    rw [Nat.mod_eq_of_lt (by omega)]
    omega

example : (intoIpaddr4 0x0A0B0CFF#32).octets = [10#8, 11#8, 12#8, 255#8] ∧
    Spec.octet 0x0A0B0CFF#32 1 = 11 ∧
    afFromOctets 32 [10#8, 11#8, 12#8, 255#8] = 0x0A0B0CFF#32 ∧
    afFromU8 128 7#8 = 7#128 ∧
    truncU32 0x20010db8000000000000000112345678#128 = 0x12345678#32 := by decide +kernel

/-! ## Prefixes of `inetnum` -/

/-- A prefix becomes a `PrefixId` of its own family unchanged and panics in the other one. -/
theorem prefix_to_id (p : Prefix 32) (q : Prefix 128) :
    PrefixId.ofPrefix 32 (.v4 p) = some p.id ∧ PrefixId.ofPrefix 128 (.v6 q) = some q.id ∧
    PrefixId.ofPrefix 32 (.v6 q) = none ∧ PrefixId.ofPrefix 128 (.v4 p) = none := by
  have ok : ∀ {w : Nat} [Fam w] (x : BitVec w), afFromBytes w (beBytes x) = some x := fun x => by
    unfold afFromBytes
    rw [if_pos (beBytes_length x)]
    exact congrArg some (fromOctets_beBytes x)
  have no : ∀ {w v : Nat} (x : BitVec v), v / 8 ≠ w / 8 → afFromBytes w (beBytes x) = none :=
    fun x h => by
      unfold afFromBytes
      rw [if_neg (by rw [beBytes_length]; exact h)]
  exact ⟨congrArg (Option.map _) (ok p.bits), congrArg (Option.map _) (ok q.bits),
    congrArg (Option.map _) (no q.bits (by decide)), congrArg (Option.map _) (no p.bits (by decide))⟩

/-- Back again: the way back gives the prefix one started from. -/
theorem prefix_roundtrip (p : Prefix W) : p.id.toPrefix = some p := by
  unfold PrefixId.toPrefix
  rw [dif_pos ⟨p.le, fun i _ hi => p.host i hi⟩]
  rfl

/-- The way back succeeds exactly for lengths up to the width with no bits after the length, and
then loses nothing; for everything else it panics. -/
theorem id_to_prefix (p : PrefixId W) :
    (∀ q, p.toPrefix = some q ↔ q.id = p) ∧
    (p.toPrefix = none ↔ W < p.len ∨ ¬ Spec.NoBitsFrom p.bits p.len) := by
  have hnone : p.toPrefix = none ↔ W < p.len ∨ ¬ Spec.NoBitsFrom p.bits p.len := by
    unfold PrefixId.toPrefix
    constructor
    · intro h
      by_cases c : W < p.len
      · exact .inl c
      · refine .inr fun hn => ?_
        rw [dif_pos ⟨by omega, fun i _ hi => hn i hi⟩] at h
        cases h
    · intro h
      rw [dif_neg]
      rintro ⟨h1, h2⟩
      rcases h with h | h
      · omega
      · refine h fun i hi => ?_
        by_cases c : i < W
        · exact h2 i c hi
        · exact BitVec.getMsbD_of_ge _ _ (by omega)
  refine ⟨fun q => ⟨fun h => ?_, fun h => by rw [← h]; exact prefix_roundtrip q⟩, hnone⟩
  unfold PrefixId.toPrefix at h
  split at h
  · cases h; rfl
  · cases h

example : PrefixId.toPrefix ⟨0x0A000000#32, 8⟩ ≠ none ∧ PrefixId.toPrefix ⟨0x0A000001#32, 8⟩ = none ∧
    PrefixId.toPrefix ⟨0x0A000000#32, 33⟩ = none := by decide +kernel

/-! ## Bytes of a `PrefixId` -/

/-- The bytes of a `PrefixId` (one of the length, then the address) are read back. -/
theorem id_bytes_roundtrip [Fam W] {p : PrefixId W} (h : p.len < 256) :
    PrefixId.ofBytes W (prefixBytes p) = some p := by
  have := fromOctets_beBytes p.bits
  unfold afFromOctets beBytes at this
  unfold prefixBytes
  rw [PrefixId.ofBytes, afFromBytes, if_pos (by simp), this]
  simp only [Option.map_some, BitVec.toNat_ofNat]
  rw [Nat.mod_eq_of_lt (by omega)]

/-- Any bytes of the right size are read, and are the bytes of what was read; any other size
panics (the comments at `src/types/prefix_id.rs` 90 and 103 claim that only sizes up to 1 do). -/
theorem id_bytes_read [Fam W] (b : Bytes) :
    (PrefixId.ofBytes W b = none ↔ b.length ≠ W / 8 + 1) ∧
    ∀ p, PrefixId.ofBytes W b = some p → prefixBytes p = b := by
  cases b with
  | nil => simp [PrefixId.ofBytes]
  | cons l b =>
    rw [PrefixId.ofBytes, afFromBytes]
    by_cases c : b.length = W / 8
    · rw [if_pos c]
      refine ⟨by simp [c], fun p hp => ?_⟩
      simp only [Option.map_some, Option.some.injEq] at hp
      subst hp
      have := beBytes_fromOctets c
      unfold beBytes afFromOctets at this
      unfold prefixBytes
      simp only
      rw [this]
      simp
    · rw [if_neg c]
      simp [c]

example : PrefixId.ofBytes 32 [8#8, 10#8, 0#8, 0#8, 0#8] = some ⟨0x0A000000#32, 8⟩ ∧
    PrefixId.ofBytes 32 [8#8, 10#8] = none ∧
    prefixBytes (W := 32) ⟨0x0A000000#32, 8⟩ = [8#8, 10#8, 0#8, 0#8, 0#8] := by decide +kernel

/-! ## Spans of bits -/

/-- `into_bit_span` panics exactly for a start beyond the last bit or a length above the width. -/
theorem span_panics (x : BitVec W) (start len : Nat) :
    intoBitSpan x start len = none ↔ W ≤ start ∨ W < len := by
  unfold intoBitSpan
  by_cases c : start < W ∧ len ≤ W
  · rw [if_pos c]
    simp; omega
  · rw [if_neg c]
    simp; omega

/-- For a span of 1 to 32 bits inside the address the bits are those of the address.  Missing: the
empty span (`span_empty_wrong`); more than 32 bits do not fit into a span. -/
theorem span_bits_partial {x : BitVec W} {start len : Nat} (h1 : 1 ≤ len) (h32 : len ≤ 32)
    (h : start + len ≤ W) :
    ∃ v, intoBitSpan x start len = some ⟨v, len⟩ ∧ Spec.IsSpan x start len v :=
  intoBitSpan_span h1 h32 h

/-- A span without bits is not empty: all the remaining bits of the address (the last 32 of them)
are returned with length 0. -/
theorem span_empty (x : BitVec W) {start : Nat} (h : start < W) :
    intoBitSpan x start 0 = some ⟨(x <<< start).toNat % 2 ^ 32, 0⟩ := by
  unfold intoBitSpan
  rw [if_pos (by omega), Nat.sub_zero, Nat.mod_self, BitVec.ushiftRight_zero]

example : intoBitSpan 0x0A0B0CFF#32 4 4 = some ⟨10, 4⟩ ∧
    intoBitSpan 0x0A0B0CFF#32 0 32 = some ⟨0x0A0B0CFF, 32⟩ ∧
    intoBitSpan 0x0A0B0CFF#32 4 0 = some ⟨0xA0B0CFF0, 0⟩ ∧
    intoBitSpan 0x0A0B0CFF#32 32 1 = none := by decide +kernel

/-- The bits of an empty span are not those of an empty span. -/
theorem span_empty_wrong : ∃ (x : BitVec 32) (v : Nat),
    intoBitSpan x 4 0 = some ⟨v, 0⟩ ∧ ¬ Spec.IsSpan x 4 0 v :=
  ⟨0x0A0B0CFF#32, 0xA0B0CFF0, by decide +kernel, fun h => absurd h.1 (by decide)⟩

/-- `add_bit_span` panics exactly if the result is longer than the width or empty: nothing can be
added to 0/0, not even nothing. -/
theorem add_span_panics [hW : Fam W] (x : BitVec W) (len : Nat) (bs : BitSpan) :
    addBitSpanBits x len bs = none ↔ W < len + bs.len ∨ len + bs.len = 0 := by
  have : 0 < W := by rcases hW.width with rfl | rfl <;> omega
  unfold addBitSpanBits
  by_cases c : len + bs.len ≤ W ∧ W - len - bs.len < W
  · rw [if_pos c]
    simp; omega
  · rw [if_neg c]
    simp; omega

/-- Otherwise the leading bits stay, the bits of the span follow, and nothing comes after them. -/
theorem add_span_bits {x : BitVec W} {len : Nat} {bs : BitSpan} (h : len + bs.len ≤ W)
    (h0 : 0 < len + bs.len) (hv : bs.bits < 2 ^ bs.len) (hx : Spec.NoBitsFrom x len) :
    ∃ q : PrefixId W, addBitSpanBits x len bs = some q ∧ q.len = len + bs.len ∧
      Spec.NoBitsFrom q.bits q.len ∧ (∀ i, i < len → q.bits.getMsbD i = x.getMsbD i) ∧
      Spec.IsSpan q.bits len bs.len bs.bits := by
  obtain ⟨q, h1, h2, h3, h4, h5⟩ := addBitSpan_bits h h0 hv hx
  exact ⟨q, h1, h2, h3, h4, hv, fun i hi => (h5 i hi).symm⟩

/-- What was added is taken out again. -/
theorem add_span_take {x : BitVec W} {len : Nat} {bs : BitSpan} (h : len + bs.len ≤ W)
    (h1 : 1 ≤ bs.len) (h32 : bs.len ≤ 32) (hv : bs.bits < 2 ^ bs.len)
    (hx : Spec.NoBitsFrom x len) :
    (addBitSpanBits x len bs).bind (fun q => intoBitSpan q.bits len bs.len) = some bs := by
  obtain ⟨q, hq, _, _, _, hs⟩ := add_span_bits h (by omega) hv hx
  obtain ⟨v, hv', hsv⟩ := intoBitSpan_span (x := q.bits) h1 h32 h
  rw [hq, Option.bind_some, hv', isSpan_inj hsv hs (fun _ _ => rfl)]

/-- What was taken out is added again: the first `len` bits of an address are its first `start`
bits and the span that follows. -/
theorem take_span_add {x : BitVec W} {start len : Nat} (h1 : 1 ≤ len) (h32 : len ≤ 32)
    (h : start + len ≤ W) :
    (intoBitSpan x start len).bind (fun bs => addBitSpanBits (truncateToLen x start) start bs) =
      some ⟨truncateToLen x (start + len), start + len⟩ := by
  obtain ⟨v, hv, hs⟩ := intoBitSpan_span (x := x) h1 h32 h
  have hx : Spec.NoBitsFrom (truncateToLen x start) start := fun i hi => by
    rw [truncate_bits x (by omega), if_neg (by omega)]
  obtain ⟨q, hq, hl, hn, hlead, hsp⟩ := add_span_bits (bs := ⟨v, len⟩) h (by simp; omega) hs.1 hx
  rw [hv, Option.bind_some, hq]
  cases q with | mk b l =>
  simp only at hl hn hlead hsp
  subst hl
  congr 2
  apply ext_msb
  intro i hi
  rw [truncate_bits x h]
  by_cases c : i < start
  · rw [hlead i c, truncate_bits x (by omega), if_pos c, if_pos (by omega)]
  · by_cases d : i < start + len
    · have e1 := hsp.2 (i - start) (by omega)
      have e2 := hs.2 (i - start) (by omega)
      rw [show start + (i - start) = i by omega] at e1 e2
      rw [if_pos d, ← e1, ← e2]
    · rw [if_neg d, hn i (by omega)]

example : addBitSpanBits 0x0A000000#32 8 ⟨0xB, 4⟩ = some ⟨0x0AB00000#32, 12⟩ ∧
    intoBitSpan 0x0AB00000#32 8 4 = some ⟨0xB, 4⟩ ∧
    addBitSpanBits 0#32 0 ⟨0, 0⟩ = none ∧ addBitSpanBits 0x0A000001#32 32 ⟨0, 1⟩ = none := by
  decide +kernel

/-! ## Positions in a node -/

/-- `from_bit_pos_index` numbers the spans by length and then by value, for every byte but the
last one, where it panics. -/
theorem index_to_span :
    (∀ i < 255, ∃ l < 8, ∃ v < 128, v < 2 ^ l ∧ i = 2 ^ l - 1 + v ∧
      BitSpan.fromBitPosIndex i = some ⟨v, l⟩) ∧ ∀ i ≥ 255, BitSpan.fromBitPosIndex i = none := by
  refine ⟨?_, fun i hi => by unfold BitSpan.fromBitPosIndex; rw [if_neg (by omega)]⟩
  have h : ∀ i < 255, BitSpan.fromBitPosIndex i =
      some ⟨i - (2 ^ (i + 1).log2 - 1), (i + 1).log2⟩ := by decide +kernel
  intro i hi
  have a := Nat.log2_self_le (n := i + 1) (by omega)
  have b := Nat.lt_log2_self (n := i + 1)
  have c : (i + 1).log2 < 8 := by
    rw [Nat.log2_lt (by omega)]; omega
  have d : 2 ^ (i + 1).log2 ≤ 2 ^ 7 := Nat.pow_le_pow_right (by omega) (by omega)
  rw [Nat.pow_succ] at b
  exact ⟨_, c, _, by omega, by omega, by omega, h i hi⟩

/-- `into_bit_pos` is defined exactly for the 32 positions, and then is the mask with one bit. -/
theorem span_to_position (b : BitSpan) (hb : b.bits < 256) :
    (b.intoBitPos = none ↔ 32 ≤ 2 ^ b.len - 1 + b.bits) ∧
    ∀ m, b.intoBitPos = some m → ∀ i, m.getMsbD i = decide (i = 2 ^ b.len - 1 + b.bits) := by
  unfold BitSpan.intoBitPos
  rw [Nat.mod_eq_of_lt hb]
  by_cases c : 2 ^ b.len - 1 + b.bits + 1 ≤ 32
  · rw [if_pos c]
    refine ⟨by simp; omega, fun m hm i => ?_⟩
    simp only [Option.some.injEq] at hm
    subst hm
    have key : ∀ k < 32, ∀ i < 32, (1#32 <<< (31 - k)).getMsbD i = decide (i = k) := by
      decide +kernel
    rw [show 32 - (2 ^ b.len - 1) - b.bits - 1 = 31 - (2 ^ b.len - 1 + b.bits) by omega]
    by_cases d : i < 32
    · exact key _ (by omega) i d
    · rw [BitVec.getMsbD_of_ge _ _ (by omega)]
      simp; omega
  · rw [if_neg c]
    refine ⟨by simp; omega, fun m hm => by cases hm⟩

/-- The index of a span's position is the index it was made from, for all 32 of them. -/
theorem index_roundtrip :
    ∀ i < 32, (BitSpan.fromBitPosIndex i).bind BitSpan.cursor = some i := by decide +kernel

/-- And the span of its index is the span. -/
theorem span_roundtrip {b : BitSpan} (h4 : b.len ≤ 4) (hv : b.bits < 2 ^ b.len) :
    b.cursor.bind BitSpan.fromBitPosIndex = some b := by
  have h16 : 2 ^ b.len ≤ 2 ^ 4 := Nat.pow_le_pow_right (by omega) h4
  have hi : 2 ^ b.len - 1 + b.bits < 31 := by omega
  unfold BitSpan.cursor
  rw [intoBitPos_eq h4 hv, Option.map_some, Option.bind_some, leadingZeros_posMask _ (by omega)]
  obtain ⟨l, hl, v, _, hv2, he, hs⟩ := fromBitPosIndex_spec _ hi
  rw [hs]
  have hp := Nat.one_le_two_pow (n := b.len)
  have hlen : b.len = l := by
    rcases Nat.lt_trichotomy b.len l with c | c | c
    · have := Nat.pow_le_pow_right (n := 2) (by omega) (show b.len + 1 ≤ l by omega)
      rw [Nat.pow_succ] at this; omega
    · exact c
    · have := Nat.pow_le_pow_right (n := 2) (by omega) (show l + 1 ≤ b.len by omega)
      have := Nat.one_le_two_pow (n := l)
      rw [Nat.pow_succ] at *; omega
  cases b with | mk bv bl =>
  simp only at *
  subst hlen
  congr 2
  omega

/-- `check` accepts exactly the spans of at most four bits. -/
theorem span_check (b : BitSpan) : b.check = true ↔ b.len ≤ 4 ∧ b.bits < 2 ^ b.len := by
  have key : ∀ l < 5, ∀ v < 16, (BitSpan.check ⟨v, l⟩ = true ↔ v < 2 ^ l) := by decide +kernel
  cases b with | mk v l =>
  by_cases c : l < 5 ∧ v < 16
  · rw [key l c.1 v c.2]
    simp only
    omega
  · have hf : BitSpan.check ⟨v, l⟩ = false := by
      unfold BitSpan.check
      simp only
      rw [if_neg (by omega)]
      rcases Nat.lt_or_ge l 5 with d | d
      · have : ¬ v < 16 := by omega
        simp [this]
      · have : ¬ l < 5 := by omega
        simp [this]
    rw [hf]
    simp only [Bool.false_eq_true, false_iff]
    rintro ⟨h1, h2⟩
    have : 2 ^ l ≤ 2 ^ 4 := Nat.pow_le_pow_right (by omega) h1
    omega

example : BitSpan.fromBitPosIndex 20 = some ⟨5, 4⟩ ∧ BitSpan.cursor ⟨5, 4⟩ = some 20 ∧
    BitSpan.fromBitPosIndex 31 = some ⟨0, 5⟩ ∧ BitSpan.cursor ⟨0, 5⟩ = some 31 ∧
    BitSpan.cursor ⟨1, 5⟩ = none ∧ BitSpan.check ⟨5, 2⟩ = false := by decide +kernel

/-! ## Sizes of the buckets -/

/-- `nodeset_size`: the bits of a prefix that level `lvl` of its chain looks at, four at most and
not beyond the length. -/
theorem level_size {len lvl : Nat} (h : 4 * (lvl + 1) ≤ 255) :
    nodesetSize len lvl = some (min 4 (len - 4 * lvl)) := by
  unfold nodesetSize
  rw [if_pos h]
  congr 1
  omega

/-- `prev_node_size`: up to the first level without bits it is what the levels before have looked
at; from the next one on it is too small or panics. -/
theorem levels_before {len lvl : Nat} (h : 4 * lvl ≤ 255) :
    (lvl ≤ len / 4 + 1 → prevNodeSize len lvl =
      some ((List.range lvl).foldl (fun n l => n + min 4 (len - 4 * l)) 0)) ∧
    (len / 4 + 2 ≤ lvl → ∀ n, prevNodeSize len lvl = some n → n < len) := by
  have hsum : ∀ l, (List.range l).foldl (fun n l => n + min 4 (len - 4 * l)) 0 = min (4 * l) len := by
    intro l
    induction l with
    | zero => simp
    | succ l ih => rw [List.range_succ, List.foldl_append, ih]; simp only [List.foldl]; omega
  unfold prevNodeSize
  refine ⟨fun hl => ?_, fun hl n hn => ?_⟩
  · rw [hsum]
    rcases Nat.lt_or_ge (len / 4) lvl with c | c
    · have e : lvl - len / 4 = 1 := by omega
      rw [e, Nat.one_mul, if_pos (by omega)]
      congr 1
      omega
    · have e : lvl * 4 - len = 0 := by omega
      rw [e, Nat.mul_zero, if_pos (by omega)]
      congr 1
      omega
  · split at hn
    · have : 2 * (lvl * 4 - len) ≤ (lvl - len / 4) * (lvl * 4 - len) :=
        Nat.mul_le_mul_right _ (by omega)
      simp only [Option.some.injEq] at hn
      omega
    · cases hn

example : prevNodeSize 10 2 = some 8 ∧ prevNodeSize 10 3 = some 10 ∧ prevNodeSize 10 4 = some 4 ∧
    prevNodeSize 10 5 = none ∧ nodesetSize 10 2 = some 2 := by decide

/-! ## Shifts and truncation -/

/-- Missing, and false: a shift by 0 gives the address.  `checked_shr_or_zero`: a shift by 1 to the width is a shift; a shift by 0 gives 0, which is
not a shift; more than the width panics. -/
theorem shr_or_zero_partial (x : BitVec W) (rhs : Nat) :
    (0 < rhs → rhs ≤ W → checkedShrOrZero x rhs = some (BitVec.ofNat W (x.toNat / 2 ^ rhs))) ∧
    checkedShrOrZero x 0 = some 0#W ∧ (checkedShrOrZero x rhs = none ↔ W < rhs) := by
  unfold checkedShrOrZero
  refine ⟨fun h0 hW => ?_, by simp, ?_⟩
  · by_cases c : rhs = W
    · rw [if_pos (.inr c), c, Nat.div_eq_of_lt x.isLt]
    · rw [if_neg (by omega), if_pos (by omega)]
      congr 1
      apply BitVec.eq_of_toNat_eq
      rw [BitVec.toNat_ushiftRight, BitVec.toNat_ofNat, Nat.shiftRight_eq_div_pow]
      exact (Nat.mod_eq_of_lt (lt_of_le_of_lt (Nat.div_le_self _ _) x.isLt)).symm
  · by_cases a : rhs = 0 ∨ rhs = W
    · rw [if_pos a]; simp; omega
    · rw [if_neg a]
      by_cases b : rhs < W
      · rw [if_pos b]; simp; omega
      · rw [if_neg b]; simp; omega

/-- Missing, and false: a shift by 0 of an IPv4 address.  `checked_shl_or_zero` agrees with the shift for both families, but for a shift by 0 of an
IPv4 address: IPv6 gives the address, IPv4 gives 0. -/
theorem shl_or_zero_partial (rhs : Nat) :
    (∀ x : BitVec 128, checkedShlOrZero6 x rhs = BitVec.ofNat 128 (x.toNat * 2 ^ rhs)) ∧
    (∀ x : BitVec 32, 0 < rhs → checkedShlOrZero4 x rhs = BitVec.ofNat 32 (x.toNat * 2 ^ rhs)) ∧
    ∀ x : BitVec 32, checkedShlOrZero4 x 0 = 0#32 := by
  have big : ∀ (w n r : Nat), w ≤ r → BitVec.ofNat w (n * 2 ^ r) = 0#w := fun w n r h => by
    apply BitVec.eq_of_toNat_eq
    rw [BitVec.toNat_ofNat, BitVec.toNat_ofNat, Nat.zero_mod]
    exact Nat.mod_eq_zero_of_dvd ((Nat.pow_dvd_pow 2 h).trans (Nat.dvd_mul_left _ _))
  have small : ∀ {w : Nat} (x : BitVec w) (r : Nat), x <<< r = BitVec.ofNat w (x.toNat * 2 ^ r) :=
    fun x r => by
      apply BitVec.eq_of_toNat_eq
      rw [BitVec.toNat_shiftLeft, BitVec.toNat_ofNat, Nat.shiftLeft_eq]
  refine ⟨fun x => ?_, fun x h0 => ?_, fun x => by simp [checkedShlOrZero4]⟩
  · unfold checkedShlOrZero6
    by_cases c : 128 ≤ rhs
    · rw [if_pos c, big _ _ _ c]
    · rw [if_neg c, small]
  · unfold checkedShlOrZero4
    by_cases c : 32 ≤ rhs
    · rw [if_pos (.inr c), big _ _ _ c]
    · rw [if_neg (by omega), small]

/-- `checked_shr` and `checked_shl` are defined exactly below the width. -/
theorem checked_shifts (x : BitVec W) (rhs : Nat) :
    (rhs < W → checkedShr x rhs = some (BitVec.ofNat W (x.toNat / 2 ^ rhs)) ∧
      checkedShl x rhs = some (BitVec.ofNat W (x.toNat * 2 ^ rhs))) ∧
    (W ≤ rhs → checkedShr x rhs = none ∧ checkedShl x rhs = none) := by
  unfold checkedShr checkedShl
  refine ⟨fun h => ?_, fun h => by simp [Nat.not_lt.2 h]⟩
  rw [if_pos h, if_pos h]
  refine ⟨congrArg some (BitVec.eq_of_toNat_eq ?_), congrArg some (BitVec.eq_of_toNat_eq ?_)⟩
  · rw [BitVec.toNat_ushiftRight, BitVec.toNat_ofNat, Nat.shiftRight_eq_div_pow]
    exact (Nat.mod_eq_of_lt (lt_of_le_of_lt (Nat.div_le_self _ _) x.isLt)).symm
  · rw [BitVec.toNat_shiftLeft, BitVec.toNat_ofNat, Nat.shiftLeft_eq]

/-- `truncate_to_len` beyond the width neither panics nor keeps the address: it cuts to the
remainder of the length by the width (and keeps everything if that is 0). -/
theorem truncate_beyond (x : BitVec W) {len : Nat} (h : W < len) :
    truncateToLen x len = if len % W = 0 then x else truncateToLen x (len % W) := by
  have hr : (1#W).rotateRight len = (1#W).rotateRight (len % W) := by
    rw [BitVec.rotateRight_mod_eq_rotateRight]
  unfold truncateToLen
  by_cases c : len % W = 0
  · rw [if_pos c, hr, c]
    apply ext_msb
    intro i hi
    have : 1 - len = 0 := by omega
    simp [this, BitVec.rotateRight, BitVec.rotateRightAux]
  · rw [if_neg c, hr, show 1 - len = 0 by omega, show 1 - len % W = 0 by omega]

example : checkedShrOrZero 0x0A000000#32 24 = some 10#32 ∧
    checkedShrOrZero 0x0A000000#32 0 = some 0#32 ∧ checkedShrOrZero 0x0A000000#32 32 = some 0#32 ∧
    checkedShrOrZero 0x0A000000#32 33 = none ∧
    checkedShlOrZero4 10#32 0 = 0#32 ∧ checkedShlOrZero6 10#128 0 = 10#128 ∧
    checkedShr 10#32 1 = some 5#32 ∧ checkedShl 10#32 32 = none ∧
    truncateToLen 0x8A0B0C0D#32 33 = 0x80000000#32 := by decide +kernel

end Rotonda.Props
