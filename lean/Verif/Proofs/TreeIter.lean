import Verif.Proofs.IterBits
import Verif.Proofs.TreeRead

/-!
# The more-specifics iterator, run sequentially
-/

namespace Rotonda

open Prog

variable {W : Nat}

/-- What the iterator needs to know about the table. -/
structure Linked (s : NSlots W) : Prop where
  inv : ChainInv (nodeLayout W) s
  link : ∀ q : PrefixId W, q.Clean → 0 < q.len → PfxSet s q →
    ∀ n, Anc n q → n.len + 4 < q.len → PtrSet s n (nib q.bits n.len 4)
  kids : ∀ a e v, s a = some e → e.ptr.getMsbD v = true → ∀ c : NodeId W, c.Clean →
    c.len = e.id.len + 4 → truncateToLen c.bits e.id.len = e.id.bits →
    nib c.bits e.id.len 4 = v → Has s c ∧ c.len < W

theorem Rep.linked [Fam W] {S : PrefixId W → Mui → Prop} {t : Tree W} (h : Rep S t) :
    Linked t.slots := by
  refine ⟨h.inv, ?_, ?_⟩
  · intro q hq h0 hs n hn hl
    obtain ⟨m, hS⟩ := (h.pfxSet_iff hq h0).1 hs
    exact ((h.full _ _ hS h0).1 n hn hn.1).2 hl
  · intro a e v he hv c hc hlen htr hnib
    obtain ⟨p, m, hS, hanc, hlt, hp⟩ := h.just.ptr a e v he hv
    have hpc := h.clean _ _ hS
    have hpW := hpc.1
    have hcW : c.len < W := by omega
    refine ⟨?_, hcW⟩
    have h4 : 4 ∣ c.len := by rw [hlen]; have := hanc.2.1; omega
    have hanc' : Anc (ancAt p c.len) p := anc_ancAt h4 (by omega)
    have heq : c = ancAt p c.len := by
      have : truncateToLen c.bits (e.id.len + 4) = truncateToLen p.bits (e.id.len + 4) := by
        rw [truncate_add (by omega)]
        exact ⟨htr.trans hanc.2.2, hnib.trans hp.symm⟩
      rw [← hlen] at this
      have h2 : truncateToLen c.bits c.len = c.bits := (truncate_eq_iff hc).2 (fun _ _ => rfl)
      rw [h2] at this
      unfold ancAt
      rw [← this]
    obtain ⟨b, f, hf, hfid, _⟩ := ((h.full _ _ hS (by omega)).1 _ hanc' (by
      change c.len < p.len; omega)).1
    rw [heq]
    exact ⟨b, f, hf, hfid⟩

/-- A prefix recorded in the table. -/
def Stored (s : NSlots W) (q : PrefixId W) : Prop := q.Clean ∧ 0 < q.len ∧ PfxSet s q

/-- What is left in a prefix iterator. -/
def InPfx (it : PfxIter W) (q : PrefixId W) : Prop :=
  q.Clean ∧ 0 < q.len ∧ hostId q = it.base ∧ it.arr.getMsbD (pfxPos q) = true

/-- What is left below a child iterator. -/
def InKids (s : NSlots W) (it : ChildIter W) (q : PrefixId W) : Prop :=
  Stored s q ∧ it.base.len + 4 < q.len ∧ truncateToLen q.bits it.base.len = it.base.bits ∧
    it.range.getMsbD (nib q.bits it.base.len 4) = true

/-- Well-formed prefix iterator. -/
def PWf (it : PfxIter W) : Prop :=
  (nodeLayout W).ok it.base ∧ it.arr.getMsbD 0 = false ∧ it.arr.getMsbD 31 = false

/-- Well-formed child iterator: all children left to visit exist. -/
def KWf (s : NSlots W) (it : ChildIter W) : Prop :=
  (nodeLayout W).ok it.base ∧ ∀ v, it.range.getMsbD v = true → ∀ c : NodeId W, c.Clean →
    c.len = it.base.len + 4 → truncateToLen c.bits it.base.len = it.base.bits →
    nib c.bits it.base.len 4 = v → Has s c ∧ c.len < W

theorem ok_le [hW : Fam W] {n : NodeId W} (h : (nodeLayout W).ok n) : n.len + 4 ≤ W := by
  obtain ⟨_, h4, hl⟩ := h
  rcases hW.width with rfl | rfl <;> omega

theorem hostId_of {q : PrefixId W} {n : NodeId W} (h4 : 4 ∣ n.len) {l : Nat} (h1 : 1 ≤ l)
    (hl : l ≤ 4) (hlen : q.len = n.len + l) (ht : truncateToLen q.bits n.len = n.bits) :
    hostLen q.len = n.len ∧ hostId q = n ∧ pfxPos q = 2 ^ l - 1 + nib q.bits n.len l := by
  have hh : hostLen q.len = n.len := by unfold hostLen; omega
  refine ⟨hh, ?_, ?_⟩
  · unfold hostId; rw [hh, ht]
  · unfold pfxPos; rw [hh, show q.len - n.len = l by omega]

theorem PfxIter.next_spec [Fam W] {it : PfxIter W} (hw : PWf it) :
    (it.next = some none ∧ ∀ q, ¬ InPfx it q) ∨
    ∃ q it', it.next = some (some (q, it')) ∧ InPfx it q ∧ PWf it' ∧ it'.base = it.base ∧
      pop it'.arr < pop it.arr ∧ ∀ q', InPfx it' q' ↔ InPfx it q' ∧ q' ≠ q := by
  by_cases hz : it.arr = 0#32
  · left
    refine ⟨by simp [PfxIter.next, hz], fun q hq => ?_⟩
    have := hq.2.2.2
    rw [hz] at this; simp at this
  · right
    obtain ⟨hlt, hbit⟩ := leadingZeros_spec hz
    have h0 : leadingZeros it.arr ≠ 0 := fun h => by rw [h, hw.2.1] at hbit; cases hbit
    have h31 : leadingZeros it.arr ≠ 31 := fun h => by rw [h, hw.2.2] at hbit; cases hbit
    obtain ⟨l, hl, v, hv, hvl, heq, hfrom⟩ := fromBitPosIndex_spec _ (show leadingZeros it.arr < 31 by omega)
    have hl1 : 1 ≤ l := by
      rcases l with _ | l
      · simp at hvl heq; omega
      · omega
    have hpos : (BitSpan.mk v l).intoBitPos = some (posMask (leadingZeros it.arr)) := by
      rw [intoBitPos_eq (by simp; omega) (by simpa using hvl), heq]
    have hle := ok_le hw.1
    obtain ⟨q, hq, hqc, hqlen, hqt, hqn⟩ := addBitSpan_spec hw.1.1 hl1 (show it.base.len + l ≤ W by omega) hvl
    obtain ⟨hh1, hh2, hh3⟩ := hostId_of hw.1.2.1 hl1 (by omega) hqlen hqt
    have hpp : pfxPos q = leadingZeros it.arr := by rw [hh3, hqn, ← heq]
    have hmsb : ∀ j, (it.arr ^^^ bitPosFromIndex (leadingZeros it.arr)).getMsbD j =
        ((it.arr.getMsbD j) && !decide (j = leadingZeros it.arr)) := by
      intro j
      rw [BitVec.getMsbD_xor, bitPosFromIndex_eq _ hlt, posMask_msb hlt]
      by_cases c : j = leadingZeros it.arr
      · subst c; simp [hbit]
      · simp [c]
    refine ⟨q, { it with arr := it.arr ^^^ bitPosFromIndex (leadingZeros it.arr) }, ?_,
      ⟨hqc, by omega, hh2, by rw [hpp]; exact hbit⟩, ⟨hw.1, ?_, ?_⟩, rfl, ?_, ?_⟩
    · unfold PfxIter.next
      rw [if_neg hz]
      simp only [hfrom, Option.bind_some, hpos]
      rw [leadingZeros_posMask _ hlt, hfrom]
      simp only [Option.bind_some, hq]
    · simp only; rw [hmsb, hw.2.1]; rfl
    · simp only; rw [hmsb, hw.2.2]; rfl
    · refine pop_lt hlt hbit (fun j _ => ?_)
      rw [hmsb]; simp
    · intro q'
      unfold InPfx
      simp only
      rw [hmsb]
      constructor
      · rintro ⟨h1, h2, h3, h4⟩
        simp only [Bool.and_eq_true, Bool.not_eq_true', decide_eq_false_iff_not] at h4
        exact ⟨⟨h1, h2, h3, h4.1⟩, fun h => h4.2 (by rw [h, hpp])⟩
      · rintro ⟨⟨h1, h2, h3, h4⟩, hne⟩
        refine ⟨h1, h2, h3, ?_⟩
        simp only [Bool.and_eq_true, Bool.not_eq_true', decide_eq_false_iff_not]
        refine ⟨h4, fun h => hne ?_⟩
        exact pfxPos_inj h1 hqc (h3.trans hh2.symm) (h.trans hpp.symm)

theorem ChildIter.next_spec [Fam W] {s : NSlots W} {it : ChildIter W} (hw : KWf s it) :
    (it.next = some none ∧ ∀ q, ¬ InKids s it q) ∨
    ∃ c v it', it.next = some (some (c, it')) ∧ c.Clean ∧ c.len = it.base.len + 4 ∧
      truncateToLen c.bits it.base.len = it.base.bits ∧ nib c.bits it.base.len 4 = v ∧
      it.range.getMsbD v = true ∧ it'.base = it.base ∧ pop it'.range < pop it.range ∧
      ∀ j, (it'.range.getMsbD j = true ↔ it.range.getMsbD j = true ∧ j ≠ v) := by
  by_cases hz : it.range = 0#16
  · left
    refine ⟨by simp [ChildIter.next, hz], fun q hq => ?_⟩
    have := hq.2.2.2
    rw [hz] at this; simp at this
  · right
    obtain ⟨hlt, hbit⟩ := leadingZeros_spec hz
    have hle := ok_le hw.1
    obtain ⟨c, hc, hcc, hclen, hct, hcn⟩ := addBitSpan_spec hw.1.1 (l := 4) (by omega) hle
      (show leadingZeros it.range < 2 ^ 4 by omega)
    have hmsb : ∀ j, (it.range ^^^ ptrBitPosFromIndex (leadingZeros it.range + 15)).getMsbD j = true ↔
        (it.range.getMsbD j = true ∧ j ≠ leadingZeros it.range) := by
      intro j
      by_cases hj : j < 16
      · rw [BitVec.getMsbD_xor, ptrBitPos_msb _ hlt j hj]
        by_cases c : j = leadingZeros it.range
        · subst c; simp [hbit]
        · simp [c]
      · simp [BitVec.getMsbD_of_ge _ _ (by omega : 16 ≤ j)]
    refine ⟨c, leadingZeros it.range,
      { it with range := it.range ^^^ ptrBitPosFromIndex (leadingZeros it.range + 15) },
      ?_, hcc, hclen, hct, hcn, hbit, rfl, ?_, hmsb⟩
    · unfold ChildIter.next
      rw [if_neg hz]
      simp only [fromBitPosIndex_ptr _ hlt, Option.bind_some, hc]
    · exact pop_lt hlt hbit (fun j _ => hmsb j)

theorem run_retrieveNode [Fam W] {s : NSlots W} (hi : ChainInv (nodeLayout W) s) {id : NodeId W}
    (hok : (nodeLayout W).ok id) :
    ∃ r, (retrieveNode id).run s = .ok r s ∧
      match r with
      | none => ¬ Has s id
      | some ref => NodeAt s ref.addr id := by
  obtain ⟨r, hr, _, h⟩ := run_of_wp_ro _
    (wp_retrieveNode (R := Eq) (G := fun a b => b = a) (D := False)
      (fun s s' h => NR_of_eq h) (fun _ => rfl) hok hi)
  exact ⟨r, hr, h⟩

theorem run_readAt {s : NSlots W} {ρ : Type} {a : Addr} {e : StoredNode W} (he : s a = some e)
    (f : StoredNode W → ρ) : (readAt a f).run s = .ok (f e) s := by
  simp [readAt, run_bind, Prog.read, run, Outcome.andThen, he, ofOption]

theorem run_msPfx {s : NSlots W} {a : Addr} {e : StoredNode W} (he : s a = some e)
    (base : NodeId W) {l v : Nat} (hl : l < 5) (hv : v < 2 ^ l) :
    ∃ mask, msPrefixMaskArr ⟨v, l⟩ = some mask ∧
      (moreSpecificPfxIter a base ⟨v, l⟩).run s = .ok ⟨base, mask &&& e.pfx⟩ s := by
  have h4 : 2 ^ l ≤ 2 ^ 4 := Nat.pow_le_pow_right (by omega) (by omega)
  obtain ⟨mask, hm, _⟩ := msMask_spec l hl v (by omega) hv
  refine ⟨mask, hm, ?_⟩
  unfold moreSpecificPfxIter
  rw [if_neg (by rw [check_ok l hl v (by omega) hv]; simp), run_bind, loadPfx, run_readAt he]
  simp [Outcome.andThen, hm, ofOption, pure_def, run]

theorem run_msPtr {s : NSlots W} {a : Addr} {e : StoredNode W} (he : s a = some e)
    (base : NodeId W) {l v : Nat} (hl : l < 5) (hv : v < 2 ^ l) :
    ∃ r, (∀ j < 16, (r.getMsbD j = true ↔ e.ptr.getMsbD j = true ∧ j / 2 ^ (4 - l) = v)) ∧
      (moreSpecificPtrIter a base ⟨v, l⟩).run s = .ok ⟨base, r⟩ s := by
  have h4 : 2 ^ l ≤ 2 ^ 4 := Nat.pow_le_pow_right (by omega) (by omega)
  obtain ⟨r, hr, hspec⟩ := ptrRange_spec hl hv e.ptr
  refine ⟨r, hspec, ?_⟩
  unfold moreSpecificPtrIter
  rw [if_neg (by rw [check_ok l hl v (by omega) hv]; simp), run_bind, loadPtr, run_readAt he]
  simp [Outcome.andThen, hr, ofOption, pure_def, run]

theorem msb_lt {w : Nat} {x : BitVec w} {j : Nat} (h : x.getMsbD j = true) : j < w := by
  by_contra hc
  rw [BitVec.getMsbD_of_ge _ _ (by omega)] at h
  cases h

/-- The iterators of a whole node cover exactly the prefixes below the node. -/
theorem node_iters [hW : Fam W] {s : NSlots W} (hL : Linked s) {a : Addr} {e : StoredNode W}
    (he : s a = some e) {l v : Nat} (hl : l < 5) (hv : v < 2 ^ l) :
    ∃ pfx ptr, (moreSpecificPfxIter a e.id ⟨v, l⟩).run s = .ok pfx s ∧
      (moreSpecificPtrIter a e.id ⟨v, l⟩).run s = .ok ptr s ∧ PWf pfx ∧ KWf s ptr ∧
      ptr.base = e.id ∧ pfx.base = e.id ∧
      ∀ q, (InPfx pfx q ∨ InKids s ptr q) ↔
        (Stored s q ∧ e.id.len < q.len ∧ truncateToLen q.bits e.id.len = e.id.bits ∧
          e.id.len + l ≤ q.len ∧ nib q.bits e.id.len l = v) := by
  obtain ⟨hok, _⟩ := hL.inv a e he
  have hok : (nodeLayout W).ok e.id := hok
  have hle := ok_le hok
  have h4 : 2 ^ l ≤ 2 ^ 4 := Nat.pow_le_pow_right (by omega) (by omega)
  obtain ⟨mask, hm, hr1⟩ := run_msPfx he e.id hl hv
  obtain ⟨r, hspec, hr2⟩ := run_msPtr he e.id hl hv
  obtain ⟨mask', hm', hrow⟩ := msMask_spec l hl v (by omega) hv
  rw [hm] at hm'; cases hm'
  obtain ⟨hend0, hend31⟩ := msMask_ends l hl v (by omega) hv mask hm
  refine ⟨_, _, hr1, hr2, ⟨hok, ?_, ?_⟩, ⟨hok, ?_⟩, rfl, rfl, ?_⟩
  · simp [BitVec.getMsbD_and, hend0]
  · simp only; rw [BitVec.getMsbD_and, hend31]; rfl
  · intro j hj c hc h1 h2 h3
    exact hL.kids a e j he ((hspec j (msb_lt hj)).1 hj).1 c hc h1 h2 h3
  · intro q
    constructor
    · rintro (⟨hq, h0, hh, hb⟩ | ⟨hs, hlen, htr, hb⟩)
      · simp only at hh hb
        rw [BitVec.getMsbD_and, Bool.and_eq_true] at hb
        have hlenh : hostLen q.len = e.id.len := congrArg PrefixId.len hh
        have hlt := hostLen_lt h0
        have hle4 := hostLen_le4 (len := q.len)
        have hqW := hq.1
        have hnl := nib_lt q.bits (start := hostLen q.len) (len := q.len - hostLen q.len) (by omega)
        have h42 : 2 ^ (q.len - hostLen q.len) ≤ 2 ^ 4 := Nat.pow_le_pow_right (by omega) (by omega)
        have hr := (hrow (q.len - hostLen q.len) (by omega) (nib q.bits (hostLen q.len) (q.len - hostLen q.len))
          (by omega) (by omega) hnl).1 hb.1
        rw [nib_split q.bits (by omega) hr.1] at hr
        refine ⟨⟨hq, h0, a, e, he, hh.symm, hb.2⟩, by omega, ?_, by omega, ?_⟩
        · rw [← hlenh]; exact congrArg PrefixId.bits hh
        · rw [← hlenh]; exact hr.2
      · simp only at hlen htr hb
        have hqW := hs.1.1
        have hn := nib_lt q.bits (start := e.id.len) (len := 4) (by omega)
        have := ((hspec _ (by omega)).1 hb).2
        rw [nib_split q.bits (by omega) (by omega)] at this
        exact ⟨hs, by omega, htr, by omega, this⟩
    · rintro ⟨hs, hlen, htr, hle', hnib⟩
      have hqW := hs.1.1
      by_cases c : q.len ≤ e.id.len + 4
      · left
        obtain ⟨k, hk⟩ : ∃ k, q.len = e.id.len + k := ⟨q.len - e.id.len, by omega⟩
        obtain ⟨hh1, hh2, hh3⟩ := hostId_of hok.2.1 (by omega) (by omega) hk htr
        refine ⟨hs.1, hs.2.1, hh2, ?_⟩
        simp only
        rw [BitVec.getMsbD_and, Bool.and_eq_true]
        refine ⟨?_, (pfxSet_at hL.inv he hh2.symm).1 hs.2.2⟩
        rw [hh3]
        have hnl := nib_lt q.bits (start := e.id.len) (len := k) (by omega)
        have h42 : 2 ^ k ≤ 2 ^ 4 := Nat.pow_le_pow_right (by omega) (by omega)
        rw [hrow k (by omega) _ (by omega) (by omega) hnl]
        refine ⟨by omega, ?_⟩
        rw [nib_split q.bits (by omega) (by omega)]
        exact hnib
      · right
        refine ⟨hs, by simp only; omega, htr, ?_⟩
        simp only
        have hn := nib_lt q.bits (start := e.id.len) (len := 4) (by omega)
        rw [hspec _ (by omega)]
        constructor
        · obtain ⟨b, f, hf, hfid, hb⟩ := hL.link q hs.1 hs.2.1 hs.2.2 e.id
            ⟨by omega, hok.2.1, htr.symm⟩ (by omega)
          have : b = a := hL.inv.unique hf he hfid
          subst this; rw [he] at hf; cases hf; exact hb
        · rw [nib_split q.bits (by omega) (by omega)]
          exact hnib

theorem inPfx_inKids_disj {s : NSlots W} {pfx : PfxIter W} {ptr : ChildIter W}
    (h : pfx.base = ptr.base) {q : PrefixId W} : ¬ (InPfx pfx q ∧ InKids s ptr q) := by
  rintro ⟨⟨_, h0, hh, _⟩, ⟨_, hlen, _⟩⟩
  have : hostLen q.len = ptr.base.len := by rw [← h]; exact congrArg PrefixId.len hh
  unfold hostLen at this
  omega

theorem nib_zero (x : BitVec W) (start : Nat) (h : start ≤ W) : nib x start 0 = 0 := by
  have := nib_lt x (start := start) (len := 0) (by omega)
  simpa using this

/-- Going down one child. -/
theorem descend_spec [hW : Fam W] {s : NSlots W} (hL : Linked s) {it : ChildIter W} (hw : KWf s it)
    {c : NodeId W} {v : Nat} {it' : ChildIter W} (hc : c.Clean) (hclen : c.len = it.base.len + 4)
    (hct : truncateToLen c.bits it.base.len = it.base.bits) (hcn : nib c.bits it.base.len 4 = v)
    (hv : it.range.getMsbD v = true) (hb : it'.base = it.base)
    (hmsb : ∀ j, (it'.range.getMsbD j = true ↔ it.range.getMsbD j = true ∧ j ≠ v))
    (parents : List (ChildIter W)) :
    ∃ pfx ptr, (msDescend it' parents c).run s = .ok (.cont ⟨pfx, ptr, it' :: parents⟩) s ∧
      PWf pfx ∧ KWf s ptr ∧ KWf s it' ∧ ptr.base.len = it.base.len + 4 ∧
      (∀ q, InKids s it q ↔ (InPfx pfx q ∨ InKids s ptr q) ∨ InKids s it' q) ∧
      (∀ q, ¬ (InPfx pfx q ∧ InKids s ptr q)) ∧
      (∀ q, ¬ ((InPfx pfx q ∨ InKids s ptr q) ∧ InKids s it' q)) := by
  obtain ⟨hhas, hcW⟩ := hw.2 v hv c hc hclen hct hcn
  have h4 := hw.1.2.1
  have hok : (nodeLayout W).ok c := ⟨hc, by omega, hcW⟩
  obtain ⟨r, hr, hspec⟩ := run_retrieveNode hL.inv hok
  cases r with
  | none => exact absurd hhas hspec
  | some ref =>
    obtain ⟨e, he, hid⟩ := hspec
    obtain ⟨pfx, ptr, h1, h2, h3, h5, h6, h7, h8⟩ := node_iters hL he (l := 0) (v := 0) (by omega) (by simp)
    rw [hid] at h1 h2 h6 h7 h8
    have hcover : ∀ q, (InPfx pfx q ∨ InKids s ptr q) ↔
        (Stored s q ∧ it.base.len + 4 < q.len ∧ truncateToLen q.bits it.base.len = it.base.bits ∧
          nib q.bits it.base.len 4 = v) := by
      intro q
      rw [h8 q]
      constructor
      · rintro ⟨hs, hl, ht, _, _⟩
        have hqW := hs.1.1
        have : truncateToLen q.bits (it.base.len + 4) = truncateToLen c.bits (it.base.len + 4) := by
          rw [← hclen, ht]
          exact ((truncate_eq_iff hc).2 (fun _ _ => rfl)).symm
        rw [truncate_add (by omega)] at this
        exact ⟨hs, by omega, this.1.trans hct, this.2.trans hcn⟩
      · rintro ⟨hs, hl, ht, hn⟩
        have hqW := hs.1.1
        refine ⟨hs, by omega, ?_, by omega, nib_zero _ _ (by omega)⟩
        have : truncateToLen q.bits (it.base.len + 4) = truncateToLen c.bits (it.base.len + 4) := by
          rw [truncate_add (by omega)]
          exact ⟨ht.trans hct.symm, hn.trans hcn.symm⟩
        rw [hclen, this, ← hclen]
        exact (truncate_eq_iff hc).2 (fun _ _ => rfl)
    refine ⟨pfx, ptr, ?_, h3, h5, ⟨by rw [hb]; exact hw.1, ?_⟩, by rw [h6, hclen], ?_, ?_, ?_⟩
    · unfold msDescend
      rw [run_bind, hr]
      simp only [Outcome.andThen]
      rw [run_bind, h2]
      simp only [Outcome.andThen]
      rw [run_bind, h1]
      rfl
    · intro j hj
      rw [hb]
      exact hw.2 j ((hmsb j).1 hj).1
    · intro q
      rw [hcover q]
      unfold InKids
      rw [hb, hmsb]
      constructor
      · rintro ⟨hs, hl, ht, hb⟩
        by_cases c : nib q.bits it.base.len 4 = v
        · exact .inl ⟨hs, hl, ht, c⟩
        · exact .inr ⟨hs, hl, ht, hb, c⟩
      · rintro (⟨hs, hl, ht, hn⟩ | ⟨hs, hl, ht, hb, _⟩)
        · exact ⟨hs, hl, ht, by rw [hn]; exact hv⟩
        · exact ⟨hs, hl, ht, hb⟩
    · exact fun q => inPfx_inKids_disj (h7.trans h6.symm)
    · rintro q ⟨ha, hk⟩
      rw [hcover q] at ha
      obtain ⟨_, _, _, hbit⟩ := hk
      rw [hb, hmsb] at hbit
      exact hbit.2 ha.2.2.2

/-! ## Collecting -/

/-- The continuation of `msCollect`. -/
def collectRest (g : Nat) : Option (PrefixId W × MsIter W) → Prog (NSlots W) (List (PrefixId W))
  | none => return []
  | some (p, st') => do
    let rest ← msCollect g st'
    return p :: rest

/-- The iterator, started in `st`, yields `out`, for all sufficiently large fuel. -/
def Col (s : NSlots W) (st : MsIter W) (out : List (PrefixId W)) : Prop :=
  ∃ N, ∀ f g, N ≤ f → N ≤ g → (msNext f st >>= collectRest g).run s = .ok out s

theorem Col.collect {s : NSlots W} {st : MsIter W} {out : List (PrefixId W)} (h : Col s st out) :
    ∃ N, ∀ f, N ≤ f → (msCollect f st).run s = .ok out s := by
  obtain ⟨N, h⟩ := h
  refine ⟨N + 1, fun f hf => ?_⟩
  obtain ⟨g, rfl⟩ : ∃ g, f = g + 1 := ⟨f - 1, by omega⟩
  have := h (g + 1) g (by omega) (by omega)
  unfold msCollect
  rw [← this]
  rfl

theorem col_done {s : NSlots W} {st : MsIter W} (h : (msStep st).run s = .ok .done s) :
    Col s st [] := by
  refine ⟨1, fun f g hf _ => ?_⟩
  obtain ⟨f, rfl⟩ : ∃ k, f = k + 1 := ⟨f - 1, by omega⟩
  unfold msNext
  rw [bind_assoc', run_bind, h]
  rfl

theorem col_cont {s : NSlots W} {st st' : MsIter W} {out : List (PrefixId W)}
    (h : (msStep st).run s = .ok (.cont st') s) (hc : Col s st' out) : Col s st out := by
  obtain ⟨N, hc⟩ := hc
  refine ⟨N + 1, fun f g hf hg => ?_⟩
  obtain ⟨f, rfl⟩ : ∃ k, f = k + 1 := ⟨f - 1, by omega⟩
  unfold msNext
  rw [bind_assoc', run_bind, h]
  exact hc f g (by omega) (by omega)

theorem col_emit {s : NSlots W} {st st' : MsIter W} {p : PrefixId W} {out : List (PrefixId W)}
    (h : (msStep st).run s = .ok (.emit p st') s) (hc : Col s st' out) : Col s st (p :: out) := by
  obtain ⟨N, hc⟩ := hc.collect
  refine ⟨N + 1, fun f g hf hg => ?_⟩
  obtain ⟨f, rfl⟩ : ∃ k, f = k + 1 := ⟨f - 1, by omega⟩
  unfold msNext
  rw [bind_assoc', run_bind, h]
  simp only [Outcome.andThen, pure_bind', collectRest]
  rw [run_bind, hc g (by omega)]
  rfl

/-- Everything the iterator still has to yield. -/
def Rem (s : NSlots W) (st : MsIter W) (q : PrefixId W) : Prop :=
  InPfx st.pfx q ∨ ∃ it ∈ st.ptr :: st.parents, InKids s it q

/-- Well-formed iterator state. -/
structure Wf (s : NSlots W) (st : MsIter W) : Prop where
  pfx : PWf st.pfx
  kids : ∀ it ∈ st.ptr :: st.parents, KWf s it
  disj : List.Pairwise (fun i j => ∀ q, ¬ (InKids s i q ∧ InKids s j q)) (st.ptr :: st.parents)
  disjP : ∀ it ∈ st.ptr :: st.parents, ∀ q, ¬ (InPfx st.pfx q ∧ InKids s it q)

/-- Termination measure. -/
def msWeight (it : ChildIter W) : Nat := 1 + pop it.range * 64 ^ ((W - it.base.len) / 4)

def msMeasure (st : MsIter W) : Nat :=
  pop st.pfx.arr + ((st.ptr :: st.parents).map msWeight).sum

theorem weight_descend [Fam W] {it it' ptr : ChildIter W} {arr : BitVec 32}
    (hok : it.base.len + 4 ≤ W) (hb : it'.base = it.base) (hpop : pop it'.range < pop it.range)
    (hlen : ptr.base.len = it.base.len + 4) :
    pop arr + msWeight ptr + msWeight it' < msWeight it := by
  unfold msWeight
  rw [hb, hlen]
  obtain ⟨d, hd⟩ : ∃ d, (W - it.base.len) / 4 = d + 1 := ⟨(W - it.base.len) / 4 - 1, by omega⟩
  have hd' : (W - (it.base.len + 4)) / 4 = d := by omega
  rw [hd, hd', Nat.pow_succ]
  have h1 := pop_le arr
  have h2 := pop_le ptr.range
  have h3 : 1 ≤ 64 ^ d := Nat.one_le_pow _ _ (by omega)
  have h4 : pop ptr.range * 64 ^ d ≤ 16 * 64 ^ d := Nat.mul_le_mul_right _ h2
  have h5 : (pop it'.range + 1) * (64 ^ d * 64) ≤ pop it.range * (64 ^ d * 64) :=
    Nat.mul_le_mul_right _ hpop
  rw [Nat.add_mul] at h5
  omega

/-- The iterator yields exactly what is left, each once, and terminates. -/
theorem ms_main [hW : Fam W] {s : NSlots W} (hL : Linked s) : ∀ (n : Nat) (st : MsIter W),
    msMeasure st < n → Wf s st →
    ∃ out, Col s st out ∧ out.Nodup ∧ ∀ q, q ∈ out ↔ Rem s st q := by
  intro n
  induction n with
  | zero => intro st h; omega
  | succ n ih =>
    intro st hn hwf
    obtain ⟨pfx, ptr, parents⟩ := st
    rcases PfxIter.next_spec hwf.pfx with ⟨hnone, hempty⟩ | ⟨q, it', hnext, hq, hw', hb', hpop, hin⟩
    · -- the prefix iterator is finished
      -- common treatment of a descent
      have down : ∀ (it : ChildIter W) (rest : List (ChildIter W)) (c : NodeId W) (v : Nat)
          (it' : ChildIter W), (msStep ⟨pfx, ptr, parents⟩).run s = (msDescend it' rest c).run s →
          KWf s it → (∀ i ∈ rest, KWf s i) →
          List.Pairwise (fun i j => ∀ q, ¬ (InKids s i q ∧ InKids s j q)) (it :: rest) →
          msWeight it + (rest.map msWeight).sum ≤ n →
          c.Clean → c.len = it.base.len + 4 → truncateToLen c.bits it.base.len = it.base.bits →
          nib c.bits it.base.len 4 = v → it.range.getMsbD v = true → it'.base = it.base →
          pop it'.range < pop it.range →
          (∀ j, (it'.range.getMsbD j = true ↔ it.range.getMsbD j = true ∧ j ≠ v)) →
          (∀ q, Rem s ⟨pfx, ptr, parents⟩ q ↔ ∃ i ∈ it :: rest, InKids s i q) →
          ∃ out, Col s ⟨pfx, ptr, parents⟩ out ∧ out.Nodup ∧
            ∀ q, q ∈ out ↔ Rem s ⟨pfx, ptr, parents⟩ q := by
        intro it rest c v it' hstep hkw hrest hpw hms hc hclen hct hcn hv hb hpop hmsb hrem
        obtain ⟨pfx2, ptr2, hrun, h1, h2, h3, h4, h5, h6, h7⟩ :=
          descend_spec hL hkw hc hclen hct hcn hv hb hmsb rest
        rw [List.pairwise_cons] at hpw
        have hwf2 : Wf s ⟨pfx2, ptr2, it' :: rest⟩ := by
          refine ⟨h1, ?_, ?_, ?_⟩
          · intro i hi
            simp only [List.mem_cons] at hi
            rcases hi with rfl | rfl | hi
            · exact h2
            · exact h3
            · exact hrest i hi
          · rw [List.pairwise_cons, List.pairwise_cons]
            refine ⟨?_, ?_, hpw.2⟩
            · intro i hi q hk
              simp only [List.mem_cons] at hi
              rcases hi with rfl | hi
              · exact h7 q ⟨.inr hk.1, hk.2⟩
              · exact hpw.1 i hi q ⟨(h5 q).2 (.inl (.inr hk.1)), hk.2⟩
            · intro i hi q hk
              exact hpw.1 i hi q ⟨(h5 q).2 (.inr hk.1), hk.2⟩
          · intro i hi q hk
            simp only [List.mem_cons] at hi
            rcases hi with rfl | rfl | hi
            · exact h6 q hk
            · exact h7 q ⟨.inl hk.1, hk.2⟩
            · exact hpw.1 i hi q ⟨(h5 q).2 (.inl (.inl hk.1)), hk.2⟩
        have hm : msMeasure ⟨pfx2, ptr2, it' :: rest⟩ < n := by
          have := weight_descend (arr := pfx2.arr) (ok_le hkw.1) hb hpop h4
          simp only [msMeasure, List.map_cons, List.sum_cons]
          omega
        obtain ⟨out, hcol, hnd, hmem⟩ := ih _ hm hwf2
        refine ⟨out, col_cont (hstep.trans hrun) hcol, hnd, fun q => ?_⟩
        rw [hmem, hrem]
        simp only [Rem, List.mem_cons, exists_eq_or_imp]
        rw [h5 q, or_assoc, or_assoc]
      rcases ChildIter.next_spec (hwf.kids ptr (by simp)) with ⟨hnone2, hempty2⟩ |
        ⟨c, v, it', hnext, hc, hclen, hct, hcn, hv, hb, hpop, hmsb⟩
      · -- no more children here
        cases parents with
        | nil =>
          refine ⟨[], col_done ?_, by simp, fun q => ?_⟩
          · unfold msStep
            simp only [hnone, hnone2]
            rfl
          · simp only [List.not_mem_nil, false_iff]
            rintro (h | ⟨it, hit, h⟩)
            · exact hempty q h
            · simp only [List.mem_singleton] at hit
              subst hit; exact hempty2 q h
        | cons par rest =>
          have hrem : ∀ q, Rem s ⟨pfx, ptr, par :: rest⟩ q ↔ ∃ i ∈ par :: rest, InKids s i q := by
            intro q
            constructor
            · rintro (h | ⟨it, hit, h⟩)
              · exact (hempty q h).elim
              · simp only [List.mem_cons] at hit
                rcases hit with rfl | hit
                · exact (hempty2 q h).elim
                · exact ⟨it, by simpa using hit, h⟩
            · rintro ⟨i, hi, h⟩
              exact .inr ⟨i, List.mem_cons_of_mem _ hi, h⟩
          have hpw := (List.pairwise_cons.1 hwf.disj).2
          have hpos : 1 ≤ msWeight ptr := by unfold msWeight; omega
          simp only [msMeasure, List.map_cons, List.sum_cons] at hn
          rcases ChildIter.next_spec (hwf.kids par (by simp)) with ⟨hnone3, hempty3⟩ |
            ⟨c, v, it', hnext, hc, hclen, hct, hcn, hv, hb, hpop, hmsb⟩
          · -- the parent is finished as well
            have hstep : (msStep ⟨pfx, ptr, par :: rest⟩).run s = .ok (.cont ⟨pfx, par, rest⟩) s := by
              unfold msStep
              simp only [hnone, hnone2, hnone3]
              rfl
            have hwf2 : Wf s ⟨pfx, par, rest⟩ :=
              ⟨hwf.pfx, fun i hi => hwf.kids i (List.mem_cons_of_mem _ hi), hpw,
                fun i hi => hwf.disjP i (List.mem_cons_of_mem _ hi)⟩
            have hm : msMeasure ⟨pfx, par, rest⟩ < n := by
              simp only [msMeasure, List.map_cons, List.sum_cons]; omega
            obtain ⟨out, hcol, hnd, hmem⟩ := ih _ hm hwf2
            refine ⟨out, col_cont hstep hcol, hnd, fun q => ?_⟩
            rw [hmem, hrem]
            constructor
            · rintro (h | h)
              · exact (hempty q h).elim
              · exact h
            · exact fun h => .inr h
          · refine down par rest c v it' ?_ (hwf.kids par (by simp))
              (fun i hi => hwf.kids i (by simp [hi])) hpw (by omega) hc hclen hct hcn hv hb hpop hmsb hrem
            unfold msStep
            simp only [hnone, hnone2, hnext]
            rfl
      · -- descend into a child
        simp only [msMeasure, List.map_cons, List.sum_cons] at hn
        refine down ptr parents c v it' ?_ (hwf.kids ptr (by simp))
          (fun i hi => hwf.kids i (by simp [hi])) hwf.disj (by omega) hc hclen hct hcn hv hb hpop hmsb ?_
        · unfold msStep
          simp only [hnone, hnext]
          rfl
        · intro q
          constructor
          · rintro (h | h)
            · exact (hempty q h).elim
            · exact h
          · exact fun h => .inr h
    · -- emit a prefix
      have hstep : (msStep ⟨pfx, ptr, parents⟩).run s = .ok (.emit q ⟨it', ptr, parents⟩) s := by
        unfold msStep
        simp only [hnext]
        rfl
      have hwf2 : Wf s ⟨it', ptr, parents⟩ :=
        ⟨hw', hwf.kids, hwf.disj, fun i hi q' hk => hwf.disjP i hi q' ⟨((hin q').1 hk.1).1, hk.2⟩⟩
      have hm : msMeasure ⟨it', ptr, parents⟩ < n := by
        simp only [msMeasure] at hn hpop ⊢; omega
      obtain ⟨out, hcol, hnd, hmem⟩ := ih _ hm hwf2
      refine ⟨q :: out, col_emit hstep hcol, ?_, fun q' => ?_⟩
      · rw [List.nodup_cons]
        refine ⟨fun h => ?_, hnd⟩
        rcases (hmem q).1 h with h | ⟨i, hi, h⟩
        · exact ((hin q).1 h).2 rfl
        · exact hwf.disjP i hi q ⟨hq, h⟩
      · rw [List.mem_cons, hmem]
        unfold Rem
        simp only
        rw [hin]
        constructor
        · rintro (rfl | ⟨h, _⟩ | h)
          · exact .inl hq
          · exact .inl h
          · exact .inr h
        · rintro (h | h)
          · by_cases c : q' = q
            · exact .inl c
            · exact .inr (.inl ⟨h, c⟩)
          · exact .inr (.inr h)

/-- The node at which the iteration over the more specifics of `p` starts. -/
theorem start_node [Fam W] {p : PrefixId W} (hp : p.Clean) :
    ∃ (n : NodeId W) (v l : Nat),
      nodeIdForPrefix p = some (n, ⟨v, l⟩) ∧ (nodeLayout W).ok n ∧ l < 5 ∧ v < 2 ^ l ∧
      p.len = n.len + l ∧ (∀ q : PrefixId W, q.Clean → 0 < q.len →
        ((n.len < q.len ∧ truncateToLen q.bits n.len = n.bits ∧ n.len + l ≤ q.len ∧
          nib q.bits n.len l = v) ↔ (p.len ≤ q.len ∧ truncateToLen q.bits p.len = p.bits))) := by
  have hpW : p.len ≤ W := hp.1
  have hpb : truncateToLen p.bits p.len = p.bits := (truncate_eq_iff hp).2 (fun _ _ => rfl)
  by_cases h0 : 0 < p.len
  · have h1 := hostLen_lt h0
    have hle4 := hostLen_le4 (len := p.len)
    refine ⟨hostId p, _, _, nodeIdForPrefix_eq hp h0, (anc_host h0).ok hp, by omega,
      nib_lt _ (by omega), by simp only [hostId]; omega, ?_⟩
    intro q hs hq0
    have hqW := hs.1
    simp only [hostId]
    have e : hostLen p.len + (p.len - hostLen p.len) = p.len := by omega
    have key := truncate_add (x := q.bits) (y := p.bits) (a := hostLen p.len)
      (l := p.len - hostLen p.len) (by omega)
    rw [e, hpb] at key
    rw [key, e]
    constructor
    · rintro ⟨_, h2, h3, h4⟩; exact ⟨h3, h2, h4⟩
    · rintro ⟨h3, h2, h4⟩; exact ⟨by omega, h2, h3, h4⟩
  · have h0' : p.len = 0 := by omega
    have hroot' : NodeId.newCleaned p.bits 0 = rootNodeId W := by
      simp [NodeId.newCleaned, rootNodeId, truncate_zero]
    have hz := nodeIdForPrefix_zero (p := p) h0'
    rw [hroot'] at hz
    refine ⟨rootNodeId W, 0, 0, hz, ok_root, by omega, by simp, by simpa [rootNodeId] using h0', ?_⟩
    intro q hs hq0
    rw [h0'] at hpb
    simp only [rootNodeId, truncate_zero, h0'] at hpb ⊢
    simp [nib_zero, hq0, hpb]

/-- `more_specific_prefix_iter_from(p).collect()`, for `p` shorter than a full
address: the stored prefixes covered by `p`, each once. -/
theorem run_moreSpecifics [hW : Fam W] {s : NSlots W} (hL : Linked s)
    {p : PrefixId W} (hp : p.Clean) (hlt : p.len < W) :
    ∃ out N, (∀ fuel, N ≤ fuel → (moreSpecifics fuel p).run s = .ok out s) ∧ out.Nodup ∧
      ∀ q, q ∈ out ↔ Stored s q ∧ p.len ≤ q.len ∧ truncateToLen q.bits p.len = p.bits := by
  obtain ⟨n, v, l, hnode, hok, hl, hv, hnl, hpeq'⟩ := start_node hp
  have hpeq := fun (q : PrefixId W) (hs : Stored s q) => hpeq' q hs.1 hs.2.1
  obtain ⟨r, hr, hspec⟩ := run_retrieveNode hL.inv hok
  cases r with
  | none =>
    refine ⟨[], 0, fun fuel _ => ?_, by simp, fun q => ?_⟩
    · unfold moreSpecifics moreSpecificStart
      rw [if_neg (by omega), run_bind, run_bind, hnode]
      simp only [ofOption, run, Outcome.andThen]
      rw [run_bind, hr]
      rfl
    · simp only [List.not_mem_nil, false_iff]
      rintro ⟨hs, h1⟩
      obtain ⟨h2, h3, _, _⟩ := (hpeq q hs).2 h1
      apply hspec
      by_cases c : q.len ≤ n.len + 4
      · have := (hostId_of hok.2.1 (l := q.len - n.len) (by omega) (by omega) (by omega) h3).2.1
        rw [← this]
        exact pfxSet_has hs.2.2
      · obtain ⟨b, f, hf, hfid, _⟩ := hL.link q hs.1 hs.2.1 hs.2.2 n ⟨by omega, hok.2.1, h3.symm⟩ (by omega)
        exact ⟨b, f, hf, hfid⟩
  | some ref =>
    obtain ⟨e, he, hid⟩ := hspec
    obtain ⟨pfx, ptr, h1, h2, h3, h5, h6, h7, h8⟩ := node_iters hL he hl hv
    rw [hid] at h1 h2 h6 h7 h8
    have hwf : Wf s ⟨pfx, ptr, []⟩ := by
      refine ⟨h3, ?_, by simp, ?_⟩
      · intro it hit; simp only [List.mem_singleton] at hit; subst hit; exact h5
      · intro it hit; simp only [List.mem_singleton] at hit; subst hit
        exact fun q => inPfx_inKids_disj (h7.trans h6.symm)
    obtain ⟨out, hcol, hnd, hmem⟩ := ms_main hL _ _ (Nat.lt_succ_self _) hwf
    obtain ⟨N, hN⟩ := hcol.collect
    refine ⟨out, N, fun fuel hf => ?_, hnd, fun q => ?_⟩
    · unfold moreSpecifics moreSpecificStart
      rw [if_neg (by omega), run_bind, run_bind, hnode]
      simp only [ofOption, run, Outcome.andThen]
      rw [run_bind, hr]
      simp only [Outcome.andThen]
      rw [run_bind, h1]
      simp only [Outcome.andThen]
      rw [run_bind, h2]
      exact hN fuel hf
    · rw [hmem]
      simp only [Rem, List.mem_singleton, exists_eq_left]
      rw [h8 q]
      constructor
      · rintro ⟨hs, h⟩; exact ⟨hs, (hpeq q hs).1 h⟩
      · rintro ⟨hs, h⟩; exact ⟨hs, (hpeq q hs).2 h⟩

end Rotonda
