import Verif.Proofs.TreeIter

/-!
# Tree walks that run concurrently with inserts
-/

namespace Rotonda

open Prog

variable {W : Nat}

/-- The node `c` lies below the prefix `w`. -/
def Under (w : PrefixId W) (c : NodeId W) : Prop :=
  w.len ≤ c.len ∧ truncateToLen c.bits w.len = w.bits

/-- `c` is the child number `v` of the node `n`. -/
structure Child (n : NodeId W) (v : Nat) (c : NodeId W) : Prop where
  clean : c.Clean
  len : c.len = n.len + 4
  sub : truncateToLen c.bits n.len = n.bits
  nib : nib c.bits n.len 4 = v

theorem Under.child {w : PrefixId W} {n c : NodeId W} {v : Nat} (h : Under w n)
    (hc : Child n v c) : Under w c := by
  have hl := hc.len
  have hW := hc.clean.1
  have h1 := h.1
  refine ⟨by omega, ?_⟩
  rw [← truncate_truncate c.bits (l := n.len) (by omega) h.1, hc.sub]
  exact h.2

/-- Every child below `w` whose bit is set exists. -/
def Kids (w : PrefixId W) (s : NSlots W) : Prop :=
  ∀ n v, PtrSet s n v → ∀ c : NodeId W, Child n v c → Under w c → Has s c

/-- `q` is in the table, with the way to it. -/
structure Settled (s : NSlots W) (q : PrefixId W) : Prop where
  clean : q.Clean
  pos : 0 < q.len
  pfx : PfxSet s q
  node : ∀ n, Anc n q → Has s n
  link : ∀ n, Anc n q → n.len + 4 < q.len → PtrSet s n (nib q.bits n.len 4)

theorem Settled.ext {s s' : NSlots W} {q : PrefixId W} (h : Settled s q) (hx : NExt s s') :
    Settled s' q :=
  ⟨h.clean, h.pos, h.pfx.ext hx, fun n hn => (h.node n hn).ext hx.extId,
    fun n hn hl => (h.link n hn hl).ext hx⟩

theorem settled_of_full {s : NSlots W} {q : PrefixId W} {m : Mui} (hq : q.Clean) (h0 : 0 < q.len)
    (h : Full q m s) : Settled s q := by
  refine ⟨hq, h0, h.2, fun n hn => ?_, fun n hn hl => (h.1 n hn hn.1).2 hl⟩
  obtain ⟨a, e, he, hid, _⟩ := (h.1 n hn hn.1).1
  exact ⟨a, e, he, hid⟩

/-- What other calls do while a walk is running.  `I` holds all the time; under
the condition `C` no child below `w` is missing. -/
structure Around (R : NSlots W → NSlots W → Prop) (I : NSlots W → Prop) (w : PrefixId W) (C : Prop) :
    Prop where
  nr : ∀ s s', R s s' → NR s s'
  stable : ∀ s s', R s s' → I s → I s'
  inv : ∀ s, I s → ChainInv (nodeLayout W) s
  wide : ∀ s, I s → ∀ n v, PtrSet s n v → n.len + 4 < W
  kids : C → ∀ s, I s → Kids w s

/-! ## What the iterators of a node cover -/

/-- What is left below a child iterator. -/
def Below (it : ChildIter W) (q : PrefixId W) : Prop :=
  q.Clean ∧ it.base.len + 4 < q.len ∧ truncateToLen q.bits it.base.len = it.base.bits ∧
    it.range.getMsbD (nib q.bits it.base.len 4) = true

theorem inPfx_mask [Fam W] {n : NodeId W} {l v : Nat} (hl : l < 5)
    (hv : v < 2 ^ l) {mask : BitVec 32} (hm : msPrefixMaskArr ⟨v, l⟩ = some mask) (x : BitVec 32)
    (q : PrefixId W) :
    InPfx ⟨n, mask &&& x⟩ q ↔ q.Clean ∧ n.len < q.len ∧ hostId q = n ∧ n.len + l ≤ q.len ∧
      nib q.bits n.len l = v ∧ x.getMsbD (pfxPos q) = true := by
  have h4 : 2 ^ l ≤ 2 ^ 4 := Nat.pow_le_pow_right (by omega) (by omega)
  obtain ⟨mask', hm', hrow⟩ := msMask_spec l hl v (by omega) hv
  rw [hm] at hm'; cases hm'
  unfold InPfx
  simp only
  constructor
  · rintro ⟨hq, h0, hh, hb⟩
    rw [BitVec.getMsbD_and, Bool.and_eq_true] at hb
    have hlenh : hostLen q.len = n.len := congrArg PrefixId.len hh
    have hlt := hostLen_lt h0
    have hle4 := hostLen_le4 (len := q.len)
    have hqW := hq.1
    have hnl := nib_lt q.bits (start := hostLen q.len) (len := q.len - hostLen q.len) (by omega)
    have h42 : 2 ^ (q.len - hostLen q.len) ≤ 2 ^ 4 := Nat.pow_le_pow_right (by omega) (by omega)
    have hr := (hrow (q.len - hostLen q.len) (by omega) (nib q.bits (hostLen q.len) (q.len - hostLen q.len))
      (by omega) (by omega) hnl).1 hb.1
    rw [nib_split q.bits (by omega) hr.1] at hr
    refine ⟨hq, by omega, hh, by omega, ?_, hb.2⟩
    rw [← hlenh]; exact hr.2
  · rintro ⟨hq, h0, hh, hle, hn, hb⟩
    refine ⟨hq, by omega, hh, ?_⟩
    rw [BitVec.getMsbD_and, Bool.and_eq_true]
    refine ⟨?_, hb⟩
    have hlenh : hostLen q.len = n.len := congrArg PrefixId.len hh
    have hle4 := hostLen_le4 (len := q.len)
    have hqW := hq.1
    unfold pfxPos
    rw [hlenh]
    have hnl := nib_lt q.bits (start := n.len) (len := q.len - n.len) (by omega)
    have h42 : 2 ^ (q.len - n.len) ≤ 2 ^ 4 := Nat.pow_le_pow_right (by omega) (by omega)
    rw [hrow (q.len - n.len) (by omega) _ (by omega) (by omega) hnl]
    refine ⟨by omega, ?_⟩
    rw [nib_split q.bits (by omega) (by omega)]
    exact hn

theorem below_range {n : NodeId W} {l v : Nat} (hl : l < 5) {x r : BitVec 16}
    (hspec : ∀ j < 16, (r.getMsbD j = true ↔ x.getMsbD j = true ∧ j / 2 ^ (4 - l) = v))
    (q : PrefixId W) :
    Below ⟨n, r⟩ q ↔ q.Clean ∧ n.len + 4 < q.len ∧ truncateToLen q.bits n.len = n.bits ∧
      nib q.bits n.len l = v ∧ x.getMsbD (nib q.bits n.len 4) = true := by
  unfold Below
  simp only
  constructor
  · rintro ⟨hq, h1, h2, h3⟩
    have hqW := hq.1
    have hn := nib_lt q.bits (start := n.len) (len := 4) (by omega)
    have := (hspec _ (by omega)).1 h3
    rw [nib_split q.bits (by omega) (by omega)] at this
    exact ⟨hq, h1, h2, this.2, this.1⟩
  · rintro ⟨hq, h1, h2, h3, h4⟩
    have hqW := hq.1
    have hn := nib_lt q.bits (start := n.len) (len := 4) (by omega)
    refine ⟨hq, h1, h2, (hspec _ (by omega)).2 ⟨h4, ?_⟩⟩
    rw [nib_split q.bits (by omega) (by omega)]
    exact h3

/-- The iterator for the prefixes of a node, as it was loaded in `s`. -/
structure PfxOf (s : NSlots W) (n : NodeId W) (l v : Nat) (it : PfxIter W) : Prop where
  wf : PWf it
  base : it.base = n
  sound : ∀ q, InPfx it q → Stored s q ∧ n.len < q.len ∧ truncateToLen q.bits n.len = n.bits ∧
    q.len ≤ n.len + 4 ∧ n.len + l ≤ q.len ∧ nib q.bits n.len l = v

/-- The iterator for the children of a node, as it was loaded in `s`. -/
structure PtrOf (s : NSlots W) (n : NodeId W) (l v : Nat) (it : ChildIter W) : Prop where
  base : it.base = n
  bits : ∀ j, it.range.getMsbD j = true → PtrSet s n j
  range : ∀ j, it.range.getMsbD j = true → j / 2 ^ (4 - l) = v
  sound : ∀ q, Below it q → nib q.bits n.len l = v

variable {R : NSlots W → NSlots W → Prop} {D : Prop} {I : NSlots W → Prop} {C : Prop}
  {w : PrefixId W}

theorem wp_pfxIter [hW : Fam W] (hA : Around R I w C) {a : Addr} {n : NodeId W} {l v : Nat} (hl : l < 5)
    (hv : v < 2 ^ l) {s : NSlots W} (hI : I s) (hn : NodeAt s a n) :
    wp R RO D (moreSpecificPfxIter a n ⟨v, l⟩) (fun it s' => I s' ∧ NExt s s' ∧ PfxOf s' n l v it ∧
      ∀ q, Settled s q → hostId q = n → n.len + l ≤ q.len → nib q.bits n.len l = v →
        InPfx it q) s := by
  have h4 : 2 ^ l ≤ 2 ^ 4 := Nat.pow_le_pow_right (by omega) (by omega)
  obtain ⟨mask, hm, _⟩ := msMask_spec l hl v (by omega) hv
  obtain ⟨hend0, hend31⟩ := msMask_ends l hl v (by omega) hv mask hm
  unfold moreSpecificPfxIter
  rw [if_neg (by rw [check_ok l hl v (by omega) hv]; simp), wp_bind]
  refine wp_loadPfx hA.nr RO.rfl' hn ?_
  intro s1 e hr he hid hn1
  rw [wp_bind]
  apply wp_ofOption hm
  have hx := (hA.nr _ _ hr).1
  have hi1 := hA.inv _ (hA.stable _ _ hr hI)
  have hok : (nodeLayout W).ok n := by
    have := (hi1 a e he).1
    rw [← hid]; exact this
  refine ⟨hA.stable _ _ hr hI, hx, ⟨⟨hok, ?_, ?_⟩, rfl, ?_⟩, ?_⟩
  · simp [BitVec.getMsbD_and, hend0]
  · simp only; rw [BitVec.getMsbD_and, hend31]; rfl
  · intro q hq
    rw [inPfx_mask hl hv hm] at hq
    obtain ⟨h1, h2, h3, h5, h6, h7⟩ := hq
    have hlenh : hostLen q.len = n.len := congrArg PrefixId.len h3
    have hle4 := hostLen_le4 (len := q.len)
    refine ⟨⟨h1, by omega, a, e, he, hid.trans h3.symm, h7⟩, h2, ?_, by omega, h5, h6⟩
    rw [← hlenh]; exact congrArg PrefixId.bits h3
  · intro q hs hh hle hnb
    rw [inPfx_mask hl hv hm]
    have hlenh : hostLen q.len = n.len := congrArg PrefixId.len hh
    have := hostLen_lt hs.pos
    exact ⟨hs.clean, by omega, hh, hle, hnb, (pfxSet_at hi1 he (hid.trans hh.symm)).1 (hs.pfx.ext hx)⟩

theorem wp_ptrIter (hA : Around R I w C) {a : Addr} {n : NodeId W} {l v : Nat} (hl : l < 5)
    (hv : v < 2 ^ l) {s : NSlots W} (hI : I s) (hn : NodeAt s a n) :
    wp R RO D (moreSpecificPtrIter a n ⟨v, l⟩) (fun it s' => I s' ∧ NExt s s' ∧ PtrOf s' n l v it ∧
      ∀ q, Settled s q → Anc n q → n.len + 4 < q.len → nib q.bits n.len l = v → Below it q) s := by
  have h4 : 2 ^ l ≤ 2 ^ 4 := Nat.pow_le_pow_right (by omega) (by omega)
  unfold moreSpecificPtrIter
  rw [if_neg (by rw [check_ok l hl v (by omega) hv]; simp), wp_bind]
  refine wp_loadPtr hA.nr RO.rfl' hn ?_
  intro s1 e hr he hid hn1
  obtain ⟨r, hr2, hspec⟩ := ptrRange_spec hl hv e.ptr
  rw [wp_bind]
  apply wp_ofOption hr2
  have hx := (hA.nr _ _ hr).1
  have hi1 := hA.inv _ (hA.stable _ _ hr hI)
  refine ⟨hA.stable _ _ hr hI, hx, ⟨rfl, ?_, ?_, ?_⟩, ?_⟩
  · intro j hj
    exact ⟨a, e, he, hid, ((hspec j (msb_lt hj)).1 hj).1⟩
  · exact fun j hj => ((hspec j (msb_lt hj)).1 hj).2
  · intro q hq
    exact ((below_range hl hspec q).1 hq).2.2.2.1
  · intro q hs ha hlt hnb
    rw [below_range hl hspec]
    refine ⟨hs.clean, hlt, ha.2.2.symm, hnb, ?_⟩
    obtain ⟨b, f, hf, hfid, hb⟩ := (hs.link n ha hlt).ext hx
    have : b = a := hi1.unique hf he (hfid.trans hid.symm)
    subst this; rw [he] at hf; cases hf; exact hb

/-! ## The iterator -/

/-- Everything the iterator may still yield. -/
def RemC (st : MsIter W) (q : PrefixId W) : Prop :=
  InPfx st.pfx q ∨ ∃ it ∈ st.ptr :: st.parents, Below it q

/-- Iterator state while other calls are running. -/
structure CWf (w : PrefixId W) (s : NSlots W) (st : MsIter W) : Prop where
  pfx : PWf st.pfx
  sound : ∀ q, InPfx st.pfx q → Stored s q
  ok : ∀ it ∈ st.ptr :: st.parents, (nodeLayout W).ok it.base
  bits : ∀ it ∈ st.ptr :: st.parents, ∀ v, it.range.getMsbD v = true → PtrSet s it.base v
  within : ∀ it ∈ st.ptr :: st.parents, ∀ v c, it.range.getMsbD v = true → Child it.base v c →
    Under w c
  disj : List.Pairwise (fun i j => ∀ q, ¬ (Below i q ∧ Below j q)) (st.ptr :: st.parents)
  disjP : ∀ it ∈ st.ptr :: st.parents, ∀ q, ¬ (InPfx st.pfx q ∧ Below it q)

theorem Stored.ext {s s' : NSlots W} {q : PrefixId W} (h : Stored s q) (hx : NExt s s') :
    Stored s' q := ⟨h.1, h.2.1, h.2.2.ext hx⟩

theorem CWf.ext {s s' : NSlots W} {st : MsIter W} (h : CWf w s st) (hx : NExt s s') : CWf w s' st :=
  ⟨h.pfx, fun q hq => (h.sound q hq).ext hx, h.ok, fun it hi v hv => (h.bits it hi v hv).ext hx,
    h.within, h.disj, h.disjP⟩

/-- As `ChildIter.next_spec`. -/
theorem ChildIter.next_below [Fam W] {it : ChildIter W} (hok : (nodeLayout W).ok it.base) :
    (it.next = some none ∧ ∀ q, ¬ Below it q) ∨
    ∃ c v it', it.next = some (some (c, it')) ∧ c.Clean ∧ c.len = it.base.len + 4 ∧
      truncateToLen c.bits it.base.len = it.base.bits ∧ nib c.bits it.base.len 4 = v ∧
      it.range.getMsbD v = true ∧ it'.base = it.base ∧ pop it'.range < pop it.range ∧
      ∀ j, (it'.range.getMsbD j = true ↔ it.range.getMsbD j = true ∧ j ≠ v) := by
  by_cases hz : it.range = 0#16
  · left
    refine ⟨by simp [ChildIter.next, hz], fun q hq => ?_⟩
    have := hq.2.2.2
    rw [hz] at this; simp at this
  · right
    obtain ⟨hlt, hbit⟩ := leadingZeros_spec hz
    have hle := ok_le hok
    obtain ⟨c, hc, hcc, hclen, hct, hcn⟩ := addBitSpan_spec hok.1 (l := 4) (by omega) hle
      (show leadingZeros it.range < 2 ^ 4 by omega)
    have hmsb : ∀ j, (it.range ^^^ ptrBitPosFromIndex (leadingZeros it.range + 15)).getMsbD j = true ↔
        (it.range.getMsbD j = true ∧ j ≠ leadingZeros it.range) := by
      intro j
      by_cases hj : j < 16
      · rw [BitVec.getMsbD_xor, ptrBitPos_msb _ hlt j hj]
        by_cases c : j = leadingZeros it.range
        · subst c; simp [hbit]
        · simp [c]
      · simp [BitVec.getMsbD_of_ge _ _ (by omega : 16 ≤ j)]
    refine ⟨c, leadingZeros it.range,
      { it with range := it.range ^^^ ptrBitPosFromIndex (leadingZeros it.range + 15) },
      ?_, hcc, hclen, hct, hcn, hbit, rfl, ?_, hmsb⟩
    · unfold ChildIter.next
      rw [if_neg hz]
      simp only [fromBitPosIndex_ptr _ hlt, Option.bind_some, hc]
    · exact pop_lt hlt hbit (fun j _ => hmsb j)

theorem below_or_pfx_disj {n : NodeId W} {pfx : PfxIter W} {ptr : ChildIter W} (h : pfx.base = n)
    (h' : ptr.base = n) {q : PrefixId W} : ¬ (InPfx pfx q ∧ Below ptr q) := by
  rintro ⟨⟨_, h0, hh, _⟩, ⟨_, hlen, _⟩⟩
  have : hostLen q.len = ptr.base.len := by rw [h', ← h]; exact congrArg PrefixId.len hh
  unfold hostLen at this
  omega

/-- A prefix below a node belongs to the node or to a child. -/
theorem host_or_anc [Fam W] {n : NodeId W} (hok : (nodeLayout W).ok n)
    {q : PrefixId W} (hlt : n.len < q.len)
    (ht : truncateToLen q.bits n.len = n.bits) :
    (q.len ≤ n.len + 4 ∧ hostId q = n) ∨ (n.len + 4 < q.len ∧ Anc n q) := by
  by_cases c : q.len ≤ n.len + 4
  · exact .inl ⟨c, (hostId_of hok.2.1 (l := q.len - n.len) (by omega) (by omega) (by omega) ht).2.1⟩
  · exact .inr ⟨by omega, hlt, hok.2.1, ht.symm⟩

/-- What a descent into child `v` of `it` leads to. -/
def Descended (s : NSlots W) (w : PrefixId W) (it it' : ChildIter W) (v : Nat)
    (parents : List (ChildIter W)) (C : Prop) : MsStep W → NSlots W → Prop
  | .emit _ _, _ => False
  | .done, _ => ¬ C
  | .cont st, s' => ∃ pfx ptr, st = ⟨pfx, ptr, it' :: parents⟩ ∧ PWf pfx ∧
      (nodeLayout W).ok ptr.base ∧ ptr.base.len = it.base.len + 4 ∧ Under w ptr.base ∧
      (∀ q, InPfx pfx q → Stored s' q) ∧
      (∀ v, ptr.range.getMsbD v = true → PtrSet s' ptr.base v) ∧
      (∀ q, InPfx pfx q ∨ Below ptr q → Below it q ∧ nib q.bits it.base.len 4 = v) ∧
      (∀ q, ¬ (InPfx pfx q ∧ Below ptr q)) ∧
      (∀ q, Settled s q → Below it q → nib q.bits it.base.len 4 = v → InPfx pfx q ∨ Below ptr q)

theorem wp_descend [hW : Fam W] (hA : Around R I w C) {it it' : ChildIter W}
    {c : NodeId W} {v : Nat} {s : NSlots W} (hI : I s) (hok : (nodeLayout W).ok it.base)
    (hp : PtrSet s it.base v) (hv : it.range.getMsbD v = true)
    (hch : Child it.base v c) (hu : Under w c) (parents : List (ChildIter W)) :
    wp R RO D (msDescend it' parents c) (fun r s' => I s' ∧ NExt s s' ∧
      Descended s w it it' v parents C r s') s := by
  obtain ⟨hc, hclen, hct, hcn⟩ := hch
  have hcW : c.len < W := by rw [hclen]; exact hA.wide _ hI _ _ hp
  have h4 := hok.2.1
  have hcok : (nodeLayout W).ok c := ⟨hc, by omega, hcW⟩
  have hcb : truncateToLen c.bits c.len = c.bits := (truncate_eq_iff hc).2 (fun _ _ => rfl)
  have key : ∀ q : PrefixId W, q.Clean → c.len < q.len →
      (truncateToLen q.bits c.len = c.bits ↔
        truncateToLen q.bits it.base.len = it.base.bits ∧ nib q.bits it.base.len 4 = v) := by
    intro q hq hl
    have hqW := hq.1
    have := truncate_add (x := q.bits) (y := c.bits) (a := it.base.len) (l := 4) (by omega)
    rw [← hclen, hcb, hct, hcn] at this
    exact this
  unfold msDescend
  rw [wp_bind]
  refine wp_conseq _ (wp_carry (P := fun s' => I s' ∧ NExt s s')
    (fun a b h hx => ⟨hA.stable _ _ h hx.1, hx.2.trans (hA.nr _ _ h).1⟩)
    (fun a b h hx => by cases h; exact hx) _ ⟨hI, NExt.rfl' s⟩
    (wp_retrieveNode hA.nr RO.rfl' hcok (hA.inv _ hI))) ?_
  rintro r s1 ⟨⟨hI1, hx1⟩, hi1, hr⟩
  cases r with
  | none =>
    refine ⟨hI1, hx1, fun hC => ?_⟩
    exact hr (hA.kids hC _ hI1 _ _ (hp.ext hx1) c ⟨hc, hclen, hct, hcn⟩ hu)
  | some ref =>
    simp only
    rw [wp_bind]
    refine wp_conseq _ (wp_ptrIter hA (l := 0) (v := 0) (by omega) (by simp) hI1 hr) ?_
    rintro ptr s2 ⟨hI2, hx2, hptr, hcov⟩
    rw [wp_bind]
    refine wp_conseq _ (wp_pfxIter hA (l := 0) (v := 0) (by omega) (by simp) hI2 (hr.ext hx2)) ?_
    rintro pfx s3 ⟨hI3, hx3, hpfx, hcovp⟩
    refine ⟨hI3, hx1.trans (hx2.trans hx3), pfx, ptr, rfl, hpfx.wf, ?_, ?_, ?_, ?_, ?_, ?_, ?_, ?_⟩
    · rw [hptr.base]; exact hcok
    · rw [hptr.base, hclen]
    · rw [hptr.base]; exact hu
    · exact fun q hq => (hpfx.sound q hq).1
    · intro j hj
      rw [hptr.base]
      exact (hptr.bits j hj).ext hx3
    · rintro q (hq | hq)
      · obtain ⟨hs, h1, h2, h3, _, _⟩ := hpfx.sound q hq
        have := (key q hs.1 h1).1 h2
        exact ⟨⟨hs.1, by omega, this.1, by rw [this.2]; exact hv⟩, this.2⟩
      · obtain ⟨h1, h2, h3, h5⟩ := hq
        rw [hptr.base] at h2 h3
        have := (key q h1 (by omega)).1 h3
        exact ⟨⟨h1, by omega, this.1, by rw [this.2]; exact hv⟩, this.2⟩
    · exact fun q => below_or_pfx_disj hpfx.base hptr.base
    · rintro q hs ⟨h1, h2, h3, _⟩ hnv
      have hqW := h1.1
      have hsub := (key q h1 (by omega)).2 ⟨h3, hnv⟩
      have hz : nib q.bits c.len 0 = 0 := nib_zero _ _ (by omega)
      rcases host_or_anc hcok (by omega) hsub with ⟨_, hh⟩ | ⟨hlt, ha⟩
      · exact .inl (hcovp q ((hs.ext hx1).ext hx2) hh (by omega) hz)
      · exact .inr (hcov q (hs.ext hx1) ha hlt hz)

/-- One round of the iterator. -/
def StepPost (s : NSlots W) (w : PrefixId W) (st : MsIter W) (C : Prop) : MsStep W → NSlots W → Prop
  | .done, _ => C → ∀ q, Settled s q → ¬ RemC st q
  | .cont st', s' => CWf w s' st' ∧ msMeasure st' < msMeasure st ∧ (∀ q, RemC st' q → RemC st q) ∧
      ∀ q, Settled s q → RemC st q → RemC st' q
  | .emit p st', s' => CWf w s' st' ∧ msMeasure st' < msMeasure st ∧ (∀ q, RemC st' q → RemC st q) ∧
      RemC st p ∧ Stored s' p ∧ ¬ RemC st' p ∧ ∀ q, RemC st q → q = p ∨ RemC st' q

theorem below_pop {it it' : ChildIter W} (hb : it'.base = it.base) {v : Nat}
    (hmsb : ∀ j, (it'.range.getMsbD j = true ↔ it.range.getMsbD j = true ∧ j ≠ v))
    (q : PrefixId W) : Below it' q ↔ Below it q ∧ nib q.bits it.base.len 4 ≠ v := by
  unfold Below
  rw [hb, hmsb]
  tauto

theorem wp_msStep [hW : Fam W] (hA : Around R I w C) {s : NSlots W} {st : MsIter W} (hI : I s)
    (hwf : CWf w s st) :
    wp R RO D (msStep st) (fun r s' => I s' ∧ NExt s s' ∧ StepPost s w st C r s') s := by
  obtain ⟨pfx, ptr, parents⟩ := st
  rcases PfxIter.next_spec hwf.pfx with ⟨hnone, hempty⟩ | ⟨q, it', hnext, hq, hw', hb', hpop, hin⟩
  · have down : ∀ (it : ChildIter W) (rest : List (ChildIter W)) (c : NodeId W) (v : Nat)
        (it' : ChildIter W), it ∈ ptr :: parents → (∀ i ∈ rest, i ∈ ptr :: parents) →
        List.Pairwise (fun i j => ∀ q, ¬ (Below i q ∧ Below j q)) (it :: rest) →
        msWeight it + (rest.map msWeight).sum ≤ msMeasure ⟨pfx, ptr, parents⟩ →
        c.Clean → c.len = it.base.len + 4 → truncateToLen c.bits it.base.len = it.base.bits →
        nib c.bits it.base.len 4 = v → it.range.getMsbD v = true → it'.base = it.base →
        pop it'.range < pop it.range →
        (∀ j, (it'.range.getMsbD j = true ↔ it.range.getMsbD j = true ∧ j ≠ v)) →
        (∀ q, RemC ⟨pfx, ptr, parents⟩ q ↔ ∃ i ∈ it :: rest, Below i q) →
        wp R RO D (msDescend it' rest c)
          (fun r s' => I s' ∧ NExt s s' ∧ StepPost s w ⟨pfx, ptr, parents⟩ C r s') s := by
      intro it rest c v it' hit hrest hpw hms hc hclen hct hcn hv hb hpop hmsb hrem
      have hpp := below_pop hb hmsb
      refine wp_conseq _ (wp_descend hA hI (hwf.ok it hit) (hwf.bits it hit v hv) hv
        ⟨hc, hclen, hct, hcn⟩ (hwf.within it hit v c hv ⟨hc, hclen, hct, hcn⟩) rest) ?_
      rintro r s' ⟨hI', hx, hd⟩
      refine ⟨hI', hx, ?_⟩
      cases r with
      | emit p st => exact hd.elim
      | done => exact fun hC => (hd hC).elim
      | cont st' =>
        obtain ⟨pfx2, ptr2, rfl, h1, h2, h4, hu, h5, h6, h7, h8, h9⟩ := hd
        rw [List.pairwise_cons] at hpw
        refine ⟨⟨h1, h5, ?_, ?_, ?_, ?_, ?_⟩, ?_, ?_, ?_⟩
        · intro i hi
          simp only [List.mem_cons] at hi
          rcases hi with rfl | rfl | hi
          · exact h2
          · rw [hb]; exact hwf.ok it hit
          · exact hwf.ok i (hrest i hi)
        · intro i hi j hj
          simp only [List.mem_cons] at hi
          rcases hi with rfl | rfl | hi
          · exact h6 j hj
          · rw [hb]; exact (hwf.bits it hit j ((hmsb j).1 hj).1).ext hx
          · exact (hwf.bits i (hrest i hi) j hj).ext hx
        · intro i hi j d hj hd
          simp only [List.mem_cons] at hi
          rcases hi with rfl | rfl | hi
          · exact hu.child hd
          · rw [hb] at hd; exact hwf.within it hit j d ((hmsb j).1 hj).1 hd
          · exact hwf.within i (hrest i hi) j d hj hd
        · rw [List.pairwise_cons, List.pairwise_cons]
          refine ⟨?_, ?_, hpw.2⟩
          · intro i hi q hk
            simp only [List.mem_cons] at hi
            have hbq := h7 q (.inr hk.1)
            rcases hi with rfl | hi
            · exact ((hpp q).1 hk.2).2 hbq.2
            · exact hpw.1 i hi q ⟨hbq.1, hk.2⟩
          · intro i hi q hk
            exact hpw.1 i hi q ⟨((hpp q).1 hk.1).1, hk.2⟩
        · intro i hi q hk
          simp only [List.mem_cons] at hi
          have hbq := h7 q (.inl hk.1)
          rcases hi with rfl | rfl | hi
          · exact h8 q hk
          · exact ((hpp q).1 hk.2).2 hbq.2
          · exact hpw.1 i hi q ⟨hbq.1, hk.2⟩
        · have := weight_descend (arr := pfx2.arr) (ok_le (hwf.ok it hit)) hb hpop h4
          simp only [msMeasure, List.map_cons, List.sum_cons] at hms ⊢
          omega
        · intro q hq
          rw [hrem]
          rcases hq with hq | ⟨i, hi, hq⟩
          · exact ⟨it, by simp, (h7 q (.inl hq)).1⟩
          · simp only [List.mem_cons] at hi
            rcases hi with rfl | rfl | hi
            · exact ⟨it, by simp, (h7 q (.inr hq)).1⟩
            · exact ⟨it, by simp, ((hpp q).1 hq).1⟩
            · exact ⟨i, by simp [hi], hq⟩
        · intro q hs hq
          rw [hrem] at hq
          obtain ⟨i, hi, hq⟩ := hq
          simp only [List.mem_cons] at hi
          rcases hi with rfl | hi
          · by_cases hn : nib q.bits i.base.len 4 = v
            · rcases h9 q hs hq hn with h | h
              · exact .inl h
              · exact .inr ⟨ptr2, by simp, h⟩
            · exact .inr ⟨it', by simp, (hpp q).2 ⟨hq, hn⟩⟩
          · exact .inr ⟨i, by simp [hi], hq⟩
    unfold msStep
    simp only [wp_bind]
    apply wp_ofOption hnone
    simp only [wp_bind]
    rcases ChildIter.next_below (hwf.ok ptr (by simp)) with ⟨hnone2, hempty2⟩ |
      ⟨c, v, it', hnext, hc, hclen, hct, hcn, hv, hb, hpop, hmsb⟩
    · apply wp_ofOption hnone2
      cases parents with
      | nil =>
        refine ⟨hI, NExt.rfl' s, fun _ q _ hq => ?_⟩
        rcases hq with h | ⟨it, hit, h⟩
        · exact hempty q h
        · simp only [List.mem_singleton] at hit
          subst hit; exact hempty2 q h
      | cons par rest =>
        have hrem : ∀ q, RemC ⟨pfx, ptr, par :: rest⟩ q ↔ ∃ i ∈ par :: rest, Below i q := by
          intro q
          constructor
          · rintro (h | ⟨it, hit, h⟩)
            · exact (hempty q h).elim
            · simp only [List.mem_cons] at hit
              rcases hit with rfl | hit
              · exact (hempty2 q h).elim
              · exact ⟨it, by simpa using hit, h⟩
          · rintro ⟨i, hi, h⟩
            exact .inr ⟨i, List.mem_cons_of_mem _ hi, h⟩
        have hpw := (List.pairwise_cons.1 hwf.disj).2
        have hpos : 1 ≤ msWeight ptr := by unfold msWeight; omega
        simp only [wp_bind]
        rcases ChildIter.next_below (hwf.ok par (by simp)) with ⟨hnone3, hempty3⟩ |
          ⟨c, v, it', hnext, hc, hclen, hct, hcn, hv, hb, hpop, hmsb⟩
        · apply wp_ofOption hnone3
          refine ⟨hI, NExt.rfl' s, ⟨hwf.pfx, hwf.sound, fun i hi => hwf.ok i (List.mem_cons_of_mem _ hi),
            fun i hi => hwf.bits i (List.mem_cons_of_mem _ hi),
            fun i hi => hwf.within i (List.mem_cons_of_mem _ hi), hpw,
            fun i hi => hwf.disjP i (List.mem_cons_of_mem _ hi)⟩, ?_, ?_, ?_⟩
          · simp only [msMeasure, List.map_cons, List.sum_cons]; omega
          · intro q hq
            rw [hrem]
            rcases hq with h | h
            · exact (hempty q h).elim
            · exact h
          · intro q _ hq
            rw [hrem] at hq
            exact .inr hq
        · apply wp_ofOption hnext
          refine down par rest c v it' (by simp) (fun i hi => by simp [hi]) hpw ?_ hc hclen hct hcn hv hb
            hpop hmsb hrem
          simp only [msMeasure, List.map_cons, List.sum_cons]; omega
    · apply wp_ofOption hnext
      refine down ptr parents c v it' (by simp) (fun i hi => by simp [hi]) hwf.disj ?_ hc hclen hct hcn hv
        hb hpop hmsb ?_
      · simp only [msMeasure, List.map_cons, List.sum_cons]; omega
      · intro q
        constructor
        · rintro (h | h)
          · exact (hempty q h).elim
          · exact h
        · exact fun h => .inr h
  · unfold msStep
    simp only [wp_bind]
    apply wp_ofOption hnext
    refine ⟨hI, NExt.rfl' s, ⟨hw', fun q' h => hwf.sound q' ((hin q').1 h).1, hwf.ok, hwf.bits, hwf.within,
      hwf.disj, fun i hi q' hk => hwf.disjP i hi q' ⟨((hin q').1 hk.1).1, hk.2⟩⟩, ?_, ?_, .inl hq,
      hwf.sound q hq, ?_, ?_⟩
    · simp only [msMeasure] at hpop ⊢; omega
    · rintro q' (h | h)
      · exact .inl ((hin q').1 h).1
      · exact .inr h
    · rintro (h | ⟨i, hi, h⟩)
      · exact ((hin q).1 h).2 rfl
      · exact hwf.disjP i hi q ⟨hq, h⟩
    · rintro q' (h | h)
      · by_cases c : q' = q
        · exact .inl c
        · exact .inr (.inl ((hin q').2 ⟨h, c⟩))
      · exact .inr (.inr h)

/-- What a collected iteration yields. -/
structure Yield (I : NSlots W → Prop) (C : Prop) (s : NSlots W) (P : PrefixId W → Prop)
    (out : List (PrefixId W)) (s' : NSlots W) : Prop where
  inv : I s'
  ext : NExt s s'
  nodup : out.Nodup
  sound : ∀ q ∈ out, P q ∧ Stored s' q
  complete : C → ∀ q, Settled s q → P q → q ∈ out

/-- One call of `next`. -/
def NextPost (s : NSlots W) (w : PrefixId W) (st : MsIter W) (C : Prop) :
    Option (PrefixId W × MsIter W) → NSlots W → Prop
  | none, _ => C → ∀ q, Settled s q → ¬ RemC st q
  | some (p, st'), s' => CWf w s' st' ∧ msMeasure st' < msMeasure st ∧ (∀ q, RemC st' q → RemC st q) ∧
      RemC st p ∧ Stored s' p ∧ ¬ RemC st' p ∧ ∀ q, Settled s q → RemC st q → q = p ∨ RemC st' q

theorem wp_msNext [hW : Fam W] (hA : Around R I w C) : ∀ (n f : Nat) (s : NSlots W)
    (st : MsIter W), msMeasure st < n → I s → CWf w s st → (D ∨ n ≤ f) →
    wp R RO D (msNext f st) (fun r s' => I s' ∧ NExt s s' ∧ NextPost s w st C r s') s := by
  intro n
  induction n with
  | zero => intro f s st h; omega
  | succ n ih =>
    intro f s st hn hI hwf hf
    cases f with
    | zero =>
      rcases hf with h | h
      · exact h
      · omega
    | succ f =>
      unfold msNext
      rw [wp_bind]
      refine wp_conseq _ (wp_msStep hA hI hwf) ?_
      rintro r s1 ⟨hI1, hx1, hr⟩
      cases r with
      | done => exact ⟨hI1, hx1, hr⟩
      | cont st' =>
        obtain ⟨hwf', hm, hsub, hcov⟩ := hr
        refine wp_conseq _ (ih f s1 st' (by omega) hI1 hwf' (hf.imp id fun h => by omega)) ?_
        rintro r s2 ⟨hI2, hx2, hr⟩
        refine ⟨hI2, hx1.trans hx2, ?_⟩
        cases r with
        | none => exact fun hC q hs hq => hr hC q (hs.ext hx1) (hcov q hs hq)
        | some x =>
          obtain ⟨h1, h2, h3, h4, h5, h6, h7⟩ := hr
          exact ⟨h1, by omega, fun q hq => hsub q (h3 q hq), hsub _ h4, h5, h6,
            fun q hs hq => h7 q (hs.ext hx1) (hcov q hs hq)⟩
      | emit p st' =>
        obtain ⟨hwf', hm, hsub, hrp, hsp, hnp, hcov⟩ := hr
        exact ⟨hI1, hx1, hwf', hm, hsub, hrp, hsp, hnp, fun q _ hq => hcov q hq⟩

theorem Yield.nil {s : NSlots W} {st : MsIter W} {s' : NSlots W} (hI : I s') (hx : NExt s s')
    (h : NextPost s w st C none s') : Yield I C s (RemC st) [] s' :=
  ⟨hI, hx, List.nodup_nil, by simp, fun hC q hs hq => (h hC q hs hq).elim⟩

theorem Yield.cons {s s1 s1' s' : NSlots W} {st st' : MsIter W} {p : PrefixId W}
    {out : List (PrefixId W)} (h : NextPost s w st C (some (p, st')) s1) (hx : NExt s s1)
    (hx1 : NExt s1 s1') (hy : Yield I C s1' (RemC st') out s') :
    Yield I C s (RemC st) (p :: out) s' := by
  obtain ⟨_, _, hsub, hrp, hsp, hnp, hcov⟩ := h
  obtain ⟨h1, h2, h3, h4, h5⟩ := hy
  refine ⟨h1, hx.trans (hx1.trans h2), ?_, ?_, ?_⟩
  · rw [List.nodup_cons]
    exact ⟨fun h => hnp (h4 p h).1, h3⟩
  · intro q hq
    rcases List.mem_cons.1 hq with rfl | hq
    · exact ⟨hrp, (hsp.ext hx1).ext h2⟩
    · exact ⟨hsub q (h4 q hq).1, (h4 q hq).2⟩
  · intro hC q hs hq
    rcases hcov q hs hq with rfl | h
    · simp
    · exact List.mem_cons_of_mem _ (h5 hC q ((hs.ext hx).ext hx1) h)

theorem wp_msCollect [hW : Fam W] (hA : Around R I w C) : ∀ (n f : Nat) (s : NSlots W)
    (st : MsIter W), msMeasure st < n → I s → CWf w s st → (D ∨ n ≤ f) →
    wp R RO D (msCollect f st) (Yield I C s (RemC st)) s := by
  intro n
  induction n with
  | zero => intro f s st h; omega
  | succ n ih =>
    intro f s st hn hI hwf hf
    cases f with
    | zero =>
      rcases hf with h | h
      · exact h
      · omega
    | succ f =>
      unfold msCollect
      rw [wp_bind]
      refine wp_conseq _ (wp_msNext hA _ (f + 1) s st hn hI hwf hf) ?_
      rintro r s1 ⟨hI1, hx1, hr⟩
      cases r with
      | none => exact Yield.nil hI1 hx1 hr
      | some x =>
        obtain ⟨p, st'⟩ := x
        simp only [wp_bind]
        have hm := hr.2.1
        refine wp_conseq _ (ih f s1 st' (by omega) hI1 hr.1 (hf.imp id fun h => by omega)) ?_
        intro out s2 hy
        exact Yield.cons hr hx1 (NExt.rfl' _) hy

/-- Enough fuel for any iteration. -/
def iterFuel (W : Nat) : Nat := 16 * 64 ^ (W / 4) + 40

theorem start_measure {pfx : PfxIter W} {ptr : ChildIter W} :
    msMeasure ⟨pfx, ptr, []⟩ + 2 < iterFuel W := by
  simp only [msMeasure, msWeight, iterFuel, List.map_cons, List.map_nil, List.sum_cons, List.sum_nil]
  have h1 := pop_le pfx.arr
  have h2 := pop_le ptr.range
  have h3 : 64 ^ ((W - ptr.base.len) / 4) ≤ 64 ^ (W / 4) :=
    Nat.pow_le_pow_right (by omega) (by omega)
  have h4 : pop ptr.range * 64 ^ ((W - ptr.base.len) / 4) ≤ 16 * 64 ^ (W / 4) := Nat.mul_le_mul h2 h3
  omega

/-- What an iteration from `p` is about. -/
def MoreOf (p q : PrefixId W) : Prop :=
  p.len < W ∧ p.len ≤ q.len ∧ truncateToLen q.bits p.len = p.bits

/-- The start of an iteration. -/
def StartPost (s : NSlots W) (p : PrefixId W) : Option (MsIter W) → NSlots W → Prop
  | none, _ => ∀ q, Settled s q → ¬ MoreOf p q
  | some st, s' => CWf p s' st ∧ msMeasure st + 2 < iterFuel W ∧
      (∀ s'' q, NExt s' s'' → Stored s'' q → RemC st q → MoreOf p q) ∧
      ∀ q, Settled s q → MoreOf p q → RemC st q

theorem wp_moreSpecificStart [hW : Fam W] (hA : Around R I w C) {s : NSlots W} (hI : I s)
    {p : PrefixId W} (hp : p.Clean) :
    wp R RO D (moreSpecificStart p)
      (fun r s' => I s' ∧ NExt s s' ∧ StartPost s p r s') s := by
  unfold moreSpecificStart
  by_cases hW' : W ≤ p.len
  · rw [if_pos hW']
    exact ⟨hI, NExt.rfl' s, fun q _ h => by have := h.1; omega⟩
  rw [if_neg hW']
  obtain ⟨n, v, l, hnode, hok, hl, hv, hnl, hpeq⟩ := start_node hp
  rw [wp_bind]
  apply wp_ofOption hnode
  simp only [wp_bind]
  refine wp_conseq _ (wp_carry (P := fun s' => I s' ∧ NExt s s')
    (fun a b h hx => ⟨hA.stable _ _ h hx.1, hx.2.trans (hA.nr _ _ h).1⟩)
    (fun a b h hx => by cases h; exact hx) _ ⟨hI, NExt.rfl' s⟩
    (wp_retrieveNode hA.nr RO.rfl' hok (hA.inv _ hI))) ?_
  rintro r s1 ⟨⟨hI1, hx1⟩, hi1, hr⟩
  cases r with
  | none =>
    refine ⟨hI1, hx1, fun q hs hq => ?_⟩
    obtain ⟨h2, h3, _, _⟩ := (hpeq q hs.clean hs.pos).2 hq.2
    refine hr ?_
    rcases host_or_anc hok h2 h3 with ⟨_, hh⟩ | ⟨_, ha⟩
    · rw [← hh]; exact pfxSet_has (hs.pfx.ext hx1)
    · exact (hs.node n ha).ext hx1.extId
  | some ref =>
    simp only [wp_bind]
    refine wp_conseq _ (wp_pfxIter hA hl hv hI1 hr) ?_
    rintro pfx s2 ⟨hI2, hx2, hpfx, hcovp⟩
    refine wp_conseq _ (wp_ptrIter hA hl hv hI2 (hr.ext hx2)) ?_
    rintro ptr s3 ⟨hI3, hx3, hptr, hcov⟩
    have hmore : ∀ q : PrefixId W, q.Clean → 0 < q.len → RemC ⟨pfx, ptr, []⟩ q → MoreOf p q := by
      intro q hqc hq0 hrem
      refine ⟨by omega, ?_⟩
      rw [← hpeq q hqc hq0]
      rcases hrem with h | ⟨it, hit, h⟩
      · obtain ⟨_, a1, a2, _, a3, a4⟩ := hpfx.sound q h
        exact ⟨a1, a2, a3, a4⟩
      · simp only [List.mem_singleton] at hit; subst hit
        have := hptr.sound q h
        obtain ⟨a1, a2, a3, _⟩ := h
        rw [hptr.base] at a2 a3
        exact ⟨by omega, a3, by omega, this⟩
    refine ⟨hI3, hx1.trans (hx2.trans hx3), ⟨hpfx.wf, fun q hq => (hpfx.sound q hq).1.ext hx3, ?_, ?_,
      ?_, by simp, ?_⟩, start_measure, fun _ q _ hst => hmore q hst.1 hst.2.1, fun q hs hq => ?_⟩
    · intro it hit; simp only [List.mem_singleton] at hit; subst hit; rw [hptr.base]; exact hok
    · intro it hit j hj; simp only [List.mem_singleton] at hit; subst hit
      rw [hptr.base]; exact hptr.bits j hj
    · intro it hit j c hj hc
      simp only [List.mem_singleton] at hit; subst hit
      rw [hptr.base] at hc
      have hlc := hc.len
      have hcW := hc.clean.1
      refine (hpeq c hc.clean (by omega)).1 ⟨by omega, hc.sub, by omega, ?_⟩
      rw [← hptr.range j hj, ← hc.nib, nib_split c.bits (by omega) (by omega)]
    · intro it hit; simp only [List.mem_singleton] at hit; subst hit
      exact fun q => below_or_pfx_disj hpfx.base hptr.base
    · have hs3 := ((hs.ext hx1).ext hx2).ext hx3
      obtain ⟨a1, a2, a3, a4⟩ := (hpeq q hs.clean hs.pos).2 hq.2
      rcases host_or_anc hok a1 a2 with ⟨_, hh⟩ | ⟨hlt, ha⟩
      · exact .inl (hcovp q (hs.ext hx1) hh a3 a4)
      · exact .inr ⟨ptr, by simp, hcov q ((hs.ext hx1).ext hx2) ha hlt a4⟩

/-- The iteration from `p`, given what is left of the iterator after the start. -/
theorem Yield.start {s s1 s1' s' : NSlots W} {p : PrefixId W} {st : MsIter W}
    {out : List (PrefixId W)} (h : StartPost s p (some st) s1) (hx : NExt s s1) (hx1 : NExt s1 s1')
    (hy : Yield I C s1' (RemC st) out s') : Yield I C s (MoreOf p) out s' := by
  obtain ⟨_, _, hm, hc⟩ := h
  obtain ⟨h1, h2, h3, h4, h5⟩ := hy
  exact ⟨h1, hx.trans (hx1.trans h2), h3,
    fun q hq => ⟨hm s' q (hx1.trans h2) (h4 q hq).2 (h4 q hq).1, (h4 q hq).2⟩,
    fun hC q hs hq => h5 hC q ((hs.ext hx).ext hx1) (hc q hs hq)⟩

/-- `more_specific_prefix_iter_from(p).collect()` while other calls are running. -/
theorem wp_moreSpecifics [hW : Fam W] {p : PrefixId W} (hA : Around R I p C) {s : NSlots W} (hI : I s)
    (hp : p.Clean) {fuel : Nat} (hf : D ∨ iterFuel W ≤ fuel) :
    wp R RO D (moreSpecifics fuel p) (Yield I C s (MoreOf p)) s := by
  unfold moreSpecifics
  rw [wp_bind]
  refine wp_conseq _ (wp_moreSpecificStart hA hI hp) ?_
  rintro r s1 ⟨hI1, hx1, hr⟩
  cases r with
  | none => exact ⟨hI1, hx1, List.nodup_nil, by simp, fun _ q hs hq => (hr q hs hq).elim⟩
  | some st =>
    have hm := hr.2.1
    refine wp_conseq _ (wp_msCollect hA _ fuel s1 st (Nat.lt_succ_self _) hI1 hr.1
      (hf.imp id fun h => by omega)) ?_
    exact fun out s2 hy => Yield.start hr hx1 (NExt.rfl' _) hy

end Rotonda
