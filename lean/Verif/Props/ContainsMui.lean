import Verif.Props.Demo
import Verif.Proofs.TreeMui
import Verif.Spec.MuiIndex
import Mathlib.Tactic.IntervalCases

/-!
# `contains` with a mui: C02

C02 is false of the code in both directions.  What the call does report is proved
here: an exact answer for prefixes of up to 8 bits and a sound but incomplete one
beyond, both up to the blocks of prefixes that share one mui set.
-/

namespace Rotonda.Props

open Prog Spec

variable {M : Type} [Meta M] {W : Nat}

/-- C02 as stated. -/
def ContainsMuiExact (M : Type) [Meta M] (W : Nat) : Prop :=
  ∀ (st : Strategy) (F : Nat) (h : History M W) (s : Rib M W), exec st F h = .ok () s →
    ∀ (p : Prefix W) (m : Mui), ∃ b, (ribContains p.id (some m)).run s = .ok b s ∧
      (b = true ↔ Inserted h p m)

theorem sameBits_trunc {n : Nat} (hn : n ≤ W) {p q : Prefix W} :
    SameBits n p q ↔ truncateToLen p.bits n = truncateToLen q.bits n := by
  constructor
  · intro h
    apply ext_msb
    intro i _
    rw [getMsbD_truncateToLen _ hn, getMsbD_truncateToLen _ hn]
    by_cases c : i < n
    · simp [c, h i c]
    · simp [c]
  · intro h i hi
    have := congrArg (fun x => x.getMsbD i) h
    simpa [getMsbD_truncateToLen _ hn, hi] using this

theorem sameBits_symm {n : Nat} {p q : Prefix W} (h : SameBits n p q) : SameBits n q p :=
  fun i hi => (h i hi).symm

theorem anc_of_sameBits {n : NodeId W} {p q : Prefix W} (ha : Anc n p.id) (hl : n.len < q.len)
    (hs : SameBits n.len q p) : Anc n q.id := by
  refine ⟨hl, ha.2.1, ?_⟩
  have h1 : p.len ≤ W := p.le
  have h2 : n.len < p.len := ha.1
  rw [ha.2.2]
  exact ((sameBits_trunc (by omega)).1 hs).symm

theorem sameBits_of_anc {n : NodeId W} {p q : Prefix W} (ha : Anc n p.id) (hb : Anc n q.id) :
    SameBits n.len p q := by
  have h1 : p.len ≤ W := p.le
  have h2 : n.len < p.len := ha.1
  exact (sameBits_trunc (by omega)).2 (ha.2.2.symm.trans hb.2.2)

/-- `contains(p, Some(m))` never fails, and answers by the chain of `p`'s node. -/
theorem run_containsMui [Fam W] {st : Strategy} {h : History M W} {s : Rib M W}
    (hi : HInv st h s) (p : Prefix W) (m : Mui) :
    ∃ b, (ribContains p.id (some m)).run s = .ok b s ∧
      (b = true ↔ Proper h p ∧ Open s.tree.slots (hostId p.id) m) := by
  obtain ⟨b, hr, hb⟩ := hi.tree.prefixExistsForMuiN p.clean m
  refine ⟨b, ?_, ?_⟩
  · unfold ribContains
    simp only [prefixExistsForMui]
    rw [run_tree, run_zoom Tree.slotsL_lawful]
    simp only [Tree.slotsL, hr, Outcome.mapState]
  · rw [hb, ← inS_id, inS_iff]

/-- A positive answer of `contains(p, Some(m))`: `p` was inserted, and `m` was inserted
with some prefix that marks the block of `p`.  Id 0 is in the block of the shortest
prefixes from the start, and the default route marks that block as well. -/
theorem contains_mui_sound [Fam W] {st : Strategy} {F : Nat} {h : History M W} {s : Rib M W}
    (hs : exec st F h = .ok () s) (p : Prefix W) (m : Mui)
    (hc : (ribContains p.id (some m)).run s = .ok true s) :
    Proper h p ∧ ((∃ q, Inserted h q m ∧ Marks q p) ∨
      p.len ≤ 4 ∧ (m = 0#32 ∨ ∃ q, Inserted h q m ∧ q.len = 0)) := by
  have hi := exec_ok_inv hs
  obtain ⟨b, hr, hb⟩ := run_containsMui hi p m
  rw [hr] at hc; cases hc
  obtain ⟨hp, ho⟩ := hb.1 rfl
  refine ⟨hp, ?_⟩
  have hanc := anc_host (p := p.id) hp.2
  obtain ⟨a, e, he, hid, hbm⟩ := ho.rbmSet
  have hroot : hostId p.id = rootNodeId W → p.len ≤ 4 := by
    intro hx
    have h1 : hostLen p.len = 0 := congrArg PrefixId.len hx
    have := hp.2
    unfold hostLen at h1; omega
  rcases hi.tree.just.rbm a e m he hbm with ⟨h1, h2⟩ | ⟨q, ⟨q', rfl, hq⟩, ht | ⟨h1, h2⟩⟩
  · exact .inr ⟨hroot (hid ▸ h1), .inl h2⟩
  · rw [hid] at ht
    refine .inl ⟨q', hq, ht.1, ?_⟩
    exact sameBits_of_anc ht hanc
  · exact .inr ⟨hroot (hid ▸ h2), .inr ⟨q', hq, h1⟩⟩

theorem nib_sameBits {n : NodeId W} {p q : Prefix W} (hn : n.bits = truncateToLen q.bits n.len)
    (hl : n.len = blockStart p.len) (h4 : 4 ∣ n.len) (h0 : 0 < n.len) (hW : n.len ≤ W)
    (hh : hIdx n 0 = hIdx (hostId p.id) 0) : SameBits 4 q p := by
  have hl' : hostLen p.id.len = n.len := hl.symm
  unfold hIdx at hh
  have e1 : lvlBits n.len 0 = 4 := by unfold lvlBits; omega
  have e2 : lvlBits (hostId p.id).len 0 = 4 := by
    show lvlBits (hostLen p.id.len) 0 = 4
    rw [hl', e1]
  rw [e1, e2] at hh
  intro i hi
  have := nib_inj (by omega) hh i (by omega) (by omega)
  rw [hn] at this
  simp only [hostId, hl'] at this
  rw [getMsbD_truncateToLen _ hW, getMsbD_truncateToLen _ hW] at this
  have hin : i < n.len := by omega
  simpa [hin, Prefix.id] using this

/-- A pair that was inserted is reported, provided `m` is in every block that can
stand in the way (missing: the other cases, for which it is false, see
`contains_mui_false_negative`). -/
theorem contains_mui_partial [Fam W] {st : Strategy} {F : Nat} {h : History M W} {s : Rib M W}
    (hs : exec st F h = .ok () s) (p : Prefix W) (m : Mui) (h0 : 0 < p.len)
    (hin : Inserted h p m) (hu : Unobstructed h p m) :
    (ribContains p.id (some m)).run s = .ok true s := by
  have hi := exec_ok_inv hs
  obtain ⟨b, hr, hb⟩ := run_containsMui hi p m
  have hanc := anc_host (p := p.id) h0
  have hok := hanc.ok p.clean
  have hS : pairsOf h p.id m := ⟨p, rfl, hin⟩
  have : b = true := by
    refine hb.2 ⟨⟨⟨m, hin⟩, h0⟩, ?_⟩
    refine hi.tree.open_of hok ((hi.tree.full _ _ hS h0).1 _ hanc hanc.1).1 ?_
    rintro n hokn hlen hh hpos ⟨_, m', ⟨q, rfl, hq⟩, hancq⟩
    have hlen' : n.len = blockStart p.len := hlen
    have hnW : n.len ≤ W := by
      have h1 : n.len < q.len := hancq.1
      have h2 : q.len ≤ W := q.le
      omega
    have hsb := nib_sameBits hancq.2.2 hlen' hokn.2.1 hpos hnW hh
    obtain ⟨q', hq', hl', hsb'⟩ := hu q m' hq (by rw [← hlen']; exact hancq.1) hsb
    exact ⟨_, ⟨q', rfl, hq'⟩, anc_of_sameBits hancq (hlen' ▸ hl') (hlen' ▸ hsb')⟩
  rw [hr, this]

/-- Up to 8 bits no other block can stand in the way: the mui set of the node decides. -/
theorem contains_mui_rbm [Fam W] {st : Strategy} {h : History M W} {s : Rib M W}
    (hi : HInv st h s) (p : Prefix W) (m : Mui) (h8 : p.len ≤ 8) :
    ∃ b, (ribContains p.id (some m)).run s = .ok b s ∧
      (b = true ↔ Proper h p ∧ RbmSet s.tree.slots (hostId p.id) m) := by
  obtain ⟨b, hr, hb⟩ := run_containsMui hi p m
  refine ⟨b, hr, hb.trans ⟨fun x => ⟨x.1, x.2.rbmSet⟩, fun x => ⟨x.1, ?_⟩⟩⟩
  have hanc := anc_host (p := p.id) x.1.2
  have hok := hanc.ok p.clean
  refine hi.tree.open_of hok x.2 ?_
  rintro n hokn hlen hh hpos hex
  have : n = hostId p.id := by
    apply eq_of_hIdx hokn.1 hok.1 hlen
    intro lvl hlv
    have hlen' : n.len = 4 * ((p.len - 1) / 4) := hlen
    have : lvl = 0 := by unfold ValidLevel at hlv; omega
    subst this; exact hh
  subst this
  have hlen' : (hostId p.id).len = 4 * ((p.len - 1) / 4) := rfl
  obtain ⟨a, e, he, hid, hbm⟩ := x.2
  rcases hi.tree.just.rbm a e m he hbm with ⟨h1, h2⟩ | ⟨q, hq, ht | ⟨h1, h2⟩⟩
  · rw [← hid, h1] at hpos; simp [rootNodeId] at hpos
  · exact ⟨q, hq, hid ▸ ht⟩
  · rw [← hid, h2] at hpos; simp [rootNodeId] at hpos

/-- Exact answer for prefixes of 5 to 8 bits. -/
theorem contains_mui_5_to_8 [Fam W] {st : Strategy} {F : Nat} {h : History M W} {s : Rib M W}
    (hs : exec st F h = .ok () s) (p : Prefix W) (m : Mui) (h5 : 5 ≤ p.len) (h8 : p.len ≤ 8) :
    ∃ b, (ribContains p.id (some m)).run s = .ok b s ∧
      (b = true ↔ Present h p ∧ ∃ q, Inserted h q m ∧ Marks q p) := by
  have hi := exec_ok_inv hs
  obtain ⟨b, hr, hb⟩ := contains_mui_rbm hi p m h8
  refine ⟨b, hr, ⟨fun x => ?_, fun ⟨hp, q, hq, hm⟩ => hb.2 ⟨⟨hp, by omega⟩, ?_⟩⟩⟩
  · subst x
    obtain ⟨h1, h2 | ⟨h2, _⟩⟩ := contains_mui_sound hs p m hr
    · exact ⟨h1.1, h2⟩
    · omega
  · have hanc := anc_host (p := p.id) (show 0 < p.len by omega)
    have hq' : Anc (hostId p.id) q.id := anc_of_sameBits hanc hm.1 hm.2
    exact ((hi.tree.full q.id m ⟨q, rfl, hq⟩ (by have := hm.1; show 0 < q.len; omega)).1 _ hq' hq'.1).1

/-- Exact answer for prefixes of 1 to 4 bits and ids other than 0: it only tells
whether the id was inserted with any prefix at all. -/
theorem contains_mui_1_to_4 [Fam W] {st : Strategy} {F : Nat} {h : History M W} {s : Rib M W}
    (hs : exec st F h = .ok () s) (p : Prefix W) (m : Mui) (h1 : 1 ≤ p.len) (h4 : p.len ≤ 4)
    (hm : m ≠ 0#32) :
    ∃ b, (ribContains p.id (some m)).run s = .ok b s ∧
      (b = true ↔ Present h p ∧ ∃ q, Inserted h q m) := by
  have hi := exec_ok_inv hs
  obtain ⟨b, hr, hb⟩ := contains_mui_rbm hi p m (by omega)
  refine ⟨b, hr, ⟨fun x => ?_, fun ⟨hp, q, hq⟩ => hb.2 ⟨⟨hp, by omega⟩, ?_⟩⟩⟩
  · subst x
    obtain ⟨h1, ⟨q, hq, _⟩ | ⟨_, h2 | ⟨q, hq, _⟩⟩⟩ := contains_mui_sound hs p m hr
    · exact ⟨h1.1, q, hq⟩
    · exact absurd h2 hm
    · exact ⟨h1.1, q, hq⟩
  · have hz : blockStart p.len = 0 := by unfold blockStart; omega
    have hroot : hostId p.id = rootNodeId W := by
      have : hostLen p.id.len = 0 := hz
      simp [hostId, this, rootNodeId, truncate_zero]
    rcases Nat.eq_zero_or_pos q.len with h0 | h0
    · rw [hroot]; exact hi.tree.dfltRbm q.id m ⟨q, rfl, hq⟩ h0
    · have hanc := anc_host (p := p.id) (show 0 < p.len by omega)
      have hlen : (hostId p.id).len = 0 := hz
      have hq' : Anc (hostId p.id) q.id :=
        anc_of_sameBits hanc (by omega) (fun i hi => by omega)
      exact ((hi.tree.full q.id m ⟨q, rfl, hq⟩ h0).1 _ hq' hq'.1).1

/-! ### Witnesses -/

/-- 16.0.0.0/9 -/
def sixteen : Prefix 32 := Demo.pfx 0x10000000#32 9 (by decide)
/-- 17.0.0.0/9 -/
def seventeen : Prefix 32 := Demo.pfx 0x11000000#32 9 (by decide)

/-- Two prefixes of different nodes with the same first four bits. -/
def crossed : History Demo.Md 32 :=
  [.insert seventeen (Demo.rec1 2 2 2) none, .insert sixteen (Demo.rec1 1 1 1) none]

theorem crossed_inserted {q : Prefix 32} {m : Mui} (h : Inserted crossed q m) :
    (q = seventeen ∧ m = 2#32) ∨ (q = sixteen ∧ m = 1#32) := by
  obtain ⟨r, tbi, hmem, rfl⟩ := h
  simp only [crossed, List.mem_cons, List.not_mem_nil, or_false] at hmem
  rcases hmem with h | h
  · injection h with h1 h2; subst h1; subst h2; exact .inl ⟨rfl, rfl⟩
  · injection h with h1 h2; subst h1; subst h2; exact .inr ⟨rfl, rfl⟩

/-- Of the two inserted pairs of `crossed` at least one is denied. -/
theorem contains_mui_false_negative (st : Strategy) (F : Nat) (s : Rib Demo.Md 32)
    (hs : exec st F crossed = .ok () s) :
    (ribContains sixteen.id (some 1#32)).run s = .ok false s ∨
    (ribContains seventeen.id (some 2#32)).run s = .ok false s := by
  have hi := exec_ok_inv hs
  obtain ⟨b, hr, hb⟩ := run_containsMui hi sixteen 1#32
  obtain ⟨b', hr', hb'⟩ := run_containsMui hi seventeen 2#32
  cases b with
  | false => exact .inl hr
  | true =>
    cases b' with
    | false => exact .inr hr'
    | true =>
      exfalso
      have hok := (anc_host (p := sixteen.id) (by decide)).ok sixteen.clean
      refine hi.tree.not_both_open hok (b := hostId seventeen.id) (by decide) (by decide)
        ?_ ⟨(hb.1 rfl).2, (hb'.1 rfl).2⟩
      intro n hn _ ⟨⟨a, e, he, hid, hbm⟩, ⟨a', e', he', hid', hbm'⟩⟩
      have hn8 : n.len = 8 := hn
      have key : ∀ a e m, s.tree.slots a = some e → e.id = n → e.rbm m = true →
          ∃ q : Prefix 32, Inserted crossed q m ∧ Anc n q.id := by
        intro a e m he hid hbm
        rcases hi.tree.just.rbm a e m he hbm with ⟨h1, _⟩ | ⟨_, ⟨q, rfl, hq⟩, ht | ⟨_, h2⟩⟩
        · rw [← hid, h1] at hn8; simp [rootNodeId] at hn8
        · exact ⟨q, hq, hid ▸ ht⟩
        · rw [← hid, h2] at hn8; simp [rootNodeId] at hn8
      obtain ⟨q, hq, hqa⟩ := key _ _ _ he hid hbm
      obtain ⟨q', hq', hqa'⟩ := key _ _ _ he' hid' hbm'
      have e1 : q = sixteen := by
        rcases crossed_inserted hq with ⟨_, h⟩ | ⟨h, _⟩
        · exact absurd h (by decide)
        · exact h
      have e2 : q' = seventeen := by
        rcases crossed_inserted hq' with ⟨h, _⟩ | ⟨_, h⟩
        · exact h
        · exact absurd h (by decide)
      subst e1; subst e2
      have := (hqa.2.2.symm.trans hqa'.2.2)
      rw [hn8] at this
      exact absurd this (by decide)

/-- One block, two ids. -/
def mixed : History Demo.Md 32 :=
  [.insert Demo.ten16 (Demo.rec1 2 2 2) none, .insert Demo.ten8 (Demo.rec1 1 1 1) none]

/-- `contains` also reports a pair that was never inserted. -/
theorem contains_mui_false_positive (st : Strategy) (F : Nat) (s : Rib Demo.Md 32)
    (hs : exec st F mixed = .ok () s) :
    (ribContains Demo.ten8.id (some 2#32)).run s = .ok true s ∧ ¬ Inserted mixed Demo.ten8 2#32 := by
  constructor
  · obtain ⟨b, hr, hb⟩ := contains_mui_5_to_8 hs Demo.ten8 2#32 (by decide) (by decide)
    have : b = true := by
      refine hb.2 ⟨⟨1#32, _, _, .tail _ (.head _), rfl⟩, Demo.ten16, ⟨_, _, .head _, rfl⟩, by decide, ?_⟩
      intro i hi
      have h4 : i < 4 := hi
      interval_cases i <;> decide
    rw [hr, this]
  · rintro ⟨r, tbi, hmem, hm⟩
    simp only [mixed, List.mem_cons, List.not_mem_nil, or_false] at hmem
    rcases hmem with h | h
    · injection h with h1 h2
      exact absurd (congrArg Prefix.len h1) (by decide)
    · injection h with h1 h2; subst h2; exact absurd hm (by decide)

/-- C02 as stated does not hold. -/
theorem contains_mui_fails : ¬ ContainsMuiExact Demo.Md 32 := by
  intro hall
  obtain ⟨s, hs, _⟩ := exec_inv .memoryOnly 0 mixed
  obtain ⟨b, hb, hc⟩ := hall .memoryOnly 0 _ s hs Demo.ten8 2#32
  obtain ⟨h1, h2⟩ := contains_mui_false_positive .memoryOnly 0 s hs
  rw [hb] at h1; cases h1
  exact h2 (hc.1 rfl)

/-- Without the second insert, 16.0.0.0/9 is reported, and `contains_mui_partial` applies. -/
example : ∃ s, exec .memoryOnly 3 ([.insert sixteen (Demo.rec1 1 1 1) none] : History Demo.Md 32) = .ok () s ∧
    (ribContains sixteen.id (some 1#32)).run s = .ok true s := by
  obtain ⟨s, hs, _⟩ := exec_inv .memoryOnly 3 ([.insert sixteen (Demo.rec1 1 1 1) none] : History Demo.Md 32)
  refine ⟨s, hs, contains_mui_partial hs sixteen 1#32 (by decide) ⟨_, _, .head _, rfl⟩ ?_⟩
  intro q m' hq hl _
  obtain ⟨r, tbi, hmem, rfl⟩ := hq
  simp only [List.mem_cons, List.not_mem_nil, or_false] at hmem
  injection hmem with h1 h2
  subst h1
  exact ⟨sixteen, ⟨_, _, .head _, rfl⟩, hl, fun _ _ => rfl⟩

/-- `contains_mui_1_to_4` on two inserts:
0.0.0.0/1 inserted with id 1 is reported for id 2 of another prefix. -/
example : ∃ s, exec .memoryOnly 3
    ([.insert Demo.other (Demo.rec1 2 1 1) none,
      .insert (Demo.pfx 0#32 1 (by decide)) (Demo.rec1 1 1 1) none] : History Demo.Md 32) = .ok () s ∧
    (ribContains (Demo.pfx 0#32 1 (by decide)).id (some 2#32)).run s = .ok true s ∧
    (ribContains (Demo.pfx 0#32 1 (by decide)).id (some 3#32)).run s = .ok false s := by
  obtain ⟨s, hs, _⟩ := exec_inv .memoryOnly 3
    ([.insert Demo.other (Demo.rec1 2 1 1) none,
      .insert (Demo.pfx 0#32 1 (by decide)) (Demo.rec1 1 1 1) none] : History Demo.Md 32)
  refine ⟨s, hs, ?_, ?_⟩
  · obtain ⟨b, hr, hb⟩ := contains_mui_1_to_4 hs (Demo.pfx 0#32 1 (by decide)) 2#32 (by decide)
      (by decide) (by decide)
    rw [hr, hb.2 ⟨⟨1#32, _, _, .tail _ (.head _), rfl⟩, Demo.other, _, _, .head _, rfl⟩]
  · obtain ⟨b, hr, hb⟩ := contains_mui_1_to_4 hs (Demo.pfx 0#32 1 (by decide)) 3#32 (by decide)
      (by decide) (by decide)
    have : b = false := by
      rw [← Bool.not_eq_true, hb]
      rintro ⟨_, q, r, tbi, hmem, hm⟩
      simp only [List.mem_cons, List.not_mem_nil, or_false] at hmem
      rcases hmem with h | h <;> · injection h with h1 h2; subst h2; exact absurd hm (by decide)
    rw [hr, this]

end Rotonda.Props
