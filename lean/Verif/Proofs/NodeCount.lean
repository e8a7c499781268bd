import Verif.Proofs.Always

/-!
# The node counter (sequential use)
-/

namespace Rotonda

open Prog

variable {W : Nat}

/-- The child bits that are set. -/
def ptrPairs (s : NSlots W) : Set (NodeId W × Nat) := {x | PtrSet s x.1 x.2}

/-- The counter is the number of child bits, and the root. -/
def PtrCount (t : Tree W) : Prop :=
  (ptrPairs t.slots).Finite ∧ t.nodes = (ptrPairs t.slots).ncard + 1

theorem ptrCount_congr {t t' : Tree W} (h : ptrPairs t'.slots = ptrPairs t.slots)
    (hn : t'.nodes = t.nodes) (hc : PtrCount t) : PtrCount t' := by
  unfold PtrCount; rw [h, hn]; exact hc

theorem ptrKeep_trans {s s' : NSlots W} (h : Relation.ReflTransGen PtrKeep s s') : PtrKeep s s' := by
  induction h with
  | refl => exact PtrKeep.rfl' _
  | tail _ hb ih => exact fun n v hx => ih n v (hb n v hx)

theorem nr_trans {s s' : NSlots W} (h : Relation.ReflTransGen NR s s') : NR s s' := by
  induction h with
  | refl => exact NR.rfl' _
  | tail _ hb ih => exact ih.trans hb

theorem ptrPairs_eq {s s' : NSlots W} (hx : NExt s s') (hk : PtrKeep s s') :
    ptrPairs s' = ptrPairs s := by
  ext ⟨n, v⟩
  exact ⟨fun h => hk n v h, fun h => PtrSet.ext h hx⟩

theorem nr_of_eq' : ∀ s s' : NSlots W, s = s' → NR s s' := fun s _ h => h ▸ NR.rfl' s

/-- Run of a program with a `wp` whose actions set no child bit. -/
theorem run_keep {α : Type} {p : PrefixId W} {m : Mui} {prog : Prog (NSlots W) α}
    {Q : α → NSlots W → Prop} {s : NSlots W} (hw : wp Eq (GIns p m) False prog Q s)
    (hk : prog.Always PtrKeep) :
    ∃ a s', prog.run s = .ok a s' ∧ Q a s' ∧ ptrPairs s' = ptrPairs s := by
  obtain ⟨a, s', hr, hq, ht⟩ := run_of_wp _ hw
  refine ⟨a, s', hr, hq, ptrPairs_eq (nr_trans (Relation.ReflTransGen.mono (fun _ _ h => h.1) _ _ ht)).1
    (ptrKeep_trans (hk.run hr))⟩

theorem run_slots {α : Type} (q : Prog (NSlots W) α) (t : Tree W) : (q.zoom Tree.slotsL).run t =
    (q.run t.slots).mapState (fun s => { t with slots := s }) := by
  rw [run_zoom Tree.slotsL_lawful]; rfl

theorem run_readAtN {s : NSlots W} {ρ : Type} {a : Addr} {e : StoredNode W} (he : s a = some e)
    (f : StoredNode W → ρ) : (readAt a f).run s = .ok (f e) s := by
  simp [readAt, run_bind, Prog.read, run, Outcome.andThen, he, ofOption]

theorem run_accessAtN {ρ : Type} {s : NSlots W} {a : Addr} {e : StoredNode W} (h : s a = some e)
    (f : StoredNode W → ρ × StoredNode W) :
    (accessAt a f).run s = .ok (f e).1 (s.set a (f e).2) := by
  simp [accessAt, atomic, Prog.run, h, ofOption]

/-- The node with one more child bit. -/
def withPtrBit (e : StoredNode W) (v : Nat) : StoredNode W :=
  { e with ptr := intoPtrBitArr (posMask (15 + v) ||| intoPfxBitArr e.ptr) }

theorem withPtrBit_msb (e : StoredNode W) {v : Nat} (hv : v < 16) (w : Nat) :
    (withPtrBit e v).ptr.getMsbD w = (decide (w = v) || e.ptr.getMsbD w) := ptr_set_msb hv w

/-- One step down, run alone. -/
theorem run_eval_inner (F : Nat) {s : NSlots W} {a : Addr} {e : StoredNode W} (he : s a = some e)
    {v : Nat} (hv : v < 16) (base : NodeId W) :
    (evalNodeOrPrefixAt F a ⟨v, 4⟩ base false).run s =
      if e.ptr.getMsbD v then .ok (.existingNode base.nextStride) s
      else .ok (.newNode 0#16 0#32)
        (s.set a (withPtrBit e v)) := by
  unfold evalNodeOrPrefixAt loadPtr loadPfx
  have e15 : 2 ^ 4 - 1 + v = 15 + v := rfl
  simp only [run_bind, run_readAtN he, Outcome.andThen,
    intoBitPos_eq (b := ⟨v, 4⟩) (by simp) (by simpa using hv), ofOption, run, if_true, e15]
  cases hb : e.ptr.getMsbD v with
  | true =>
    have : ¬ (intoPfxBitArr e.ptr &&& posMask (15 + v) = 0#32) := by
      rw [ptr_test hv, hb]; simp
    simp only [this, if_false, pure_def, run, if_true]
  | false =>
    have : intoPfxBitArr e.ptr &&& posMask (15 + v) = 0#32 := by rw [ptr_test hv, hb]
    unfold casPtrLoop casPtr
    simp only [this, if_true, run_bind, run_accessAtN he, Outcome.andThen, pure_def, run,
      Bool.false_eq_true, if_false]
    rfl

theorem ptrPairs_setBit {s : NSlots W} {a : Addr}
    {e : StoredNode W} (he : s a = some e) {v : Nat} (hv : v < 16) :
    ptrPairs (s.set a (withPtrBit e v)) =
      insert (e.id, v) (ptrPairs s) := by
  ext ⟨n, w⟩
  simp only [ptrPairs, Set.mem_ofPred_eq, Set.mem_insert_iff, Prod.mk.injEq]
  constructor
  · rintro ⟨b, f, hf, hid, hb⟩
    by_cases c : b = a
    · subst c
      rw [Slots.set_same] at hf; cases hf
      rw [withPtrBit_msb _ hv] at hb
      simp only [Bool.or_eq_true, decide_eq_true_eq] at hb
      rcases hb with hb | hb
      · exact .inl ⟨hid.symm, hb⟩
      · exact .inr ⟨b, e, he, hid, hb⟩
    · rw [Slots.set_other _ _ c] at hf
      exact .inr ⟨b, f, hf, hid, hb⟩
  · rintro (⟨rfl, rfl⟩ | ⟨b, f, hf, hid, hb⟩)
    · exact ⟨a, _, Slots.set_same _ _ _, rfl, by rw [withPtrBit_msb _ hv]; simp⟩
    · by_cases c : b = a
      · subst c
        rw [he] at hf; cases hf
        exact ⟨b, _, Slots.set_same _ _ _, hid, by rw [withPtrBit_msb _ hv, hb]; simp⟩
      · exact ⟨b, f, by rw [Slots.set_other _ _ c]; exact hf, hid, hb⟩

/-- The counter stays right along the strides of an insert. -/
theorem ptrCount_loop [hW : Fam W] {p : PrefixId W} (hp : p.Clean) {m : Mui} {F : Nat} :
    ∀ (fuel start : Nat) (t t' : Tree W) (r : Except StoreError Bool), 4 ∣ start → start < p.len →
      256 ≤ 4 * fuel + start → ChainInv (nodeLayout W) t.slots → PtrCount t →
      (setPrefixExistsLoop F p m fuel start (ancAt p start)).run t = .ok r t' → PtrCount t' := by
  have hpW := hp.1
  have hw := hW.width
  intro fuel
  induction fuel with
  | zero => intro start t t' r h4 hlt hf; omega
  | succ fuel ih =>
    intro start t t' r h4 hlt hf hi hc hrun
    have hanc := anc_ancAt h4 hlt
    unfold setPrefixExistsLoop at hrun
    simp only at hrun
    rw [if_neg (by omega)] at hrun
    generalize hk : (if p.len < start + 4 then 4 + p.len - (start + 4) else 4) = k at hrun
    have hk1 : 1 ≤ k ∧ k ≤ 4 ∧ start + k ≤ W ∧ (start + 4 < p.len → k = 4) ∧
        (p.len ≤ start + 4 → k = p.len - start) := by
      rw [← hk]; split <;> omega
    obtain ⟨_, s1, hr1, ⟨hi1, ref, rfl, e1, he1, hid1, _⟩, hpp1⟩ := run_keep
      (wp_mono _ (fun _ _ h => h) (fun _ _ h => h.1) (fun h => h) (fun _ _ h => h)
        (wp_retrieveNodeMut (R := Eq) (D := False) nr_of_eq' hp (.inl hanc) (m := m) hi))
      (ptrKeep_retrieveNodeMut (ancAt p start) m)
    rw [intoBitSpan_eq hk1.1 hk1.2.1 hk1.2.2.1] at hrun
    simp only [run_bind, ofOption, run, run_slots, hr1, Outcome.mapState, Outcome.andThen] at hrun
    by_cases hlast : p.len ≤ start + 4
    · -- last stride
      simp only [hlast, decide_true] at hrun
      cases hx : (evalNodeOrPrefixAt F ref.addr ⟨nib p.bits start k, k⟩ ⟨p.bits, start⟩ true).run s1 with
      | panic => rw [hx] at hrun; cases hrun
      | diverge => rw [hx] at hrun; cases hrun
      | ok x s2 =>
        have hkeep : ptrPairs s2 = ptrPairs s1 := by
          have hhost : hostLen p.len = start := by unfold hostLen; omega
          have hhid : hostId p = ancAt p start := by unfold hostId ancAt; rw [hhost]
          have hkl : k = p.len - hostLen p.len := by rw [hhost]; exact hk1.2.2.2.2 hlast
          have hw2 := wp_eval_last (R := Eq) (D := False) nr_of_eq' (.inr (.inl fun _ _ h => h.symm)) hp
            (by omega) (m := m) (a := ref.addr) (F := F) (base := ⟨p.bits, start⟩) (s := s1)
            (J := fun _ => True) (K := True) (fun _ _ _ _ => trivial) (fun _ _ _ => trivial) trivial
            ⟨e1, he1, hid1.trans hhid.symm⟩ hi1
          obtain ⟨y, s3, hy, _, hpp⟩ := run_keep hw2 (ptrKeep_eval_last _ _ _ _)
          rw [← hkl, hhost] at hy
          rw [hx] at hy
          cases hy
          exact hpp
        rw [hx] at hrun
        simp only at hrun
        have hres : x = .newPrefix ∨ x = .existingPrefix := by
          have hhost : hostLen p.len = start := by unfold hostLen; omega
          have hhid : hostId p = ancAt p start := by unfold hostId ancAt; rw [hhost]
          have hkl : k = p.len - hostLen p.len := by rw [hhost]; exact hk1.2.2.2.2 hlast
          have hw2 := wp_eval_last (R := Eq) (D := False) nr_of_eq' (.inr (.inl fun _ _ h => h.symm)) hp
            (by omega) (m := m) (a := ref.addr) (F := F) (base := ⟨p.bits, start⟩) (s := s1)
            (J := fun _ => True) (K := True) (fun _ _ _ _ => trivial) (fun _ _ _ => trivial) trivial
            ⟨e1, he1, hid1.trans hhid.symm⟩ hi1
          obtain ⟨y, s3, hy, ⟨_, _, h⟩, _⟩ := run_of_wp _ hw2
          rw [← hkl, hhost] at hy
          rw [hx] at hy
          cases hy
          rcases h with ⟨rfl, _⟩ | ⟨rfl, _⟩
          · exact .inl rfl
          · exact .inr rfl
        rcases hres with rfl | rfl <;>
        · simp only [pure_def, run] at hrun
          cases hrun
          exact ptrCount_congr (t := t) (hkeep.trans hpp1) rfl hc
    · have hk4 : k = 4 := hk1.2.2.2.1 (by omega)
      subst hk4
      simp only [hlast, decide_false] at hrun
      have hv : nib p.bits start 4 < 16 := nib_lt p.bits (by omega)
      rw [run_eval_inner F he1 hv] at hrun
      cases hb : e1.ptr.getMsbD (nib p.bits start 4) with
      | true =>
        simp only [hb, if_true] at hrun
        have hnext : (NodeId.nextStride ⟨p.bits, start⟩ : NodeId W) = ancAt p (start + 4) := rfl
        rw [hnext] at hrun
        exact ih (start + 4) { t with slots := s1 } t' r (by omega) (by omega) (by omega) hi1
          (ptrCount_congr (t := t) hpp1 rfl hc) hrun
      | false =>
        have hi2 : ChainInv (nodeLayout W) (s1.set ref.addr (withPtrBit e1 (nib p.bits start 4))) := by
          have hw2 := wp_eval_inner (R := Eq) (D := False) nr_of_eq' (.inr (.inl fun _ _ h => h.symm)) hp
            (m := m) hanc (by show start + 4 < _; omega) (F := F) (base := ⟨p.bits, start⟩)
            (a := ref.addr) (s := s1) ⟨e1, he1, hid1⟩ hi1
          obtain ⟨y, s3, hy, ⟨h, _⟩, _⟩ := run_of_wp _ hw2
          change (evalNodeOrPrefixAt F ref.addr ⟨nib p.bits start 4, 4⟩ _ false).run s1 = _ at hy
          rw [run_eval_inner F he1 hv, hb] at hy
          cases hy
          exact h
        have hpp2 := ptrPairs_setBit he1 hv
        have hnew : (e1.id, nib p.bits start 4) ∉ ptrPairs s1 := by
          rintro ⟨b, f, hf, hid, hbit⟩
          have hab : b = ref.addr := hi1.unique hf he1 hid
          subst hab
          rw [he1] at hf; cases hf
          rw [hb] at hbit; cases hbit
        simp only [hb, Bool.false_eq_true, if_false] at hrun
        generalize (s1.set ref.addr (withPtrBit e1 (nib p.bits start 4))) = s2 at *
        have hanc4 : Touch (NodeId.newCleaned p.bits (start + 4)) p :=
          .inl ⟨by simp only [NodeId.newCleaned]; omega, by simp only [NodeId.newCleaned]; omega, rfl⟩
        obtain ⟨_, s3, hr3, ⟨hi3, rfl⟩, hpp3⟩ := run_keep
          (wp_mono _ (fun _ _ h => h) (fun _ _ h => h.1) (fun h => h) (fun _ _ h => h)
            (wp_storeNodeLoop (R := Eq) (D := False) nr_of_eq' hanc4 F maxLevels 0 _ _
              (by simp [maxLevels]) (WalkAt.start hi2 (hanc4.ok hp))))
          (ptrKeep_storeNodeLoop F (NodeId.newCleaned p.bits (start + 4)) m maxLevels 0 _)
        unfold storeNode at hrun
        simp only [nodeRoot_eq (hanc4.ok hp), run_bind, ofOption, atomic, run, run_slots, hr3,
          Outcome.mapState, Outcome.andThen, if_true] at hrun
        refine ih (start + 4) _ t' r (by omega) (by omega) (by omega) hi3 ?_ hrun
        have hfin : (ptrPairs s1).Finite := by rw [hpp1]; exact hc.1
        refine ⟨?_, ?_⟩
        · show (ptrPairs s3).Finite
          rw [hpp3, hpp2]
          exact hfin.insert _
        · show t.nodes + 1 = (ptrPairs s3).ncard + 1
          rw [hpp3, hpp2, Set.ncard_insert_of_notMem hnew hfin, hpp1, hc.2]

/-- The counter stays right when a prefix is inserted. -/
theorem ptrCount_insert [hW : Fam W] {p : PrefixId W} (hp : p.Clean) {m : Mui} {F : Nat}
    {t t' : Tree W} {r : Except StoreError Bool} (hi : ChainInv (nodeLayout W) t.slots)
    (hc : PtrCount t) (hrun : (setPrefixExists F p m).run t = .ok r t') : PtrCount t' := by
  unfold setPrefixExists at hrun
  by_cases h0 : p.len = 0
  · rw [if_pos h0] at hrun
    obtain ⟨_, s1, hr1, ⟨hi1, ref, rfl, _⟩, hpp1⟩ := run_keep
      (wp_mono _ (fun _ _ h => h) (fun _ _ h => h.1) (fun h => h) (fun _ _ h => h)
        (wp_retrieveNodeMut (R := Eq) (D := False) nr_of_eq' hp (.inr ⟨h0, rfl⟩) (m := m) hi))
      (ptrKeep_retrieveNodeMut (rootNodeId W) m)
    unfold updateDefaultRoute at hrun
    simp only [run_bind, atomic, run, run_slots, hr1, Outcome.mapState, Outcome.andThen,
      pure_def] at hrun
    cases hrun
    exact ptrCount_congr (t := t) hpp1 rfl hc
  · rw [if_neg h0, ← ancAt_zero p] at hrun
    exact ptrCount_loop hp maxLevels 0 t t' r (by omega) (by omega) (by simp [maxLevels]) hi hc hrun

theorem ptrCount_initial [Fam W] : PtrCount (Tree.initial W) := by
  have : ptrPairs (Tree.initial W).slots = ∅ := by
    ext ⟨n, v⟩
    simp only [ptrPairs, Set.mem_ofPred_eq, Set.mem_empty_iff_false, iff_false]
    rintro ⟨a, e, h, _, hb⟩
    simp only [Tree.initial] at h
    split at h
    · cases h; simp at hb
    · cases h
  unfold PtrCount
  rw [this]
  exact ⟨Set.finite_empty, by simp [Tree.initial]⟩

end Rotonda
