import Verif.Proofs.TreeRead

/-!
# The mui index of the tree: `retrieve_node_for_mui`, `prefix_exists_for_mui`

`retrieve_node_for_mui` asks the mui index of every node on the chain of the node it
looks for, so its answer also depends on nodes that have nothing to do with the prefix.
-/

namespace Rotonda

open Prog

variable {W : Nat} {R G : NSlots W → NSlots W → Prop} {D : Prop}

/-- The nodes on the chain of `id` above level `n` have `m` in their index. -/
def Passed (s : NSlots W) (id : NodeId W) (m : Mui) (n : Nat) : Prop :=
  ∀ k < n, ∃ e, s (slotAt (nodeLayout W) id k) = some e ∧ e.rbm m = true

theorem Passed.ext {s s' : NSlots W} {id : NodeId W} {m : Mui} {n : Nat} (h : Passed s id m n)
    (hx : NExt s s') : Passed s' id m n := by
  intro k hk
  obtain ⟨e, he, hb⟩ := h k hk
  obtain ⟨e', he', l⟩ := hx _ e he
  exact ⟨e', he', l.rbm _ hb⟩

/-- Node `id` exists and every node on its chain, itself included, has `m`. -/
def Open (s : NSlots W) (id : NodeId W) (m : Mui) : Prop :=
  ∃ k e, s (slotAt (nodeLayout W) id k) = some e ∧ e.id = id ∧ Passed s id m (k + 1)

theorem Open.ext {s s' : NSlots W} {id : NodeId W} {m : Mui} (h : Open s id m)
    (hx : NExt s s') : Open s' id m := by
  obtain ⟨k, e, he, hid, hp⟩ := h
  obtain ⟨e', he', l⟩ := hx _ e he
  exact ⟨k, e', he', l.id.trans hid, hp.ext hx⟩

theorem Open.has {s : NSlots W} {id : NodeId W} {m : Mui} (h : Open s id m) : Has s id := by
  obtain ⟨k, e, he, hid, _⟩ := h
  exact ⟨_, e, he, hid⟩

theorem Open.rbmSet {s : NSlots W} {id : NodeId W} {m : Mui} (h : Open s id m) :
    RbmSet s id m := by
  obtain ⟨k, e, he, hid, hp⟩ := h
  obtain ⟨e', he', hb⟩ := hp k (by omega)
  rw [he] at he'; cases he'
  exact ⟨_, e, he, hid, hb⟩

/-- A node without `m` on the way closes the chain. -/
theorem not_open {s : NSlots W} {id : NodeId W} {m : Mui} {k : Nat} {e : StoredNode W}
    (ha : Above (nodeLayout W) s id k) (he : s (slotAt (nodeLayout W) id k) = some e)
    (hb : e.rbm m = false) : ¬ Open s id m := by
  rintro ⟨j, e', he', hid, hp⟩
  by_cases hk : k ≤ j
  · obtain ⟨e2, he2, hb2⟩ := hp k (by omega)
    rw [he] at he2; cases he2
    rw [hb] at hb2; cases hb2
  · obtain ⟨e2, he2, hne⟩ := ha j (by omega)
    rw [he'] at he2; cases he2
    exact hne hid

theorem wp_retrieveNodeForMuiLoop [Fam W] (hR : ∀ s s', R s s' → NR s s') (hGr : ∀ s, G s s)
    {id : NodeId W} {m : Mui} :
    ∀ (fuel n : Nat) (size : Nat) (s : NSlots W), 64 ≤ fuel + n →
      WalkAt (nodeLayout W) s id n size → Passed s id m n →
      wp R G D (retrieveNodeForMuiLoop id m fuel n (bucketAt (nodeLayout W) id n size))
        (fun r s' => ChainInv (nodeLayout W) s' ∧
          match r with
          | none => ¬ Open s' id m
          | some ref => NodeAt s' ref.addr id ∧ Open s' id m) s := by
  intro fuel
  induction fuel with
  | zero => intro n size s hf hw; have := hw.bound; omega
  | succ fuel ih =>
    intro n size s hf hw hps
    have hRO := relyOK_of hR
    unfold retrieveNodeForMuiLoop
    rw [wp_bind]
    apply wp_ofOption hw.hash
    rw [wp_bind]
    refine wp_sliceGet hRO hw hGr ?_ ?_
    · intro s1 hr1 hw1 hnone
      exact ⟨hw1.inv, fun h => absent_of_empty hw1.inv hw1.above hnone h.has⟩
    · intro s1 e hr1 hw1 he
      simp only
      rw [wp_bind]
      refine wp_readAt hGr ?_ ?_
      · intro s2 hr2
        obtain ⟨e', he', _⟩ := (hR _ _ hr2).1 _ e he
        exact ⟨e', he'⟩
      intro s2 e' hr2 he'
      have he' : s2 (slotAt (nodeLayout W) id n) = some e' := he'
      have hw2 : WalkAt (nodeLayout W) s2 id n size := hw1.rely hRO hr2
      have hps2 : Passed s2 id m n := (hps.ext (hR _ _ hr1).1).ext (hR _ _ hr2).1
      have hide : e'.id = e.id := by
        obtain ⟨e2, he2, l⟩ := (hR _ _ hr2).1 _ e he
        rw [he2] at he'; cases he'; exact l.id
      split
      · rename_i hb
        exact ⟨hw2.inv, not_open hw2.above he' hb⟩
      · rename_i hb
        have hps3 : Passed s2 id m (n + 1) := by
          intro k hk
          rcases Nat.lt_succ_iff_lt_or_eq.1 hk with hk | rfl
          · exact hps2 k hk
          · exact ⟨e', he', by simpa using hb⟩
        split
        · rename_i hid
          exact ⟨hw2.inv, ⟨e', he', hide.trans hid.symm⟩, n, e', he', hide.trans hid.symm, hps3⟩
        · rename_i hid
          have hne : ¬ (e'.id = id) := fun h => hid (h.symm.trans hide)
          obtain ⟨hpos, hdown⟩ := hw2.down he' hne
          rw [wp_bind]
          apply wp_ofOption hw2.nsz
          rw [if_pos hpos, bucketAt_child]
          have hnext : e'.next = e.next := by
            obtain ⟨e2, he2, l⟩ := (hR _ _ hr2).1 _ e he
            rw [he2] at he'; cases he'; exact l.next
          have hd : WalkAt (nodeLayout W) s2 id (n + 1) e.next := hnext ▸ hdown
          exact ih (n + 1) _ s2 (by omega) hd hps3

theorem wp_retrieveNodeForMui [Fam W] (hR : ∀ s s', R s s' → NR s s') (hGr : ∀ s, G s s)
    {id : NodeId W} {m : Mui} (hok : (nodeLayout W).ok id) {s : NSlots W}
    (hi : ChainInv (nodeLayout W) s) :
    wp R G D (retrieveNodeForMui id m)
        (fun r s' => ChainInv (nodeLayout W) s' ∧
          match r with
          | none => ¬ Open s' id m
          | some ref => NodeAt s' ref.addr id ∧ Open s' id m) s := by
  unfold retrieveNodeForMui
  rw [wp_bind]
  apply wp_ofOption (nodeRoot_eq hok)
  exact wp_retrieveNodeForMuiLoop hR hGr _ _ _ _ (by simp [maxLevels]) (WalkAt.start hi hok)
    (fun k hk => by omega)

/-- `prefix_exists_for_mui`, with other threads extending the tree: a positive answer
holds when the call returns, a negative one held when it was made. -/
theorem wp_prefixExistsForMuiN [hW : Fam W] (hR : ∀ s s', R s s' → NR s s') {p : PrefixId W}
    {m : Mui} (hp : p.Clean) (h0 : 0 < p.len) {s : NSlots W} (hi : ChainInv (nodeLayout W) s) :
    wp R RO D (prefixExistsForMuiN p m)
      (fun b s' => ChainInv (nodeLayout W) s' ∧
        (b = true → PfxSet s' p ∧ Open s' (hostId p) m) ∧
        (b = false → ¬ (PfxSet s p ∧ Open s (hostId p) m))) s := by
  have hle := hostLen_le p.len
  have hpW := hp.1
  unfold prefixExistsForMuiN
  rw [wp_bind]
  apply wp_ofOption (nodeIdForPrefix_eq hp h0)
  simp only
  rw [wp_bind]
  have hok := (anc_host h0).ok hp
  obtain ⟨st1, st2⟩ := nExt_stable hR s
  refine wp_conseq _ (wp_carry st1 st2 _ (NExt.rfl' s) (wp_retrieveNodeForMui (m := m) hR RO.rfl' hok hi)) ?_
  rintro r s1 ⟨hx, hi1, hr⟩
  cases r with
  | none =>
    refine ⟨hi1, fun h => by simp at h, fun _ hs => ?_⟩
    exact hr (hs.2.ext hx)
  | some ref =>
    simp only
    rw [wp_bind]
    refine wp_loadPfx hR RO.rfl' hr.1 ?_
    intro s2 e hr2 he hid hn
    rw [wp_bind]
    apply wp_ofOption (intoBitPos_eq (b := ⟨nib p.bits (hostLen p.len) (p.len - hostLen p.len),
      p.len - hostLen p.len⟩) hostLen_le4 (nib_lt _ (by omega)))
    have hi2 := (hR _ _ hr2).2 hi1
    have hlt := pfxPos_lt hp
    change ChainInv (nodeLayout W) s2 ∧
      (decide (0 < (e.pfx &&& posMask (pfxPos p)).toNat) = true → PfxSet s2 p ∧ Open s2 (hostId p) m) ∧
      (decide (0 < (e.pfx &&& posMask (pfxPos p)).toNat) = false →
        ¬ (PfxSet s p ∧ Open s (hostId p) m))
    rw [decide_eq_true_iff, decide_eq_false_iff_not, and_posMask_pos (by omega)]
    refine ⟨hi2, fun h => ⟨⟨_, e, he, hid, h⟩, hr.2.ext (hR _ _ hr2).1⟩, fun h hs => h ?_⟩
    have := hs.1.ext (hx.trans (hR _ _ hr2).1)
    rwa [pfxSet_at hi2 he hid] at this

theorem wp_prefixExistsForMuiN_zero [hW : Fam W] (hR : ∀ s s', R s s' → NR s s')
    {T : PrefixId W → Mui → Prop} (hJ : ∀ s s', R s s' → Just T s → Just T s') {p : PrefixId W} {m : Mui}
    (h0 : p.len = 0) {s : NSlots W} (hi : ChainInv (nodeLayout W) s) (hj : Just T s) :
    wp R RO D (prefixExistsForMuiN p m) (fun b _ => b = false) s := by
  unfold prefixExistsForMuiN
  rw [wp_bind]
  apply wp_ofOption (nodeIdForPrefix_zero h0)
  simp only
  rw [wp_bind]
  have hroot : NodeId.newCleaned p.bits 0 = rootNodeId W := by
    simp [NodeId.newCleaned, rootNodeId, truncate_zero]
  rw [hroot]
  refine wp_conseq _ (wp_carry (P := fun s => Just T s) hJ (fun s s' h hx => by cases h; exact hx) _
    hj (wp_retrieveNodeForMui (m := m) hR RO.rfl' ok_root hi)) ?_
  rintro r s1 ⟨hj1, hi1, hr⟩
  cases r with
  | none => rfl
  | some ref =>
    simp only
    rw [wp_bind]
    refine wp_loadPfx hR RO.rfl' hr.1 ?_
    intro s2 e hr2 he hid hn
    rw [wp_bind]
    apply wp_ofOption (intoBitPos_eq (b := ⟨0, 0⟩) (by simp) (by simp))
    change decide (0 < (e.pfx &&& posMask 0).toNat) = false
    have hT := hJ _ _ hr2 hj1
    rw [decide_eq_false_iff_not, and_posMask_pos (by omega), hT.pfx_zero he]
    simp

/-- Sequential `prefix_exists_for_mui`, exactly. -/
theorem Rep.prefixExistsForMuiN [Fam W] {S : PrefixId W → Mui → Prop} {t : Tree W} (h : Rep S t)
    {p : PrefixId W} (hp : p.Clean) (m : Mui) :
    ∃ b, (Rotonda.prefixExistsForMuiN p m).run t.slots = .ok b t.slots ∧
      (b = true ↔ (0 < p.len ∧ ∃ m, S p m) ∧ Open t.slots (hostId p) m) := by
  by_cases h0 : 0 < p.len
  · obtain ⟨b, hr, _, h1, h2⟩ := run_of_wp_ro _
      (wp_prefixExistsForMuiN (R := Eq) (D := False) (m := m) (fun s s' h => NR_of_eq h) hp h0 h.inv)
    refine ⟨b, hr, ?_⟩
    have := h.pfxSet_iff hp h0
    rw [and_iff_right h0, ← this]
    cases b with
    | true => exact ⟨fun _ => h1 rfl, fun _ => rfl⟩
    | false => exact ⟨fun h => (by cases h), fun h => absurd h (h2 rfl)⟩
  · obtain ⟨b, hr, h1⟩ := run_of_wp_ro _
      (wp_prefixExistsForMuiN_zero (R := Eq) (D := False) (m := m) (fun s s' h => NR_of_eq h)
        (fun s s' h hj => h ▸ hj) (p := p) (by omega) h.inv h.just)
    refine ⟨b, hr, ?_⟩
    simp [h1, h0]

/-- An entry in the way of a node has the same length and the same first hash. -/
theorem ChainInv.at_slot [Fam W] {s : NSlots W} (hi : ChainInv (nodeLayout W) s) {id : NodeId W}
    (hok : (nodeLayout W).ok id) {k : Nat} {e : StoredNode W}
    (he : s (slotAt (nodeLayout W) id k) = some e) :
    (nodeLayout W).ok e.id ∧ e.id.len = id.len ∧ ∀ j ≤ k, hIdx e.id j = hIdx id j := by
  obtain ⟨hoke, n, _, ha, _, _⟩ := hi _ _ he
  obtain ⟨hl, hkn, hh⟩ := slotAt_inj hok hoke ha
  subst hkn
  exact ⟨hoke, hl.symm, fun j hj => (hh j hj).symm⟩

theorem RbmSet.at {s : NSlots W} (hi : ChainInv (nodeLayout W) s) {a : Addr} {e : StoredNode W}
    {m : Mui} (he : s a = some e) (h : RbmSet s e.id m) : e.rbm m = true := by
  obtain ⟨b, f, hf, hid, hb⟩ := h
  have : b = a := hi.unique hf he hid
  subst this; rw [he] at hf; cases hf; exact hb

/-- The chain of the host of `p` is open for `m` when every node on it has `m`. -/
theorem Rep.open_of [Fam W] {S : PrefixId W → Mui → Prop} {t : Tree W} (h : Rep S t)
    {id : NodeId W} (hok : (nodeLayout W).ok id) {m : Mui} (hr : RbmSet t.slots id m)
    (hc : ∀ n : NodeId W, (nodeLayout W).ok n → n.len = id.len → hIdx n 0 = hIdx id 0 →
      0 < n.len → (∃ q m', S q m' ∧ Anc n q) → ∃ q, S q m ∧ Anc n q) : Open t.slots id m := by
  obtain ⟨a, e, he, hid, hb⟩ := hr
  obtain ⟨_, n, hv, ha, _, hab⟩ := h.inv _ _ he
  have hid' : (Entry.id e : PrefixId W) = id := hid
  rw [hid'] at ha hab
  subst ha
  refine ⟨n, e, he, hid, fun k hk => ?_⟩
  rcases Nat.lt_succ_iff_lt_or_eq.1 hk with hk | rfl
  · obtain ⟨f, hf, hne⟩ := hab k hk
    have hne : f.id ≠ id := hne
    refine ⟨f, hf, ?_⟩
    obtain ⟨hokf, hlen, hh⟩ := h.inv.at_slot hok hf
    have hpos : 0 < f.id.len := by
      rcases Nat.eq_zero_or_pos f.id.len with h0 | h0
      · exfalso; apply hne
        apply eq_of_hIdx hokf.1 hok.1 hlen
        intro lvl hlv
        have : lvl = 0 := by unfold ValidLevel at hlv; omega
        subst this; exact hh 0 (by omega)
      · exact h0
    rcases h.just.node _ _ hf with hroot | hj
    · rw [hroot] at hpos; simp [rootNodeId] at hpos
    · obtain ⟨q, hS, hanc⟩ := hc _ hokf hlen (hh 0 (by omega)) hpos hj
      have := ((h.full q m hS (by have := hanc.1; omega)).1 _ hanc hanc.1).1
      exact RbmSet.at h.inv hf this
  · exact ⟨e, he, hb⟩

/-- Two nodes that meet on a chain and have no id in common are not both open. -/
theorem Rep.not_both_open [Fam W] {S : PrefixId W → Mui → Prop} {t : Tree W} (h : Rep S t)
    {a b : NodeId W} (ha : (nodeLayout W).ok a)
    (hl : a.len = b.len) (hh : hIdx a 0 = hIdx b 0) {m m' : Mui}
    (hc : ∀ n : NodeId W, n.len = a.len → hIdx n 0 = hIdx a 0 → 
      ¬ (RbmSet t.slots n m ∧ RbmSet t.slots n m')) :
    ¬ (Open t.slots a m ∧ Open t.slots b m') := by
  rintro ⟨⟨k, e, he, hid, hp⟩, ⟨k', e', he', hid', hp'⟩⟩
  obtain ⟨f, hf, hfm⟩ := hp 0 (by omega)
  obtain ⟨f', hf', hfm'⟩ := hp' 0 (by omega)
  have hsl : slotAt (nodeLayout W) a 0 = slotAt (nodeLayout W) b 0 := by
    simp [slotAt, hPath, hl, hh]
  rw [← hsl, hf] at hf'; cases hf'
  obtain ⟨_, h1, h2⟩ := h.inv.at_slot ha hf
  exact hc f.id h1 (h2 0 (by omega)) ⟨⟨_, f, hf, rfl, hfm⟩, ⟨_, f, hf, rfl, hfm'⟩⟩

end Rotonda
