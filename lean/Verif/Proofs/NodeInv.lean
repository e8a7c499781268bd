import Verif.Proofs.NodeBits
import Verif.Proofs.Chain

/-!
# Invariants of the node table
-/

namespace Rotonda

variable {W : Nat}

/-- Layout of the node table. -/
def nodeLayout (W : Nat) : Layout W where
  rootIx := fun l => l / 4
  ok := fun p => p.Clean ∧ 4 ∣ p.len ∧ p.len < W
  clean := fun _ h => h.1
  sameLen := by
    rintro p q ⟨_, h1, _⟩ ⟨_, h2, _⟩ h
    omega

/-- `n` is a node on the way to (the host of) prefix `p`. -/
def Anc (n : NodeId W) (p : PrefixId W) : Prop :=
  n.len < p.len ∧ 4 ∣ n.len ∧ n.bits = truncateToLen p.bits n.len

/-- Nodes touched while inserting `p`. -/
def Touch (n : NodeId W) (p : PrefixId W) : Prop :=
  Anc n p ∨ (p.len = 0 ∧ n = rootNodeId W)

theorem Anc.ok {n : NodeId W} {p : PrefixId W} (h : Anc n p) (hp : p.Clean) :
    (nodeLayout W).ok n := by
  obtain ⟨h1, h2, h3⟩ := h
  have := hp.1
  refine ⟨?_, h2, by omega⟩
  have := clean_truncate p.bits (len := n.len) (by omega)
  rw [← h3] at this
  exact this

theorem clean_root (W : Nat) : (rootNodeId W).Clean := by
  refine ⟨Nat.zero_le _, fun i _ => ?_⟩
  simp [rootNodeId]

theorem ok_root [hW : Fam W] : (nodeLayout W).ok (rootNodeId W) :=
  ⟨clean_root W, by simp [rootNodeId], by have := hW.width; simp [rootNodeId]; omega⟩

theorem Touch.ok [Fam W] {n : NodeId W} {p : PrefixId W} (h : Touch n p) (hp : p.Clean) :
    (nodeLayout W).ok n := by
  rcases h with h | ⟨_, rfl⟩
  · exact h.ok hp
  · exact ok_root

theorem truncate_zero (x : BitVec W) : truncateToLen x 0 = 0#W := by
  apply ext_msb
  intro i _
  rw [getMsbD_truncateToLen x (Nat.zero_le _)]
  simp

theorem anc_root {p : PrefixId W} (h : 0 < p.len) : Anc (rootNodeId W) p :=
  ⟨h, by simp [rootNodeId], by simp [rootNodeId, truncate_zero]⟩

theorem anc_host {p : PrefixId W} (h : 0 < p.len) : Anc (hostId p) p :=
  ⟨hostLen_lt h, hostLen_dvd _, rfl⟩

/-- Fields of a node only grow. -/
structure NLe (e e' : StoredNode W) : Prop where
  id : e'.id = e.id
  next : e'.next = e.next
  ptr : ∀ v, e.ptr.getMsbD v = true → e'.ptr.getMsbD v = true
  pfx : ∀ i, e.pfx.getMsbD i = true → e'.pfx.getMsbD i = true
  rbm : ∀ m, e.rbm m = true → e'.rbm m = true

theorem NLe.rfl' (e : StoredNode W) : NLe e e := ⟨rfl, rfl, fun _ h => h, fun _ h => h, fun _ h => h⟩

theorem NLe.trans {a b c : StoredNode W} (h : NLe a b) (h' : NLe b c) : NLe a c :=
  ⟨h'.id.trans h.id, h'.next.trans h.next, fun v x => h'.ptr v (h.ptr v x),
    fun v x => h'.pfx v (h.pfx v x), fun v x => h'.rbm v (h.rbm v x)⟩

/-- The node table only grows. -/
def NExt (s s' : NSlots W) : Prop := ∀ a e, s a = some e → ∃ e', s' a = some e' ∧ NLe e e'

theorem NExt.rfl' (s : NSlots W) : NExt s s := fun _ e h => ⟨e, h, NLe.rfl' e⟩

theorem NExt.trans {s t u : NSlots W} (h : NExt s t) (h' : NExt t u) : NExt s u := by
  intro a e he
  obtain ⟨e1, h1, l1⟩ := h a e he
  obtain ⟨e2, h2, l2⟩ := h' a e1 h1
  exact ⟨e2, h2, l1.trans l2⟩

theorem NExt.extId {s s' : NSlots W} (h : NExt s s') : ExtId s s' := by
  intro a e he
  obtain ⟨e', h', l⟩ := h a e he
  exact ⟨e', h', l.id, l.next⟩

/-- What any thread may do to the node table. -/
def NR (s s' : NSlots W) : Prop :=
  NExt s s' ∧ (ChainInv (nodeLayout W) s → ChainInv (nodeLayout W) s')

theorem NR.rfl' (s : NSlots W) : NR s s := ⟨NExt.rfl' s, fun h => h⟩

theorem NR.trans {s t u : NSlots W} (h : NR s t) (h' : NR t u) : NR s u :=
  ⟨h.1.trans h'.1, fun x => h'.2 (h.2 x)⟩

theorem relyOK_of {R : NSlots W → NSlots W → Prop} (hR : ∀ s s', R s s' → NR s s') :
    RelyOK (nodeLayout W) R := fun s s' h => ⟨(hR _ _ h).1.extId, (hR _ _ h).2⟩

/-- The bit of prefix `q` is set in its host node. -/
def PfxSet (s : NSlots W) (q : PrefixId W) : Prop :=
  ∃ a e, s a = some e ∧ e.id = hostId q ∧ e.pfx.getMsbD (pfxPos q) = true

/-- The child bit for nibble `v` is set in node `n`. -/
def PtrSet (s : NSlots W) (n : NodeId W) (v : Nat) : Prop :=
  ∃ a e, s a = some e ∧ e.id = n ∧ e.ptr.getMsbD v = true

/-- The mui index of node `n` has `m`. -/
def RbmSet (s : NSlots W) (n : NodeId W) (m : Mui) : Prop :=
  ∃ a e, s a = some e ∧ e.id = n ∧ e.rbm m = true

theorem PfxSet.ext {s s' : NSlots W} {q : PrefixId W} (h : PfxSet s q) (hx : NExt s s') :
    PfxSet s' q := by
  obtain ⟨a, e, he, hid, hb⟩ := h
  obtain ⟨e', he', l⟩ := hx a e he
  exact ⟨a, e', he', l.id.trans hid, l.pfx _ hb⟩

theorem PtrSet.ext {s s' : NSlots W} {n : NodeId W} {v : Nat} (h : PtrSet s n v) (hx : NExt s s') :
    PtrSet s' n v := by
  obtain ⟨a, e, he, hid, hb⟩ := h
  obtain ⟨e', he', l⟩ := hx a e he
  exact ⟨a, e', he', l.id.trans hid, l.ptr _ hb⟩

theorem RbmSet.ext {s s' : NSlots W} {n : NodeId W} {m : Mui} (h : RbmSet s n m) (hx : NExt s s') :
    RbmSet s' n m := by
  obtain ⟨a, e, he, hid, hb⟩ := h
  obtain ⟨e', he', l⟩ := hx a e he
  exact ⟨a, e', he', l.id.trans hid, l.rbm _ hb⟩

/-- Everything recorded in the table is accounted for by the pairs in `T`. -/
structure Just (T : PrefixId W → Mui → Prop) (s : NSlots W) : Prop where
  node : ∀ a e, s a = some e → e.id = rootNodeId W ∨ ∃ p m, T p m ∧ Anc e.id p
  ptr : ∀ a e v, s a = some e → e.ptr.getMsbD v = true →
    ∃ p m, T p m ∧ Anc e.id p ∧ e.id.len + 4 < p.len ∧ nib p.bits e.id.len 4 = v
  pfx : ∀ a e i, s a = some e → e.pfx.getMsbD i = true →
    ∃ p m, T p m ∧ 0 < p.len ∧ hostId p = e.id ∧ pfxPos p = i
  rbm : ∀ a e m, s a = some e → e.rbm m = true →
    (e.id = rootNodeId W ∧ m = 0#32) ∨ ∃ p, T p m ∧ Touch e.id p

/-- Own steps while inserting `(p, m)`. -/
structure GIns (p : PrefixId W) (m : Mui) (s s' : NSlots W) : Prop where
  nr : NR s s'
  just : ∀ T : PrefixId W → Mui → Prop, T p m → Just T s → Just T s'
  only : ∀ q, PfxSet s' q → PfxSet s q ∨ (0 < p.len ∧ hostId p = hostId q ∧ pfxPos p = pfxPos q)

/-- Own steps that set no prefix bit. -/
def GNode (p : PrefixId W) (m : Mui) (s s' : NSlots W) : Prop :=
  GIns p m s s' ∧ ∀ q, PfxSet s' q → PfxSet s q

theorem GNode.rfl' (p : PrefixId W) (m : Mui) (s : NSlots W) : GNode p m s s :=
  ⟨⟨NR.rfl' s, fun _ _ h => h, fun _ h => .inl h⟩, fun _ h => h⟩

theorem nExt_init {s : NSlots W} {a : Addr} {e : StoredNode W} (h : s a = none) :
    NExt s (s.set a e) := by
  intro b f hf
  by_cases c : b = a
  · subst c; rw [h] at hf; cases hf
  · exact ⟨f, by rw [Slots.set_other _ _ c]; exact hf, NLe.rfl' f⟩

theorem nExt_update {s : NSlots W} {a : Addr} {e e' : StoredNode W} (h : s a = some e)
    (hl : NLe e e') : NExt s (s.set a e') := by
  intro b f hf
  by_cases c : b = a
  · subst c; rw [h] at hf; cases hf; exact ⟨e', Slots.set_same _ _ _, hl⟩
  · exact ⟨f, by rw [Slots.set_other _ _ c]; exact hf, NLe.rfl' f⟩

theorem nr_update {s : NSlots W} {a : Addr} {e e' : StoredNode W} (h : s a = some e)
    (hl : NLe e e') : NR s (s.set a e') :=
  ⟨nExt_update h hl, fun hi => chainInv_update hi h hl.id hl.next⟩

/-- Creating an empty node. -/
theorem gnode_init [Fam W] {s : NSlots W} {p : PrefixId W} {m : Mui} {id : NodeId W} {n size : Nat}
    (hw : WalkAt (nodeLayout W) s id n size) (ht : Touch id p)
    (hfree : s (slotAt (nodeLayout W) id n) = none) :
    GNode p m s (s.set (slotAt (nodeLayout W) id n)
      ⟨id, 0#16, 0#32, slotsForP2 (lvlBits id.len (n + 1)), fun _ => false⟩) := by
  have hold : ∀ q, PfxSet (s.set (slotAt (nodeLayout W) id n)
      ⟨id, 0#16, 0#32, slotsForP2 (lvlBits id.len (n + 1)), fun _ => false⟩) q → PfxSet s q := by
    rintro q ⟨a, e, he, hid, hb⟩
    by_cases c : a = slotAt (nodeLayout W) id n
    · subst c; rw [Slots.set_same] at he; cases he; simp at hb
    · rw [Slots.set_other _ _ c] at he; exact ⟨a, e, he, hid, hb⟩
  refine ⟨⟨⟨nExt_init hfree, fun hi => ?_⟩, fun T hT hj => ?_, fun q h => .inl (hold q h)⟩, hold⟩
  · exact chainInv_init (e := (⟨id, 0#16, 0#32, slotsForP2 (lvlBits id.len (n + 1)),
      fun _ => false⟩ : StoredNode W)) hi hw.ok hw.valid hw.above hfree rfl
  · constructor
    · intro a e he
      by_cases c : a = slotAt (nodeLayout W) id n
      · subst c; rw [Slots.set_same] at he; cases he
        rcases ht with ht | ⟨_, h⟩
        · exact .inr ⟨p, m, hT, ht⟩
        · exact .inl h
      · rw [Slots.set_other _ _ c] at he; exact hj.node a e he
    · intro a e v he hb
      by_cases c : a = slotAt (nodeLayout W) id n
      · subst c; rw [Slots.set_same] at he; cases he; simp at hb
      · rw [Slots.set_other _ _ c] at he; exact hj.ptr a e v he hb
    · intro a e v he hb
      by_cases c : a = slotAt (nodeLayout W) id n
      · subst c; rw [Slots.set_same] at he; cases he; simp at hb
      · rw [Slots.set_other _ _ c] at he; exact hj.pfx a e v he hb
    · intro a e v he hb
      by_cases c : a = slotAt (nodeLayout W) id n
      · subst c; rw [Slots.set_same] at he; cases he; simp at hb
      · rw [Slots.set_other _ _ c] at he; exact hj.rbm a e v he hb

/-- Changing an existing node: what has to be checked. -/
theorem gins_update {s : NSlots W} {p : PrefixId W} {m : Mui} {a : Addr} {e e' : StoredNode W}
    (h : s a = some e) (hl : NLe e e')
    (hptr : ∀ v, e'.ptr.getMsbD v = true → e.ptr.getMsbD v = true ∨
      (Anc e.id p ∧ e.id.len + 4 < p.len ∧ nib p.bits e.id.len 4 = v))
    (hpfx : ∀ v, e'.pfx.getMsbD v = true → e.pfx.getMsbD v = true ∨
      (0 < p.len ∧ hostId p = e.id ∧ pfxPos p = v))
    (hrbm : ∀ x, e'.rbm x = true → e.rbm x = true ∨ (x = m ∧ Touch e.id p)) :
    GIns p m s (s.set a e') := by
  refine ⟨nr_update h hl, fun T hT hj => ?_, ?_⟩
  swap
  · rintro q ⟨b, f, hf, hid, hb⟩
    by_cases c : b = a
    · subst c; rw [Slots.set_same] at hf; cases hf
      rw [hl.id] at hid
      rcases hpfx _ hb with hb | ⟨h0, hh, hpos⟩
      · exact .inl ⟨b, e, h, hid, hb⟩
      · exact .inr ⟨h0, hh.trans hid, hpos⟩
    · rw [Slots.set_other _ _ c] at hf; exact .inl ⟨b, f, hf, hid, hb⟩
  constructor
  · intro b f hf
    by_cases c : b = a
    · subst c; rw [Slots.set_same] at hf; cases hf; rw [hl.id]; exact hj.node _ _ h
    · rw [Slots.set_other _ _ c] at hf; exact hj.node _ _ hf
  · intro b f v hf hb
    by_cases c : b = a
    · subst c; rw [Slots.set_same] at hf; cases hf; rw [hl.id]
      rcases hptr v hb with hb | hb
      · exact hj.ptr _ _ _ h hb
      · exact ⟨p, m, hT, hb⟩
    · rw [Slots.set_other _ _ c] at hf; exact hj.ptr _ _ _ hf hb
  · intro b f v hf hb
    by_cases c : b = a
    · subst c; rw [Slots.set_same] at hf; cases hf; rw [hl.id]
      rcases hpfx v hb with hb | hb
      · exact hj.pfx _ _ _ h hb
      · exact ⟨p, m, hT, hb⟩
    · rw [Slots.set_other _ _ c] at hf; exact hj.pfx _ _ _ hf hb
  · intro b f v hf hb
    by_cases c : b = a
    · subst c; rw [Slots.set_same] at hf; cases hf; rw [hl.id]
      rcases hrbm v hb with hb | ⟨rfl, hb⟩
      · exact hj.rbm _ _ _ h hb
      · exact .inr ⟨p, hT, hb⟩
    · rw [Slots.set_other _ _ c] at hf; exact hj.rbm _ _ _ hf hb

theorem pfxSame_update {s : NSlots W} {a : Addr} {e e' : StoredNode W} (h : s a = some e)
    (hid : e'.id = e.id) (hp : e'.pfx = e.pfx) : ∀ q, PfxSet (s.set a e') q → PfxSet s q := by
  rintro q ⟨b, f, hf, hi, hb⟩
  by_cases c : b = a
  · subst c; rw [Slots.set_same] at hf; cases hf
    exact ⟨b, e, h, hid.symm.trans hi, by rw [← hp]; exact hb⟩
  · rw [Slots.set_other _ _ c] at hf; exact ⟨b, f, hf, hi, hb⟩

/-! ## Programs on the node table -/

open Prog

variable {R G : NSlots W → NSlots W → Prop} {D : Prop}

/-- A node with this id sits at this address. -/
def NodeAt (s : NSlots W) (a : Addr) (id : NodeId W) : Prop := ∃ e, s a = some e ∧ e.id = id

theorem NodeAt.ext {s s' : NSlots W} {a : Addr} {id : NodeId W} (h : NodeAt s a id)
    (hx : NExt s s') : NodeAt s' a id := by
  obtain ⟨e, he, hid⟩ := h
  obtain ⟨e', he', l⟩ := hx a e he
  exact ⟨e', he', l.id.trans hid⟩

theorem wp_updateRbm (hR : ∀ s s', R s s' → NR s s') {s : NSlots W} {p : PrefixId W} {m : Mui}
    {a : Addr} {id : NodeId W} (h : NodeAt s a id) (ht : Touch id p)
    (hi : ChainInv (nodeLayout W) s) :
    wp R (GNode p m) D (updateRbm a m) (fun _ s' => ChainInv (nodeLayout W) s' ∧
      ∃ e, s' a = some e ∧ e.id = id ∧ e.rbm m = true) s := by
  unfold updateRbm
  apply wp_accessAt
  · intro s' hr
    obtain ⟨e, he, _⟩ := h.ext (hR _ _ hr).1
    exact ⟨e, he⟩
  · intro s' e hr he
    obtain ⟨e1, he1, hid⟩ := h.ext (hR _ _ hr).1
    rw [he] at he1; cases he1
    have hl : NLe e { e with rbm := muiInsert e.rbm m } :=
      ⟨rfl, rfl, fun _ h => h, fun _ h => h, fun x hx => by simp [muiInsert, hx]⟩
    have hg : GIns p m s' (s'.set a { e with rbm := muiInsert e.rbm m }) := by
      apply gins_update he hl
      · exact fun v hv => .inl hv
      · exact fun v hv => .inl hv
      · intro x hx
        simp only [muiInsert, Bool.or_eq_true, beq_iff_eq] at hx
        rcases hx with hx | hx
        · exact .inr ⟨hx, by rw [hid]; exact ht⟩
        · exact .inl hx
    refine ⟨⟨hg, pfxSame_update he rfl rfl⟩, hg.1.2 ((hR _ _ hr).2 hi), ?_⟩
    exact ⟨_, Slots.set_same _ _ _, hid, by simp [muiInsert]⟩

theorem wp_retrieveNodeMutLoop [Fam W] (hR : ∀ s s', R s s' → NR s s') {p : PrefixId W} {m : Mui}
    {id : NodeId W} (ht : Touch id p) :
    ∀ (fuel n : Nat) (size : Nat) (s : NSlots W), 64 ≤ fuel + n →
      WalkAt (nodeLayout W) s id n size →
      wp R (GNode p m) D
        (retrieveNodeMutLoop id m fuel n (bucketAt (nodeLayout W) id n size))
        (fun r s' => ChainInv (nodeLayout W) s' ∧ ∃ ref, r = some ref ∧
          ∃ e, s' ref.addr = some e ∧ e.id = id ∧ e.rbm m = true) s := by
  intro fuel
  induction fuel with
  | zero => intro n size s hf hw; have := hw.bound; omega
  | succ fuel ih =>
    intro n size s hf hw
    have hRO := relyOK_of hR
    unfold retrieveNodeMutLoop
    rw [wp_bind]
    apply wp_ofOption hw.hash
    rw [wp_bind]
    -- what happens once the walk has a node in hand
    have tail : ∀ (e : StoredNode W) (s' : NSlots W), WalkAt (nodeLayout W) s' id n size →
        s' (slotAt (nodeLayout W) id n) = some e →
        wp R (GNode p m) D
          (if id = (refOf (slotAt (nodeLayout W) id n) e).id then do
            updateRbm (refOf (slotAt (nodeLayout W) id n) e).addr m
            return some (refOf (slotAt (nodeLayout W) id n) e)
          else do
            let sz ← Prog.ofOption (nodesetSize id.len (n + 1))
            if 0 < sz then
              retrieveNodeMutLoop id m fuel (n + 1)
                ((bucketAt (nodeLayout W) id n size).child (hIdx id n)
                  (refOf (slotAt (nodeLayout W) id n) e).next)
            else return none)
          (fun r s' => ChainInv (nodeLayout W) s' ∧ ∃ ref, r = some ref ∧
            ∃ e, s' ref.addr = some e ∧ e.id = id ∧ e.rbm m = true) s' := by
      intro e s' hw' he
      split
      · rename_i hid
        rw [wp_bind]
        refine wp_conseq _ (wp_updateRbm hR (p := p) (id := id) ⟨e, he, hid.symm⟩ ht hw'.inv) ?_
        rintro _ s2 ⟨hi2, e2, h1, h2, h3⟩
        exact ⟨hi2, _, rfl, e2, h1, h2, h3⟩
      · rename_i hid
        obtain ⟨hpos, hdown⟩ := hw'.down he (fun h => hid h.symm)
        rw [wp_bind]
        apply wp_ofOption hw'.nsz
        rw [if_pos hpos, bucketAt_child]
        exact ih (n + 1) _ s' (by omega) hdown
    refine wp_sliceGet hRO hw (GNode.rfl' p m) ?_ ?_
    · intro s1 hr1 hw1 hnone
      simp only
      rw [wp_bind]
      apply wp_ofOption hw1.nsz
      rw [wp_bind]
      refine wp_sliceGetOrInit (e := (⟨id, 0#16, 0#32, slotsForP2 (lvlBits id.len (n + 1)),
        fun _ => false⟩ : StoredNode W)) hRO hw1 (GNode.rfl' p m) ?_ ?_
      · intro s2 s3 _ _ hw3 hfree
        have hg := gnode_init (m := m) hw3 ht hfree
        refine ⟨hg, ?_⟩
        exact tail _ _ (hw3.ext hg.1.1.1.extId (hg.1.1.2 hw3.inv)) (Slots.set_same _ _ _)
      · intro s2 s3 e' _ _ hw3 he'
        exact tail e' s3 hw3 he'
    · intro s1 e hr1 hw1 he
      exact tail e s1 hw1 he

theorem nodeRoot_eq [hW : Fam W] {id : NodeId W} (h : (nodeLayout W).ok id) :
    nodeRoot W id.len = some (bucketAt (nodeLayout W) id 0 16) := by
  unfold nodeRoot nodeRoots
  have := h.2.2
  rw [if_pos (by omega)]
  rfl

theorem wp_retrieveNodeMut [Fam W] (hR : ∀ s s', R s s' → NR s s') {p : PrefixId W} {m : Mui}
    {id : NodeId W} (hp : p.Clean) (ht : Touch id p) {s : NSlots W}
    (hi : ChainInv (nodeLayout W) s) :
    wp R (GNode p m) D (retrieveNodeMut id m)
        (fun r s' => ChainInv (nodeLayout W) s' ∧ ∃ ref, r = some ref ∧
          ∃ e, s' ref.addr = some e ∧ e.id = id ∧ e.rbm m = true) s := by
  unfold retrieveNodeMut
  rw [wp_bind]
  apply wp_ofOption (nodeRoot_eq (ht.ok hp))
  exact wp_retrieveNodeMutLoop hR ht _ _ _ _ (by simp [maxLevels]) (WalkAt.start hi (ht.ok hp))

theorem wp_storeNodeLoop [Fam W] (hR : ∀ s s', R s s' → NR s s') {p : PrefixId W} {m : Mui}
    {id : NodeId W} (ht : Touch id p) (F : Nat) :
    ∀ (fuel n : Nat) (size : Nat) (s : NSlots W), 64 ≤ fuel + n →
      WalkAt (nodeLayout W) s id n size →
      wp R (GNode p m) D
        (storeNodeLoop F id m 0#16 0#32 fuel n (bucketAt (nodeLayout W) id n size))
        (fun r s' => ChainInv (nodeLayout W) s' ∧ r = true) s := by
  intro fuel
  induction fuel with
  | zero => intro n size s hf hw; have := hw.bound; omega
  | succ fuel ih =>
    intro n size s hf hw
    have hRO := relyOK_of hR
    unfold storeNodeLoop
    simp only [ne_eq, not_true_eq_false, and_false, if_false]
    rw [wp_bind]
    apply wp_ofOption hw.hash
    rw [wp_bind]
    refine wp_sliceGet hRO hw (GNode.rfl' p m) ?_ ?_
    · intro s1 hr1 hw1 hnone
      simp only
      rw [wp_bind]
      apply wp_ofOption hw1.nsz
      rw [wp_bind]
      have tail : ∀ (e : StoredNode W) (s' : NSlots W), WalkAt (nodeLayout W) s' id n size →
          s' (slotAt (nodeLayout W) id n) = some e →
          wp R (GNode p m) D
            (if (refOf (slotAt (nodeLayout W) id n) e).id = id then
              updateRbm (refOf (slotAt (nodeLayout W) id n) e).addr m >>= fun _ => pure true
             else pure true)
            (fun r s' => ChainInv (nodeLayout W) s' ∧ r = true) s' := by
        intro e s' hw' he
        split
        · rename_i hid
          rw [wp_bind]
          refine wp_conseq _ (wp_updateRbm hR (p := p) (id := id) ⟨e, he, hid⟩ ht hw'.inv) ?_
          rintro _ s2 ⟨hi2, _⟩
          exact ⟨hi2, rfl⟩
        · exact ⟨hw'.inv, rfl⟩
      refine wp_sliceGetOrInit (e := (⟨id, 0#16, 0#32, slotsForP2 (lvlBits id.len (n + 1)),
        fun _ => false⟩ : StoredNode W)) hRO hw1 (GNode.rfl' p m) ?_ ?_
      · intro s2 s3 _ _ hw3 hfree
        have hg := gnode_init (m := m) hw3 ht hfree
        refine ⟨hg, ?_⟩
        exact tail _ _ (hw3.ext hg.1.1.1.extId (hg.1.1.2 hw3.inv)) (Slots.set_same _ _ _)
      · intro s2 s3 e' _ _ hw3 he'
        exact tail e' s3 hw3 he'
    · intro s1 e hr1 hw1 he
      simp only
      split
      · rename_i hid
        rw [wp_bind]
        refine wp_conseq _ (wp_updateRbm hR (p := p) (id := id) ⟨e, he, hid.symm⟩ ht hw1.inv) ?_
        rintro _ s2 ⟨hi2, _⟩
        exact ⟨hi2, rfl⟩
      · rename_i hid
        obtain ⟨hpos, hdown⟩ := hw1.down he (fun h => hid h.symm)
        rw [wp_bind]
        apply wp_ofOption hw1.nsz
        rw [if_pos hpos, bucketAt_child]
        exact ih (n + 1) _ s1 (by omega) hdown

/-- Result of `retrieve_node` in terms of the state at the time of its last read. -/
theorem wp_retrieveNodeLoop [Fam W] (hR : ∀ s s', R s s' → NR s s') (hGr : ∀ s, G s s)
    {id : NodeId W} :
    ∀ (fuel n : Nat) (size : Nat) (s : NSlots W), 64 ≤ fuel + n →
      WalkAt (nodeLayout W) s id n size →
      wp R G D (retrieveNodeLoop id fuel n (bucketAt (nodeLayout W) id n size))
        (fun r s' => ChainInv (nodeLayout W) s' ∧
          match r with
          | none => ¬ Has s' id
          | some ref => NodeAt s' ref.addr id) s := by
  intro fuel
  induction fuel with
  | zero => intro n size s hf hw; have := hw.bound; omega
  | succ fuel ih =>
    intro n size s hf hw
    have hRO := relyOK_of hR
    unfold retrieveNodeLoop
    rw [wp_bind]
    apply wp_ofOption hw.hash
    rw [wp_bind]
    refine wp_sliceGet hRO hw hGr ?_ ?_
    · intro s1 hr1 hw1 hnone
      exact ⟨hw1.inv, absent_of_empty hw1.inv hw1.above hnone⟩
    · intro s1 e hr1 hw1 he
      simp only
      split
      · rename_i hid
        exact ⟨hw1.inv, e, he, hid.symm⟩
      · rename_i hid
        obtain ⟨hpos, hdown⟩ := hw1.down he (fun h => hid h.symm)
        rw [wp_bind]
        apply wp_ofOption hw1.nsz
        rw [if_pos hpos, bucketAt_child]
        exact ih (n + 1) _ s1 (by omega) hdown

theorem wp_retrieveNode [Fam W] (hR : ∀ s s', R s s' → NR s s') (hGr : ∀ s, G s s)
    {id : NodeId W} (hok : (nodeLayout W).ok id) {s : NSlots W}
    (hi : ChainInv (nodeLayout W) s) :
    wp R G D (retrieveNode id)
        (fun r s' => ChainInv (nodeLayout W) s' ∧
          match r with
          | none => ¬ Has s' id
          | some ref => NodeAt s' ref.addr id) s := by
  unfold retrieveNode
  rw [wp_bind]
  apply wp_ofOption (nodeRoot_eq hok)
  exact wp_retrieveNodeLoop hR hGr _ _ _ _ (by simp [maxLevels]) (WalkAt.start hi hok)

end Rotonda
