import Verif.Proofs.TreeInsert

/-!
# The tree run sequentially: representation of the set of inserted pairs
-/

namespace Rotonda

open Prog

variable {W : Nat}

/-- Sequential run of a read-only program. -/
theorem run_of_wp_ro {σ α : Type} (p : Prog σ α) {Q : α → σ → Prop} {s : σ}
    (h : wp Eq (fun a b => b = a) False p Q s) : ∃ a, p.run s = .ok a s ∧ Q a s := by
  obtain ⟨a, s', hr, hq, ht⟩ := run_of_wp p h
  have : s' = s := by
    clear hr hq
    induction ht with
    | refl => rfl
    | tail _ hb ih => exact hb.trans ih
  subst this
  exact ⟨a, hr, hq⟩

/-- The tree holds exactly the pairs in `S`. -/
structure Rep (S : PrefixId W → Mui → Prop) (t : Tree W) : Prop where
  inv : ChainInv (nodeLayout W) t.slots
  just : Just S t.slots
  full : ∀ p m, S p m → 0 < p.len → Full p m t.slots
  root : Has t.slots (rootNodeId W)
  dflt : t.defaultExists = true ↔ ∃ p m, S p m ∧ p.len = 0
  dfltRbm : ∀ p m, S p m → p.len = 0 → RbmSet t.slots (rootNodeId W) m
  clean : ∀ p m, S p m → p.Clean

/-- Add one pair. -/
def addPair (S : PrefixId W → Mui → Prop) (p : PrefixId W) (m : Mui) : PrefixId W → Mui → Prop :=
  fun q x => (q = p ∧ x = m) ∨ S q x

theorem Just.mono {S T : PrefixId W → Mui → Prop} {s : NSlots W} (h : Just S s)
    (hST : ∀ p m, S p m → T p m) : Just T s := by
  constructor
  · intro a e he
    rcases h.node a e he with h | ⟨p, m, h1, h2⟩
    · exact .inl h
    · exact .inr ⟨p, m, hST _ _ h1, h2⟩
  · intro a e v he hv
    obtain ⟨p, m, h1, h2⟩ := h.ptr a e v he hv
    exact ⟨p, m, hST _ _ h1, h2⟩
  · intro a e v he hv
    obtain ⟨p, m, h1, h2⟩ := h.pfx a e v he hv
    exact ⟨p, m, hST _ _ h1, h2⟩
  · intro a e v he hv
    rcases h.rbm a e v he hv with h | ⟨p, h1, h2⟩
    · exact .inl h
    · exact .inr ⟨p, hST _ _ h1, h2⟩

/-- A prefix bit is set exactly for the inserted prefixes. -/
theorem Rep.pfxSet_iff {S : PrefixId W → Mui → Prop} {t : Tree W} (h : Rep S t) {q : PrefixId W}
    (hq : q.Clean) (h0 : 0 < q.len) : PfxSet t.slots q ↔ ∃ m, S q m := by
  constructor
  · rintro ⟨a, e, he, hid, hb⟩
    obtain ⟨p, m, hS, hp0, hh, hpos⟩ := h.just.pfx a e _ he hb
    have : p = q := pfxPos_inj (h.clean _ _ hS) hq (hh.trans hid) hpos
    subst this
    exact ⟨m, hS⟩
  · rintro ⟨m, hS⟩
    exact (h.full _ _ hS h0).2

theorem gtree_trans_facts {p : PrefixId W} {m : Mui} {t t' : Tree W}
    (h : Relation.ReflTransGen (GTree p m) t t') :
    NR t.slots t'.slots ∧ (∀ T : PrefixId W → Mui → Prop, T p m → Just T t.slots → Just T t'.slots) ∧
    t'.wd = t.wd ∧ (t.defaultExists = true → t'.defaultExists = true) ∧
    (t'.defaultExists = true → t.defaultExists = true ∨ p.len = 0) := by
  induction h with
  | refl => exact ⟨NR.rfl' _, fun _ _ h => h, rfl, fun h => h, fun h => .inl h⟩
  | tail _ hg ih =>
    obtain ⟨h1, h2, h3, h4, h5⟩ := ih
    refine ⟨h1.trans hg.slots.1, fun T hT hj => hg.slots.2 T hT (h2 T hT hj), hg.wd.trans h3,
      fun h => hg.dfltMono (h4 h), fun h => ?_⟩
    rcases hg.dflt h with h | h
    · exact h5 h
    · exact .inr h

theorem NR_of_eq {s s' : NSlots W} (h : s = s') : NR s s' := h ▸ NR.rfl' s

theorem Rep.insert [Fam W] {S : PrefixId W → Mui → Prop} {t : Tree W} (h : Rep S t)
    {p : PrefixId W} (hp : p.Clean) (m : Mui) (F : Nat) :
    ∃ b t', (setPrefixExists F p m).run t = .ok (.ok b) t' ∧ Rep (addPair S p m) t' ∧
      t'.wd = t.wd ∧ (b = true ↔ ∃ m', S p m') := by
  by_cases h0 : p.len = 0
  · have hw := wp_setDefaultExists (R := Eq) (D := False) (t := t)
      (fun t t' h => NR_of_eq (congrArg Tree.slots h))
      (fun t t' h hd => h ▸ hd) hp h0 (m := m) (F := F)
      (J := fun t1 => t1 = t) (K := t.defaultExists = true)
      (fun t t' h hj => h ▸ hj) (fun t1 h hd => h ▸ hd) h.inv rfl
    obtain ⟨r, t', hr, ⟨hi, hd, hrbm, hres⟩, htr⟩ := run_of_wp _ hw
    obtain ⟨h1, h2, h3, h4, h5⟩ := gtree_trans_facts htr
    have hdef : t.defaultExists = true ↔ ∃ m', S p m' := by
      rw [h.dflt]
      constructor
      · rintro ⟨q, m', hS, hq⟩
        have : q = p := Clean.eq_of_bits (h.clean _ _ hS) hp (by omega) (by intro i hi; omega)
        subst this; exact ⟨m', hS⟩
      · rintro ⟨m', hS⟩; exact ⟨p, m', hS, h0⟩
    have hrep : Rep (addPair S p m) t' := by
      refine ⟨hi, ?_, ?_, h.root.ext h1.1.extId, ?_, ?_, ?_⟩
      · exact h2 _ (.inl ⟨rfl, rfl⟩) (h.just.mono fun _ _ h => .inr h)
      · rintro q m' (⟨rfl, rfl⟩ | hS) hq
        · omega
        · exact (h.full _ _ hS hq).ext h1.1
      · exact ⟨fun _ => ⟨p, m, .inl ⟨rfl, rfl⟩, h0⟩, fun _ => hd⟩
      · rintro q m' (⟨rfl, rfl⟩ | hS) hq
        · exact hrbm
        · exact (h.dfltRbm _ _ hS hq).ext h1.1
      · rintro q m' (⟨rfl, rfl⟩ | hS)
        · exact hp
        · exact h.clean _ _ hS
    rcases hres with ⟨rfl, hn⟩ | ⟨rfl, hk⟩
    · exact ⟨false, t', hr, hrep, h3, by rw [← hdef, hn]⟩
    · exact ⟨true, t', hr, hrep, h3, by rw [← hdef, hk]⟩
  · have h0' : 0 < p.len := by omega
    have hw := wp_setPrefixExists (R := Eq) (D := False) (t := t)
      (fun t t' h => NR_of_eq (congrArg Tree.slots h))
      (.inr (.inl fun t t' h => h.symm)) hp h0' (m := m) (F := F)
      (J := fun s => PfxSet s p → PfxSet t.slots p) (K := PfxSet t.slots p)
      (fun t t' h hj => h ▸ hj) (fun s s' hg hj hs => hj (hg.2 _ hs)) (fun s hj hs => hj hs)
      h.inv (fun hs => hs)
    obtain ⟨r, t', hr, ⟨hi, hfull, hres⟩, htr⟩ := run_of_wp _ hw
    obtain ⟨h1, h2, h3, h4, h5⟩ := gtree_trans_facts htr
    have hrep : Rep (addPair S p m) t' := by
      refine ⟨hi, ?_, ?_, h.root.ext h1.1.extId, ?_, ?_, ?_⟩
      · exact h2 _ (.inl ⟨rfl, rfl⟩) (h.just.mono fun _ _ h => .inr h)
      · rintro q m' (⟨rfl, rfl⟩ | hS) hq
        · exact hfull
        · exact (h.full _ _ hS hq).ext h1.1
      · constructor
        · intro hd
          rcases h5 hd with hd | hd
          · obtain ⟨q, m', hS, hq⟩ := h.dflt.1 hd
            exact ⟨q, m', .inr hS, hq⟩
          · omega
        · rintro ⟨q, m', ⟨rfl, rfl⟩ | hS, hq⟩
          · omega
          · exact h4 (h.dflt.2 ⟨q, m', hS, hq⟩)
      · rintro q m' (⟨rfl, rfl⟩ | hS) hq
        · omega
        · exact (h.dfltRbm _ _ hS hq).ext h1.1
      · rintro q m' (⟨rfl, rfl⟩ | hS)
        · exact hp
        · exact h.clean _ _ hS
    have hset := h.pfxSet_iff hp h0'
    rcases hres with ⟨rfl, hn⟩ | ⟨rfl, hk⟩
    · exact ⟨false, t', hr, hrep, h3, by rw [← hset]; simp [hn]⟩
    · exact ⟨true, t', hr, hrep, h3, by rw [← hset]; simp [hk]⟩

/-- The tree after `TreeBitMap::new`. -/
def Tree.initial (W : Nat) : Tree W :=
  { slots := fun a => if a = ⟨0, [0]⟩ then
      some ⟨rootNodeId W, 0#16, 0#32, 0, muiInsert (fun _ => false) 0#32⟩ else none
    rootRbm := fun _ => false, wd := ⟨0, fun _ => false⟩, nodes := 1, defaultExists := false }

theorem hashRoot [Fam W] : hashId (rootNodeId W) 0 = some 0 := by
  rw [hashId_eq (clean_root W) (.inl rfl)]
  simp [lvlBits, rootNodeId, nib]

theorem treeNew_run [Fam W] (F : Nat) :
    (treeNew (W := W) F).run Tree.empty = .ok true (Tree.initial W) := by
  have hn1 : nodesetSize (rootNodeId W).len 1 = some 0 := by
    rw [nodesetSize_eq (by omega)]; rfl
  have hroot : nodeRoot W (rootNodeId W).len = some ⟨0, [], 16⟩ := by
    simp [nodeRoot, nodeRoots, rootNodeId, slotsForP2]
  have hloop : (storeNodeLoop F (rootNodeId W) 0#32 0#16 0#32 (63 + 1) 0 ⟨0, [], 16⟩).run
      (fun _ => none) = .ok true (Tree.initial W).slots := by
    unfold storeNodeLoop
    simp only [ne_eq, not_true_eq_false, and_false, if_false, hashRoot, hn1]
    simp [Prog.run, sliceGet, sliceGetOrInit, Prog.read, casInit, atomic, updateRbm, accessAt,
      ofOption, Bucket.slot, Slots.set, Entry.id, Entry.next, refOf, Tree.initial, pure_def,
      slotsForP2]
    funext a
    split <;> simp_all [Slots.set]
  unfold treeNew storeNode
  rw [hroot]
  simp only [ofOption, ret_bind, atomic, act_bind, run, run_zoom Tree.slotsL_lawful]
  have hm : maxLevels = 63 + 1 := rfl
  rw [hm]
  change Outcome.mapState _ ((storeNodeLoop F (rootNodeId W) 0#32 0#16 0#32 (63 + 1) 0
    ⟨0, [], 16⟩).run (fun _ => none)) = _
  rw [hloop]
  rfl

theorem rep_initial [Fam W] : Rep (fun _ _ => False) (Tree.initial W) := by
  have key : ∀ a e, (Tree.initial W).slots a = some e → a = ⟨0, [0]⟩ ∧
      e = ⟨rootNodeId W, 0#16, 0#32, 0, muiInsert (fun _ => false) 0#32⟩ := by
    intro a e h
    simp only [Tree.initial] at h
    split at h
    · cases h; exact ⟨by assumption, rfl⟩
    · cases h
  refine ⟨?_, ?_, fun _ _ h => h.elim, ?_, ?_, fun _ _ h => h.elim, fun _ _ h => h.elim⟩
  · intro a e h
    obtain ⟨rfl, rfl⟩ := key a e h
    refine ⟨ok_root, 0, .inl rfl, ?_, ?_, fun k hk => by omega⟩
    · have : hIdx (rootNodeId W) 0 = 0 := by
        have h1 := hashId_eq (id := rootNodeId W) (clean_root W) (.inl rfl)
        rw [hashRoot] at h1
        exact (Option.some.inj h1).symm
      simp [slotAt, hPath, nodeLayout, Entry.id, this]
      simp [rootNodeId]
    · simp [Entry.next, Entry.id, rootNodeId, lvlBits, slotsForP2]
  · constructor
    · intro a e h; obtain ⟨rfl, rfl⟩ := key a e h; exact .inl rfl
    · intro a e v h hb; obtain ⟨rfl, rfl⟩ := key a e h; simp at hb
    · intro a e v h hb; obtain ⟨rfl, rfl⟩ := key a e h; simp at hb
    · intro a e v h hb; obtain ⟨rfl, rfl⟩ := key a e h
      simp [muiInsert] at hb
      exact .inl ⟨rfl, hb⟩
  · exact ⟨⟨0, [0]⟩, _, by simp [Tree.initial]; rfl, rfl⟩
  · simp [Tree.initial]

end Rotonda
