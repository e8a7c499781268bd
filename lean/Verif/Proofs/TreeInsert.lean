import Verif.Model.Tree
import Verif.Proofs.NodeEval

/-!
# `set_prefix_exists`
-/

namespace Rotonda

open Prog

variable {W : Nat}

theorem Tree.slotsL_lawful : (Tree.slotsL (W := W)).Lawful :=
  ⟨fun _ _ => rfl, fun _ => rfl, fun _ _ _ => rfl⟩

/-- Node on the way to `p` at length `l`. -/
def ancAt (p : PrefixId W) (l : Nat) : NodeId W := ⟨truncateToLen p.bits l, l⟩

/-- The way to `p` is complete for all nodes shorter than `l`. -/
def UpTo (p : PrefixId W) (m : Mui) (l : Nat) (s : NSlots W) : Prop :=
  ∀ n : NodeId W, Anc n p → n.len < l → RbmSet s n m ∧
    (n.len + 4 < p.len → PtrSet s n (nib p.bits n.len 4))

/-- `(p, m)` is completely recorded. -/
def Full (p : PrefixId W) (m : Mui) (s : NSlots W) : Prop := UpTo p m p.len s ∧ PfxSet s p

theorem UpTo.ext {p : PrefixId W} {m : Mui} {l : Nat} {s s' : NSlots W} (h : UpTo p m l s)
    (hx : NExt s s') : UpTo p m l s' := fun n h1 h2 =>
  ⟨((h n h1 h2).1).ext hx, fun h3 => ((h n h1 h2).2 h3).ext hx⟩

theorem Full.ext {p : PrefixId W} {m : Mui} {s s' : NSlots W} (h : Full p m s)
    (hx : NExt s s') : Full p m s' := ⟨h.1.ext hx, h.2.ext hx⟩

/-- Own steps of `set_prefix_exists p m` on the whole tree. -/
structure GTree (p : PrefixId W) (m : Mui) (t t' : Tree W) : Prop where
  slots : GIns p m t.slots t'.slots
  wd : t'.wd = t.wd
  dfltMono : t.defaultExists = true → t'.defaultExists = true
  dflt : t'.defaultExists = true → t.defaultExists = true ∨ p.len = 0

/-- Restriction of a relation on trees to the node table. -/
def onSlots (R : Tree W → Tree W → Prop) (s s' : NSlots W) : Prop :=
  ∃ t t', R t t' ∧ t.slots = s ∧ t'.slots = s'

variable {R : Tree W → Tree W → Prop} {D : Prop}

theorem gtree_of_gins {p : PrefixId W} {m : Mui} {t : Tree W} {s : NSlots W}
    (h : GIns p m t.slots s) : GTree p m t (Tree.slotsL.set t s) :=
  ⟨h, rfl, fun h => h, fun h => .inl h⟩

/-- Zooming, with a fact `P` about the node table that is stable. -/
theorem wp_zoomSlots {α : Type} {p : PrefixId W} {m : Mui}
    {G' : NSlots W → NSlots W → Prop} (hG' : ∀ s s', G' s s' → GIns p m s s')
    {prog : Prog (NSlots W) α} {Q : α → NSlots W → Prop} {P : NSlots W → Prop} {t : Tree W}
    (hPR : ∀ t t' : Tree W, R t t' → P t.slots → P t'.slots)
    (hPG : ∀ s s', G' s s' → P s → P s')
    (hP : P t.slots) (h : wp (onSlots R) G' D prog Q t.slots) :
    wp R (GTree p m) D (prog.zoom Tree.slotsL) (fun a t' => P t'.slots ∧ Q a t'.slots) t := by
  refine wp_conseq _ (wp_zoom Tree.slotsL_lawful prog (R := R) (G := GTree p m) (R' := onSlots R)
    (G' := G') (P := fun t => P t.slots) ?_ ?_ hPR ?_ hP h) (fun _ _ h => h)
  · exact fun s s' h => ⟨s, s', h, rfl, rfl⟩
  · exact fun s t h => gtree_of_gins (hG' _ _ h)
  · exact fun s t h hg => hPG _ _ hg h

theorem intoBitSpan_eq {x : BitVec W} {start len : Nat} (h1 : 1 ≤ len) (h4 : len ≤ 4)
    (h : start + len ≤ W) : intoBitSpan x start len = some ⟨nib x start len, len⟩ := by
  unfold intoBitSpan
  rw [if_pos (by omega), Nat.mod_eq_of_lt (show W - len < W by omega)]
  rw [← nib_mod x h h4]
  rfl

theorem anc_ancAt {p : PrefixId W} {l : Nat} (h4 : 4 ∣ l) (hl : l < p.len) : Anc (ancAt p l) p :=
  ⟨hl, h4, rfl⟩

theorem anc_eq {p : PrefixId W} {n : NodeId W} (h : Anc n p) : n = ancAt p n.len := by
  cases n; simp only [ancAt]; congr 1; exact h.2.2

theorem wp_storeNode [Fam W] (hR : ∀ t t' : Tree W, R t t' → NR t.slots t'.slots)
    {p : PrefixId W} {m : Mui} (hp : p.Clean) {id : NodeId W} (ht : Touch id p) (F : Nat)
    {P : NSlots W → Prop} {t : Tree W}
    (hPR : ∀ t t' : Tree W, R t t' → P t.slots → P t'.slots)
    (hPG : ∀ s s', GNode p m s s' → P s → P s')
    (hP : P t.slots) (hi : ChainInv (nodeLayout W) t.slots) :
    wp R (GTree p m) D (storeNode F id m 0#16 0#32)
      (fun r t' => P t'.slots ∧ ChainInv (nodeLayout W) t'.slots ∧ r = true) t := by
  unfold storeNode
  rw [wp_bind]
  apply wp_atomic
  intro t1 hr1
  refine ⟨⟨⟨NR.rfl' _, fun _ _ h => h, fun _ h => .inl h⟩, rfl, fun h => h, fun h => .inl h⟩, ?_⟩
  rw [wp_bind]
  apply wp_ofOption (nodeRoot_eq (ht.ok hp))
  refine wp_zoomSlots (G' := GNode p m) (P := P)
    (Q := fun r s => ChainInv (nodeLayout W) s ∧ r = true)
    (t := { t1 with nodes := t1.nodes + 1 }) (fun _ _ h => h.1) hPR hPG (hPR t t1 hr1 hP) ?_
  refine wp_storeNodeLoop ?_ ht F _ _ _ _ (by simp [maxLevels])
    (WalkAt.start ((hR _ _ hr1).2 hi) (ht.ok hp))
  rintro s s' ⟨t, t', h, rfl, rfl⟩; exact hR _ _ h

theorem wp_setPrefixExistsLoop [hW : Fam W] (hR : ∀ t t' : Tree W, R t t' → NR t.slots t'.slots)
    {F : Nat} (hD : Enough R D F)
    {p : PrefixId W} (hp : p.Clean) (h0 : 0 < p.len) {m : Mui}
    {s0 : NSlots W} {J : NSlots W → Prop} {K : Prop}
    (hJR : ∀ t t' : Tree W, R t t' → J t.slots → J t'.slots)
    (hJG : ∀ s s', GNode p m s s' → J s → J s')
    (hJK : ∀ s, J s → PfxSet s p → K) :
    ∀ (fuel start : Nat) (t : Tree W), 4 ∣ start → start < p.len → 256 ≤ 4 * fuel + start →
      ChainInv (nodeLayout W) t.slots → NExt s0 t.slots → J t.slots →
      UpTo p m start t.slots →
      wp R (GTree p m) D (setPrefixExistsLoop F p m fuel start (ancAt p start))
        (fun r t' => ChainInv (nodeLayout W) t'.slots ∧ Full p m t'.slots ∧
          ((r = .ok false ∧ ¬ PfxSet s0 p) ∨ (r = .ok true ∧ K))) t := by
  have hRs : ∀ s s', onSlots R s s' → NR s s' := by
    rintro s s' ⟨t, t', h, rfl, rfl⟩; exact hR _ _ h
  have hDs : Enough (onSlots R) D F := by
    rcases hD with h | h | h
    · exact .inl h
    · right; left; rintro s s' ⟨t, t', hr, rfl, rfl⟩; rw [h _ _ hr]
    · exact .inr (.inr h)
  have hJRs : ∀ s s', onSlots R s s' → J s → J s' := by
    rintro s s' ⟨t, t', h, rfl, rfl⟩; exact hJR _ _ h
  have hpW := hp.1
  have hw := hW.width
  intro fuel
  induction fuel with
  | zero => intro start t h4 hlt hf; omega
  | succ fuel ih =>
    intro start t h4 hlt hf hi hx hJ hup
    -- the facts carried through every step but the last
    let P : NSlots W → Prop := fun s => NExt s0 s ∧ J s ∧ UpTo p m start s
    have hPR : ∀ t t' : Tree W, R t t' → P t.slots → P t'.slots := fun t t' hr hP =>
      ⟨hP.1.trans (hR _ _ hr).1, hJR _ _ hr hP.2.1, hP.2.2.ext (hR _ _ hr).1⟩
    have hPG : ∀ s s', GNode p m s s' → P s → P s' := fun s s' hg hP =>
      ⟨hP.1.trans hg.1.1.1, hJG _ _ hg hP.2.1, hP.2.2.ext hg.1.1.1⟩
    have hanc := anc_ancAt h4 hlt
    unfold setPrefixExistsLoop
    simp only
    rw [if_neg (by omega)]
    generalize hk : (if p.len < start + 4 then 4 + p.len - (start + 4) else 4) = k
    have hk1 : 1 ≤ k ∧ k ≤ 4 ∧ start + k ≤ W ∧ (start + 4 < p.len → k = 4) ∧
        (p.len ≤ start + 4 → k = p.len - start) := by
      rw [← hk]; split <;> omega
    rw [wp_bind]
    apply wp_ofOption (intoBitSpan_eq hk1.1 hk1.2.1 hk1.2.2.1)
    rw [wp_bind]
    refine wp_conseq _ (wp_zoomSlots (G' := GNode p m) (P := P) (fun _ _ h => h.1) hPR hPG
      ⟨hx, hJ, hup⟩ (wp_retrieveNodeMut hRs hp (.inl hanc) hi)) ?_
    rintro _ t1 ⟨⟨hx1, hJ1, hup1⟩, hi1, ref, rfl, e1, he1, hid1, hrbm1⟩
    simp only
    have hrb : RbmSet t1.slots (ancAt p start) m := ⟨_, e1, he1, hid1, hrbm1⟩
    have hn1 : NodeAt t1.slots ref.addr (ancAt p start) := ⟨e1, he1, hid1⟩
    rw [wp_bind]
    by_cases hlast : p.len ≤ start + 4
    · -- last stride
      have hhost : hostLen p.len = start := by unfold hostLen; omega
      have hhid : hostId p = ancAt p start := by unfold hostId ancAt; rw [hhost]
      have hkl : k = p.len - hostLen p.len := by rw [hhost]; exact hk1.2.2.2.2 hlast
      simp only [hlast, decide_true]
      rw [← hhost, hkl]
      rw [← hhid] at hn1 hrb
      let P2 : NSlots W → Prop := fun s => UpTo p m p.len s
      have hup2 : UpTo p m p.len t1.slots := by
        intro n hn hln
        by_cases c : n.len < start
        · exact hup1 n hn c
        · have : n.len = start := by have := hn.2.1; omega
          have hne : n = hostId p := by rw [anc_eq hn, this, hhid]
          subst hne
          exact ⟨hrb, fun h => by rw [this] at h; omega⟩
      refine wp_conseq _ (wp_zoomSlots (G' := GIns p m) (P := P2) (fun _ _ h => h)
        (fun t t' hr hP => hP.ext (hR _ _ hr).1) (fun s s' hg hP => hP.ext hg.1.1) hup2
        (wp_eval_last hRs hDs hp h0 hJRs hJK hJ1 hn1 hi1)) ?_
      rintro r t2 ⟨hup3, hi2, hset, hres⟩
      rcases hres with ⟨rfl, hres⟩ | ⟨rfl, hres⟩
      · exact ⟨hi2, ⟨hup3, hset⟩, .inl ⟨rfl, fun h => hres (h.ext hx1)⟩⟩
      · exact ⟨hi2, ⟨hup3, hset⟩, .inr ⟨rfl, hres⟩⟩
    · -- inner stride
      have hk4 : k = 4 := hk1.2.2.2.1 (by omega)
      subst hk4
      simp only [hlast, decide_false]
      have hid4 : (ancAt p start).len = start := rfl
      let P2 : NSlots W → Prop := fun s => P s ∧ RbmSet s (ancAt p start) m
      have hP2R : ∀ t t' : Tree W, R t t' → P2 t.slots → P2 t'.slots := fun t t' hr hP =>
        ⟨hPR _ _ hr hP.1, hP.2.ext (hR _ _ hr).1⟩
      have hP2G : ∀ s s', GNode p m s s' → P2 s → P2 s' := fun s s' hg hP =>
        ⟨hPG _ _ hg hP.1, hP.2.ext hg.1.1.1⟩
      refine wp_conseq _ (wp_zoomSlots (G' := GNode p m) (P := P2) (fun _ _ h => h.1) hP2R hP2G
        ⟨⟨hx1, hJ1, hup1⟩, hrb⟩
        (wp_eval_inner hRs hDs hp hanc (by rw [hid4]; omega) hn1 hi1)) ?_
      rintro r t2 ⟨⟨⟨hx2, hJ2, hup2⟩, hrb2⟩, hi2, hptr2, hres⟩
      have hext : ∀ s : NSlots W, NExt t2.slots s → UpTo p m (start + 4) s := by
        intro s hxs n hn hln
        by_cases c : n.len < start
        · exact ⟨((hup2 n hn c).1).ext hxs, fun h => ((hup2 n hn c).2 h).ext hxs⟩
        · have : n.len = start := by have := hn.2.1; omega
          have hne : n = ancAt p start := by rw [anc_eq hn, this]
          subst hne
          exact ⟨hrb2.ext hxs, fun _ => hptr2.ext hxs⟩
      rcases hres with rfl | rfl
      · -- a new node
        simp only
        rw [wp_bind]
        let P3 : NSlots W → Prop := fun s => P s ∧ NExt t2.slots s
        have hP3R : ∀ t t' : Tree W, R t t' → P3 t.slots → P3 t'.slots := fun t t' hr hP =>
          ⟨hPR _ _ hr hP.1, hP.2.trans (hR _ _ hr).1⟩
        have hP3G : ∀ s s', GNode p m s s' → P3 s → P3 s' := fun s s' hg hP =>
          ⟨hPG _ _ hg hP.1, hP.2.trans hg.1.1.1⟩
        have hanc4 : Touch (NodeId.newCleaned p.bits (start + 4)) p :=
          .inl ⟨by simp only [NodeId.newCleaned]; omega, by simp only [NodeId.newCleaned]; omega, rfl⟩
        refine wp_conseq _ (wp_storeNode hR hp hanc4 F hP3R hP3G
          ⟨⟨hx2, hJ2, hup2⟩, NExt.rfl' _⟩ hi2) ?_
        rintro _ t3 ⟨⟨⟨hx3, hJ3, _⟩, hx23⟩, hi3, rfl⟩
        simp only [if_true]
        exact ih (start + 4) t3 (by omega) (by omega) (by omega) hi3 hx3 hJ3 (hext _ hx23)
      · simp only
        exact ih (start + 4) t2 (by omega) (by omega) (by omega) hi2 hx2 hJ2
          (hext _ (NExt.rfl' _))

theorem ancAt_zero (p : PrefixId W) : ancAt p 0 = rootNodeId W := by
  simp [ancAt, rootNodeId, truncate_zero]

/-- `set_prefix_exists` for a prefix other than the default route. -/
theorem wp_setPrefixExists [hW : Fam W] (hR : ∀ t t' : Tree W, R t t' → NR t.slots t'.slots)
    {F : Nat} (hD : Enough R D F)
    {p : PrefixId W} (hp : p.Clean) (h0 : 0 < p.len) {m : Mui} {J : NSlots W → Prop} {K : Prop}
    (hJR : ∀ t t' : Tree W, R t t' → J t.slots → J t'.slots)
    (hJG : ∀ s s', GNode p m s s' → J s → J s')
    (hJK : ∀ s, J s → PfxSet s p → K) {t : Tree W} (hi : ChainInv (nodeLayout W) t.slots)
    (hJ : J t.slots) :
    wp R (GTree p m) D (setPrefixExists F p m)
      (fun r t' => ChainInv (nodeLayout W) t'.slots ∧ Full p m t'.slots ∧
        ((r = .ok false ∧ ¬ PfxSet t.slots p) ∨ (r = .ok true ∧ K))) t := by
  unfold setPrefixExists
  rw [if_neg (by omega), ← ancAt_zero p]
  exact wp_setPrefixExistsLoop hR hD hp h0 hJR hJG hJK _ _ t (by omega) h0 (by simp [maxLevels]) hi
    (NExt.rfl' _) hJ (fun n _ h => by omega)

/-- `set_prefix_exists` for the default route. -/
theorem wp_setDefaultExists [hW : Fam W] (hR : ∀ t t' : Tree W, R t t' → NR t.slots t'.slots)
    (hRd : ∀ t t' : Tree W, R t t' → t.defaultExists = true → t'.defaultExists = true)
    {p : PrefixId W} (hp : p.Clean) (h0 : p.len = 0) {m : Mui} {F : Nat} {J : Tree W → Prop} {K : Prop}
    (hJR : ∀ t t' : Tree W, R t t' → J t → J t')
    (hJK : ∀ t, J t → t.defaultExists = true → K) {t : Tree W}
    (hi : ChainInv (nodeLayout W) t.slots) (hJ : J t) :
    wp R (GTree p m) D (setPrefixExists F p m)
      (fun r t' => ChainInv (nodeLayout W) t'.slots ∧ t'.defaultExists = true ∧
        RbmSet t'.slots (rootNodeId W) m ∧
        ((r = .ok false ∧ t.defaultExists = false) ∨ (r = .ok true ∧ K))) t := by
  have hRs : ∀ s s', onSlots R s s' → NR s s' := by
    rintro s s' ⟨t, t', h, rfl, rfl⟩; exact hR _ _ h
  unfold setPrefixExists
  rw [if_pos h0, wp_bind]
  apply wp_atomic
  intro t1 hr1
  refine ⟨⟨⟨NR.rfl' _, fun _ _ h => h, fun _ h => .inl h⟩, rfl, fun _ => rfl, fun _ => .inr h0⟩, ?_⟩
  rw [wp_bind]
  unfold updateDefaultRoute
  rw [wp_bind]
  have hres : (t1.defaultExists = false ∧ t.defaultExists = false) ∨ (t1.defaultExists = true ∧ K) := by
    cases hd : t1.defaultExists
    · left; refine ⟨rfl, ?_⟩
      cases hd' : t.defaultExists
      · rfl
      · rw [hRd _ _ hr1 hd'] at hd; cases hd
    · exact .inr ⟨rfl, hJK _ (hJR _ _ hr1 hJ) hd⟩
  refine wp_conseq _ (wp_zoom Tree.slotsL_lawful _ (R := R) (G := GTree p m) (R' := onSlots R)
    (G' := GNode p m) (P := fun t => t.defaultExists = true)
    (s := { t1 with defaultExists := true }) ?_ ?_ ?_ ?_ rfl
    (wp_retrieveNodeMut hRs hp (.inr ⟨h0, rfl⟩) ((hR _ _ hr1).2 hi))) ?_
  · exact fun s s' h => ⟨s, s', h, rfl, rfl⟩
  · exact fun s t h => gtree_of_gins h.1
  · exact fun s s' h hd => hRd _ _ h hd
  · exact fun s t h _ => h
  rintro _ t2 ⟨hd2, hi2, ref, rfl, e, he, hid, hrbm⟩
  simp only
  rw [wp_bind]
  apply wp_atomic
  intro t3 hr3
  refine ⟨⟨⟨NR.rfl' _, fun _ _ h => h, fun _ h => .inl h⟩, rfl, fun h => h, fun h => .inl h⟩, ?_⟩
  refine ⟨(hR _ _ hr3).2 hi2, hRd t2 t3 hr3 hd2, ?_, ?_⟩
  · exact RbmSet.ext ⟨_, e, he, hid, hrbm⟩ (hR _ _ hr3).1
  · rcases hres with ⟨h1, h2⟩ | ⟨h1, h2⟩
    · left; simp [h1, h2]
    · right; simp [h1, h2]

end Rotonda
