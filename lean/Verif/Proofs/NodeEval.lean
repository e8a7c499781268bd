import Verif.Proofs.NodeInv
import Mathlib.Data.Finset.Card
import Mathlib.Data.Finset.Range

/-!
# `eval_node_or_prefix_at`
-/

namespace Rotonda

open Prog

variable {W : Nat} {R G : NSlots W → NSlots W → Prop} {D : Prop}

/-- Two nodes at the same address are the same. -/
theorem NodeAt.id_eq {s : NSlots W} {a : Addr} {id : NodeId W} (h : NodeAt s a id)
    {e : StoredNode W} (he : s a = some e) : e.id = id := by
  obtain ⟨e', he', hid⟩ := h
  rw [he] at he'; cases he'; exact hid

/-- Number of bits still clear. -/
def clearBits {w : Nat} (x : BitVec w) : Nat :=
  ((Finset.range w).filter fun i => x.getMsbD i = false).card

theorem clearBits_le {w : Nat} (x : BitVec w) : clearBits x ≤ w := by
  unfold clearBits
  exact (Finset.card_filter_le _ _).trans (by simp)

/-- A value that changed and only gained bits has fewer clear bits. -/
theorem clearBits_lt {w : Nat} {x y : BitVec w} (h : ∀ i, x.getMsbD i = true → y.getMsbD i = true)
    (hne : y ≠ x) : clearBits y < clearBits x := by
  unfold clearBits
  apply Finset.card_lt_card
  refine ⟨fun i hi => ?_, fun hsub => hne ?_⟩
  · rw [Finset.mem_filter] at hi ⊢
    refine ⟨hi.1, ?_⟩
    cases hx : x.getMsbD i with
    | false => rfl
    | true => rw [h i hx] at hi; exact absurd hi.2 (by simp)
  · apply ext_msb
    intro i hi
    cases hx : x.getMsbD i with
    | true => exact h i hx
    | false =>
      have := hsub (Finset.mem_filter.2 ⟨Finset.mem_range.2 hi, hx⟩)
      exact (Finset.mem_filter.1 this).2

/-- Why a retry loop with `F` attempts does not run dry: it is allowed to, or there
is no interference, or there are more attempts than bits. -/
def Enough {σ : Type} (R : σ → σ → Prop) (D : Prop) (F : Nat) : Prop :=
  D ∨ (∀ s s', R s s' → s' = s) ∨ 32 ≤ F

theorem wp_casPtrLoop (hR : ∀ s s', R s s' → NR s s')
    {p : PrefixId W} {m : Mui} {a : Addr} {id : NodeId W} {v : Nat} (hv : v < 16)
    (hanc : Anc id p) (hlt : id.len + 4 < p.len) (hnib : nib p.bits id.len 4 = v) :
    ∀ (fuel : Nat) (cur : BitVec 16) (s : NSlots W), NodeAt s a id → ChainInv (nodeLayout W) s →
      (D ∨ (fuel ≠ 0 ∧ (∀ s s', R s s' → s' = s) ∧ ∀ e, s a = some e → e.ptr = cur) ∨
        (clearBits cur < fuel ∧ ∀ e, s a = some e → ∀ i, cur.getMsbD i = true →
          e.ptr.getMsbD i = true)) →
      wp R (GNode p m) D (casPtrLoop a (posMask (15 + v)) fuel cur)
        (fun _ s' => ChainInv (nodeLayout W) s' ∧
          ∃ e, s' a = some e ∧ e.id = id ∧ e.ptr.getMsbD v = true) s := by
  intro fuel
  induction fuel with
  | zero =>
    intro cur s hn hi hc
    rcases hc with hc | hc | hc
    · exact hc
    · exact absurd rfl hc.1
    · exact absurd hc.1 (by omega)
  | succ fuel ih =>
    intro cur s hn hi hc
    unfold casPtrLoop casPtr
    rw [wp_bind]
    apply wp_accessAt
    · intro s' hr
      obtain ⟨e, he, _⟩ := hn.ext (hR _ _ hr).1
      exact ⟨e, he⟩
    · intro s' e hr he
      have hn' := hn.ext (hR _ _ hr).1
      have hid := hn'.id_eq he
      by_cases hcur : e.ptr = cur
      · simp only [hcur, if_true]
        have hl : NLe e { e with ptr := intoPtrBitArr (posMask (15 + v) ||| intoPfxBitArr cur) } := by
          refine ⟨rfl, rfl, fun w hw => ?_, fun _ h => h, fun _ h => h⟩
          simp only
          rw [ptr_set_msb hv, ← hcur, hw]; simp
        have hg : GIns p m s' (s'.set a
            { e with ptr := intoPtrBitArr (posMask (15 + v) ||| intoPfxBitArr cur) }) := by
          apply gins_update he hl
          · intro w hw
            simp only at hw
            rw [ptr_set_msb hv, ← hcur] at hw
            simp only [Bool.or_eq_true, decide_eq_true_eq] at hw
            rcases hw with hw | hw
            · right; rw [hid, hw]; exact ⟨hanc, hlt, hnib⟩
            · exact .inl hw
          · exact fun _ h => .inl h
          · exact fun _ h => .inl h
        refine ⟨⟨hg, pfxSame_update he rfl rfl⟩, hg.1.2 ((hR _ _ hr).2 hi), ?_⟩
        refine ⟨_, Slots.set_same _ _ _, hid, ?_⟩
        simp only
        rw [ptr_set_msb hv]; simp
      · simp only [hcur, if_false]
        have hset : NR s' (s'.set a e) := nr_update he (NLe.rfl' e)
        refine ⟨⟨gins_update he (NLe.rfl' e) (fun _ h => .inl h) (fun _ h => .inl h)
          (fun _ h => .inl h), pfxSame_update he rfl rfl⟩, ?_⟩
        apply ih
        · exact hn'.ext hset.1
        · exact hset.2 ((hR _ _ hr).2 hi)
        · rcases hc with hc | hc | hc
          · exact .inl hc
          · have := hc.2.1 _ _ hr
            subst this
            exact absurd (hc.2.2 e he) hcur
          · right; right
            obtain ⟨e0, he0, _⟩ := hn
            obtain ⟨e1, he1, hle⟩ := (hR _ _ hr).1 _ _ he0
            rw [he] at he1; cases he1
            have := clearBits_lt (fun i hb => hle.ptr i (hc.2 e0 he0 i hb)) hcur
            refine ⟨by omega, fun e' he' i hb => ?_⟩
            rw [Slots.set_same] at he'; cases he'; exact hb

theorem wp_casPfxLoop (hR : ∀ s s', R s s' → NR s s')
    {p : PrefixId W} (hp : p.Clean) (h0 : 0 < p.len) {m : Mui} {a : Addr} :
    ∀ (fuel : Nat) (cur : BitVec 32) (s : NSlots W), NodeAt s a (hostId p) →
      ChainInv (nodeLayout W) s →
      (D ∨ (fuel ≠ 0 ∧ (∀ s s', R s s' → s' = s) ∧ ∀ e, s a = some e → e.pfx = cur) ∨
        (clearBits cur < fuel ∧ ∀ e, s a = some e → ∀ i, cur.getMsbD i = true →
          e.pfx.getMsbD i = true)) →
      wp R (GIns p m) D (casPfxLoop a (posMask (pfxPos p)) fuel cur)
        (fun _ s' => ChainInv (nodeLayout W) s' ∧ PfxSet s' p) s := by
  have hv : pfxPos p < 32 := by have := pfxPos_lt hp; omega
  intro fuel
  induction fuel with
  | zero =>
    intro cur s hn hi hc
    rcases hc with hc | hc | hc
    · exact hc
    · exact absurd rfl hc.1
    · exact absurd hc.1 (by omega)
  | succ fuel ih =>
    intro cur s hn hi hc
    unfold casPfxLoop casPfx
    rw [wp_bind]
    apply wp_accessAt
    · intro s' hr
      obtain ⟨e, he, _⟩ := hn.ext (hR _ _ hr).1
      exact ⟨e, he⟩
    · intro s' e hr he
      have hn' := hn.ext (hR _ _ hr).1
      have hid := hn'.id_eq he
      by_cases hcur : e.pfx = cur
      · simp only [hcur, if_true]
        have hl : NLe e { e with pfx := posMask (pfxPos p) ||| cur } := by
          refine ⟨rfl, rfl, fun _ h => h, fun w hw => ?_, fun _ h => h⟩
          simp only
          rw [or_posMask_msb hv, ← hcur, hw]; simp
        have hg : GIns p m s' (s'.set a { e with pfx := posMask (pfxPos p) ||| cur }) := by
          apply gins_update he hl
          · exact fun _ h => .inl h
          · intro w hw
            simp only at hw
            rw [or_posMask_msb hv, ← hcur] at hw
            simp only [Bool.or_eq_true, decide_eq_true_eq] at hw
            rcases hw with hw | hw
            · right; exact ⟨h0, hid.symm, hw.symm⟩
            · exact .inl hw
          · exact fun _ h => .inl h
        refine ⟨hg, hg.1.2 ((hR _ _ hr).2 hi), ?_⟩
        refine ⟨a, _, Slots.set_same _ _ _, hid, ?_⟩
        simp only
        rw [or_posMask_msb hv]; simp
      · simp only [hcur, if_false]
        have hset : NR s' (s'.set a e) := nr_update he (NLe.rfl' e)
        refine ⟨gins_update he (NLe.rfl' e) (fun _ h => .inl h) (fun _ h => .inl h)
          (fun _ h => .inl h), ?_⟩
        apply ih
        · exact hn'.ext hset.1
        · exact hset.2 ((hR _ _ hr).2 hi)
        · rcases hc with hc | hc | hc
          · exact .inl hc
          · have := hc.2.1 _ _ hr
            subst this
            exact absurd (hc.2.2 e he) hcur
          · right; right
            obtain ⟨e0, he0, _⟩ := hn
            obtain ⟨e1, he1, hle⟩ := (hR _ _ hr).1 _ _ he0
            rw [he] at he1; cases he1
            have := clearBits_lt (fun i hb => hle.pfx i (hc.2 e0 he0 i hb)) hcur
            refine ⟨by omega, fun e' he' i hb => ?_⟩
            rw [Slots.set_same] at he'; cases he'; exact hb

/-- Reading the pointer bits of a node. -/
theorem wp_loadPtr (hR : ∀ s s', R s s' → NR s s') (hG : ∀ s, G s s) {a : Addr} {id : NodeId W}
    {s : NSlots W} (hn : NodeAt s a id) {Q : BitVec 16 → NSlots W → Prop}
    (h : ∀ s' e, R s s' → s' a = some e → e.id = id → NodeAt s' a id → Q e.ptr s') :
    wp R G D (loadPtr a) Q s := by
  apply wp_readAt hG
  · intro s' hr
    obtain ⟨e, he, _⟩ := hn.ext (hR _ _ hr).1
    exact ⟨e, he⟩
  · intro s' e hr he
    have hn' := hn.ext (hR _ _ hr).1
    exact h s' e hr he (hn'.id_eq he) hn'

/-- Reading the prefix bits of a node. -/
theorem wp_loadPfx (hR : ∀ s s', R s s' → NR s s') (hG : ∀ s, G s s) {a : Addr} {id : NodeId W}
    {s : NSlots W} (hn : NodeAt s a id) {Q : BitVec 32 → NSlots W → Prop}
    (h : ∀ s' e, R s s' → s' a = some e → e.id = id → NodeAt s' a id → Q e.pfx s') :
    wp R G D (loadPfx a) Q s := by
  apply wp_readAt hG
  · intro s' hr
    obtain ⟨e, he, _⟩ := hn.ext (hR _ _ hr).1
    exact ⟨e, he⟩
  · intro s' e hr he
    have hn' := hn.ext (hR _ _ hr).1
    exact h s' e hr he (hn'.id_eq he) hn'

/-- Descending: the child bit gets set. -/
theorem wp_eval_inner (hR : ∀ s s', R s s' → NR s s') {F : Nat} (hD : Enough R D F)
    {p : PrefixId W} (hp : p.Clean) {m : Mui} {a : Addr} {id : NodeId W}
    (hanc : Anc id p) (hlt : id.len + 4 < p.len) {base : NodeId W} {s : NSlots W}
    (hn : NodeAt s a id) (hi : ChainInv (nodeLayout W) s) :
    wp R (GNode p m) D (evalNodeOrPrefixAt F a ⟨nib p.bits id.len 4, 4⟩ base false)
      (fun r s' => ChainInv (nodeLayout W) s' ∧ PtrSet s' id (nib p.bits id.len 4) ∧
        (r = .newNode 0#16 0#32 ∨ r = .existingNode base.nextStride)) s := by
  have hv : nib p.bits id.len 4 < 16 := nib_lt p.bits (by have := hp.1; omega)
  unfold evalNodeOrPrefixAt
  rw [wp_bind]
  refine wp_loadPtr hR (GNode.rfl' p m) hn ?_
  intro s1 e1 hr1 he1 _ hn1
  rw [wp_bind]
  refine wp_loadPfx hR (GNode.rfl' p m) hn1 ?_
  intro s2 e2 hr2 he2 _ hn2
  rw [wp_bind]
  apply wp_ofOption (intoBitPos_eq (b := ⟨nib p.bits id.len 4, 4⟩) (by simp) (by simpa using hv))
  simp only [if_true]
  rw [wp_bind]
  refine wp_loadPtr hR (GNode.rfl' p m) hn2 ?_
  intro s3 e3 hr3 he3 hid3 hn3
  have hi3 : ChainInv (nodeLayout W) s3 :=
    (hR _ _ hr3).2 ((hR _ _ hr2).2 ((hR _ _ hr1).2 hi))
  have e15 : 2 ^ 4 - 1 + nib p.bits id.len 4 = 15 + nib p.bits id.len 4 := rfl
  rw [e15]
  split
  · rw [wp_bind]
    refine wp_conseq _ (wp_casPtrLoop hR hv hanc hlt rfl (F + 1) e1.ptr s3 hn3 hi3 ?_) ?_
    · rcases hD with hD | hD | hD
      · exact .inl hD
      · right; left
        refine ⟨by omega, hD, fun e he => ?_⟩
        have h3 := hD _ _ hr3
        have h2 := hD _ _ hr2
        subst h3; subst h2
        rw [he1] at he; cases he; rfl
      · right; right
        refine ⟨by have := clearBits_le e1.ptr; omega, fun e he i hb => ?_⟩
        obtain ⟨e', he', hle⟩ := ((hR _ _ hr2).1.trans (hR _ _ hr3).1) _ _ he1
        rw [he] at he'; cases he'
        exact hle.ptr i hb
    · rintro _ s4 ⟨h1, e, h2, h3, h4⟩
      exact ⟨h1, ⟨a, e, h2, h3, h4⟩, .inl rfl⟩
  · rename_i hbit
    rw [ptr_test hv] at hbit
    exact ⟨hi3, ⟨a, e3, he3, hid3, by simpa using hbit⟩, .inr rfl⟩

/-- Last stride: the prefix bit gets set.  `J` describes the states before the
own write, `K` is what it says about a prefix found present. -/
theorem wp_eval_last (hR : ∀ s s', R s s' → NR s s') {F : Nat} (hD : Enough R D F)
    {p : PrefixId W} (hp : p.Clean) (h0 : 0 < p.len) {m : Mui} {a : Addr}
    {base : NodeId W} {s : NSlots W} {J : NSlots W → Prop} {K : Prop}
    (hJR : ∀ s s', R s s' → J s → J s') (hJK : ∀ s, J s → PfxSet s p → K) (hJ : J s)
    (hn : NodeAt s a (hostId p)) (hi : ChainInv (nodeLayout W) s) :
    wp R (GIns p m) D
      (evalNodeOrPrefixAt F a
        ⟨nib p.bits (hostLen p.len) (p.len - hostLen p.len), p.len - hostLen p.len⟩ base true)
      (fun r s' => ChainInv (nodeLayout W) s' ∧ PfxSet s' p ∧
        ((r = .newPrefix ∧ ¬ PfxSet s p) ∨ (r = .existingPrefix ∧ K))) s := by
  have hposlt := pfxPos_lt hp
  have hG : ∀ s, GIns p m s s := fun s => (GNode.rfl' p m s).1
  have hle := hostLen_le p.len
  have hpW := hp.1
  unfold evalNodeOrPrefixAt
  rw [wp_bind]
  refine wp_loadPtr hR hG hn ?_
  intro s1 e1 hr1 he1 _ hn1
  rw [wp_bind]
  refine wp_loadPfx hR hG hn1 ?_
  intro s2 e2 hr2 he2 hid2 hn2
  rw [wp_bind]
  apply wp_ofOption (intoBitPos_eq (b := ⟨nib p.bits (hostLen p.len) (p.len - hostLen p.len),
    p.len - hostLen p.len⟩) hostLen_le4 (nib_lt _ (by omega)))
  have hi2 : ChainInv (nodeLayout W) s2 := (hR _ _ hr2).2 ((hR _ _ hr1).2 hi)
  have hx : NExt s s2 := (hR _ _ hr1).1.trans (hR _ _ hr2).1
  simp only [Bool.true_eq_false, if_false]
  change wp R (GIns p m) D (if e2.pfx &&& posMask (pfxPos p) = 0#32 then _ else _) _ s2
  split
  · rename_i hbit
    rw [and_posMask_eq_zero (by omega)] at hbit
    rw [wp_bind]
    refine wp_conseq _ (wp_casPfxLoop hR hp h0 (F + 1) e2.pfx s2 hn2 hi2 ?_) ?_
    · rcases hD with hD | hD | hD
      · exact .inl hD
      · right; left
        refine ⟨by omega, hD, fun e he => ?_⟩
        rw [he2] at he; cases he; rfl
      · right; right
        refine ⟨by have := clearBits_le e2.pfx; omega, fun e he i hb => ?_⟩
        rw [he2] at he; cases he; exact hb
    · rintro _ s4 ⟨h1, h2⟩
      refine ⟨h1, h2, .inl ⟨rfl, fun hset => ?_⟩⟩
      obtain ⟨b, f, hf, hfid, hfb⟩ := hset.ext hx
      have : b = a := hi2.unique hf he2 (hfid.trans hid2.symm)
      subst this
      rw [he2] at hf; cases hf
      rw [hbit] at hfb; cases hfb
  · rename_i hbit
    rw [and_posMask_eq_zero (by omega)] at hbit
    have hset : PfxSet s2 p := ⟨a, e2, he2, hid2, by simpa using hbit⟩
    exact ⟨hi2, hset, .inr ⟨rfl, hJK s2 (hJR _ _ hr2 (hJR _ _ hr1 hJ)) hset⟩⟩

end Rotonda
