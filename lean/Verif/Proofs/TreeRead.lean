import Verif.Model.TreeIter
import Verif.Proofs.TreeSeq

/-!
# Reading the tree: `contains`, longest match, less specifics
-/

namespace Rotonda

open Prog

variable {W : Nat}

/-- Guarantee of a reader. -/
def RO {σ : Type} (a b : σ) : Prop := b = a

theorem RO.rfl' {σ : Type} (a : σ) : RO a a := rfl

/-- A stable fact is carried through a program. -/
theorem Prog.wp_carry {σ α : Type} {R G : σ → σ → Prop} {D : Prop} {P : σ → Prop}
    (hPR : ∀ s s', R s s' → P s → P s') (hPG : ∀ s s', G s s' → P s → P s')
    (p : Prog σ α) {Q : α → σ → Prop} {s : σ} (hP : P s) (h : wp R G D p Q s) :
    wp R G D p (fun a s' => P s' ∧ Q a s') s := by
  induction p generalizing s with
  | ret a => exact ⟨hP, h⟩
  | act f k ih =>
    intro s' hr
    exact ⟨(h s' hr).1, ih _ (hPG _ _ (h s' hr).1 (hPR _ _ hr hP)) (h s' hr).2⟩
  | panic => exact h
  | diverge => exact h

variable {R : NSlots W → NSlots W → Prop} {D : Prop}

theorem nExt_stable (hR : ∀ s s', R s s' → NR s s') (s0 : NSlots W) :
    (∀ s s', R s s' → NExt s0 s → NExt s0 s') ∧ (∀ s s' : NSlots W, RO s s' → NExt s0 s → NExt s0 s') :=
  ⟨fun _ _ h hx => hx.trans (hR _ _ h).1, fun _ _ h hx => by cases h; exact hx⟩

theorem pfxSet_has {s : NSlots W} {q : PrefixId W} (h : PfxSet s q) : Has s (hostId q) := by
  obtain ⟨a, e, he, hid, _⟩ := h; exact ⟨a, e, he, hid⟩

/-- In a table where the host sits at `a`, the bit decides. -/
theorem pfxSet_at {s : NSlots W} (hi : ChainInv (nodeLayout W) s) {q : PrefixId W} {a : Addr}
    {e : StoredNode W} (he : s a = some e) (hid : e.id = hostId q) :
    PfxSet s q ↔ e.pfx.getMsbD (pfxPos q) = true := by
  constructor
  · rintro ⟨b, f, hf, hfid, hb⟩
    have : b = a := hi.unique hf he (hfid.trans hid.symm)
    subst this; rw [he] at hf; cases hf; exact hb
  · intro hb; exact ⟨a, e, he, hid, hb⟩

theorem wp_prefixExistsN [hW : Fam W] (hR : ∀ s s', R s s' → NR s s') {p : PrefixId W}
    (hp : p.Clean) (h0 : 0 < p.len) {s : NSlots W} (hi : ChainInv (nodeLayout W) s) :
    wp R RO D (prefixExistsN p) (fun b s' => ChainInv (nodeLayout W) s' ∧
      (b = true → PfxSet s' p) ∧ (b = false → ¬ PfxSet s p)) s := by
  have hle := hostLen_le p.len
  have hpW := hp.1
  unfold prefixExistsN
  rw [wp_bind]
  apply wp_ofOption (nodeIdForPrefix_eq hp h0)
  simp only
  rw [wp_bind]
  have hok := (anc_host h0).ok hp
  obtain ⟨st1, st2⟩ := nExt_stable hR s
  refine wp_conseq _ (wp_carry st1 st2 _ (NExt.rfl' s) (wp_retrieveNode hR RO.rfl' hok hi)) ?_
  rintro r s1 ⟨hx, hi1, hr⟩
  cases r with
  | none =>
    refine ⟨hi1, fun h => by simp at h, fun _ hs => ?_⟩
    exact hr (pfxSet_has (hs.ext hx))
  | some ref =>
    simp only
    rw [wp_bind]
    refine wp_loadPfx hR RO.rfl' hr ?_
    intro s2 e hr2 he hid hn
    rw [wp_bind]
    apply wp_ofOption (intoBitPos_eq (b := ⟨nib p.bits (hostLen p.len) (p.len - hostLen p.len),
      p.len - hostLen p.len⟩) hostLen_le4 (nib_lt _ (by omega)))
    have hi2 := (hR _ _ hr2).2 hi1
    have hlt := pfxPos_lt hp
    change ChainInv (nodeLayout W) s2 ∧
      (decide (0 < (e.pfx &&& posMask (pfxPos p)).toNat) = true → PfxSet s2 p) ∧
      (decide (0 < (e.pfx &&& posMask (pfxPos p)).toNat) = false → ¬ PfxSet s p)
    rw [decide_eq_true_iff, decide_eq_false_iff_not, and_posMask_pos (by omega)]
    refine ⟨hi2, fun h => ⟨_, e, he, hid, h⟩, fun h hs => h ?_⟩
    have := hs.ext (hx.trans (hR _ _ hr2).1)
    rwa [pfxSet_at hi2 he hid] at this

/-- The default route's position is never set. -/
theorem Just.pfx_zero {T : PrefixId W → Mui → Prop} {s : NSlots W} (h : Just T s)
    {a : Addr} {e : StoredNode W} (he : s a = some e) : e.pfx.getMsbD 0 = false := by
  by_contra hb
  obtain ⟨p, m, _, h0, _, hpos⟩ := h.pfx a e 0 he (by simpa using hb)
  unfold pfxPos at hpos
  have h1 := hostLen_lt h0
  have : 2 ^ 1 ≤ 2 ^ (p.len - hostLen p.len) := Nat.pow_le_pow_right (by omega) (by omega)
  omega

theorem wp_prefixExistsN_zero [hW : Fam W] (hR : ∀ s s', R s s' → NR s s')
    {T : PrefixId W → Mui → Prop} (hJ : ∀ s s', R s s' → Just T s → Just T s') {p : PrefixId W}
    (h0 : p.len = 0) {s : NSlots W} (hi : ChainInv (nodeLayout W) s) (hj : Just T s) :
    wp R RO D (prefixExistsN p) (fun b _ => b = false) s := by
  unfold prefixExistsN
  rw [wp_bind]
  apply wp_ofOption (nodeIdForPrefix_zero h0)
  simp only
  rw [wp_bind]
  have hroot : NodeId.newCleaned p.bits 0 = rootNodeId W := by
    simp [NodeId.newCleaned, rootNodeId, truncate_zero]
  rw [hroot]
  refine wp_conseq _ (wp_carry (P := fun s => Just T s) hJ (fun s s' h hx => by cases h; exact hx) _
    hj (wp_retrieveNode hR RO.rfl' ok_root hi)) ?_
  rintro r s1 ⟨hj1, hi1, hr⟩
  cases r with
  | none => rfl
  | some ref =>
    simp only
    rw [wp_bind]
    refine wp_loadPfx hR RO.rfl' hr ?_
    intro s2 e hr2 he hid hn
    rw [wp_bind]
    apply wp_ofOption (intoBitPos_eq (b := ⟨0, 0⟩) (by simp) (by simp))
    change decide (0 < (e.pfx &&& posMask 0).toNat) = false
    have hT := hJ _ _ hr2 hj1
    rw [decide_eq_false_iff_not, and_posMask_pos (by omega), hT.pfx_zero he]
    simp

/-- Sequential `prefix_exists`. -/
theorem Rep.prefixExistsN [Fam W] {S : PrefixId W → Mui → Prop} {t : Tree W} (h : Rep S t)
    {p : PrefixId W} (hp : p.Clean) :
    ∃ b, (Rotonda.prefixExistsN p).run t.slots = .ok b t.slots ∧
      (b = true ↔ 0 < p.len ∧ ∃ m, S p m) := by
  by_cases h0 : 0 < p.len
  · obtain ⟨b, hr, _, h1, h2⟩ := run_of_wp_ro _
      (wp_prefixExistsN (R := Eq) (D := False) (fun s s' h => NR_of_eq h) hp h0 h.inv)
    refine ⟨b, hr, ?_⟩
    rw [← h.pfxSet_iff hp h0]
    cases b <;> simp_all
  · obtain ⟨b, hr, h1⟩ := run_of_wp_ro _
      (wp_prefixExistsN_zero (R := Eq) (D := False) (fun s s' h => NR_of_eq h)
        (fun s s' h hj => h ▸ hj) (p := p) (by omega) h.inv h.just)
    refine ⟨b, hr, ?_⟩
    simp [h1, h0]

/-- A boolean version of membership, for computing with. -/
noncomputable def inS (S : PrefixId W → Mui → Prop) (p : PrefixId W) : Bool :=
  @decide (0 < p.len ∧ ∃ m, S p m) (Classical.dec _)

theorem inS_iff {S : PrefixId W → Mui → Prop} {p : PrefixId W} :
    inS S p = true ↔ 0 < p.len ∧ ∃ m, S p m := by
  unfold inS; exact @decide_eq_true_iff _ (Classical.dec _)

theorem Rep.run_prefixExistsN [Fam W] {S : PrefixId W → Mui → Prop} {t : Tree W} (h : Rep S t)
    {p : PrefixId W} (hp : p.Clean) :
    (Rotonda.prefixExistsN p).run t.slots = .ok (inS S p) t.slots := by
  obtain ⟨b, hr, hb⟩ := h.prefixExistsN hp
  rw [hr]; congr 1
  rw [Bool.eq_iff_iff, hb, inS_iff]

theorem truncateTo_clean (p : PrefixId W) {l : Nat} (hl : l ≤ W) : (p.truncateTo l).Clean :=
  clean_truncate p.bits hl

theorem truncate_truncate (x : BitVec W) {l k : Nat} (hl : l ≤ W) (hk : k ≤ l) :
    truncateToLen (truncateToLen x l) k = truncateToLen x k := by
  apply ext_msb
  intro i _
  rw [getMsbD_truncateToLen _ (by omega), getMsbD_truncateToLen _ hl, getMsbD_truncateToLen _ (by omega)]
  by_cases c : i < k
  · have : i < l := by omega
    simp [c, this]
  · simp [c]

theorem truncate_self {p : PrefixId W} (hp : p.Clean) : p.truncateTo p.len = p := by
  cases p with | mk b l =>
  simp only [PrefixId.truncateTo]
  congr 1
  exact (truncate_eq_iff (x := b) hp).2 (fun _ _ => rfl)

/-- `longest_matching_prefix`, sequentially: the longest present truncation. -/
theorem Rep.lmLoop [hW : Fam W] {S : PrefixId W → Mui → Prop} {t : Tree W} (h : Rep S t)
    {p : PrefixId W} (hp : p.Clean) :
    ∀ (fuel l : Nat), l ≤ p.len → l < fuel →
      (Rotonda.lmLoop fuel (p.truncateTo l)).run t.slots =
        .ok (((List.range' 1 l).reverse.map p.truncateTo).find? (inS S)) t.slots := by
  have hpW := hp.1
  intro fuel
  induction fuel with
  | zero => intro l _ h2; omega
  | succ fuel ih =>
    intro l hl hf
    unfold Rotonda.lmLoop
    by_cases h0 : l = 0
    · subst h0
      simp [PrefixId.truncateTo, pure_def, run]
    · have hl' : ¬ (p.truncateTo l).len = 0 := h0
      rw [if_neg hl', run_bind, h.run_prefixExistsN (truncateTo_clean p (by omega))]
      simp only [Outcome.andThen]
      obtain ⟨k, rfl⟩ : ∃ k, l = k + 1 := ⟨l - 1, by omega⟩
      have hlist : (List.range' 1 (k + 1)).reverse = (k + 1) :: (List.range' 1 k).reverse := by
        rw [List.range'_concat]; simp; omega
      rw [hlist, List.map_cons, List.find?_cons]
      cases hb : inS S (p.truncateTo (k + 1))
      · simp only [Bool.false_eq_true, if_false]
        have : (p.truncateTo (k + 1)).truncateTo ((p.truncateTo (k + 1)).len - 1) = p.truncateTo k := by
          simp only [PrefixId.truncateTo, Nat.add_sub_cancel]
          rw [truncate_truncate _ (by omega) (by omega)]
        rw [this]
        exact ih k (by omega) (by omega)
      · simp [pure_def, run]

theorem Rep.longestMatchingPrefix [hW : Fam W] {S : PrefixId W → Mui → Prop} {t : Tree W}
    (h : Rep S t) {p : PrefixId W} (hp : p.Clean) :
    (Rotonda.longestMatchingPrefix p).run t.slots =
      .ok (((List.range' 1 p.len).reverse.map p.truncateTo).find? (inS S)) t.slots := by
  have hpW := hp.1
  have := hW.width
  have key := h.lmLoop hp 256 p.len (Nat.le_refl _) (by omega)
  rw [truncate_self hp] at key
  exact key

theorem Rep.lsFind [hW : Fam W] {S : PrefixId W → Mui → Prop} {t : Tree W} (h : Rep S t)
    {p : PrefixId W} (hp : p.Clean) :
    ∀ l, l ≤ p.len → (Rotonda.lsFind p l).run t.slots =
        .ok ((List.range' 1 l).reverse.find? (fun k => inS S (p.truncateTo k))) t.slots := by
  have hpW := hp.1
  intro l
  induction l with
  | zero => intro _; simp [Rotonda.lsFind, pure_def, run]
  | succ k ih =>
    intro hl
    unfold Rotonda.lsFind
    rw [run_bind, h.run_prefixExistsN (truncateTo_clean p (by omega))]
    simp only [Outcome.andThen]
    have hlist : (List.range' 1 (k + 1)).reverse = (k + 1) :: (List.range' 1 k).reverse := by
      rw [List.range'_concat]; simp; omega
    rw [hlist, List.find?_cons]
    cases hb : inS S (p.truncateTo (k + 1))
    · simp only [Bool.false_eq_true, if_false]
      exact ih (by omega)
    · simp [pure_def, run]

/-- Skipping to the first hit and continuing below it gives all hits. -/
theorem filter_reverse_range'_of_find {f : Nat → Bool} {n : Nat} :
    (List.range' 1 n).reverse.filter f =
      match (List.range' 1 n).reverse.find? f with
      | none => []
      | some k => k :: (List.range' 1 (k - 1)).reverse.filter f := by
  induction n with
  | zero => simp
  | succ n ih =>
    have hlist : (List.range' 1 (n + 1)).reverse = (n + 1) :: (List.range' 1 n).reverse := by
      rw [List.range'_concat]; simp; omega
    rw [hlist, List.filter_cons, List.find?_cons]
    cases hb : f (n + 1)
    · simp only [Bool.false_eq_true, if_false]; exact ih
    · simp

theorem Rep.lsCollect [hW : Fam W] {S : PrefixId W → Mui → Prop} {t : Tree W} (h : Rep S t)
    {p : PrefixId W} (hp : p.Clean) :
    ∀ (fuel cur : Nat), cur ≤ p.len → cur < fuel →
      (Rotonda.lsCollect p fuel cur).run t.slots =
        .ok (((List.range' 1 (cur - 1)).reverse.filter
          (fun k => inS S (p.truncateTo k))).map p.truncateTo) t.slots := by
  intro fuel
  induction fuel with
  | zero => intro _ _ h2; omega
  | succ fuel ih =>
    intro cur hc hf
    unfold Rotonda.lsCollect
    rw [run_bind, h.lsFind hp (cur - 1) (by omega)]
    simp only [Outcome.andThen]
    rw [filter_reverse_range'_of_find]
    cases hfd : (List.range' 1 (cur - 1)).reverse.find? (fun k => inS S (p.truncateTo k)) with
    | none => simp [pure_def, run]
    | some k =>
      have hk : k ∈ (List.range' 1 (cur - 1)).reverse := List.mem_of_find?_eq_some hfd
      simp only [List.mem_reverse, List.mem_range'_1] at hk
      simp only
      rw [run_bind, ih k (by omega) (by omega)]
      simp [Outcome.andThen, pure_def, run]

theorem Rep.lessSpecifics [hW : Fam W] {S : PrefixId W → Mui → Prop} {t : Tree W} (h : Rep S t)
    {p : PrefixId W} (hp : p.Clean) :
    (Rotonda.lessSpecifics p).run t.slots =
      .ok (((List.range' 1 (p.len - 1)).reverse.filter
          (fun k => inS S (p.truncateTo k))).map p.truncateTo) t.slots := by
  have hpW := hp.1
  have := hW.width
  exact h.lsCollect hp 256 p.len (Nat.le_refl _) (by omega)

end Rotonda
