import Verif.Proofs.ConcCalls

/-!
# Queries running concurrently with inserts
-/

namespace Rotonda

open Prog Spec

variable {M : Type} {W : Nat} {T : PrefixId W → Mui → Prop} {D : Prop}

/-! ## Walks of the node table -/

/-- What other calls do to the node table. -/
def NodesOK (T : PrefixId W → Mui → Prop) (R : NSlots W → NSlots W → Prop) : Prop :=
  ∀ s s', R s s' → NR s s' ∧ (Just T s → Just T s')

/-- What a walk of the node table needs. -/
structure SaneN (T : PrefixId W → Mui → Prop) (s : NSlots W) : Prop where
  inv : ChainInv (nodeLayout W) s
  just : Just T s

theorem SaneN.step {R : NSlots W → NSlots W → Prop} (hR : NodesOK T R) {s s' : NSlots W}
    (h : SaneN T s) (hr : R s s') : SaneN T s' := ⟨(hR _ _ hr).1.2 h.inv, (hR _ _ hr).2 h.just⟩

/-- The prefix is in the node table and not the default route. -/
def Seen (s : NSlots W) (p : PrefixId W) : Prop := 0 < p.len ∧ PfxSet s p

theorem Seen.ext {s s' : NSlots W} {p : PrefixId W} (h : Seen s p) (hx : NExt s s') : Seen s' p :=
  ⟨h.1, h.2.ext hx⟩

variable {R : NSlots W → NSlots W → Prop}

/-- A walk leaves the table sane, and the table only grows meanwhile. -/
theorem wp_walk {α : Type} (hR : NodesOK T R) {prog : Prog (NSlots W) α}
    {Q : α → NSlots W → Prop} {s : NSlots W} (hs : SaneN T s) (h : wp R RO D prog Q s) :
    wp R RO D prog (fun a s' => SaneN T s' ∧ NExt s s' ∧ Q a s') s := by
  refine wp_conseq _ (wp_carry (P := fun s' => SaneN T s' ∧ NExt s s')
    (fun a b h hp => ⟨hp.1.step hR h, hp.2.trans (hR _ _ h).1.1⟩)
    (fun a b h hp => by cases h; exact hp) _ ⟨hs, NExt.rfl' s⟩ h) ?_
  exact fun _ _ h => ⟨h.1.1, h.1.2, h.2⟩

theorem wp_exists [Fam W] (hR : NodesOK T R) {p : PrefixId W} (hp : p.Clean) {s : NSlots W}
    (hs : SaneN T s) :
    wp R RO D (prefixExistsN p) (fun b s' => SaneN T s' ∧ NExt s s' ∧
      (b = true → Seen s' p) ∧ (b = false → ¬ Seen s p)) s := by
  apply wp_walk hR hs
  by_cases h0 : 0 < p.len
  · refine wp_conseq _ (wp_prefixExistsN (fun s s' h => (hR s s' h).1) hp h0 hs.inv) ?_
    exact fun b s' h => ⟨fun hb => ⟨h0, h.2.1 hb⟩, fun hb hk => h.2.2 hb hk.2⟩
  · refine wp_conseq _ (wp_prefixExistsN_zero (fun s s' h => (hR s s' h).1)
      (fun s s' h => (hR s s' h).2) (by omega) hs.inv hs.just) ?_
    rintro b s' rfl
    exact ⟨fun h => (by cases h), fun _ hk => h0 hk.1⟩

/-- The answer of a walk up the truncations of `p` from length `n`: the longest
one that is in the table. -/
def Longest (s : NSlots W) (p : PrefixId W) (n : Nat) (r : Option Nat) (s' : NSlots W) : Prop :=
  (r = none → ∀ l, 0 < l → l ≤ n → ¬ Seen s (p.truncateTo l)) ∧
  (∀ l, r = some l → 0 < l ∧ l ≤ n ∧ Seen s' (p.truncateTo l) ∧
    ∀ k, l < k → k ≤ n → ¬ Seen s (p.truncateTo k))

theorem wp_lmLoop [Fam W] (hR : NodesOK T R) {p : PrefixId W} (hp : p.Clean) : ∀ (fuel l : Nat)
    (s : NSlots W), l < fuel → l ≤ p.len → SaneN T s →
    wp R RO D (lmLoop fuel (p.truncateTo l)) (fun r s' => SaneN T s' ∧ NExt s s' ∧
      ∃ o : Option Nat, r = o.map p.truncateTo ∧ Longest s p l o s') s := by
  have hW := hp.1
  intro fuel
  induction fuel with
  | zero => intro l s h; omega
  | succ fuel ih =>
    intro l s hl hlp hs
    unfold lmLoop
    have hlen : (p.truncateTo l).len = l := rfl
    by_cases h0 : l = 0
    · rw [if_pos (by rw [hlen]; exact h0)]
      exact ⟨hs, NExt.rfl' s, none, rfl, fun _ k hk hk' => by omega, fun k h => by cases h⟩
    · rw [if_neg (by rw [hlen]; exact h0), wp_bind]
      refine wp_conseq _ (wp_exists hR (truncateTo_clean p (by omega)) hs) ?_
      rintro b s1 ⟨hs1, hx1, ht, hf⟩
      cases b with
      | true =>
        exact ⟨hs1, hx1, some l, rfl, fun h => (by cases h), fun k hk => by
          cases hk; exact ⟨by omega, Nat.le_refl _, ht rfl, fun k h h' => by omega⟩⟩
      | false =>
        have htr : (p.truncateTo l).truncateTo ((p.truncateTo l).len - 1) = p.truncateTo (l - 1) := by
          simp only [PrefixId.truncateTo]
          rw [truncate_truncate _ (by omega) (by omega)]
        simp only [Bool.false_eq_true, if_false, htr]
        refine wp_conseq _ (ih (l - 1) s1 (by omega) (by omega) hs1) ?_
        rintro r s2 ⟨hs2, hx2, o, ho, h1, h2⟩
        refine ⟨hs2, hx1.trans hx2, o, ho, fun hn k hk hk' => ?_, fun k hk => ?_⟩
        · by_cases hkl : k = l
          · subst hkl; exact hf rfl
          · exact fun hc => h1 hn k hk (by omega) (hc.ext hx1)
        · obtain ⟨a1, a2, a3, a4⟩ := h2 k hk
          refine ⟨a1, by omega, a3, fun j hj hj' => ?_⟩
          by_cases hjl : j = l
          · subst hjl; exact hf rfl
          · exact fun hc => a4 j hj (by omega) (hc.ext hx1)

/-- `longest_matching_prefix` while other calls are running. -/
theorem wp_longestMatchingPrefix [hW : Fam W] (hR : NodesOK T R) {p : PrefixId W} (hp : p.Clean)
    {s : NSlots W} (hs : SaneN T s) :
    wp R RO D (longestMatchingPrefix p) (fun r s' => SaneN T s' ∧ NExt s s' ∧
      ∃ o : Option Nat, r = o.map p.truncateTo ∧ Longest s p p.len o s') s := by
  have h1 := hp.1
  have h2 := hW.width
  have := wp_lmLoop (D := D) hR hp 256 p.len s (by omega) (Nat.le_refl _) hs
  rwa [truncate_self hp] at this

theorem wp_lsFind [Fam W] (hR : NodesOK T R) {p : PrefixId W} (hp : p.Clean) : ∀ (l : Nat)
    (s : NSlots W), l ≤ p.len → SaneN T s →
    wp R RO D (lsFind p l) (fun o s' => SaneN T s' ∧ NExt s s' ∧ Longest s p l o s') s := by
  have hW := hp.1
  intro l
  induction l with
  | zero =>
    intro s _ hs
    exact ⟨hs, NExt.rfl' s, fun _ k hk hk' => by omega, fun k h => by cases h⟩
  | succ l ih =>
    intro s hlp hs
    unfold lsFind
    rw [wp_bind]
    refine wp_conseq _ (wp_exists hR (truncateTo_clean p (by omega)) hs) ?_
    rintro b s1 ⟨hs1, hx1, ht, hf⟩
    cases b with
    | true =>
      exact ⟨hs1, hx1, fun h => (by cases h), fun k hk => by
        cases hk; exact ⟨by omega, Nat.le_refl _, ht rfl, fun k h h' => by omega⟩⟩
    | false =>
      simp only [Bool.false_eq_true, if_false]
      refine wp_conseq _ (ih s1 (by omega) hs1) ?_
      rintro o s2 ⟨hs2, hx2, h1, h2⟩
      refine ⟨hs2, hx1.trans hx2, fun hn k hk hk' => ?_, fun k hk => ?_⟩
      · by_cases hkl : k = l + 1
        · subst hkl; exact hf rfl
        · exact fun hc => h1 hn k hk (by omega) (hc.ext hx1)
      · obtain ⟨a1, a2, a3, a4⟩ := h2 k hk
        refine ⟨a1, by omega, a3, fun j hj hj' => ?_⟩
        by_cases hjl : j = l + 1
        · subst hjl; exact hf rfl
        · exact fun hc => a4 j hj (by omega) (hc.ext hx1)

/-- The answer of an iteration over the truncations of `p` shorter than `n`:
lengths in descending order, all of prefixes in the table, none missed that was
there from the start. -/
structure Lesser (s : NSlots W) (p : PrefixId W) (n : Nat) (ls : List Nat) (s' : NSlots W) : Prop where
  desc : ls.Pairwise (· > ·)
  range : ∀ l ∈ ls, 0 < l ∧ l < n
  sound : ∀ l ∈ ls, Seen s' (p.truncateTo l)
  complete : ∀ l, 0 < l → l < n → Seen s (p.truncateTo l) → l ∈ ls

theorem Lesser.nil {s : NSlots W} {p : PrefixId W} {n : Nat} {s' : NSlots W}
    (h : Longest s p (n - 1) none s') : Lesser s p n [] s' :=
  ⟨List.Pairwise.nil, by simp, by simp, fun l h0 hl hs => absurd hs (h.1 rfl l h0 (by omega))⟩

theorem Lesser.cons {s : NSlots W} {p : PrefixId W} {n l : Nat} {ls : List Nat}
    {s1 s1' s' : NSlots W} (h : Longest s p (n - 1) (some l) s1) (hx : NExt s s1') (hx1 : NExt s1 s')
    (hr : Lesser s1' p l ls s') : Lesser s p n (l :: ls) s' := by
  obtain ⟨h1, h2, h3, h4⟩ := h.2 l rfl
  refine ⟨List.pairwise_cons.2 ⟨fun k hk => (hr.range k hk).2, hr.desc⟩, ?_, ?_, ?_⟩
  · intro k hk
    rcases List.mem_cons.1 hk with rfl | hk
    · omega
    · have := hr.range k hk; omega
  · intro k hk
    rcases List.mem_cons.1 hk with rfl | hk
    · exact h3.ext hx1
    · exact hr.sound k hk
  · intro k h0 hk hs
    rcases Nat.lt_trichotomy k l with h | h | h
    · exact List.mem_cons_of_mem _ (hr.complete k h0 h (hs.ext hx))
    · subst h; simp
    · exact absurd hs (h4 k h (by omega))

theorem wp_lsCollect [Fam W] (hR : NodesOK T R) {p : PrefixId W} (hp : p.Clean) : ∀ (fuel n : Nat)
    (s : NSlots W), n < fuel → n ≤ p.len → SaneN T s →
    wp R RO D (lsCollect p fuel n) (fun r s' => SaneN T s' ∧ NExt s s' ∧
      ∃ ls : List Nat, r = ls.map p.truncateTo ∧ Lesser s p n ls s') s := by
  intro fuel
  induction fuel with
  | zero => intro n s h; omega
  | succ fuel ih =>
    intro n s hn hlp hs
    unfold lsCollect
    rw [wp_bind]
    refine wp_conseq _ (wp_lsFind hR hp (n - 1) s (by omega) hs) ?_
    rintro o s1 ⟨hs1, hx1, ho⟩
    cases o with
    | none => exact ⟨hs1, hx1, [], rfl, Lesser.nil ho⟩
    | some l =>
      have := ho.2 l rfl
      simp only [wp_bind]
      refine wp_conseq _ (ih l s1 (by omega) (by omega) hs1) ?_
      rintro r s2 ⟨hs2, hx2, ls, rfl, hls⟩
      exact ⟨hs2, hx1.trans hx2, l :: ls, rfl, Lesser.cons ho hx1 hx2 hls⟩

/-- `less_specific_prefix_iter(p).collect()` while other calls are running. -/
theorem wp_lessSpecifics [hW : Fam W] (hR : NodesOK T R) {p : PrefixId W} (hp : p.Clean)
    {s : NSlots W} (hs : SaneN T s) :
    wp R RO D (lessSpecifics p) (fun r s' => SaneN T s' ∧ NExt s s' ∧
      ∃ ls : List Nat, r = ls.map p.truncateTo ∧ Lesser s p p.len ls s') s := by
  have h1 := hp.1
  have h2 := hW.width
  exact wp_lsCollect hR hp 256 p.len s (by omega) (Nat.le_refl _) hs

/-! ## Walks of the node table within the store -/

section Store
variable {R : Rib M W → Rib M W → Prop} {C : Prop} {w : PrefixId W}

theorem proj_nodesOK (hR : ∀ s s', R s s' → Grow T s s') :
    NodesOK T (proj (fun s : Rib M W => s.tree.slots) R) := by
  rintro _ _ ⟨s, s', h, rfl, rfl⟩; exact ⟨(hR _ _ h).nodes, (hR _ _ h).just⟩

theorem Sane.n {s : Rib M W} (h : Sane T s) : SaneN T s.tree.slots := ⟨h.nodes, h.just⟩

/-- What other calls do while an iteration below `w` is running; under `C` they
never leave a child missing there. -/
structure During (T : PrefixId W → Mui → Prop) (R : Rib M W → Rib M W → Prop) (w : PrefixId W)
    (C : Prop) : Prop where
  grow : ∀ s s', R s s' → Grow T s s'
  kids : C → ∀ s s', R s s' → Kids w s.tree.slots → Kids w s'.tree.slots

/-- A state an iteration below `w` can run in. -/
structure Live (T : PrefixId W → Mui → Prop) (w : PrefixId W) (C : Prop) (s : Rib M W) : Prop where
  sane : Sane T s
  kids : C → Kids w s.tree.slots

theorem Live.step (hD : During T R w C) {s s' : Rib M W} (h : Live T w C s) (hr : R s s') :
    Live T w C s' := ⟨h.sane.grow (hD.grow _ _ hr), fun c => hD.kids c _ _ hr (h.kids c)⟩

theorem around_nodes (hD : During T R w C) (hT : ∀ p m, T p m → p.Clean) :
    Around (proj (fun s : Rib M W => s.tree.slots) R)
      (fun s => SaneN T s ∧ (C → Kids w s)) w C where
  nr := proj_nodes hD.grow
  stable := by
    rintro _ _ ⟨s, s', h, rfl, rfl⟩ hi
    exact ⟨hi.1.step (proj_nodesOK hD.grow) ⟨s, s', h, rfl, rfl⟩, fun c => hD.kids c _ _ h (hi.2 c)⟩
  inv := fun s h => h.1.inv
  wide := by
    rintro s h n v ⟨a, e, he, hid, hb⟩
    obtain ⟨p, m, hTp, _, hlt, _⟩ := h.1.just.ptr a e v he hb
    have := (hT p m hTp).1
    rw [hid] at hlt
    omega
  kids := fun c s h => h.2 c

theorem wp_live {α : Type} (hD : During T R w C) {prog : Prog (Rib M W) α}
    {Q : α → Rib M W → Prop} {s : Rib M W} (hs : Live T w C s) (h : wp R RO D prog Q s) :
    wp R RO D prog (fun a s' => Live T w C s' ∧ Grow T s s' ∧ Q a s') s := by
  refine wp_conseq _ (wp_carry (P := fun s' => Live T w C s' ∧ Grow T s s')
    (fun a b h hp => ⟨hp.1.step hD h, hp.2.trans (hD.grow _ _ h)⟩)
    (fun a b h hp => by cases h; exact hp) _ ⟨hs, Grow.rfl' s⟩ h) ?_
  exact fun _ _ h => ⟨h.1.1, h.1.2, h.2⟩

/-- What an iteration yields. -/
def Yielded (T : PrefixId W → Mui → Prop) (w : PrefixId W) (C : Prop) (s : Rib M W)
    (P : PrefixId W → Prop) (out : List (PrefixId W)) (s' : Rib M W) : Prop :=
  Yield (fun s => SaneN T s ∧ (C → Kids w s)) C s.tree.slots P out s'.tree.slots

theorem wp_lazily [hW : Fam W] {β : Type} (hD : During T R w C)
    {body : PrefixId W → Prog (Rib M W) β} {B : PrefixId W → β → Prop}
    {s0 : Rib M W} (hb : ∀ p s, p.Clean → 0 < p.len → Sane T s → Grow T s0 s →
      wp R RO D (body p) (fun b _ => B p b) s) :
    ∀ (n f : Nat) (s : Rib M W) (st : MsIter W), msMeasure st < n → Grow T s0 s → Live T w C s →
      CWf w s.tree.slots st → (D ∨ n ≤ f) →
      wp R RO D (lazily msNext body f st) (fun bs s' => Live T w C s' ∧ ∃ out,
        List.Forall₂ B out bs ∧ Yielded T w C s (RemC st) out s') s := by
  intro n
  induction n with
  | zero => intro f s st h; omega
  | succ n ih =>
    intro f s st hn hg0 hl hwf hf
    have hA := around_nodes hD hl.sane.clean
    cases f with
    | zero =>
      rcases hf with h | h
      · exact h
      · omega
    | succ f =>
      unfold lazily
      rw [wp_bind]
      refine wp_conseq _ (wp_live hD hl (wp_onNodes (wp_msNext hA _ (f + 1) _ st hn
        ⟨hl.sane.n, hl.kids⟩ hwf hf))) ?_
      rintro r s1 ⟨hl1, hg1, hI1, hx1, hr⟩
      cases r with
      | none => exact ⟨hl1, [], List.Forall₂.nil, Yield.nil hI1 hx1 hr⟩
      | some x =>
        obtain ⟨p, st'⟩ := x
        have hst : Stored s1.tree.slots p := hr.2.2.2.2.1
        have hm := hr.2.1
        simp only [wp_bind]
        refine wp_conseq _ (wp_live hD hl1 (hb p s1 hst.1 hst.2.1 hl1.sane (hg0.trans hg1))) ?_
        rintro b s2 ⟨hl2, hg2, hB⟩
        refine wp_conseq _ (ih f s2 st' (by omega) ((hg0.trans hg1).trans hg2) hl2 (hr.1.ext hg2.nodes.1)
          (hf.imp id fun h => by omega)) ?_
        rintro bs s3 ⟨hl3, out, hbs, hy⟩
        exact ⟨hl3, p :: out, List.Forall₂.cons hB hbs, Yield.cons hr hx1 hg2.nodes.1 hy⟩

/-- `more_specific_prefix_iter_from(p).map(body).collect()`. -/
theorem wp_eachMore [hW : Fam W] {β : Type} {p : PrefixId W} (hD : During T R p C)
    {body : PrefixId W → Prog (Rib M W) β} {B : PrefixId W → β → Prop}
    {s : Rib M W} (hb : ∀ p s', p.Clean → 0 < p.len → Sane T s' → Grow T s s' →
      wp R RO D (body p) (fun b _ => B p b) s')
    (hp : p.Clean) {fuel : Nat} (hf : D ∨ iterFuel W ≤ fuel) (hl : Live T p C s) :
    wp R RO D (eachMore fuel p body) (fun bs s' => Live T p C s' ∧ ∃ out,
      List.Forall₂ B out bs ∧ Yielded T p C s (MoreOf p) out s') s := by
  have hA := around_nodes hD hl.sane.clean
  unfold eachMore
  rw [wp_bind]
  refine wp_conseq _ (wp_live hD hl (wp_onNodes (wp_moreSpecificStart hA ⟨hl.sane.n, hl.kids⟩ hp))) ?_
  rintro r s1 ⟨hl1, hg1, hI1, hx1, hr⟩
  cases r with
  | none =>
    exact ⟨hl1, [], List.Forall₂.nil, hI1, hx1, List.nodup_nil, by simp,
      fun _ q hs hq => (hr q hs hq).elim⟩
  | some st =>
    have hm := hr.2.1
    refine wp_conseq _ (wp_lazily hD hb _ fuel s1 st (Nat.lt_succ_self _) hg1 hl1 hr.1
      (hf.imp id fun h => by omega)) ?_
    rintro bs s2 ⟨hl2, out, hbs, hy⟩
    exact ⟨hl2, out, hbs, Yield.start hr hx1 (NExt.rfl' _) hy⟩

/-- `less_specific_prefix_iter(p).map(body).collect()`, from a level. -/
theorem wp_lazilyLess [Fam W] {β : Type} (hR : ∀ s s', R s s' → Grow T s s') {p : PrefixId W}
    (hp : p.Clean) {body : PrefixId W → Prog (Rib M W) β} {B : PrefixId W → β → Prop}
    {s0 : Rib M W} (hb : ∀ p s, p.Clean → 0 < p.len → Sane T s → Grow T s0 s →
      wp R RO D (body p) (fun b _ => B p b) s) :
    ∀ (fuel n : Nat) (s : Rib M W), n < fuel → n ≤ p.len → Grow T s0 s → Sane T s →
      wp R RO D (lazily (fun _ => lsNext p) body fuel n) (fun bs s' => Grow T s s' ∧
        ∃ ls : List Nat, List.Forall₂ B (ls.map p.truncateTo) bs ∧
          Lesser s.tree.slots p n ls s'.tree.slots) s := by
  intro fuel
  induction fuel with
  | zero => intro n s h; omega
  | succ fuel ih =>
    intro n s hn hlp hg0 hs
    have hpW := hp.1
    unfold lazily lsNext
    rw [wp_bind]
    refine wp_conseq _ (wp_reader hR (wp_onNodes ?_ (Q := fun r s' => SaneN T s' ∧
      NExt s.tree.slots s' ∧ ∃ o : Option Nat, r = o.map (fun l => (p.truncateTo l, l)) ∧
        Longest s.tree.slots p (n - 1) o s'))) ?_
    · rw [wp_bind]
      refine wp_conseq _ (wp_lsFind (proj_nodesOK hR) hp (n - 1) _ (by omega) hs.n) ?_
      rintro o s1 ⟨h1, h2, h3⟩
      cases o with
      | none => exact ⟨h1, h2, none, rfl, h3⟩
      | some l => exact ⟨h1, h2, some l, rfl, h3⟩
    rintro r s1 ⟨hg1, hn1, hx1, o, rfl, ho⟩
    cases o with
    | none => exact ⟨hg1, [], List.Forall₂.nil, Lesser.nil ho⟩
    | some l =>
      obtain ⟨h1, h2, h3, h4⟩ := ho.2 l rfl
      have hs1 := hs.grow hg1
      simp only [Option.map_some, wp_bind]
      refine wp_conseq _ (wp_reader hR (hb (p.truncateTo l) s1 (truncateTo_clean p (by omega)) h1 hs1
        (hg0.trans hg1))) ?_
      rintro b s2 ⟨hg2, hB⟩
      refine wp_conseq _ (ih l s2 (by omega) (by omega) ((hg0.trans hg1).trans hg2) (hs1.grow hg2)) ?_
      rintro bs s3 ⟨hg3, ls, hbs, hls⟩
      exact ⟨hg1.trans (hg2.trans hg3), l :: ls, List.Forall₂.cons hB hbs,
        Lesser.cons ho (hx1.trans hg2.nodes.1) (hg2.trans hg3).nodes.1 hls⟩

theorem wp_eachLess [hW : Fam W] {β : Type} (hR : ∀ s s', R s s' → Grow T s s') {p : PrefixId W}
    (hp : p.Clean) {body : PrefixId W → Prog (Rib M W) β} {B : PrefixId W → β → Prop}
    {s : Rib M W} (hb : ∀ p s', p.Clean → 0 < p.len → Sane T s' → Grow T s s' →
      wp R RO D (body p) (fun b _ => B p b) s') (hs : Sane T s) :
    wp R RO D (eachLess p body) (fun bs s' => Grow T s s' ∧
      ∃ ls : List Nat, List.Forall₂ B (ls.map p.truncateTo) bs ∧
        Lesser s.tree.slots p p.len ls s'.tree.slots) s := by
  have h1 := hp.1
  have h2 := hW.width
  exact wp_lazilyLess hR hp hb 256 p.len s (by omega) (Nat.le_refl _) (Grow.rfl' s) hs

end Store

end Rotonda
