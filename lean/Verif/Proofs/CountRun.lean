import Verif.Proofs.CountCalls

/-!
# The prefix counters along a run
-/

namespace Rotonda

open Prog Spec

variable {M : Type} [Meta M] {W : Nat} {ι : Type} [DecidableEq ι] {calls : ι → Call M W}

/-- Call `i` has counted a prefix in the first `n` steps. -/
def Counted (c : Conf (Rib M W) ι (fun i => (calls i).Ans)) (t : List ι) (i : ι) (n : ℕ) : Prop :=
  ∃ m, m < n ∧ ∃ hm : m < t.length, t[m] = i ∧ (c.at t (m + 1)).st.prefixes ≠ (c.at t m).st.prefixes

theorem Counted.mono {c : Conf (Rib M W) ι (fun i => (calls i).Ans)} {t : List ι} {i : ι} {n n' : ℕ}
    (h : Counted c t i n) (hn : n ≤ n') : Counted c t i n' := by
  obtain ⟨m, h1, h2⟩ := h
  exact ⟨m, by omega, h2⟩

theorem counted_succ {c : Conf (Rib M W) ι (fun i => (calls i).Ans)} {t : List ι} {i : ι} {n : ℕ}
    (hn : n < t.length) : Counted c t i (n + 1) ↔ Counted c t i n ∨
      (t[n] = i ∧ (c.at t (n + 1)).st.prefixes ≠ (c.at t n).st.prefixes) := by
  constructor
  · rintro ⟨m, h1, hm, h2⟩
    by_cases hmn : m = n
    · subst hmn; exact .inr h2
    · exact .inl ⟨m, by omega, hm, h2⟩
  · rintro (h | h)
    · exact h.mono (by omega)
    · exact ⟨n, by omega, hn, h⟩

/-- Another call puts the prefix of call `i` into the tree. -/
def Overtaken (c : Conf (Rib M W) ι (fun i => (calls i).Ans)) (t : List ι) (i : ι) (p : PrefixId W) :
    Prop :=
  ∃ m, ∃ hm : m < t.length, t[m] ≠ i ∧ ¬ Known p (c.at t m).st ∧ Known p (c.at t (m + 1)).st

section
variable [Fam W] {st : Strategy} {F0 F fuel : Nat} (hF : 32 ≤ F) (hf : iterFuel W ≤ fuel)
  {h : History M W} {s : Rib M W} (hs : exec st F0 h = .ok () s) (t : List ι)
include hF hf hs

/-- What the steps of a run do. -/
theorem run_steps : ∀ n (hn : n < t.length),
    Grow (begunIds h calls t) ((start st F fuel s calls).at t n).st
      ((start st F fuel s calls).at t (n + 1)).st ∧
    (∀ q, q.Clean → Known q ((start st F fuel s calls).at t (n + 1)).st →
      Known q ((start st F fuel s calls).at t n).st ∨
        ∃ p r tbi, calls t[n] = .insert p r tbi ∧ q = p.id) ∧
    (((start st F fuel s calls).at t (n + 1)).st.prefixes =
        ((start st F fuel s calls).at t n).st.prefixes ∨
      ∃ p r tbi, calls t[n] = .insert p r tbi ∧
        ((start st F fuel s calls).at t (n + 1)).st.prefixes =
          bump p.len ((start st F fuel s calls).at t n).st.prefixes) := by
  have key := conc_steps (Grow.isRely (begunIds h calls t))
    (G := fun i a b => ∃ s0 g g', (calls i).CountG (begunIds h calls t) s0 (a, g) (b, g'))
    (fun i a b ⟨_, _, _, h⟩ => h.grow) (D := fun i => (calls i).MayLoop)
    (I := Sane (begunIds h calls t)) (fun _ _ h hg => h.grow hg)
    (start st F fuel s calls) (sane_start hs calls t) t (fun i hi x hx =>
      wp_mono _ (fun _ _ h => h) (fun a b ⟨g, g', h⟩ => ⟨x, g, g', h⟩) (fun h => h)
        (fun _ _ _ => trivial) (gwp_forget _ (Call.count (Grow.isRely _) (fun _ _ h => h) st hF hf
          (calls i) (begun_in hi) (K := True) (fun _ _ _ _ _ _ _ h => absurd trivial h) hx)))
  intro n hn
  rcases key n hn with he | ⟨s0, g, g', hg⟩
  · rw [he]
    exact ⟨Grow.rfl' _, fun _ _ h => .inl h, .inl rfl⟩
  · refine ⟨hg.grow, hg.only, ?_⟩
    rcases hg.count with ⟨_, h⟩ | ⟨_, _, p, r, tbi, h1, _, h2⟩
    · exact .inl h
    · exact .inr ⟨p, r, tbi, h1, h2⟩

theorem run_known_mono {p : PrefixId W} {m n : ℕ} (hmn : m ≤ n) (hn : n ≤ t.length)
    (hk : Known p ((start st F fuel s calls).at t m).st) :
    Known p ((start st F fuel s calls).at t n).st := by
  induction n, hmn using Nat.le_induction with
  | base => exact hk
  | succ n _ ih => exact (ih (by omega)).grow (run_steps hF hf hs t n hn).1

theorem run_sane_at {n : ℕ} (hn : n ≤ t.length) :
    Sane (begunIds h calls t) ((start st F fuel s calls).at t n).st := by
  induction n with
  | zero => exact sane_start hs calls t
  | succ n ih => exact (ih (by omega)).grow (run_steps hF hf hs t n hn).1

/-- An insert along a run.  It has not started after `k` steps. -/
theorem insert_along {i : ι} {p : Prefix W} {r : Record M} {tbi : Option (Meta.TBI M)}
    (hc : calls i = .insert p r tbi) (hi : i ∈ t) {k : ℕ} (hk : k ≤ t.length) (hnot : i ∉ t.take k) :
    (∀ m (hm : m < t.length), t[m] = i → ((start st F fuel s calls).at t (m + 1)).st.prefixes ≠
        ((start st F fuel s calls).at t m).st.prefixes →
      ((start st F fuel s calls).at t (m + 1)).st.prefixes =
        bump p.len ((start st F fuel s calls).at t m).st.prefixes ∧
      ¬ Known p.id ((start st F fuel s calls).at t k).st ∧
      ¬ Counted (start st F fuel s calls) t i m) ∧
    ∀ n, k ≤ n → n ≤ t.length → ∀ a : Except StoreError UpsertReport,
      Returned ((start st F fuel s calls).at t n) i (.insert p r tbi) a →
      Known p.id ((start st F fuel s calls).at t n).st ∧
      (Counted (start st F fuel s calls) t i n → ∃ rep, a = .ok rep ∧ rep.prefixNew = true) ∧
      ∀ rep, a = .ok rep → ¬ Counted (start st F fuel s calls) t i n →
        Overtaken (start st F fuel s calls) t i p.id ∨
          Known p.id ((start st F fuel s calls).at t k).st := by
  generalize hcc : start st F fuel s calls = c
  have hsteps := run_steps (calls := calls) hF hf hs t
  have hsane := run_sane_at (calls := calls) hF hf hs t (n := k) hk
  rw [hcc] at hsteps hsane
  have hpl : p.len ≤ 128 := by
    have := p.clean.1
    have hw := (inferInstance : Fam W).width
    change p.len ≤ W at this
    omega
  let R : Rib M W → Rib M W → Prop := fun a b => Grow (begunIds h calls t) a b ∧
    (¬ Overtaken c t i p.id → ¬ Known p.id a → ¬ Known p.id b)
  have hR : IsRely R := ⟨fun a => ⟨Grow.rfl' a, fun _ h => h⟩,
    fun h1 h2 => ⟨h1.1.trans h2.1, fun hn hk => h2.2 hn (h1.2 hn hk)⟩⟩
  have hpool : (c.at t k).pool i = (calls i).prog st F fuel := by
    rw [← hcc]
    exact Conf.exec_idle _ hnot
  obtain ⟨gh, h0, hst, hgwp⟩ := gwp_along hR (G := (calls i).CountG (begunIds h calls t) (c.at t k).st)
    (D := (calls i).MayLoop) (i := i)
    (Q := fun a y => (calls i).CountPost (Overtaken c t i p.id) (c.at t k).st a y.1 y.2)
    (fun a x y hr hq => by rw [hr.2]; exact hq.grow _ hr.1.1)
    (t.drop k) (c.at t k) false (fun n hn hne => by
      have hn' : k + n < t.length := by simpa [Nat.lt_sub_iff_add_lt'] using hn
      rw [List.getElem_drop] at hne
      rw [Conf.at_drop, Conf.at_drop]
      refine ⟨(hsteps (k + n) hn').1, fun ho hk1 hk2 => ho ⟨k + n, hn', hne, hk1, hk2⟩⟩) (by
      rw [hpool]
      refine Call.count hR (fun _ _ h => h.1) st hF hf (calls i) (begun_in hi) ?_ hsane
      intro p' r' tbi' he a b hab
      rw [hc] at he; cases he
      exact hab.2)
  simp only [Conf.at_drop, List.getElem_drop, List.length_drop] at hst hgwp
  have hflag : ∀ n, k + n ≤ t.length → (gh n = true ↔ Counted c t i (k + n)) := by
    intro n
    induction n with
    | zero =>
      intro _
      rw [h0]
      refine ⟨fun h => (by cases h), fun ⟨m, h1, hm, h2, _⟩ => ?_⟩
      refine absurd ?_ hnot
      rw [← h2]
      exact List.mem_take_iff_getElem.2 ⟨m, by omega, rfl⟩
    | succ n ih =>
      intro hn
      have hn' : k + n < t.length := by omega
      have hst' := hst n (by omega)
      rw [← Nat.add_assoc, counted_succ hn', ← ih (by omega)]
      by_cases hti : t[k + n] = i
      · rcases hst'.2 hti with ⟨h1, h2⟩ | hg
        · rw [h2]
          refine ⟨.inl, fun h => h.elim id fun h => ?_⟩
          refine absurd ?_ h.2
          rw [Nat.add_assoc, h1]
        · rcases hg.count with ⟨h1, h2⟩ | ⟨h1, h2, p', r', tbi', h3, h4, h5⟩
          · simp only at h1 h2
            rw [h1]
            refine ⟨.inl, fun h => h.elim id fun h => ?_⟩
            exact absurd h2 h.2
          · simp only at h1 h2 h5
            rw [hc] at h3; cases h3
            refine ⟨fun _ => .inr ⟨hti, ?_⟩, fun _ => h2⟩
            rw [Nat.add_assoc, h5]
            exact bump_ne hpl _
      · rw [hst'.1 hti]
        exact ⟨.inl, fun h => h.elim id fun h => absurd h.1 hti⟩
  refine ⟨fun m hm hti hne => ?_, fun n hkn hn a ha => ?_⟩
  · have hkm : k ≤ m := by
      by_contra hlt
      exact hnot (hti ▸ List.mem_take_iff_getElem.2 ⟨m, by omega, rfl⟩)
    obtain ⟨d, rfl⟩ := Nat.exists_eq_add_of_le hkm
    rcases (hst d (by omega)).2 hti with ⟨h1, _⟩ | hg
    · exact absurd (congrArg Rib.prefixes h1) hne
    · rcases hg.count with ⟨_, h2⟩ | ⟨h1, h2, p', r', tbi', h3, h4, h5⟩
      · exact absurd h2 hne
      · rw [hc] at h3; cases h3
        simp only at h1
        refine ⟨h5, h4, fun hcnt => ?_⟩
        rw [(hflag d (by omega)).2 hcnt] at h1; cases h1
  · obtain ⟨d, rfl⟩ := Nat.exists_eq_add_of_le hkn
    have hw := hgwp d (by omega)
    have hpost : Call.CountPost (Overtaken c t i p.id) (c.at t k).st (.insert p r tbi) a
        (c.at t (k + d)).st (gh d) :=
      returned_elim ha (Q := fun x a => x.CountPost (Overtaken c t i p.id) (c.at t k).st a
        (c.at t (k + d)).st (gh d)) fun b hb => by rw [hb] at hw; exact hw
    refine ⟨hpost.1, fun hcnt => hpost.2.1 ((hflag d hn).2 hcnt), fun rep hr hcnt => hpost.2.2 rep hr ?_⟩
    by_contra hg
    exact hcnt ((hflag d hn).1 (by simpa using hg))

end

omit [DecidableEq ι] in
theorem known_start [Fam W] {st : Strategy} {F0 : Nat} {h : History M W} {s : Rib M W}
    (hs : exec st F0 h = .ok () s) {p : Prefix W} : Known p.id s ↔ Present h p := by
  constructor
  · have hi := exec_ok_inv hs
    have hpres : ∀ {q : PrefixId W} {m : Mui}, pairsOf h q m → q = p.id → Present h p := by
      rintro q m ⟨p', hp', hm⟩ rfl
      exact ⟨m, Prefix.id_inj hp' ▸ hm⟩
    rintro (⟨h0, hk⟩ | ⟨h0, hk⟩)
    · obtain ⟨m, hm⟩ := seen_pair (Sane.of_inv hi) (q := p) ⟨h0, hk⟩
      exact hpres hm rfl
    · obtain ⟨q, m, hm, hq0⟩ := hi.tree.dflt.1 hk
      exact hpres hm (clean_zero (hi.tree.clean _ _ hm) p.clean hq0 h0)
  · rintro ⟨m, hm⟩
    exact (inserted_placed hs hm).known

/-- The prefix an insert is about. -/
def Call.pfx : Call M W → Prefix W
  | .insert p _ _ => p
  | _ => ⟨0#W, 0, Nat.zero_le _, fun i _ => by simp⟩

/-- The calls that have counted a prefix of length `l`. -/
def counters (c : Conf (Rib M W) ι (fun i => (calls i).Ans)) (t : List ι) (l n : ℕ) : Set ι :=
  {i | Counted c t i n ∧ ∃ p, Inserts (calls i) p ∧ p.len = l}

theorem Counted.mem {c : Conf (Rib M W) ι (fun i => (calls i).Ans)} {t : List ι} {i : ι} {n : ℕ}
    (h : Counted c t i n) : i ∈ t := by
  obtain ⟨m, _, hm, rfl, _⟩ := h
  exact List.getElem_mem _

theorem counters_finite (c : Conf (Rib M W) ι (fun i => (calls i).Ans)) (t : List ι) (l n : ℕ) :
    (counters c t l n).Finite :=
  (List.finite_toSet t).subset fun _ hi => hi.1.mem

section
variable [Fam W] {st : Strategy} {F0 F fuel : Nat} (hF : 32 ≤ F) (hf : iterFuel W ≤ fuel)
  {h : History M W} {s : Rib M W} (hs : exec st F0 h = .ok () s) (t : List ι)
include hF hf hs

/-- The counter for a length is the number of prefixes at the start and of calls that
counted one since. -/
theorem count_eq (l : ℕ) : ∀ n, n ≤ t.length → ((start st F fuel s calls).at t n).st.prefixes l =
    Set.ncard {p : Prefix W | Present h p ∧ p.len = l} +
      (counters (start st F fuel s calls) t l n).ncard := by
  intro n
  induction n with
  | zero =>
    intro _
    have : counters (start st F fuel s calls) t l 0 = ∅ := by
      ext i
      simp only [counters, Set.mem_ofPred_eq, Set.mem_empty_iff_false, iff_false]
      rintro ⟨⟨m, hm, _⟩, _⟩
      omega
    rw [this, Set.ncard_empty]
    exact (exec_ok_inv hs).prefixes l
  | succ n ih =>
    intro hn
    have ih := ih (by omega)
    rcases (run_steps (calls := calls) hF hf hs t n hn).2.2 with he | ⟨p, r, tbi, hc, he⟩
    · have : counters (start st F fuel s calls) t l (n + 1) =
          counters (start st F fuel s calls) t l n := by
        ext i
        simp only [counters, Set.mem_ofPred_eq, counted_succ hn]
        refine and_congr_left fun _ => ⟨fun h => h.elim id fun h => absurd he h.2, .inl⟩
      rw [this, he, ih]
    · have hpl : p.len ≤ 128 := by
        have := p.clean.1
        have hw := (inferInstance : Fam W).width
        change p.len ≤ W at this
        omega
      have hne : ((start st F fuel s calls).at t (n + 1)).st.prefixes ≠
          ((start st F fuel s calls).at t n).st.prefixes := by rw [he]; exact bump_ne hpl _
      have hnot := ((insert_along hF hf hs t hc (List.getElem_mem hn) (k := 0) (by omega)
        (by simp)).1 n hn rfl hne).2.2
      rw [he]
      by_cases hl : p.len = l
      · have : counters (start st F fuel s calls) t l (n + 1) =
            insert t[n] (counters (start st F fuel s calls) t l n) := by
          ext i
          simp only [counters, Set.mem_ofPred_eq, counted_succ hn, Set.mem_insert_iff]
          constructor
          · rintro ⟨h | ⟨h, _⟩, h'⟩
            · exact .inr ⟨h, h'⟩
            · exact .inl h.symm
          · rintro (rfl | ⟨h, h'⟩)
            · exact ⟨.inr ⟨rfl, hne⟩, p, ⟨r, tbi, hc⟩, hl⟩
            · exact ⟨.inl h, h'⟩
        rw [this, Set.ncard_insert_of_notMem (fun hm => hnot hm.1) (counters_finite _ _ _ _)]
        simp only [bump, hl]
        rw [if_pos ⟨trivial, by omega⟩, ih]
        omega
      · have : counters (start st F fuel s calls) t l (n + 1) =
            counters (start st F fuel s calls) t l n := by
          ext i
          simp only [counters, Set.mem_ofPred_eq, counted_succ hn]
          constructor
          · rintro ⟨h | ⟨h, _⟩, h'⟩
            · exact ⟨h, h'⟩
            · obtain ⟨p', ⟨r', tbi', hc'⟩, hl'⟩ := h'
              rw [← h, hc] at hc'
              cases hc'
              exact absurd hl' hl
          · rintro ⟨h, h'⟩
            exact ⟨.inl h, h'⟩
        rw [this]
        simp only [bump]
        rw [if_neg (fun h => hl h.1.symm), ih]

/-- A call counts only prefixes that were not there before it started. -/
theorem counted_new {i : ι} {n : ℕ} (hcnt : Counted (start st F fuel s calls) t i n) :
    ∃ p, Inserts (calls i) p ∧ ∀ k, k ≤ t.length → i ∉ t.take k →
      ¬ Known p.id ((start st F fuel s calls).at t k).st := by
  have hi := hcnt.mem
  obtain ⟨m, _, hm, hti, hne⟩ := hcnt
  rcases (run_steps (calls := calls) hF hf hs t m hm).2.2 with he | ⟨p, r, tbi, hc, he⟩
  · exact absurd he hne
  · rw [hti] at hc
    exact ⟨p, ⟨r, tbi, hc⟩, fun k hk hnot =>
      ((insert_along hF hf hs t hc hi hk hnot).1 m hm hti hne).2.1⟩

/-- The prefixes counted during the run are new. -/
theorem counted_image (l : ℕ) {n : ℕ} :
    (fun i => (calls i).pfx) '' counters (start st F fuel s calls) t l n ⊆
      {p | (p ∈ prefixesBy h calls t ∧ p.len = l) ∧ ¬ Present h p} := by
  rintro _ ⟨i, ⟨hcnt, p', hins', hl⟩, rfl⟩
  obtain ⟨p, hins, hnew⟩ := counted_new hF hf hs t hcnt
  obtain ⟨r, tbi, hc⟩ := hins
  obtain ⟨r', tbi', hc'⟩ := hins'
  rw [hc] at hc'
  cases hc'
  have hp : (calls i).pfx = p' := by rw [hc]; rfl
  show ((calls i).pfx ∈ prefixesBy h calls t ∧ (calls i).pfx.len = l) ∧ ¬ Present h (calls i).pfx
  rw [hp]
  exact ⟨⟨.inr ⟨i, hcnt.mem, r, tbi, hc⟩, hl⟩,
    fun hpr => hnew 0 (by omega) (by simp) ((known_start hs).2 hpr)⟩

/-- When all inserts have succeeded, every new prefix was counted. -/
theorem all_counted (hall : AllInserted ((start st F fuel s calls).exec t) t) (l : ℕ) :
    {p | (p ∈ prefixesBy h calls t ∧ p.len = l) ∧ ¬ Present h p} ⊆
      (fun i => (calls i).pfx) '' counters (start st F fuel s calls) t l t.length := by
  rintro p ⟨⟨hp | ⟨j, hj, r, tbi, hc⟩, hl⟩, hnp⟩
  · exact absurd hp hnp
  have hsteps := run_steps (calls := calls) hF hf hs t
  have hret : ∀ i ∈ t, ∀ r tbi, calls i = .insert p r tbi → ∃ rep,
      Returned ((start st F fuel s calls).at t t.length) i (.insert p r tbi) (.ok rep) := by
    intro i hi r tbi hc
    rw [Conf.at_length]
    exact hall i hi p r tbi hc
  obtain ⟨rep, hr⟩ := hret j hj r tbi hc
  have hend := ((insert_along hF hf hs t hc hj (k := 0) (by omega) (by simp)).2 t.length (by omega)
    (Nat.le_refl _) _ hr).1
  have hbeg : ¬ Known p.id ((start st F fuel s calls).at t 0).st := fun hk =>
    hnp ((known_start hs).1 hk)
  -- the step that puts the prefix into the tree
  have hfirst : ∀ n, Known p.id ((start st F fuel s calls).at t n).st → ∃ m, m < n ∧
      ¬ Known p.id ((start st F fuel s calls).at t m).st ∧
      Known p.id ((start st F fuel s calls).at t (m + 1)).st := by
    intro n
    induction n with
    | zero => exact fun h => absurd h hbeg
    | succ n ih =>
      intro hk
      by_cases hn : Known p.id ((start st F fuel s calls).at t n).st
      · obtain ⟨m, h1, h2⟩ := ih hn
        exact ⟨m, by omega, h2⟩
      · exact ⟨n, by omega, hn, hk⟩
  obtain ⟨m, hm, hk1, hk2⟩ := hfirst _ hend
  obtain ⟨q, r', tbi', hc', hq⟩ := ((hsteps m hm).2.1 p.id p.clean hk2).resolve_left hk1
  obtain rfl := Prefix.id_inj hq
  obtain ⟨rep', hr'⟩ := hret _ (List.getElem_mem hm) r' tbi' hc'
  have hfacts := (insert_along hF hf hs t hc' (List.getElem_mem hm) (k := 0) (by omega)
    (by simp)).2 t.length (by omega) (Nat.le_refl _) _ hr'
  refine ⟨t[m], ⟨?_, p, ⟨r', tbi', hc'⟩, hl⟩, by simp only [hc']; rfl⟩
  by_contra hcnt
  rcases hfacts.2.2 rep' rfl hcnt with ⟨m', hm', hne, hk1', hk2'⟩ | hk
  · have : m' = m := by
      rcases Nat.lt_trichotomy m' m with hlt | he | hgt
      · exact absurd (run_known_mono hF hf hs t (by omega) (by omega) hk2') hk1
      · exact he
      · exact absurd (run_known_mono hF hf hs t (by omega) (by omega) hk2) hk1'
    subst this
    exact hne rfl
  · exact hbeg hk

/-- No prefix is counted twice when inserts of the same new prefix are apart. -/
theorem counted_once (hap : Apart h (start st F fuel s calls) t) (l : ℕ) :
    Set.InjOn (fun i => (calls i).pfx) (counters (start st F fuel s calls) t l t.length) := by
  rintro i ⟨hci, _⟩ j ⟨hcj, _⟩ hij
  by_contra hne
  obtain ⟨p, ⟨r, tbi, hc⟩, hnew⟩ := counted_new hF hf hs t hci
  obtain ⟨p', ⟨r', tbi', hc'⟩, hnew'⟩ := counted_new hF hf hs t hcj
  have : p = p' := by
    have h1 : (calls i).pfx = p := by rw [hc]; rfl
    have h2 : (calls j).pfx = p' := by rw [hc']; rfl
    exact h1.symm.trans (hij.trans h2)
  subst this
  have hnp : ¬ Present h p := fun hpr => hnew 0 (by omega) (by simp) ((known_start hs).2 hpr)
  -- one call had returned before the other started
  have key : ∀ (i j : ι) (r : Record M) (tbi : Option (Meta.TBI M)), calls i = .insert p r tbi → i ∈ t →
      (∀ k, k ≤ t.length → j ∉ t.take k → ¬ Known p.id ((start st F fuel s calls).at t k).st) →
      NotBefore (start st F fuel s calls) t i j := by
    intro i j r tbi hc hi hnew n hj a ha
    have hshort : ∃ k, k ≤ t.length ∧ t.take k = t.take n := by
      rcases Nat.le_total n t.length with h | h
      · exact ⟨n, h, rfl⟩
      · exact ⟨t.length, Nat.le_refl _, by rw [List.take_length, List.take_of_length_le h]⟩
    obtain ⟨k, hk, hkn⟩ := hshort
    rw [← hkn] at hj ha
    obtain ⟨b, hb⟩ : ∃ b, Returned ((start st F fuel s calls).at t k) i (.insert p r tbi) b :=
      ⟨hc ▸ a, hc, by
        change ((start st F fuel s calls).exec (t.take k)).pool i = _
        rw [ha]
        congr 1
        exact (eq_of_heq ((eqRec_heq _ _).trans (eqRec_heq _ _))).symm⟩
    exact hnew k hk hj ((insert_along hF hf hs t hc hi (k := 0) (by omega) (by simp)).2 k
      (by omega) hk b hb).1
  rcases hap i hci.mem j hcj.mem hne p ⟨r, tbi, hc⟩ ⟨r', tbi', hc'⟩ hnp with h | h
  · exact h (key i j r tbi hc hci.mem hnew')
  · exact h (key j i r' tbi' hc' hcj.mem hnew)

end

end Rotonda
