import Verif.Proofs.LinCalls
import Verif.Proofs.ConcRun
import Verif.Proofs.Starts

/-!
# Runs, with the order in which the calls take effect
-/

namespace Rotonda

open Prog Spec

variable {M : Type} [Meta M] {W : Nat} {ι : Type}

/-- When the persisted records are described. -/
def poCond (st : Strategy) (calls : ι → Call M W) : Prop := st = .persistOnly ∧ NoActivations calls

theorem Spec.Tracked.cases {st : Strategy} {calls : ι → Call M W} (ht : Tracked st calls) :
    st.inMemory = true ∨ (poCond st calls ∧ st = .persistOnly) := by
  cases st with
  | persistOnly => exact .inr ⟨⟨rfl, ht rfl⟩, rfl⟩
  | _ => exact .inl rfl

/-- With `PersistHistory`: once the insert `i` is done, the record it replaced is
persisted. -/
def ReplacedKept (h : History M W) (calls : ι → Call M W) (i : ι) (p : Prefix W) (m : Mui)
    (l : List ι) (d : Lsm) : Prop :=
  ∃ l2, i :: l2 <:+ l ∧ ∀ old, recOf (histAfter h calls l2) p m = some old → Persisted d (tagOf p old)

/-- With `PersistHistory`: once the status change `i` is done, a marker is persisted if
there was a record. -/
def MarkerKept (h : History M W) (calls : ι → Call M W) (i : ι) (p : Prefix W) (m : Mui)
    (t : LTime) (l : List ι) (d : Lsm) : Prop :=
  ∃ l2, i :: l2 <:+ l ∧
    (recOf (histAfter h calls l2) p m ≠ none → Persisted d (⟨p, m, t, .withdrawn⟩ : Tag W))

/-- What call `i`, started when the log was `l0`, guarantees about its answer when
the log is `l` and `d` is persisted. -/
def Call.LinPost (st : Strategy) (h : History M W) (calls : ι → Call M W) (i : ι)
    (l0 : List ι) : (x : Call M W) → x.Ans → List ι → Lsm → Prop
  | .insert p r _, res, l, d => i ∈ l ∧ (st = .persistHistory →
      (∃ rep, (res : Except StoreError UpsertReport) = .ok rep) → ReplacedKept h calls i p r.mui l d) ∧
      (HadMui res → ∃ l2, i :: l2 <:+ l ∧ recOf (histAfter h calls l2) p r.mui ≠ none) ∧
      (IsError (res : Except StoreError UpsertReport) → ∀ p r, calls i ≠ .insert p r none)
  | .withdrawFor p m t, res, l, d =>
    (Tracked st calls → (i ∈ l ↔ (res : Except StoreError Unit) = .ok ())) ∧
    (st = .persistHistory → (res : Except StoreError Unit) = .ok () → MarkerKept h calls i p m t l d)
  | .activateFor p m t, res, l, d =>
    (Tracked st calls → (i ∈ l ↔ (res : Except StoreError Unit) = .ok ())) ∧
    (st = .persistHistory → (res : Except StoreError Unit) = .ok () → MarkerKept h calls i p m t l d)
  | .withdraw _, _, l, _ => i ∈ l
  | .activate _, _, l, _ => i ∈ l
  | .getRecords p mui iw, res, l, _ => Tracked st calls → ∃ v,
      (res : FatalResult (Option (List (Record M)))) = .ok v ∧
      ∃ l1 l2, l0 <:+ l1 ∧ l1 <:+ l2 ∧ l2 <:+ l ∧
        v = valueOf st (under (histAfter h calls l1) (histAfter h calls l2)) p mui iw
  | .muiIsWithdrawn m, b, l, _ => ∃ l1, l0 <:+ l1 ∧ l1 <:+ l ∧
      (b : Bool) = globWd (histAfter h calls l1) m
  | .isMuiActive m, b, l, _ => ∃ l1, l0 <:+ l1 ∧ l1 <:+ l ∧
      (b : Bool) = !globWd (histAfter h calls l1) m
  | _, _, _, _ => True

section
variable {st : Strategy} {T : PrefixId W → Mui → Prop} {h : History M W} {calls : ι → Call M W}

theorem Call.LinPost.step {i : ι} {l0 : List ι} (x : Call M W) {a : x.Ans} {l l' : List ι} {d d' : Lsm}
    (hl : l <:+ l') (hi : i ∈ l' → i ∈ l) (hd : ∀ k : Tag W, Persisted d k → Persisted d' k)
    (hp : x.LinPost st h calls i l0 a l d) : x.LinPost st h calls i l0 a l' d' := by
  have hm : i ∈ l → i ∈ l' := fun h => hl.subset h
  have hk : ∀ {p m t}, MarkerKept h calls i p m t l d → MarkerKept h calls i p m t l' d' := by
    rintro p m t ⟨l2, h1, h2⟩
    exact ⟨l2, h1.trans hl, fun c => hd _ (h2 c)⟩
  cases x with
  | insert p r tbi =>
    refine ⟨hm hp.1, fun c c' => ?_, fun c => ?_, hp.2.2.2⟩
    · obtain ⟨l2, h1, h2⟩ := hp.2.1 c c'
      exact ⟨l2, h1.trans hl, fun old ho => hd _ (h2 old ho)⟩
    · obtain ⟨l2, h1, h2⟩ := hp.2.2.1 c
      exact ⟨l2, h1.trans hl, h2⟩
  | withdraw m => exact hm hp
  | activate m => exact hm hp
  | withdrawFor p m t =>
    exact ⟨fun hs => ⟨fun x => (hp.1 hs).1 (hi x), fun x => hm ((hp.1 hs).2 x)⟩,
      fun c c' => hk (hp.2 c c')⟩
  | activateFor p m t =>
    exact ⟨fun hs => ⟨fun x => (hp.1 hs).1 (hi x), fun x => hm ((hp.1 hs).2 x)⟩,
      fun c c' => hk (hp.2 c c')⟩
  | getRecords p mui iw =>
    intro ht
    obtain ⟨v, hv, l1, l2, h1, h2, h3, h4⟩ := hp ht
    exact ⟨v, hv, l1, l2, h1, h2, h3.trans hl, h4⟩
  | muiIsWithdrawn m =>
    obtain ⟨l1, h1, h2, h3⟩ := hp
    exact ⟨l1, h1, h2.trans hl, h3⟩
  | isMuiActive m =>
    obtain ⟨l1, h1, h2, h3⟩ := hp
    exact ⟨l1, h1, h2.trans hl, h3⟩
  | _ => trivial

theorem silent_rewriteAll {po : Prop} (hpo : ¬ po) (t : LTime) (rs : RouteStatus) :
    ∀ bs : List Bytes, (rewriteAll (M := M) W t rs bs).Always (Silent po) := by
  intro bs
  induction bs with
  | nil => trivial
  | cons b bs ih =>
    unfold rewriteAll
    refine Always.bind (always_atomic fun s => ?_) fun ok => ?_
    · cases rewriteHeader W s.lsm t rs b with
      | none => exact Silent.rfl' _
      | some l => exact ⟨SameRecs.rfl' _, rfl, fun c => absurd c hpo⟩
    · cases ok with
      | true => exact ih
      | false => trivial

theorem silent_poWithdraw {po : Prop} (hpo : ¬ po) (p : PrefixId W) (m : Mui) (t : LTime) :
    (ribMarkWithdrawnForPrefix (M := M) .persistOnly p m t).Always (Silent po) := by
  unfold ribMarkWithdrawnForPrefix
  refine Always.bind (silent_readOnly (readOnly_read _)) fun recs => ?_
  refine Always.bind (silent_rewriteAll hpo _ _ _) fun ok => ?_
  cases ok <;> trivial

theorem silent_poActivate {po : Prop} (hpo : ¬ po) (p : PrefixId W) (m : Mui) (t : LTime) :
    (ribMarkActiveForPrefix (M := M) .persistOnly p m t).Always (Silent po) := by
  unfold ribMarkActiveForPrefix
  refine Always.bind (silent_readOnly (readOnly_read _)) fun r => ?_
  cases r with
  | none => trivial
  | some b =>
    refine Always.bind (silent_rewriteAll hpo _ _ _) fun ok => ?_
    cases ok <;> trivial

theorem silent_calcBest {po : Prop} (p : PrefixId W) (tbi : Meta.TBI M) :
    (ribCalcBest (M := M) p tbi).Always (Silent po) := by
  unfold ribCalcBest
  refine Always.bind (silent_readOnly (ReadOnly.onRecs (readOnly_retrievePrefix _))) fun r => ?_
  cases r with
  | none => trivial
  | some sp => exact silent_onRecs (sameRecs_calculateAndStore _ _)

theorem silent_query {po : Prop} (x : Call M W) (hx : changeOf x = none) (F fuel : Nat) :
    (x.prog st F fuel).Always (Silent po) := by
  cases x with
  | insert | withdrawFor | activateFor | withdraw | activate => cases hx
  | calcBest p tbi => exact silent_calcBest _ _
  | contains p mui => exact silent_readOnly (readOnly_ribContains _ _)
  | getRecords p mui iw => exact silent_readOnly (readOnly_ribGetValue _ _ _ _)
  | matchPrefix p o => exact silent_readOnly (readOnly_ribMatchPrefix _ _ _ _)
  | moreFrom p mui iw => exact silent_readOnly (readOnly_ribMoreSpecificsFrom _ _ _ _ _)
  | lessFrom p mui iw => exact silent_readOnly (readOnly_ribLessSpecificsFrom _ _ _ _)
  | moreIter p mui iw => exact silent_readOnly (readOnly_ribMoreSpecificsIter _ _ _ _ _)
  | lessIter p mui iw => exact silent_readOnly (readOnly_ribLessSpecificsIter _ _ _ _)
  | prefixesIter => exact silent_readOnly (readOnly_ribPrefixesIter _ _)
  | persistPrefixesIter => exact silent_readOnly (readOnly_ribPersistPrefixesIter _)
  | recordsForMui m iw => exact silent_readOnly (readOnly_ribIterRecordsForMui _ _ _ _)
  | bestPath p => exact silent_readOnly (readOnly_ribBestPath _)
  | isPsOutdated p => exact silent_readOnly (readOnly_ribIsPsOutdated _)
  | muiIsWithdrawn m => exact silent_readOnly (readOnly_ribMuiIsWithdrawn _)
  | isMuiActive m => exact silent_readOnly (readOnly_ribIsMuiActive _)
  | prefixesCount => exact silent_readOnly readOnly_ribPrefixesCount
  | routesCount => exact silent_readOnly readOnly_ribRoutesCount
  | prefixesCountForLen l => exact silent_readOnly (readOnly_ribPrefixesCountForLen _)
  | nodesCount => exact silent_readOnly (readOnly_read _)

/-- Every call keeps its specification. -/
theorem Call.lwp [Fam W] {i : ι} {F fuel : Nat} (hF : 32 ≤ F) (hf : iterFuel W ≤ fuel)
    (hT : (calls i).In T) {x : Rib M W × List ι}
    (hi : LinInv st (poCond st calls) T h calls x) (hn : i ∉ x.2) :
    gwp (LinR st (poCond st calls) T h calls i) (LinG st (poCond st calls) T h calls i)
      (calls i).MayLoop ((calls i).prog st F fuel)
      (fun a y => (calls i).LinPost st h calls i x.2 a y.2 y.1.lsm) x := by
  have hx : Since st (poCond st calls) T h calls i x.2 False x :=
    ⟨hi, List.suffix_refl _, by simpa using hn⟩
  have hpo : poCond st calls → st = .persistOnly := fun c => c.1
  have hD : ∀ w, During T (Grow (M := M) T) w False := fun w => ⟨fun _ _ h => h, fun c => c.elim⟩
  have hwp := Call.wp (calls i) (hD _) hT st hF hf (C := False) (s := x.1) ⟨hi.sane, fun c => c.elim⟩
  have hquery : ∀ c : Call M W, calls i = c → changeOf c = none →
      (∀ (a : (calls i).Ans) l d, (calls i).LinPost st h calls i x.2 a l d) →
      gwp (LinR st (poCond st calls) T h calls i) (LinG st (poCond st calls) T h calls i)
        (calls i).MayLoop ((calls i).prog st F fuel)
        (fun a y => (calls i).LinPost st h calls i x.2 a y.2 y.1.lsm) x := by
    intro c hc h0 hq
    exact gwp_conseq _ (gwp_silent hwp (silent_query _ (by rw [hc]; exact h0) F fuel) hx)
      (fun a y _ => hq a y.2 y.1.lsm)
  generalize hc : calls i = c at *
  cases c with
  | insert p r tbi =>
    refine gwp_conseq _ (lwp_ribInsert hc hpo hT (.inr hF) hx) ?_
    rintro res y ⟨l2, hl, hy, hk, hh, hb⟩
    exact ⟨hy.done.2 trivial, fun c c' => ⟨l2, hy.log, hk c c'⟩, fun c => ⟨l2, hy.log, hh c⟩, hb⟩
  | withdrawFor p m t =>
    by_cases hm : st.inMemory = true
    · have hnp : ¬ poCond st calls := fun c => by rw [c.1] at hm; cases hm
      exact gwp_conseq _ (lwp_withdrawFor hc hm hnp hx) (fun _ y h => ⟨fun _ => h.1.done, h.2⟩)
    · have hst : st = .persistOnly := by cases st <;> first | rfl | exact absurd rfl hm
      subst hst
      by_cases hn : NoActivations calls
      · exact gwp_conseq _ (lwp_poWithdrawFor hc ⟨rfl, hn⟩ rfl hx)
          (fun _ y h => ⟨fun _ => h.done, (fun c => by cases c)⟩)
      · exact gwp_conseq _ (gwp_silent hwp (silent_poWithdraw
          (fun c => c.elim (fun c => hn c.2) (fun c => by cases c)) _ _ _) hx)
          (fun _ _ _ => ⟨fun ht => absurd (ht rfl) hn, (fun c => by cases c)⟩)
  | activateFor p m t =>
    have hnp : ¬ poCond st calls := fun c => c.2 i p m t hc
    by_cases hm : st.inMemory = true
    · exact gwp_conseq _ (lwp_activateFor hc hm hnp hx) (fun _ y h => ⟨fun _ => h.1.done, h.2⟩)
    · have hst : st = .persistOnly := by cases st <;> first | rfl | exact absurd rfl hm
      subst hst
      exact gwp_conseq _ (gwp_silent hwp (silent_poActivate
        (fun c => c.elim hnp (fun c => by cases c)) _ _ _) hx)
        (fun _ _ _ => ⟨fun ht => absurd hc (ht rfl i p m t), (fun c => by cases c)⟩)
  | withdraw m =>
    refine gwp_conseq _ (lwp_update (op := .withdraw m) (by rw [hc]; rfl)
      (fun _ _ _ c => by rw [hc] at c; cases c) (u := fun s => muiInsert s m) (fun H => ?_) (fun _ _ => rfl) (fun _ => rfl) F hx)
      (fun _ y h => h.done.2 trivial)
    refine ⟨?_, rfl⟩
    funext k
    by_cases hk : k = m <;> simp [globWd, muiInsert, hk]
  | activate m =>
    refine gwp_conseq _ (lwp_update (op := .activate m) (by rw [hc]; rfl)
      (fun _ _ _ c => by rw [hc] at c; cases c) (u := fun s => muiRemove s m) (fun H => ?_) (fun _ _ => rfl) (fun _ => rfl) F hx)
      (fun _ y h => h.done.2 trivial)
    refine ⟨?_, rfl⟩
    funext k
    by_cases hk : k = m <;> simp [globWd, muiRemove, hk]
  | getRecords p mui iw =>
    by_cases ht : Tracked st calls
    · refine gwp_conseq _ (lwp_ribGetValue ht.cases p mui iw hx) ?_
      rintro a y ⟨⟨v, hv, hr⟩, _⟩ _
      exact ⟨v, hv, hr⟩
    · exact hquery _ rfl rfl (fun _ _ _ ht' => absurd ht' ht)
  | muiIsWithdrawn m =>
    refine (gwp_bind (α := Mui → Bool) (β := Bool) _ _ _ _).2 ?_
    refine gwp_conseq _ (lwp_readWd hx) ?_
    rintro b y ⟨rfl, hy⟩
    exact ⟨y.2, hy.log, List.suffix_refl _, rfl⟩
  | isMuiActive m =>
    refine (gwp_bind (α := Mui → Bool) (β := Bool) _ _ _ _).2 ?_
    refine gwp_conseq _ (lwp_readWd hx) ?_
    rintro b y ⟨rfl, hy⟩
    exact ⟨y.2, hy.log, List.suffix_refl _, rfl⟩
  | _ => exact hquery _ rfl rfl (fun _ _ _ => trivial)

end

variable [DecidableEq ι]

/-- The log of a run. -/
theorem run_log [Fam W] {st : Strategy} {F0 F fuel : Nat} (hF : 32 ≤ F) (hf : iterFuel W ≤ fuel)
    {h : History M W} {s : Rib M W} (hs : exec st F0 h = .ok () s) (calls : ι → Call M W)
    (t : List ι) :
    ∃ log : ℕ → List ι, log 0 = [] ∧
      (∀ n (hn : n < t.length), log (n + 1) = log n ∨
        (log (n + 1) = t[n] :: log n ∧ t[n] ∉ log n)) ∧
      (∀ n, n ≤ t.length → LinInv st (poCond st calls) (begunIds h calls t) h calls
        (((start st F fuel s calls).at t n).st, log n)) ∧
      (∀ n, n ≤ t.length → ∀ i, i ∉ t.take n → i ∉ log n) ∧
      ∀ n, n ≤ t.length → ∀ i ∈ t.take n, ∀ a,
        ((start st F fuel s calls).at t n).pool i = .ret a →
        ∃ k < n, i ∉ t.take k ∧ i ∈ t.take (k + 1) ∧
          (calls i).LinPost st h calls i (log k) a (log n)
            ((start st F fuel s calls).at t n).st.lsm := by
  have hi := exec_ok_inv hs
  have hinit : LinInv st (poCond st calls) (begunIds h calls t) h calls (s, []) :=
    ⟨sane_start hs calls t, MemRep.of_prep hi.tab, hi.wds, fun _ => hi.lsm, (fun _ j hj => by cases hj),
      fun _ key b hb => .inl (by rw [← hi.lsm]; exact hb)⟩
  obtain ⟨gh, h0, h1, h2, h3, h4⟩ := ghost_sound
    (R := LinR st (poCond st calls) (begunIds h calls t) h calls)
    (fun i => LinR.isRely i)
    (G := LinG st (poCond st calls) (begunIds h calls t) h calls)
    (fun i j s s' hij hg => hg.toR hij) (D := fun i => (calls i).MayLoop)
    (Q := fun i x a y => (calls i).LinPost st h calls i x.2 a y.2 y.1.lsm)
    (fun i x a y z hr hp => hp.step _ hr.log hr.mine (fun _ hk => persisted_grow hr.grow hk))
    (I := LinInv st (poCond st calls) (begunIds h calls t) h calls)
    (fun i x y hi hg => hg.inv hi)
    (J := fun i x => i ∉ x.2) (fun i x y hr hn hm => hn (hr.mine hm))
    (start st F fuel s calls) ([] : List ι) hinit (fun i => by simp) t
    (fun i hi x hI hn => Call.lwp hF hf (begun_in hi) hI hn)
  refine ⟨gh, h0, fun n hn => ?_, h1, h3, fun n hn i hi a ha => ?_⟩
  · rcases h2 n hn with h | h
    · exact .inl (Prod.mk.inj h).2
    · exact h.log
  · obtain ⟨k, hk, hnot, hin, hw⟩ := h4 n hn i hi
    rw [ha] at hw
    exact ⟨k, hk, hnot, hin, hw⟩

/-! ## Logs -/

section
omit [DecidableEq ι]
variable {t : List ι} {log : ℕ → List ι}

theorem Spec.EffectOrder.suffix (ho : EffectOrder t log) {m n : ℕ} (hmn : m ≤ n) (hn : n ≤ t.length) :
    log m <:+ log n := by
  induction n with
  | zero => obtain rfl : m = 0 := by omega
            exact List.suffix_refl _
  | succ n ih =>
    by_cases he : m = n + 1
    · subst he; exact List.suffix_refl _
    · refine (ih (by omega) (by omega)).trans ?_
      rcases ho.step n (by omega) with h | ⟨h, _⟩ <;> rw [h]
      exact List.suffix_cons _ _

theorem Spec.EffectOrder.between (ho : EffectOrder t log) {k n : ℕ} (hkn : k ≤ n)
    (hn : n ≤ t.length) {l : List ι} (h1 : log k <:+ l) (h2 : l <:+ log n) :
    ∃ n1, k ≤ n1 ∧ n1 ≤ n ∧ log n1 = l := by
  induction n with
  | zero =>
    obtain rfl : k = 0 := by omega
    exact ⟨0, Nat.le_refl _, Nat.le_refl _, h1.eq_of_length_le h2.length_le⟩
  | succ n ih =>
    by_cases he : k = n + 1
    · subst he
      exact ⟨n + 1, Nat.le_refl _, Nat.le_refl _, h1.eq_of_length_le h2.length_le⟩
    · have hrec : l <:+ log n → ∃ n1, k ≤ n1 ∧ n1 ≤ n + 1 ∧ log n1 = l := fun h => by
        obtain ⟨n1, h3, h4, h5⟩ := ih (by omega) (by omega) h
        exact ⟨n1, h3, by omega, h5⟩
      rcases ho.step n (by omega) with h | ⟨h, _⟩
      · rw [h] at h2; exact hrec h2
      · rw [h] at h2
        rcases List.suffix_cons_iff.1 h2 with h3 | h3
        · exact ⟨n + 1, by omega, Nat.le_refl _, h.trans h3.symm⟩
        · exact hrec h3

theorem Spec.EffectOrder.mem (ho : EffectOrder t log) {n : ℕ} (hn : n ≤ t.length) {i : ι}
    (hi : i ∈ log n) : i ∈ t.take n := by
  induction n with
  | zero => rw [ho.start] at hi; cases hi
  | succ n ih =>
    have hsub : t.take n <+: t.take (n + 1) := List.take_prefix_take_left (by omega)
    rcases ho.step n (by omega) with h | ⟨h, _⟩
    · rw [h] at hi
      exact hsub.subset (ih (by omega) hi)
    · rw [h] at hi
      rcases List.mem_cons.1 hi with rfl | hi
      · rw [List.take_succ_eq_append_getElem (by omega)]
        exact List.mem_append_right _ (List.mem_singleton.2 rfl)
      · exact hsub.subset (ih (by omega) hi)

theorem Spec.EffectOrder.nodup (ho : EffectOrder t log) {n : ℕ} (hn : n ≤ t.length) :
    (log n).Nodup := by
  induction n with
  | zero => rw [ho.start]; exact List.nodup_nil
  | succ n ih =>
    rcases ho.step n (by omega) with h | ⟨h, hx⟩ <;> rw [h]
    · exact ih (by omega)
    · exact List.nodup_cons.2 ⟨hx, ih (by omega)⟩

/-- A call enters the log in one of its steps. -/
theorem Spec.EffectOrder.entered (ho : EffectOrder t log) {m n : ℕ} (hm : m ≤ t.length)
    (hn : n ≤ t.length) {j : ι} (hj : j ∈ log n) (hnot : j ∉ log m) :
    ∃ k, m ≤ k ∧ k < n ∧ (∃ hk : k < t.length, t[k] = j) ∧ log (k + 1) = j :: log k := by
  induction n with
  | zero => rw [ho.start] at hj; cases hj
  | succ n ih =>
    by_cases hjn : j ∈ log n
    · obtain ⟨k, h1, h2, h3⟩ := ih (by omega) hjn
      exact ⟨k, h1, by omega, h3⟩
    · have hmn : m ≤ n := by
        by_contra hlt
        exact hnot ((ho.suffix (by omega) hm).subset hj)
      rcases ho.step n (by omega) with h | ⟨h, _⟩
      · rw [h] at hj; exact absurd hj hjn
      · rw [h] at hj
        rcases List.mem_cons.1 hj with h' | h'
        · exact ⟨n, hmn, by omega, ⟨by omega, h'.symm⟩, by rw [h, h']⟩
        · exact absurd h' hjn
end

/-- A record query running alone. -/
theorem run_getValue_lin [Fam W] {st : Strategy} {T : PrefixId W → Mui → Prop} {h : History M W}
    {calls : ι → Call M W} {x : Rib M W × List ι} (hi : LinInv st (poCond st calls) T h calls x)
    (ht : Tracked st calls) (p : Prefix W) (mui : Option Mui) (iw : Bool) :
    (ribGetValue st p.id mui iw).run x.1 =
      .ok (.ok (valueOf st (histAfter h calls x.2) p mui iw)) x.1 := by
  have mem : st ≠ .persistOnly → (do
      let rs ← onRecs (getRecordsForPrefix (M := M) p.id mui iw (globWd (histAfter h calls x.2)))
      return (.ok rs : FatalResult (Option (List (Record M)))) : Prog (Rib M W) _).run x.1 =
      .ok (.ok (getFilteredRecords (recsAt st (histAfter h calls x.2) p) mui iw
        (globWd (histAfter h calls x.2)))) x.1 := by
    intro _
    have hw := wp_onRecsRO (R := Eq) (D := False) (wp_getRecords
      (proj_recs (T := T) (fun a b h => by rw [h]; exact Grow.rfl' b)) p.clean mui iw (globWd (histAfter h calls x.2))
      hi.sane.recs)
    obtain ⟨r, hr, _, hcase, _⟩ := run_of_wp_ro _ hw
    rw [run_bind, hr]
    simp only [Outcome.andThen, pure_def, run]
    congr 2
    rcases hcase with ⟨rfl, hn⟩ | ⟨a, e, he, hid, rfl⟩
    · have : recsAt st (histAfter h calls x.2) p = [] := by
        by_contra hne
        exact hn (hi.mem.has p hne)
      rw [this, filtered_nil]
    · rw [hi.mem.recs a e he p hid.symm]
  have hwd : (withdrawnMuis.zoom Rib.treeL : Prog (Rib M W) _).run x.1 =
      .ok (globWd (histAfter h calls x.2)) x.1 := by
    rw [← hi.wd]; rfl
  unfold ribGetValue
  rw [run_bind, hwd]
  simp only [Outcome.andThen]
  cases st with
  | persistOnly =>
    obtain ⟨o, hrec, _⟩ := po_records (histAfter h calls x.2) p mui iw
    have hl : recordsForPrefix x.1.lsm p.id mui iw (globWd (histAfter h calls x.2)) =
        some (o.map fun l => l.map fun e => .ok (e.enc.1 ++ e.enc.2)) := by
      rw [hi.lsm ⟨rfl, ht rfl⟩]; exact hrec
    simp only [valueOf, hrec]
    rw [run_bind]
    simp only [Prog.read, run, hl, Outcome.andThen]
    cases o with
    | none => rfl
    | some l =>
      simp only [Option.map_some, ofOption, ret_bind, decode_entries]
      rfl
  | memoryOnly => exact mem (by simp)
  | writeAhead => exact mem (by simp)
  | persistHistory => exact mem (by simp)

/-- Every run has a log that explains it. -/
theorem run_explained [Fam W] {st : Strategy} {F0 F fuel : Nat} (hF : 32 ≤ F) (hf : iterFuel W ≤ fuel)
    {h : History M W} {s : Rib M W} (hs : exec st F0 h = .ok () s) (calls : ι → Call M W)
    (t : List ι) : ∃ log, Explains st h (start st F fuel s calls) t log ∧
      (∀ n, n ≤ t.length → ((start st F fuel s calls).exec (t.take n)).st.tree.wd.ver =
        globCount (histAfter h calls (log n))) ∧
      (st = .writeAhead → WritesAhead (start st F fuel s calls) t log) ∧
      (st = .persistHistory → KeepsHistory h (start st F fuel s calls) t log) ∧
      (∀ n, n ≤ t.length → LinInv st (poCond st calls) (begunIds h calls t) h calls
        (((start st F fuel s calls).at t n).st, log n)) := by
  obtain ⟨log, h0, hstep, hinv, hidle, hcalls⟩ := run_log hF hf hs calls t
  have ho : EffectOrder t log := ⟨h0, hstep⟩
  have hidle' : ∀ n i b, (calls i).Timely = true →
      ((start st F fuel s calls).exec (t.take n)).pool i = .ret b → i ∈ t.take n := by
    intro n i b hx hb
    by_contra hn
    rw [Conf.exec_idle _ hn] at hb
    exact (Call.starts st F fuel _ hx).ne _ hb
  have hret : ∀ n, n ≤ t.length → ∀ i (x : Call M W) (a : x.Ans), x.Timely = true →
      Returned ((start st F fuel s calls).exec (t.take n)) i x a →
      ∃ k < n, i ∈ t.take (k + 1) ∧ x.LinPost st h calls i (log k) a (log n)
        ((start st F fuel s calls).exec (t.take n)).st.lsm := by
    intro n hn i x a hx hr
    have hx' : (calls i).Timely = true := by rw [hr.1]; exact hx
    refine returned_elim hr (Q := fun x a => ∃ k < n, i ∈ t.take (k + 1) ∧
      x.LinPost st h calls i (log k) a (log n)
        ((start st F fuel s calls).exec (t.take n)).st.lsm) fun b hb => ?_
    obtain ⟨k, hk, _, hin, hp⟩ := hcalls n hn i (hidle' n i b hx' hb) b hb
    exact ⟨k, hk, hin, hp⟩
  have hle : ∀ {k k' : ℕ} {i : ι}, i ∈ t.take (k + 1) → i ∉ t.take k' → k' ≤ k := by
    intro k k' i h1 h2
    by_contra hlt
    exact h2 ((List.take_prefix_take_left (by omega)).subset h1)
  have hkeeps : st = .persistHistory → KeepsHistory h (start st F fuel s calls) t log := by
    intro c
    refine ⟨fun n hn i p r tbi rep hr => ?_, fun n hn i p m tm hr => ?_, fun n hn i p m tm hr => ?_,
      fun n hn key b hb => ?_⟩
    · obtain ⟨_, _, _, hp⟩ := hret n hn i (.insert p r tbi) _ rfl hr
      obtain ⟨l2, ⟨l1, hl⟩, hk⟩ := hp.2.1 c ⟨rep, rfl⟩
      exact ⟨l1, l2, hl.symm, hk⟩
    · obtain ⟨_, _, _, hp⟩ := hret n hn i (.withdrawFor p m tm) _ rfl hr
      obtain ⟨l2, ⟨l1, hl⟩, hk⟩ := hp.2 c rfl
      exact ⟨l1, l2, hl.symm, hk⟩
    · obtain ⟨_, _, _, hp⟩ := hret n hn i (.activateFor p m tm) _ rfl hr
      obtain ⟨l2, ⟨l1, hl⟩, hk⟩ := hp.2 c rfl
      exact ⟨l1, l2, hl.symm, hk⟩
    · refine ((hinv n hn).src c key b hb).imp_left fun hx => ?_
      change _ ∈ s.lsm
      rw [(exec_ok_inv hs).lsm]
      exact hx
  refine ⟨log, ⟨ho, ?_, ?_, ?_, ?_, ?_, ?_, ?_, ?_, ?_⟩, fun n hn =>
    congrArg WdCell.ver (hinv n hn).wds, fun c n hn => (hinv n hn).ahead c, hkeeps, hinv⟩
  · intro n hn i p r tbi a hr
    obtain ⟨_, _, _, hp⟩ := hret n hn i (.insert p r tbi) a rfl hr
    exact hp.1
  · intro n hn i m a hr
    obtain ⟨_, _, _, hp⟩ := hret n hn i (.withdraw m) a rfl hr
    exact hp
  · intro n hn i m a hr
    obtain ⟨_, _, _, hp⟩ := hret n hn i (.activate m) a rfl hr
    exact hp
  · intro hm n hn i p m tm a hr
    obtain ⟨_, _, _, hp⟩ := hret n hn i (.withdrawFor p m tm) a rfl hr
    exact hp.1 hm
  · intro hm n hn i p m tm a hr
    obtain ⟨_, _, _, hp⟩ := hret n hn i (.activateFor p m tm) a rfl hr
    exact hp.1 hm
  · intro n hn m
    have := (hinv n hn).wd
    simp only at this
    rw [← this]; rfl
  · intro ht n hn p mui iw
    exact ⟨_, run_getValue_lin (hinv n hn) ht p mui iw, valueOf_answers _ _ _ _ _⟩
  · intro n hn i m a hr k hk hnot
    obtain ⟨k', hk', hin, l1, h1, h2, h3⟩ := hret n hn i (.muiIsWithdrawn m) a rfl hr
    obtain ⟨n1, h4, h5, rfl⟩ := ho.between hk hn ((ho.suffix (hle hin hnot) (by omega)).trans h1) h2
    exact ⟨n1, h4, h5, h3⟩
  · intro ht n hn i p mui iw a hr k hk hnot
    obtain ⟨k', hk', hin, hp⟩ := hret n hn i (.getRecords p mui iw) a rfl hr
    obtain ⟨v, rfl, l1, l2, h1, h2, h3, rfl⟩ := hp ht
    obtain ⟨n1, h4, h5, rfl⟩ := ho.between hk hn ((ho.suffix (hle hin hnot) (by omega)).trans h1)
      (h2.trans h3)
    obtain ⟨n2, h6, h7, rfl⟩ := ho.between h5 hn h2 h3
    exact ⟨_, n1, n2, rfl, h4, h6, h7, valueOf_answers _ _ _ _ _⟩

end Rotonda
