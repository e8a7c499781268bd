import Verif.Props.ConcPersist
import Verif.Props.ConcWalks
import Verif.Proofs.ScanEnds

/-!
# Persisted records that are read one after another: C73

A persisted range is iterated without a snapshot: every step gives the first entry behind
the last one that is there at that moment.  `scanStart … calls scans` are the calls of
`start … calls` together with any set of such scans: record queries (`get_records_for_prefix`,
with `PersistOnly` from the persistence tree) and iterations over all persisted prefixes, all
items or the first ones only.  `others t` are the turns of the calls, without those of the
scans.
-/

namespace Rotonda.Props

open Prog Spec

variable {M : Type} [Meta M] {W : Nat} {ι κ : Type} [DecidableEq ι] [DecidableEq κ]
  {calls : ι → Call M W} {scans : κ → ScanCall W}

/-- C73: scans change nothing for the calls: the store and what is left of every call are
as in the run without the scans. -/
theorem scans_harmless (st : Strategy) (F fuel fuel' : Nat) (s : Rib M W) (calls : ι → Call M W)
    (scans : κ → ScanCall W) (t : List (ι ⊕ κ)) :
    ((scanStart st F fuel fuel' s calls scans).exec t).st =
      ((start st F fuel s calls).exec (others t)).st ∧
    ∀ i, ((scanStart st F fuel fuel' s calls scans).exec t).pool (.inl i) =
      ((start st F fuel s calls).exec (others t)).pool i := by
  have h := scanStart_exec st F fuel fuel' s calls scans t
  exact ⟨congrArg Conf.st h, fun i => congrFun (congrArg Conf.pool h) i⟩

/-- What a scan that has not begun by the `k`-th step and has returned by the `n`-th has
read. -/
theorem returned_reads {c : Conf (Rib M W) (ι ⊕ κ) (MixedAns calls scans)}
    {t : List (ι ⊕ κ)} {n k : ℕ} (hn : n ≤ t.length) (hk : k ≤ n) {q : κ} {x : ScanCall W} {a : x.Ans M}
    (hr : ScanReturned (c.exec (t.take n)) q x a) (hq : .inr q ∉ t.take k) :
    ∃ hx : scans q = x,
      Reads (fun j => (c.at t j).st) (c.pool (.inr q)) k (show (scans q).Ans M from hx ▸ a) n := by
  obtain ⟨hx, hr⟩ := hr
  refine ⟨hx, ?_⟩
  have := Conf.reads c t hn hr k hk
  rwa [show (c.at t k).pool (.inr q) = c.pool (.inr q) from Conf.exec_idle _ hq] at this

section
variable [Fam W] {st : Strategy} {F0 F fuel fuel' : Nat} (hF : 32 ≤ F) (hf : iterFuel W ≤ fuel)
  {h : History M W} {s : Rib M W} (hs : exec st F0 h = .ok () s)
include hF hf hs

/-- C73: an order of effects of the calls, as in C39, also explains the record queries among
the scans: each shows for every id the record at a moment during the query; for a single id,
and with the strategies that keep records in memory, all of the answer is of one moment.
Missing: `PersistOnly` together with calls that mark single routes active. -/
theorem scan_records_partial (ht : Tracked st calls) (t : List (ι ⊕ κ)) :
    ∃ log, Explains st h (start st F fuel s calls) (others t) log ∧
      ∀ n, n ≤ t.length → ∀ q p mui iw (a : FatalResult (Option (List (Record M)))),
        ScanReturned ((scanStart st F fuel fuel' s calls scans).exec (t.take n)) q (.records p mui iw) a →
        ∀ k, k ≤ n → .inr q ∉ t.take k → ∃ v, a = .ok v ∧
          ReadEach st h calls (fun j => log (others (t.take j)).length) k n mui iw p v ∧
          (st ≠ .persistOnly ∨ mui ≠ none →
            ReadBetween st h calls (fun j => log (others (t.take j)).length) k n mui iw p v) := by
  obtain ⟨log, hE, hi⟩ := scan_explained (calls := calls) (scans := scans) (fuel' := fuel') hF hf hs t
  refine ⟨log, hE, fun n hn q p mui iw a hr k hk hq => ?_⟩
  obtain ⟨hx, hR⟩ := returned_reads hn hk hr hq
  have hR : Reads (fun j => ((scanStart st F fuel fuel' s calls scans).at t j).st)
      ((ScanCall.records p mui iw).prog st fuel fuel') k a n := by
    change Reads _ ((scans q).prog st fuel fuel') k _ n at hR
    revert hR
    generalize scans q = y at hx
    subst hx
    exact id
  have hgrow := fun i j (_ : k ≤ i) hij (hj : j ≤ n) =>
    scan_grow (calls := calls) (scans := scans) (fuel' := fuel') hF hf hs t i j hij (hj.trans hn)
  exact reads_scanValue (log := fun j => log (others (t.take j)).length) ht rfl (fun j _ _ => hi j) hgrow hR

/-- C73: an iteration over the persisted prefixes gives the first items of those it gives
alone on a store that holds under each key what was persisted at a moment during the
iteration. -/
theorem scan_persisted {t : List (ι ⊕ κ)} {n : ℕ} (hn : n ≤ t.length) {q : κ} {m : Option ℕ}
    {a : List (FatalResult (PrefixRecord M W))}
    (hr : ScanReturned ((scanStart st F fuel fuel' s calls scans).exec (t.take n)) q (.persisted m) a)
    {k : ℕ} (hk : k ≤ n) (hq : .inr q ∉ t.take k) :
    ∃ T l, PersistedEach (scanStart st F fuel fuel' s calls scans) t k n T ∧ a = upTo m l ∧
      ∀ s' : Rib M W, s'.lsm = T → (ribPersistPrefixesIter st).run s' = .ok l s' := by
  obtain ⟨hx, hR⟩ := returned_reads hn hk hr hq
  have hR : Reads (fun j => ((scanStart st F fuel fuel' s calls scans).at t j).st)
      (ribPersistIterSteps st fuel' m) k a n := by
    change Reads _ ((scans q).prog st fuel fuel') k _ n at hR
    revert hR
    generalize scans q = y at hx
    subst hx
    exact id
  by_cases hst : st = .memoryOnly
  · subst hst
    obtain ⟨rfl, -⟩ := hR
    exact ⟨_, [], ⟨scan_sorted hs t k, fun key => ⟨k, Nat.le_refl k, hk, fun b => Iff.rfl⟩⟩,
      (upTo_nil m).symm, fun _ _ => rfl⟩
  · obtain ⟨T, l, hG, h1, h2⟩ := reads_persistIter hst (scan_grown hF hf hs t hn)
      (fun j _ _ => (scan_sane (calls := calls) hF hf hs t j).lsm) hR
    exact ⟨T, l, ⟨hG.sorted, fun key => hG.each key (by simp)⟩, h1, h2⟩

/-- C73: no scan panics, and a scan fails to come to an end only while there are at least
`fuel'` persisted records. -/
theorem scan_no_panic (t : List (ι ⊕ κ)) (q : κ) :
    ((scanStart st F fuel fuel' s calls scans).exec t).pool (.inr q) ≠ .panic ∧
    (((scanStart st F fuel fuel' s calls scans).exec t).pool (.inr q) = .diverge →
      fuel' ≤ ((scanStart st F fuel fuel' s calls scans).exec t).st.lsm.length) := by
  have key : ∀ d : Bool, ((scanStart st F fuel fuel' s calls scans).exec t).pool (.inr q) =
      (if d then .diverge else .panic) → d = true ∧
        fuel' ≤ ((scanStart st F fuel fuel' s calls scans).exec t).st.lsm.length := by
    intro d hd
    have hat : (scanStart st F fuel fuel' s calls scans).at t t.length =
        (scanStart st F fuel fuel' s calls scans).exec t := by
      unfold Conf.at; rw [List.take_length]
    rw [← hat] at hd ⊢
    have := Conf.fails _ t (Nat.le_refl _) d hd 0 (Nat.zero_le _)
    exact fails_scan (q := scans q) hf (scan_grown hF hf hs t (Nat.le_refl _))
      (fun i j _ hij hj => scan_grow (calls := calls) hF hf hs t i j hij hj)
      (fun j _ _ => scan_sane (calls := calls) hF hf hs t j) this
  exact ⟨fun hp => Bool.noConfusion (key false hp).1, fun hp => (key true hp).2⟩

/-- C73: a scan that is given enough turns returns, as long as there are fewer than `fuel'`
persisted records. -/
theorem scan_returns (sched : ℕ → ι ⊕ κ) {q : κ} (hfair : ∀ n, ∃ m, n ≤ m ∧ sched m = .inr q)
    (hfew : ∀ n, ((scanStart st F fuel fuel' s calls scans).exec
      ((List.range n).map sched)).st.lsm.length < fuel') :
    ∃ n, ∃ a : (scans q).Ans M, ScanReturned ((scanStart st F fuel fuel' s calls scans).exec
      ((List.range n).map sched)) q (scans q) a := by
  obtain ⟨n, hn⟩ := Conf.ends (scanStart st F fuel fuel' s calls scans) sched (.inr q) hfair
  have hnp := scan_no_panic (calls := calls) (scans := scans) (fuel' := fuel') hF hf hs
    ((List.range n).map sched) q
  refine ⟨n, ?_⟩
  cases hp : ((scanStart st F fuel fuel' s calls scans).exec ((List.range n).map sched)).pool (.inr q) with
  | ret a => exact ⟨a, rfl, hp⟩
  | act f k => rw [hp] at hn; exact hn.elim
  | panic => exact (hnp.1 hp).elim
  | diverge => exact absurd (hnp.2 hp) (by have := hfew n; omega)

end

/-! ## Alone -/

section
variable [Fam W] {st : Strategy} {F : Nat} {h : History M W} {s : Rib M W} (hs : exec st F h = .ok () s)
include hs

/-- C73: alone, a record query that reads the records one after another gives the answer of
`get_value`. -/
theorem scan_records_alone {fuel : Nat} (hf : s.lsm.length < fuel) (p : PrefixId W) (mui : Option Mui)
    (iw : Bool) : (ribGetValueSteps (M := M) fuel p mui iw).run s =
      (ribGetValue .persistOnly p mui iw).run s :=
  run_getValueSteps (by rw [(exec_ok_inv hs).lsm]; exact sorted_lsmOf st h) hf p mui iw

/-- C73: alone, an iteration over the persisted prefixes of which the first items are asked
for gives the first items of the whole iteration. -/
theorem scan_persisted_alone {fuel : Nat} (hf : s.lsm.length < fuel) (n : Option ℕ)
    {l : List (FatalResult (PrefixRecord M W))} (hl : (ribPersistPrefixesIter st).run s = .ok l s) :
    (ribPersistIterSteps st fuel n).run s = .ok (upTo n l) s :=
  run_persistSteps (by rw [(exec_ok_inv hs).lsm]; exact sorted_lsmOf st h)
    (by rw [(exec_ok_inv hs).lsm]; exact records_lsmOf st h) hf n hl

end

/-! ## What this means -/

section
variable [Fam W] {st : Strategy} {F0 F fuel fuel' : Nat} (hF : 32 ≤ F) (hf : iterFuel W ≤ fuel)
  {h : History M W} {s : Rib M W} (hs : exec st F0 h = .ok () s)
include hF hf hs

/-- A whole run `t ++ u` with a query that begins after `t`. -/
private theorem query_of (ht : Tracked st calls) (t u : List (ι ⊕ κ)) :
    ∃ log, Explains st h (start st F fuel s calls) (others (t ++ u)) log ∧
      ∀ q p mui iw (a : FatalResult (Option (List (Record M)))), .inr q ∉ t →
        ScanReturned ((scanStart st F fuel fuel' s calls scans).exec (t ++ u)) q (.records p mui iw) a →
        ∃ v, a = .ok v ∧ ∃ n1, (others t).length ≤ n1 ∧ ∃ at_ : Mui → ℕ,
          (∀ m, n1 ≤ at_ m ∧ at_ m ≤ (others (t ++ u)).length) ∧
          Answers v fun r => Shown st
            (under (histAfter h calls (log n1)) (histAfter h calls (log (at_ r.mui)))) mui iw p r := by
  obtain ⟨log, hE, hX⟩ := scan_records_partial (calls := calls) (scans := scans) (fuel' := fuel') hF hf hs
    ht (t ++ u)
  refine ⟨log, hE, fun q p mui iw a hq hr => ?_⟩
  obtain ⟨v, hv, ⟨n1, h1, at_, h2, h3⟩, -⟩ := hX (t ++ u).length (Nat.le_refl _) q p mui iw a
    (by rw [List.take_length]; exact hr) t.length (by simp) (by simpa using hq)
  have hmono : ∀ i j, i ≤ j → (others ((t ++ u).take i)).length ≤ (others ((t ++ u).take j)).length := by
    intro i j hij
    have := others_take_le ((t ++ u).take j) i
    rwa [List.take_take, min_eq_left hij] at this
  refine ⟨v, hv, (others ((t ++ u).take n1)).length, ?_, fun m => (others ((t ++ u).take (at_ m))).length,
    fun m => ⟨hmono _ _ (h2 m).1, others_take_le _ _⟩, h3⟩
  have := hmono _ _ h1
  rwa [List.take_left'] at this
  rfl

/-- C73: every record that such a query shows belongs to a pair that an insert was called
for. -/
theorem scan_records_genuine {t : List (ι ⊕ κ)} (ht : Tracked st calls) {q : κ} {p : Prefix W}
    {mui : Option Mui} {iw : Bool} {v : Option (List (Record M))}
    (hr : ScanReturned ((scanStart st F fuel fuel' s calls scans).exec t) q (.records p mui iw) (.ok v))
    {r : Record M} (hm : r ∈ v.getD []) : Begun h calls (others t) p r.mui := by
  obtain ⟨log, hE, hX⟩ := query_of (calls := calls) (scans := scans) (fuel' := fuel') hF hf hs ht [] t
  obtain ⟨v', hv, n1, -, at_, h2, hA, -⟩ := hX q p mui iw _ (by simp) hr
  cases hv
  obtain ⟨r0, h3, -⟩ := (hA.2 r).1 hm
  rw [storedRec_under] at h3
  obtain ⟨r1, tbi, h4, h5⟩ := inserted_of_storedRec h3
  rcases insert_mem_histAfter h4 with h6 | ⟨j, hj, h6⟩
  · exact .inl ⟨r1, tbi, h6, h5⟩
  · exact .inr ⟨j, List.mem_of_mem_take (hE.order.mem (h2 r.mui).2 hj), r1, tbi, h6, h5⟩

/-- C73: a query that begins after an insert for `(p, m)` has returned and asks for withdrawn
routes too shows for `m` the record of this insert, or of another one for `(p, m)` that had
not returned before this one started. -/
theorem scan_upsert {t u : List (ι ⊕ κ)} {i : ι} {q : κ} {p : Prefix W} {r : Record M}
    {tbi : Option (Meta.TBI M)} {a : Except StoreError UpsertReport} (ht : Tracked st calls)
    (hm : NoMarksFor calls p r.mui)
    (hr : Returned ((start st F fuel s calls).exec (others t)) i (.insert p r tbi) a) (hq : .inr q ∉ t)
    {mui : Option Mui} {b : FatalResult (Option (List (Record M)))}
    (hb : ScanReturned ((scanStart st F fuel fuel' s calls scans).exec (t ++ u)) q (.records p mui true) b)
    (hmui : ∀ m, mui = some m → m = r.mui) :
    ∃ j ∈ others (t ++ u), ∃ r' tbi' w, calls j = .insert p r' tbi' ∧ r'.mui = r.mui ∧
      NotBefore (start st F fuel s calls) (others (t ++ u)) j i ∧
      ∃ rs, b = .ok (some rs) ∧ shownAs w (asStored st r') ∈ rs ∧
        ∀ y ∈ rs, y.mui = r.mui → y = shownAs w (asStored st r') := by
  obtain ⟨log, hE, hX⟩ := query_of (calls := calls) (scans := scans) (fuel' := fuel') hF hf hs ht t u
  obtain ⟨v, rfl, n1, h1, at_, h2, ⟨hpw, hmem⟩, hne⟩ := hX q p mui true b hq hb
  obtain ⟨h2, h3⟩ := h2 r.mui
  have hle : (others t).length ≤ (others (t ++ u)).length := by rw [others_append]; simp
  have hi : i ∈ log (others t).length := by
    refine hE.inserts _ hle i p r tbi a ?_
    rw [others_append, List.take_left']
    · exact hr
    · rfl
  have hlast : i ∈ log (at_ r.mui) := (hE.order.suffix (by omega) h3).subset hi
  obtain ⟨l1, j, l2, r', tbi', hl, hj, hmr, hst, hor⟩ := last_insert st h hr.1 hm _ hlast
  have hmui' : ∀ w, (shownAs w (asStored st r')).mui = r.mui := by
    intro w; unfold shownAs; split
    · exact (asStored_mui st r').trans hmr
    · exact (asStored_mui st r').trans hmr
  have hshow : shownAs (globWd (histAfter h calls (log n1)) r.mui) (asStored st r') ∈ v.getD [] := by
    rw [hmem]
    refine ⟨asStored st r', by rw [hmui', storedRec_under]; exact hst,
      fun m hm => by rw [hmui']; exact (hmui m hm).symm, ?_⟩
    simp only [effective, shownAs, globWd_under, asStored_mui, hmr]
  refine ⟨j, ?_, r', tbi', globWd (histAfter h calls (log n1)) r.mui, hj, hmr, ?_, ?_⟩
  · exact List.mem_of_mem_take (hE.order.mem h3 (i := j) (by rw [hl]; simp))
  · rcases hor with rfl | hor
    · exact not_before_self hr.1 _
    · exact hE.notBefore h3 hl hor (.inl ⟨p, r', tbi', hj⟩)
  · cases v with
    | none => cases hshow
    | some rs =>
      refine ⟨rs, rfl, hshow, fun y hy hym => ?_⟩
      by_contra hne
      haveI : Std.Symm (fun a b : Record M => a.mui ≠ b.mui) := ⟨fun _ _ h => h.symm⟩
      exact hpw.forall hy hshow hne (by rw [hym, hmui'])

/-- C73: a route that was visible before the calls started and that none of them touches is
shown, as it was. -/
theorem scan_steady {t : List (ι ⊕ κ)} (ht : Tracked st calls) {p : Prefix W} {r : Record M}
    {mui : Option Mui} {iw : Bool} (hv : Visible st h mui iw p r)
    (hT : ∀ i ∈ others t, ¬ Touches (calls i) p r.mui) {q : κ}
    {b : FatalResult (Option (List (Record M)))}
    (hb : ScanReturned ((scanStart st F fuel fuel' s calls scans).exec t) q (.records p mui iw) b) :
    ∃ rs, b = .ok (some rs) ∧ r ∈ rs := by
  obtain ⟨log, hE, hX⟩ := query_of (calls := calls) (scans := scans) (fuel' := fuel') hF hf hs ht [] t
  obtain ⟨v, rfl, n1, h1, at_, h2, ⟨hpw, hmem⟩, hne⟩ := hX q p mui iw b (by simp) hb
  obtain ⟨h2, h3⟩ := h2 r.mui
  have hlog : ∀ n, n ≤ (others t).length → ∀ i ∈ log n, ¬ Touches (calls i) p r.mui := fun n hn i hi =>
    hT i (List.mem_of_mem_take (hE.order.mem hn hi))
  have hrec := storedRec_untouched (st := st) h (hlog (at_ r.mui) h3)
  have hg := globWd_untouched h (hlog n1 (h2.trans h3))
  obtain ⟨r0, hr0, hmui, hiw⟩ := hv
  have hr : r ∈ v.getD [] := by
    rw [hmem]
    refine ⟨r0, by rw [storedRec_under, hrec]; exact hr0, hmui, ?_⟩
    cases iw with
    | true =>
      have hm0 : r0.mui = r.mui := storedRec_mui hr0
      simp only [effective, globWd_under, hm0, hg] at hiw ⊢
      exact hiw
    | false => exact ⟨hiw.1, hiw.2.1, .inl (by rw [globWd_under, hg]; exact hiw.2.2)⟩
  cases v with
  | none => cases hr
  | some rs => exact ⟨rs, rfl, hr⟩

omit hF hf in
/-- What was gathered, by the tags of the keys. -/
private theorem tags_of (hst : st ≠ .persistOnly) {t : List (ι ⊕ κ)} {k n : ℕ} {T : Lsm}
    (hT : PersistedEach (scanStart st F fuel fuel' s calls scans) t k n T) :
    ∃ g : Tag W → Option Bytes, LRep g T ∧ ∀ key b, g key = some b ↔ (key.key, b) ∈ T := by
  classical
  have hmem : ∀ key b, (if hb : ∃ b, (key, b) ∈ T then some hb.choose else none) = some b ↔
      (key, b) ∈ T := by
    intro key b
    split
    · rename_i hb
      have := hb.choose_spec
      constructor
      · rintro ⟨rfl⟩; exact this
      · intro h'; rw [Lsm.Sorted.unique hT.ascending h' this]
    · rename_i hb
      exact ⟨fun c => (by cases c), fun c => (hb ⟨b, c⟩).elim⟩
  refine ⟨fun k => if hb : ∃ b, (k.key, b) ∈ T then some hb.choose else none,
    ⟨hT.ascending, fun x => ⟨fun hx => ?_, ?_⟩⟩, fun key b => hmem _ _⟩
  · obtain ⟨j, -, -, h3⟩ := hT.each x.1
    obtain ⟨key, hk⟩ := scan_longKeys (calls := calls) (scans := scans) (F := F) (fuel := fuel)
      (fuel' := fuel') hs hst t j x ((h3 x.2).1 hx)
    exact ⟨key, (hmem _ _).2 (by rw [← hk]; exact hx), hk⟩
  · rintro ⟨key, h1, h2⟩
    have := (hmem _ _).1 h1
    rw [← h2] at this
    exact this

/-- C73: with `WriteAhead` and `PersistHistory`, whatever the metadata, every item of an
iteration over the persisted prefixes that is not an error is a prefix with records of it
that were persisted at moments during the iteration. -/
theorem scan_persisted_sound (hst : st ≠ .persistOnly) {t : List (ι ⊕ κ)} {n : ℕ} (hn : n ≤ t.length)
    {q : κ} {m : Option ℕ} {a : List (FatalResult (PrefixRecord M W))}
    (hr : ScanReturned ((scanStart st F fuel fuel' s calls scans).exec (t.take n)) q (.persisted m) a)
    {k : ℕ} (hk : k ≤ n) (hq : .inr q ∉ t.take k) {p : Prefix W} {rs : List (Record M)}
    (hp : .ok (p, rs) ∈ a) {r : Record M} (hm : r ∈ rs) :
    ∃ (key : Tag W) (b : Bytes) (j : ℕ), k ≤ j ∧ j ≤ n ∧ key.pfx = p ∧ r = key.record b ∧
      (key.key, b) ∈ ((scanStart st F fuel fuel' s calls scans).exec (t.take j)).st.lsm := by
  obtain ⟨T, l, hT, rfl, hrun⟩ := scan_persisted hF hf hs hn hr hk hq
  have hp' : .ok (p, rs) ∈ l := by
    cases m with
    | none => exact hp
    | some m => exact List.mem_of_mem_take hp
  obtain ⟨g, hg, hgm⟩ := tags_of hs hst hT
  by_cases hmo : st = .memoryOnly
  · subst hmo
    cases hrun { s with lsm := T } rfl
    cases hp'
  obtain ⟨l', hl', hl⟩ := iter_sound (M := M) hmo (s := { s with lsm := T }) hg
  rw [hrun { s with lsm := T } rfl] at hl'
  cases hl'
  obtain ⟨key, b, h1, h2, h3⟩ := hl p rs hp' r hm
  obtain ⟨j, h4, h5, h6⟩ := hT.each key.key
  exact ⟨key, b, j, h4, h5, h1, h3, (h6 b).1 ((hgm key b).1 h2)⟩

end

section
variable [Fam W] {F0 F fuel fuel' : Nat} (hF : 32 ≤ F) (hf : iterFuel W ≤ fuel)
  {h : History M W} {s : Rib M W} (hs : exec .writeAhead F0 h = .ok () s)
include hF hf hs

/-- C73: with `WriteAhead` every record that an iteration over the persisted prefixes gives
was inserted. -/
theorem scan_write_ahead_sound {t : List (ι ⊕ κ)} {q : κ} {m : Option ℕ}
    {a : List (FatalResult (PrefixRecord M W))}
    (hr : ScanReturned ((scanStart .writeAhead F fuel fuel' s calls scans).exec t) q (.persisted m) a)
    {p : Prefix W} {rs : List (Record M)} (hp : .ok (p, rs) ∈ a) {r : Record M} (hm : r ∈ rs) :
    ∃ r0, InsertedBy h calls (others t) p r0 ∧ r = (tagOf p r0).record (Meta.toBytes r0.md) := by
  obtain ⟨key, b, j, -, -, rfl, rfl, h3⟩ := scan_persisted_sound hF hf hs (fun c => by cases c)
    (Nat.le_refl _) (by rw [List.take_length]; exact hr) (Nat.zero_le _) (by simp) hp hm
  rw [(scans_harmless .writeAhead F fuel fuel' s calls scans _).1] at h3
  obtain ⟨p', r', ⟨tbi, h4⟩, h5, rfl⟩ := write_ahead_only_begun hs h3
  have h6 := Tag.key_inj h5
  have h7 : key.pfx = p' := congrArg Tag.pfx h6
  refine ⟨r', ⟨tbi, ?_⟩, ?_⟩
  · rw [h7]
    rcases h4 with h4 | ⟨i, hi, h4⟩
    · exact .inl h4
    · refine .inr ⟨i, ?_, h4⟩
      have := others_take t j
      rw [← this] at hi
      exact List.mem_of_mem_take hi
  · rw [h7, h6]

/-- C73: with `WriteAhead`, when no record inserted has metadata, an iteration over all
persisted prefixes that begins after an insert has returned gives the record of this insert.
Missing: records with metadata, see `persist_iter_fails`. -/
theorem scan_write_ahead_complete_partial {t u : List (ι ⊕ κ)} {i : ι} {q : κ} {p : Prefix W}
    {r : Record M} {tbi : Option (Meta.TBI M)} {a : Except StoreError UpsertReport}
    (hr : Returned ((start .writeAhead F fuel s calls).exec (others t)) i (.insert p r tbi) a)
    (hq : .inr q ∉ t) {b : List (FatalResult (PrefixRecord M W))}
    (hb : ScanReturned ((scanStart .writeAhead F fuel fuel' s calls scans).exec (t ++ u)) q
      (.persisted none) b)
    (hempty : ∀ p' r', InsertedBy h calls (others (t ++ u)) p' r' → Meta.toBytes r'.md = []) :
    ∃ rs, .ok (p, rs) ∈ b ∧ (tagOf p r).record [] ∈ rs := by
  obtain ⟨T, l, hT, rfl, hrun⟩ := scan_persisted hF hf hs (Nat.le_refl (t ++ u).length)
    (by rw [List.take_length]; exact hb) (k := t.length) (by simp) (by simpa using hq)
  obtain ⟨g, hg, hgm⟩ := tags_of hs (fun c => by cases c) hT
  have hnil : ∀ key b, g key = some b → b = [] := by
    intro key b hk
    obtain ⟨j, -, -, h6⟩ := hT.each key.key
    have h3 := (h6 b).1 ((hgm key b).1 hk)
    rw [(scans_harmless .writeAhead F fuel fuel' s calls scans _).1] at h3
    obtain ⟨p', r', ⟨tbi, h4⟩, h5, rfl⟩ := write_ahead_only_begun hs h3
    refine hempty p' r' ⟨tbi, ?_⟩
    rcases h4 with h4 | ⟨i, hi, h4⟩
    · exact .inl h4
    · refine .inr ⟨i, ?_, h4⟩
      have := others_take (t ++ u) j
      rw [← this] at hi
      exact List.mem_of_mem_take hi
  obtain ⟨l', hl', -, hl1, hl2⟩ := iter_complete (M := M) (st := .writeAhead) (fun c => by cases c)
    (s := { s with lsm := T }) hg (fun key b hk _ => hnil key b hk)
  rw [hrun { s with lsm := T } rfl] at hl'
  cases hl'
  -- the key of the insert is there from the start of the iteration on
  have hkey : g (tagOf p r) = some [] := by
    obtain ⟨j, h1, h2, h6⟩ := hT.each (tagOf p r).key
    obtain ⟨b, hb', -⟩ := write_ahead_returned hF hf hs hr (others (((t ++ u).take j).drop t.length))
    have hsplit : t ++ ((t ++ u).take j).drop t.length = (t ++ u).take j := by
      have h7 : ((t ++ u).take j).take t.length = t := by
        rw [List.take_take, min_eq_left h1, List.take_left' rfl]
      conv_rhs => rw [← List.take_append_drop t.length ((t ++ u).take j), h7]
    rw [← others_append, hsplit, ← (scans_harmless .writeAhead F fuel fuel' s calls scans _).1] at hb'
    have := (hgm _ _).2 ((h6 b).2 hb')
    rw [hnil _ _ this] at this
    exact this
  obtain ⟨rs, hrs⟩ := (hl1 p).2 ⟨tagOf p r, [], rfl, hkey⟩
  obtain ⟨ks, -, hks, rfl⟩ := hl2 p rs hrs
  exact ⟨_, List.mem_map.2 ⟨_, hrs, rfl⟩, List.mem_map.2 ⟨(tagOf p r, []), (hks _ _).2 ⟨rfl, hkey⟩, rfl⟩⟩

end

/-! ## Examples -/

section
open Demo

/-- A second insert for the route of 10.0.0.0/8 and an insert of another one. -/
private def eCalls : Bool → Call Md 32 := fun i =>
  if i then .insert ten8 (rec1 1 2 8) none else .insert ten8 (rec1 9 1 9) none

/-- A query for all records of 10.0.0.0/8 and an iteration over all that is persisted. -/
private def eScans : Fin 2 → ScanCall 32 := fun q =>
  if q = 0 then .records ten8 none true else .persisted none

private def eStart (st : Strategy) (s : Rib Md 32) :=
  scanStart st 32 (iterFuel 32) 100 s eCalls eScans

/-- The query reads the record of the first route, then both inserts run, then the query
carries on. -/
private def eTurns : List (Bool ⊕ Fin 2) :=
  List.replicate 2 (.inr 0) ++ List.replicate 24 (.inl true) ++ List.replicate 24 (.inl false) ++
    List.replicate 4 (.inr 0)

private def eShort : FatalResult (Option (List (Record Md))) → List (Mui × Bytes)
  | .ok (some l) => l.map fun r => (r.mui, r.md.bytes)
  | _ => []

private def eNow (o : Outcome (FatalResult (Option (List (Record Md)))) (Rib Md 32)) : List (Mui × Bytes) :=
  match o with
  | .ok a _ => eShort a
  | _ => []

private theorem tracked (st : Strategy) : Tracked st eCalls := by
  intro _ i p m t
  cases i <;> exact fun h => (by cases h)

private theorem torn : ∃ s a, exec .persistOnly 32 one = .ok () s ∧
    ScanReturned ((eStart .persistOnly s).exec eTurns) 0 (.records ten8 none true) a ∧
    eShort a = [(1#32, [7#8]), (9#32, [9#8])] ∧
    ∀ j, eNow ((ribGetValue .persistOnly ten8.id none true).run
      ((eStart .persistOnly s).exec (eTurns.take j)).st) ≠ eShort a := by
  obtain ⟨s, hs, hc⟩ := after_ok (o := exec .persistOnly 32 one) (chk := fun s =>
    ansIs (fun a : FatalResult (Option (List (Record Md))) =>
      decide (eShort a = [(1#32, [7#8]), (9#32, [9#8])])) (((eStart .persistOnly s).exec eTurns).pool (.inr 0)) &&
    decide (∀ j ∈ List.range 55, eNow ((ribGetValue .persistOnly ten8.id none true).run
      ((eStart .persistOnly s).exec (eTurns.take j)).st) ≠ [(1#32, [7#8]), (9#32, [9#8])]))
    (by decide +kernel)
  rw [Bool.and_eq_true, decide_eq_true_iff] at hc
  obtain ⟨a, ha, h1⟩ := ansIs_iff.1 hc.1
  have h1 : eShort a = [(1#32, [7#8]), (9#32, [9#8])] := by simpa using h1
  refine ⟨s, a, hs, ⟨rfl, ha⟩, h1, fun j => ?_⟩
  rw [h1]
  by_cases hj : j < 55
  · exact hc.2 j (List.mem_range.2 hj)
  · have : eTurns.take j = eTurns.take 54 := by
      rw [List.take_of_length_le, List.take_of_length_le]
      · decide
      · have : eTurns.length = 54 := by decide
        omega
    rw [this]
    exact hc.2 54 (List.mem_range.2 (by decide))

/-- C73: the whole answer of a query that reads the persisted records one after another need
not be that of any single moment: here it shows the old record of one route and the record of
a route that was inserted after the old record had been replaced. -/
theorem scan_torn : ∃ (s : Rib Md 32) (t : List (Bool ⊕ Fin 2))
    (a : FatalResult (Option (List (Record Md)))),
    exec .persistOnly 32 one = .ok () s ∧
    ScanReturned ((eStart .persistOnly s).exec t) 0 (.records ten8 none true) a ∧
    ∀ j s', (ribGetValue .persistOnly ten8.id none true).run
      ((eStart .persistOnly s).exec (t.take j)).st ≠ .ok a s' := by
  obtain ⟨s, a, hs, ha, -, hn⟩ := torn
  refine ⟨s, eTurns, a, hs, ha, fun j s' he => hn j ?_⟩
  rw [he]
  rfl

/-- The answer is still that of a moment for each id. -/
example : ∃ s v log, exec .persistOnly 32 one = .ok () s ∧
    ScanReturned ((eStart .persistOnly s).exec eTurns) 0 (.records ten8 none true) (.ok v) ∧
    eShort (.ok v) = [(1#32, [7#8]), (9#32, [9#8])] ∧
    Explains .persistOnly one (start .persistOnly 32 (iterFuel 32) s eCalls) (others eTurns) log ∧
    ReadEach .persistOnly one eCalls (fun j => log (others (eTurns.take j)).length) 0 54 none true ten8 v := by
  obtain ⟨s, a, hs, ha, h1, -⟩ := torn
  obtain ⟨log, hE, hX⟩ := scan_records_partial (F := 32) (fuel := iterFuel 32) (fuel' := 100)
    (calls := eCalls) (scans := eScans) (Nat.le_refl _) (Nat.le_refl _) hs (tracked _) eTurns
  obtain ⟨v, rfl, h2, -⟩ := hX 54 (by decide) 0 ten8 none true a
    (by rw [show eTurns.take 54 = eTurns by decide]; exact ha) 0 (by decide) (by simp)
  exact ⟨s, v, log, hs, ha, h1, hE, h2⟩

/-- Both records shown belong to inserts. -/
example : ∃ s v, exec .persistOnly 32 one = .ok () s ∧
    ScanReturned ((eStart .persistOnly s).exec eTurns) 0 (.records ten8 none true) (.ok v) ∧
    v.getD [] ≠ [] ∧ ∀ r ∈ v.getD [], Begun one eCalls (others eTurns) ten8 r.mui := by
  obtain ⟨s, a, hs, ha, h1, -⟩ := torn
  cases a with
  | error e => cases h1
  | ok v =>
    refine ⟨s, v, hs, ha, ?_, fun r hr => scan_records_genuine (F := 32) (Nat.le_refl _) (Nat.le_refl _) hs
      (tracked _) ha hr⟩
    intro h0
    cases v with
    | none => cases h1
    | some l => cases l with
      | nil => cases h1
      | cons x l => cases h0

/-- The second route is inserted, then the query runs while the first one is replaced. -/
private def fTurns : List (Bool ⊕ Fin 2) := List.replicate 24 (.inl false)

private def fMore : List (Bool ⊕ Fin 2) :=
  List.replicate 2 (.inr 0) ++ List.replicate 24 (.inl true) ++ List.replicate 4 (.inr 0)

private theorem later : ∃ s a b, exec .persistOnly 32 one = .ok () s ∧
    Returned ((start .persistOnly 32 (iterFuel 32) s eCalls).exec (others fTurns)) false
      (.insert ten8 (rec1 9 1 9) none) a ∧
    ScanReturned ((eStart .persistOnly s).exec (fTurns ++ fMore)) 0 (.records ten8 none true) b := by
  obtain ⟨s, hs, hc⟩ := after_ok (o := exec .persistOnly 32 one) (chk := fun s =>
    ansIs (fun _ => true) (((start .persistOnly 32 (iterFuel 32) s eCalls).exec (others fTurns)).pool false) &&
    ansIs (fun _ => true) (((eStart .persistOnly s).exec (fTurns ++ fMore)).pool (.inr 0)))
    (by decide +kernel)
  rw [Bool.and_eq_true] at hc
  obtain ⟨a, ha, -⟩ := ansIs_iff.1 hc.1
  obtain ⟨b, hb, -⟩ := ansIs_iff.1 hc.2
  exact ⟨s, a, b, hs, ⟨rfl, ha⟩, rfl, hb⟩

private theorem no_marks (p : Prefix 32) (m : Mui) : NoMarksFor eCalls p m := by
  intro i t
  cases i <;> exact ⟨fun h => (by cases h), fun h => (by cases h)⟩

/-- The route whose insert returned before the query began is shown. -/
example : ∃ s b, exec .persistOnly 32 one = .ok () s ∧
    ScanReturned ((eStart .persistOnly s).exec (fTurns ++ fMore)) 0 (.records ten8 none true) b ∧
    ∃ rs r, b = .ok (some rs) ∧ r ∈ rs ∧ r.mui = 9#32 := by
  obtain ⟨s, a, b, hs, ha, hb⟩ := later
  obtain ⟨j, -, r', tbi', w, -, h2, -, rs, h3, h4, -⟩ := scan_upsert (F := 32) (Nat.le_refl _) (Nat.le_refl _)
    hs (tracked _) (no_marks _ _) ha (by simp [fTurns]) hb (fun m c => by cases c)
  refine ⟨s, b, hs, hb, rs, _, h3, h4, ?_⟩
  unfold shownAs
  split
  · exact (asStored_mui _ _).trans h2
  · exact (asStored_mui _ _).trans h2

/-- The first route is not touched by the insert of the second one and shown. -/
example : ∃ s b, exec .persistOnly 32 one = .ok () s ∧
    ScanReturned ((eStart .persistOnly s).exec (List.replicate 1 (.inr 0) ++
      List.replicate 24 (.inl false) ++ List.replicate 4 (.inr 0))) 0 (.records ten8 none true) b ∧
    ∃ rs, b = .ok (some rs) ∧ rec1 1 1 7 ∈ rs := by
  obtain ⟨s, hs, hc⟩ := after_ok (o := exec .persistOnly 32 one) (chk := fun s =>
    ansIs (fun _ => true) (((eStart .persistOnly s).exec (List.replicate 1 (.inr 0) ++
      List.replicate 24 (.inl false) ++ List.replicate 4 (.inr 0))).pool (.inr 0)))
    (by decide +kernel)
  obtain ⟨b, hb, -⟩ := ansIs_iff.1 hc
  refine ⟨s, b, hs, ⟨rfl, hb⟩, scan_steady (F := 32) (Nat.le_refl _) (Nat.le_refl _) hs (tracked _)
    (calls := eCalls) (scans := eScans) (q := 0) (r := rec1 1 1 7) (mui := none) (iw := true)
    ⟨rec1 1 1 7, rfl, fun m c => (by cases c), rfl⟩ (fun i hi => ?_) ⟨rfl, hb⟩⟩
  have : i = false := by
    revert hi
    cases i
    · exact fun _ => rfl
    · intro c; exact absurd c (by decide)
  subst this
  rintro (⟨r, tbi, h1, h2⟩ | ⟨tm, rs, ⟨h1, -⟩ | ⟨h1, -⟩⟩ | h1 | h1)
  · cases h1
    exact absurd h2 (by decide)
  all_goals cases h1

/-- A route without metadata, -/
private def bare : History Md 32 := [.insert ten8 ⟨1#32, 1#64, .active, ⟨[]⟩⟩ none]

/-- and two inserts of further ones. -/
private def gCalls : Bool → Call Md 32 := fun i =>
  if i then .insert ten16 ⟨2#32, 1#64, .active, ⟨[]⟩⟩ none
  else .insert ten8 ⟨1#32, 2#64, .active, ⟨[]⟩⟩ none

private def gStart (s : Rib Md 32) :=
  scanStart .writeAhead 32 (iterFuel 32) 100 s gCalls eScans

private def gTurns : List (Bool ⊕ Fin 2) := List.replicate 50 (.inl true)

/-- The iteration begins after the first insert and is interrupted by the second. -/
private def gMore : List (Bool ⊕ Fin 2) :=
  List.replicate 1 (.inr 1) ++ List.replicate 24 (.inl false) ++ List.replicate 8 (.inr 1)

private theorem iterated : ∃ s a, ∃ b : List (FatalResult (PrefixRecord Md 32)), exec .writeAhead 32 bare = .ok () s ∧
    Returned ((start .writeAhead 32 (iterFuel 32) s gCalls).exec (others gTurns)) true
      (.insert ten16 ⟨2#32, 1#64, .active, ⟨[]⟩⟩ none) a ∧
    ScanReturned ((gStart s).exec (gTurns ++ gMore)) 1 (.persisted none) b := by
  obtain ⟨s, hs, hc⟩ := after_ok (o := exec .writeAhead 32 bare) (chk := fun s =>
    ansIs (fun _ => true) (((start .writeAhead 32 (iterFuel 32) s gCalls).exec (others gTurns)).pool true) &&
    ansIs (fun _ => true) (((gStart s).exec (gTurns ++ gMore)).pool (.inr 1)))
    (by decide +kernel)
  rw [Bool.and_eq_true] at hc
  obtain ⟨a, ha, -⟩ := ansIs_iff.1 hc.1
  obtain ⟨b, hb, -⟩ := ansIs_iff.1 hc.2
  exact ⟨s, a, b, hs, ⟨rfl, ha⟩, rfl, hb⟩

private theorem all_bare (t : List Bool) (p : Prefix 32) (r : Record Md)
    (h : InsertedBy bare gCalls t p r) : Meta.toBytes r.md = [] := by
  obtain ⟨tbi, h | ⟨i, -, h⟩⟩ := h
  · obtain ⟨⟩ | ⟨_, h⟩ := h
    · rfl
    · cases h
  · cases i <;> cases h <;> rfl

/-- The route inserted before the iteration began is among its items, and all its records
were inserted. -/
example : ∃ s, ∃ b : List (FatalResult (PrefixRecord Md 32)), exec .writeAhead 32 bare = .ok () s ∧
    ScanReturned ((gStart s).exec (gTurns ++ gMore)) 1 (.persisted none) b ∧
    (∃ rs, .ok (ten16, rs) ∈ b ∧ (⟨2#32, 1#64, .active, ⟨[]⟩⟩ : Record Md) ∈ rs) ∧
    ∀ p rs r, .ok (p, rs) ∈ b → r ∈ rs →
      ∃ r0, InsertedBy bare gCalls (others (gTurns ++ gMore)) p r0 ∧
        r = (tagOf p r0).record (Meta.toBytes r0.md) := by
  obtain ⟨s, a, b, hs, ha, hb⟩ := iterated
  obtain ⟨rs, h1, h2⟩ := scan_write_ahead_complete_partial (F := 32) (Nat.le_refl _) (Nat.le_refl _) hs ha
    (by simp [gTurns]) hb (all_bare _)
  exact ⟨s, b, hs, hb, ⟨rs, h1, h2⟩, fun p rs r hp hm =>
    scan_write_ahead_sound (F := 32) (Nat.le_refl _) (Nat.le_refl _) hs hb hp hm⟩

/-- The iteration is that of a store gathered during it. -/
example : ∃ s b T l, exec .writeAhead 32 bare = .ok () s ∧
    ScanReturned ((gStart s).exec (gTurns ++ gMore)) 1 (.persisted none) b ∧
    PersistedEach (gStart s) (gTurns ++ gMore) 50 83 T ∧ b = upTo none l ∧
    ∀ s' : Rib Md 32, s'.lsm = T → (ribPersistPrefixesIter .writeAhead).run s' = .ok l s' := by
  obtain ⟨s, a, b, hs, ha, hb⟩ := iterated
  obtain ⟨T, l, h1, h2, h3⟩ := scan_persisted (F := 32) (fuel := iterFuel 32) (Nat.le_refl _) (Nat.le_refl _)
    hs (t := gTurns ++ gMore) (n := 83) (by decide)
    (by rw [show (gTurns ++ gMore).take 83 = gTurns ++ gMore by decide]; exact hb) (k := 50) (by decide)
    (by simp [gTurns])
  exact ⟨s, b, T, l, hs, hb, h1, h2, h3⟩

/-- Its items hold records persisted during it. -/
example : ∃ s, ∃ b : List (FatalResult (PrefixRecord Md 32)), exec .writeAhead 32 bare = .ok () s ∧
    ScanReturned ((gStart s).exec (gTurns ++ gMore)) 1 (.persisted none) b ∧
    (∃ p rs, .ok (p, rs) ∈ b ∧ rs ≠ []) ∧
    ∀ p rs r, .ok (p, rs) ∈ b → r ∈ rs → ∃ (key : Tag 32) (x : Bytes) (j : ℕ), 50 ≤ j ∧ j ≤ 83 ∧
      key.pfx = p ∧ r = key.record x ∧
      (key.key, x) ∈ ((gStart s).exec ((gTurns ++ gMore).take j)).st.lsm := by
  obtain ⟨s, a, b, hs, ha, hb⟩ := iterated
  obtain ⟨rs, h1, h2⟩ := scan_write_ahead_complete_partial (F := 32) (Nat.le_refl _) (Nat.le_refl _) hs ha
    (by simp [gTurns]) hb (all_bare _)
  exact ⟨s, b, hs, hb, ⟨_, rs, h1, List.ne_nil_of_mem h2⟩, fun p rs r hp hm =>
    scan_persisted_sound (F := 32) (Nat.le_refl _) (Nat.le_refl _) hs (fun c => by cases c)
      (t := gTurns ++ gMore) (n := 83) (by decide)
      (by rw [show (gTurns ++ gMore).take 83 = gTurns ++ gMore by decide]; exact hb) (k := 50) (by decide)
      (by simp [gTurns]) hp hm⟩

/-- No scan panics in this run; the other one has not begun. -/
example : ∃ s, exec .writeAhead 32 bare = .ok () s ∧ ∀ q,
    ((gStart s).exec (gTurns ++ gMore)).pool (.inr q) ≠ .panic := by
  obtain ⟨s, a, b, hs, ha, hb⟩ := iterated
  refine ⟨s, hs, fun q => ?_⟩
  generalize gTurns ++ gMore = t
  exact (scan_no_panic (F := 32) (Nat.le_refl _) (Nat.le_refl _) hs t q).1

/-- With room for a single persisted record the iteration does not come to an end. -/
example : ∃ s, exec .writeAhead 32 bare = .ok () s ∧
    ((scanStart .writeAhead 32 (iterFuel 32) 1 s gCalls eScans).exec gMore).pool (.inr 1) = .diverge := by
  obtain ⟨s, hs, hc⟩ := after_ok (o := exec .writeAhead 32 bare) (chk := fun s =>
    match ((scanStart .writeAhead 32 (iterFuel 32) 1 s gCalls eScans).exec gMore).pool (.inr 1) with
    | .diverge => true
    | _ => false) (by decide +kernel)
  refine ⟨s, hs, ?_⟩
  split at hc
  · assumption
  · cases hc

/-- The first insert, then the iteration for ever. -/
private def gSched (n : ℕ) : Bool ⊕ Fin 2 := if n < 50 then .inl true else .inr 1

private theorem others_sched (n : ℕ) :
    others ((List.range n).map gSched) = List.replicate (min n 50) true := by
  induction n with
  | zero => rfl
  | succ n ih =>
    rw [List.range_succ, List.map_append, others_append, ih]
    by_cases hn : n < 50
    · rw [min_eq_left (by omega), min_eq_left (by omega), List.replicate_succ']
      simp [others, gSched, hn]
    · rw [min_eq_right (by omega), min_eq_right (by omega)]
      simp [others, gSched, hn]

/-- It returns. -/
example : ∃ s n a, exec .writeAhead 32 bare = .ok () s ∧
    ScanReturned ((gStart s).exec ((List.range n).map gSched)) 1 (.persisted none) a := by
  obtain ⟨s, hs, hc⟩ := after_ok (o := exec .writeAhead 32 bare) (chk := fun s =>
    decide (∀ n ∈ List.range 51, ((start .writeAhead 32 (iterFuel 32) s gCalls).exec
      (List.replicate n true)).st.lsm.length < 100)) (by decide +kernel)
  rw [decide_eq_true_iff] at hc
  obtain ⟨n, a, h⟩ := scan_returns (F := 32) (fuel := iterFuel 32) (fuel' := 100) (calls := gCalls)
    (scans := eScans) (Nat.le_refl _) (Nat.le_refl _) hs gSched (q := 1)
    (fun n => ⟨max n 50, Nat.le_max_left _ _, by
      unfold gSched; rw [if_neg (by omega)]⟩)
    (fun n => by
      rw [(scans_harmless .writeAhead 32 _ 100 s gCalls eScans _).1, others_sched]
      exact hc _ (List.mem_range.2 (by omega)))
  exact ⟨s, n, a, hs, h⟩

/-- Alone, on three records. -/
example : ∃ s, exec .persistOnly 32 pair = .ok () s ∧ s.lsm ≠ [] ∧
    (ribGetValueSteps (M := Md) 100 ten8.id none true).run s =
      (ribGetValue .persistOnly ten8.id none true).run s := by
  obtain ⟨s, hs, hc⟩ := after_ok (o := exec .persistOnly 32 pair) (chk := fun s =>
    decide (s.lsm.length < 100) && decide (s.lsm ≠ [])) (by decide +kernel)
  rw [Bool.and_eq_true, decide_eq_true_iff, decide_eq_true_iff] at hc
  exact ⟨s, hs, hc.2, scan_records_alone hs hc.1 _ _ _⟩

/-- The first item alone. -/
example : ∃ s l, exec .writeAhead 32 bare = .ok () s ∧ l ≠ [] ∧
    (ribPersistIterSteps (M := Md) (W := 32) .writeAhead 100 (some 1)).run s = .ok (l.take 1) s := by
  obtain ⟨s, hs, hc⟩ := after_ok (o := exec .writeAhead 32 bare) (chk := fun s =>
    decide (s.lsm.length < 100) &&
    match (ribPersistPrefixesIter (M := Md) (W := 32) .writeAhead).run s with
    | .ok l _ => !l.isEmpty
    | _ => false) (by decide +kernel)
  rw [Bool.and_eq_true, decide_eq_true_iff] at hc
  obtain ⟨l, hl, -⟩ := persist_iter_sound (M := Md) (st := .writeAhead) (fun c => by cases c) hs
  have h2 := hc.2
  rw [hl] at h2
  exact ⟨s, l, hs, by simpa using h2, scan_persisted_alone hs hc.1 (some 1) hl⟩

end

end Rotonda.Props
