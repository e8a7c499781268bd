import Verif.Props.ConcDemo

/-!
# Calls running at the same time: C35–C38

The store is in the state `s` after any history `h` of calls; then any set of
calls runs concurrently (`calls`, named by any type `ι`), their atomic actions
interleaved by any schedule.  `t` is what happened so far, `t ++ u` is later.
-/

namespace Rotonda.Props

open Prog Spec

variable {M : Type} [Meta M] {W : Nat} {ι : Type} [DecidableEq ι] {calls : ι → Call M W}

section
variable [Fam W] {st : Strategy} {F0 F fuel : Nat} (hF : 32 ≤ F) (hf : iterFuel W ≤ fuel)
  {h : History M W} {s : Rib M W} (hs : exec st F0 h = .ok () s)
include hF hf hs

/-! ## C35 -/

/-- C35: once an insert of `p` has returned, `contains(p, None)` is true in every
later state.  Partial: not for the default route, see `contains_default_conc`. -/
theorem concurrent_contains_partial {t : List ι} {p : Prefix W} {m : Mui} (h0 : 0 < p.len)
    (hc : Completed h ((start st F fuel s calls).exec t) p m) (u : List ι) :
    (ribContains p.id none).run ((start st F fuel s calls).exec (t ++ u)).st =
      .ok true ((start st F fuel s calls).exec (t ++ u)).st := by
  have hset := (completed_settled hF hf hs h0 hc).ext (run_grow (calls := calls) hF hf hs t u).1.nodes.1
  have hsane := run_sane (calls := calls) hF hf hs (t ++ u)
  have hw := wp_ribContains (R := Eq) (D := False) (fun a b h => h ▸ Grow.rfl' a) p.clean none hsane
  obtain ⟨b, hb, hq⟩ := run_of_wp_ro _ hw
  cases b with
  | true => exact hb
  | false => exact (hq.2 rfl ⟨⟨h0, hset.pfx⟩, fun m hm => by cases hm⟩).elim

/-- The default route is never reported. -/
theorem contains_default_conc (t : List ι) (mui : Option Mui) :
    (ribContains (Prefix.root W).id mui).run ((start st F fuel s calls).exec t).st =
      .ok false ((start st F fuel s calls).exec t).st := by
  have hsane := run_sane (calls := calls) hF hf hs t
  have hw := wp_ribContains (R := Eq) (D := False) (fun a b h => h ▸ Grow.rfl' a) (Prefix.root W).clean
    mui hsane
  obtain ⟨b, hb, hq⟩ := run_of_wp_ro _ hw
  cases b with
  | false => exact hb
  | true => exact absurd (hq.1 rfl).1.1 (Nat.lt_irrefl 0)

/-! ## C36 -/

/-- C36: no call ever panics, and none gets stuck, except that the two global status
changes may (see C40). -/
theorem concurrent_no_panic (t : List ι) (i : ι) :
    ((start st F fuel s calls).exec t).pool i ≠ .panic ∧
      ((∀ m, calls i ≠ .withdraw m) → (∀ m, calls i ≠ .activate m) →
        ((start st F fuel s calls).exec t).pool i ≠ .diverge) := by
  obtain ⟨_, hw⟩ := run_calls (calls := calls) hF hf (sane_start hs calls (i :: t)) t
    (fun j hj => begun_in (List.mem_cons_of_mem _ hj)) (st := st)
  have hi := hw i (begun_in List.mem_cons_self)
  refine ⟨fun hp => ?_, fun h1 h2 hp => ?_⟩
  · rw [hp] at hi; exact hi
  · rw [hp] at hi
    have hl : (calls i).MayLoop := hi
    cases hc : calls i with
    | withdraw m => exact h1 m hc
    | activate m => exact h2 m hc
    | _ => rw [hc] at hl; exact hl

/-- C36: every call, except the two global status changes, returns when it is given
enough turns, whatever the others do: no call waits for another. -/
theorem concurrent_calls_return (sched : Nat → ι) {i : ι} (h1 : ∀ m, calls i ≠ .withdraw m)
    (h2 : ∀ m, calls i ≠ .activate m) (hfair : ∀ n, ∃ m, n ≤ m ∧ sched m = i) :
    ∃ n a, ((start st F fuel s calls).exec ((List.range n).map sched)).pool i = .ret a := by
  obtain ⟨n, hn⟩ := Conf.ends (start st F fuel s calls) sched i hfair
  have hnp := concurrent_no_panic (calls := calls) hF hf hs ((List.range n).map sched) i
  refine ⟨n, ?_⟩
  cases hp : ((start st F fuel s calls).exec ((List.range n).map sched)).pool i with
  | ret a => exact ⟨a, rfl⟩
  | act f k => rw [hp] at hn; exact hn.elim
  | panic => exact (hnp.1 hp).elim
  | diverge => exact (hnp.2 h1 h2 hp).elim

/-- C36: an insert without path selection succeeds.  Partial: an insert with path
selection can report `PathSelectionOutdated`, see `concurrent_insert_fails`. -/
theorem concurrent_insert_ok_partial {t : List ι} {i : ι} {p : Prefix W} {r : Record M}
    {tbi : Option (Meta.TBI M)} {a : Except StoreError UpsertReport}
    (hr : Returned ((start st F fuel s calls).exec t) i (.insert p r tbi) a) :
    (∃ rep, a = .ok rep) ∨ (tbi ≠ none ∧ a = .error .pathSelectionOutdated) := by
  have hi := returned_insert_mem hr
  exact (late_answer (t := []) (u := t) hF hf hs (List.not_mem_nil) hr
    ⟨p, rfl, .inr ⟨i, hi, r, tbi, hr.1, rfl⟩⟩ (C := False) (fun c => c.elim)).2

/-- C36: no two slots of the node table hold the same id, no two slots of the
prefix table the same prefix, at any time. -/
theorem concurrent_one_slot (t : List ι) (a b : Addr) :
    (∀ e e' : StoredNode W, ((start st F fuel s calls).exec t).st.tree.slots a = some e →
      ((start st F fuel s calls).exec t).st.tree.slots b = some e' → e.id = e'.id → a = b) ∧
    (∀ e e' : StoredPrefix M W, ((start st F fuel s calls).exec t).st.cht.slots a = some e →
      ((start st F fuel s calls).exec t).st.cht.slots b = some e' → e.id = e'.id → a = b) := by
  have hsane := run_sane (calls := calls) hF hf hs t
  exact ⟨fun e e' h1 h2 hid => hsane.nodes.unique h1 h2 hid,
    fun e e' h1 h2 hid => hsane.recs.unique h1 h2 hid⟩

/-! ## C37 -/

/-- C37, `contains`: a positive answer is about a prefix some insert was called for. -/
theorem concurrent_contains_sound {t : List ι} {j : ι} {p : Prefix W} {mui : Option Mui}
    (hr : Returned ((start st F fuel s calls).exec t) j (.contains p mui) true) :
    ∃ m, Begun h calls t p m :=
  seen_begun hF hf hs ((late_answer (t := []) (u := t) hF hf hs (List.not_mem_nil) hr trivial
    (C := False) (fun c => c.elim)).1 rfl).1

/-- C37, `contains`: no prefix is missed whose insert returned before the query started
(not the default route). -/
theorem concurrent_contains_complete_partial {t u : List ι} {j : ι} (hj : j ∉ t) {p : Prefix W}
    {m : Mui} (h0 : 0 < p.len) (hc : Completed h ((start st F fuel s calls).exec t) p m) {b : Bool}
    (hr : Returned ((start st F fuel s calls).exec (t ++ u)) j (.contains p none) b) : b = true := by
  have := late_answer hF hf hs hj hr trivial (C := False) (fun c => c.elim)
  cases b with
  | true => rfl
  | false =>
    exact (this.2 rfl ⟨⟨h0, (completed_settled hF hf hs h0 hc).pfx⟩, fun m hm => by cases hm⟩).elim

/-- C37, less specifics: the answer has no errors, no duplicates and no empty records;
it reports only prefixes that cover `p` and that some insert was called for; with
withdrawn routes included it misses none whose insert returned before the iteration
started (not the default route). -/
theorem concurrent_less_specifics_partial {t u : List ι} {j : ι} (hj : j ∉ t) {p : Prefix W}
    {mui : Option Mui} {iw : Bool} {l : List (FatalResult (PrefixRecord M W))}
    (hr : Returned ((start st F fuel s calls).exec (t ++ u)) j (.lessIter p mui iw) l) :
    ∃ qs : List (PrefixRecord M W), l = qs.map .ok ∧ (qs.map Prod.fst).Nodup ∧
      (∀ x ∈ qs, x.2 ≠ [] ∧ Covers x.1 p ∧ x.1 ≠ p ∧ ∃ m, Begun h calls (t ++ u) x.1 m) ∧
      (iw = true → ∀ q m, 0 < q.len → Covers q p → q ≠ p → (mui = none ∨ mui = some m) →
        Completed h ((start st F fuel s calls).exec t) q m → ∃ rs, (q, rs) ∈ qs) := by
  obtain ⟨qs, h1, h2, h3, h4⟩ := late_answer hF hf hs hj hr trivial (C := False) (fun c => c.elim)
  refine ⟨qs, h1, h2, fun x hx => ?_, fun hiw q m h0 hcov hne hm hc => ?_⟩
  · obtain ⟨e1, e2, e3, e4⟩ := h3 x hx
    have e3' : x.1.len < p.len := e3
    exact ⟨e1, covers_trunc.2 ⟨Nat.le_of_lt e3, e4⟩, fun he => by rw [he] at e3'; omega,
      seen_begun hF hf hs e2⟩
  · obtain ⟨c1, c2⟩ := covers_trunc.1 hcov
    refine h4 q ⟨h0, (completed_settled hF hf hs h0 hc).pfx⟩ ?_ c2
      ⟨hiw, m, hm, (completed_placed hF hf hs hc).2⟩
    rcases Nat.lt_or_ge q.len p.len with hlt | hge
    · exact hlt
    · have hle : q.len = p.len := by omega
      exact (hne (Prefix.id_inj (by rw [← c2, hle]; exact truncate_self p.clean))).elim

/-- C37, `match_prefix`: never an error; the prefix found covers `p` (equals it for an
exact match), has records, and some insert was called for it.  With withdrawn routes
included, when `q` covers `p` and its insert returned before the query started, the
answer is `q` or longer, or nothing at all because of a longer prefix which is begun
but not completed.  Partial: that last case contradicts the property, see
`concurrent_match_misses`; not for the default route. -/
theorem concurrent_match_partial {t u : List ι} {j : ι} (hj : j ∉ t) {p : Prefix W}
    {o : MatchOptions} {res : FatalResult (QueryResult M W)}
    (hr : Returned ((start st F fuel s calls).exec (t ++ u)) j (.matchPrefix p o) res) :
    ∃ x, res = .ok x ∧
      (∀ q, x.prefix_ = some q → Covers q p ∧ x.records ≠ [] ∧
        (o.matchType = .exactMatch → q = p) ∧ ∃ m, Begun h calls (t ++ u) q m) ∧
      (o.includeWithdrawn = true → ∀ q m, 0 < q.len → (o.mui = none ∨ o.mui = some m) →
        Completed h ((start st F fuel s calls).exec t) q m → Covers q p →
        (o.matchType = .exactMatch → q = p) →
        (∃ q', x.prefix_ = some q' ∧ q.len ≤ q'.len) ∨
        (x.prefix_ = none ∧ o.matchType ≠ .exactMatch ∧
          ∃ q' m', q.len < q'.len ∧ Covers q' p ∧ Begun h calls (t ++ u) q' m' ∧
            ∀ m'', (o.mui = none ∨ o.mui = some m'') →
              ¬ Completed h ((start st F fuel s calls).exec t) q' m'')) ∧
      (o.includeLessSpecifics = true → ∃ qs, x.lessSpecifics = some qs ∧ (qs.map Prod.fst).Nodup ∧
        (∀ y ∈ qs, y.2 ≠ [] ∧ Covers y.1 p ∧ y.1 ≠ p ∧ ∃ m, Begun h calls (t ++ u) y.1 m) ∧
        (o.includeWithdrawn = true → ∀ q m, 0 < q.len → Covers q p → q ≠ p →
          (o.mui = none ∨ o.mui = some m) →
          Completed h ((start st F fuel s calls).exec t) q m → ∃ rs, (q, rs) ∈ qs)) := by
  obtain ⟨x, hx, ⟨l, hl, hfound⟩, hless, -⟩ :=
    late_answer hF hf hs hj hr trivial (C := False) (fun c => c.elim)
  have htr : ∀ k, k ≤ p.len → ∃ q : Prefix W, q.id = p.id.truncateTo k ∧ q.len = k ∧ Covers q p := by
    intro k hk
    have hk' : k ≤ W := Nat.le_trans hk p.clean.1
    obtain ⟨q, hq⟩ := exists_prefix (clean_truncate p.bits hk')
    have hq' : q.id = p.id.truncateTo k := hq
    have hlen : q.len = k := congrArg PrefixId.len hq'
    exact ⟨q, hq', hlen, covers_trunc.2 ⟨by omega, by rw [hlen, hq']⟩⟩
  refine ⟨x, hx, fun q hq => ?_, fun hiw q m h0 hm hc hcov hex => ?_, fun hls => ?_⟩
  · rcases hfound with ⟨hn, _⟩ | ⟨q', k, rfl, hq', hid, hrec, hexact⟩
    · rw [hq] at hn; cases hn
    · rw [hq] at hq'; cases hq'
      obtain ⟨hk0, hkl, hseen, _⟩ := hl.2 k rfl
      obtain ⟨q2, hq2, _, hcov⟩ := htr k hkl
      have : q2 = q := Prefix.id_inj (hq2.trans hid.symm)
      subst this
      refine ⟨hcov, hrec, fun he => Prefix.id_inj (hexact he), ?_⟩
      rw [← hid] at hseen
      exact seen_begun hF hf hs hseen
  · obtain ⟨c1, c2⟩ := covers_trunc.1 hcov
    have hseenq : Seen ((start st F fuel s calls).exec t).st.tree.slots (p.id.truncateTo q.len) := by
      rw [c2]; exact ⟨h0, (completed_settled hF hf hs h0 hc).pfx⟩
    have hask : ∀ (q' : Prefix W) m', (o.mui = none ∨ o.mui = some m') →
        Completed h ((start st F fuel s calls).exec t) q' m' →
        Asked st o.mui o.includeWithdrawn q'.id ((start st F fuel s calls).exec t).st :=
      fun q' m' hm' hc' => ⟨hiw, m', hm', (completed_placed hF hf hs hc').2⟩
    cases l with
    | none => exact (hl.1 rfl q.len h0 c1 hseenq).elim
    | some k =>
      obtain ⟨hk0, hkl, hseen, hbest⟩ := hl.2 k rfl
      have hqk : q.len ≤ k := by
        by_contra hlt
        exact hbest q.len (by omega) c1 hseenq
      obtain ⟨q2, hq2, hlen2, hcov2⟩ := htr k hkl
      rcases hfound with ⟨hn, _, hna⟩ | ⟨q', k', hk', hq', hid, _⟩
      · right
        have hke : o.matchType = .exactMatch → k = p.len := fun he => by
          have := hex he; subst this
          have hkl' : k ≤ q.len := hkl
          omega
        have hnot := hna k rfl hke
        rw [← hq2] at hnot hseen
        have hne : q ≠ q2 := by
          rintro rfl
          exact hnot (hask _ m hm hc)
        have hlt : q.len < q2.len := by
          rcases Nat.lt_or_ge q.len q2.len with h | h
          · exact h
          · have he : q.len = k := by omega
            exact (hne (Prefix.id_inj (by rw [hq2, ← he, c2]))).elim
        refine ⟨hn, fun he => ?_, ?_⟩
        · have := hex he; subst this
          have := hke he
          omega
        · obtain ⟨m', hm'⟩ := seen_begun hF hf hs hseen
          exact ⟨q2, m', hlt, hcov2, hm', fun m'' hm'' hc'' => hnot (hask _ m'' hm'' hc'')⟩
      · left
        cases hk'
        refine ⟨q', hq', ?_⟩
        have : q'.len = k := congrArg PrefixId.len hid
        omega
  · rcases hless with ⟨h1, _⟩ | ⟨qs, ls, h1, hL, hnd, h3, h4⟩
    · rw [hls] at h1; cases h1
    refine ⟨qs, h1, hnd, fun y hy => ?_, fun hiw q m h0 hcov hne hm hc => ?_⟩
    · obtain ⟨e1, e2⟩ := h3 y hy
      obtain ⟨k, hk, hid⟩ := List.mem_map.1 e2
      obtain ⟨hk0, hkl⟩ := hL.range k hk
      obtain ⟨q2, hq2, hlen2, hcov2⟩ := htr k (Nat.le_of_lt hkl)
      have : q2 = y.1 := Prefix.id_inj (hq2.trans hid)
      subst this
      have hkl' : k < p.len := hkl
      refine ⟨e1, hcov2, fun he => ?_, seen_begun hF hf hs ?_⟩
      · rw [he] at hlen2; omega
      · rw [hq2]; exact hL.sound k hk
    · obtain ⟨c1, c2⟩ := covers_trunc.1 hcov
      have hlt : q.len < p.len := by
        rcases Nat.lt_or_ge q.len p.len with hlt | hge
        · exact hlt
        · have hle : q.len = p.len := by omega
          exact (hne (Prefix.id_inj (by rw [← c2, hle]; exact truncate_self p.clean))).elim
      refine h4 q (List.mem_map.2 ⟨q.len, hL.complete q.len h0 hlt ?_, c2⟩)
        ⟨hiw, m, hm, (completed_placed hF hf hs hc).2⟩
      rw [c2]; exact ⟨h0, (completed_settled hF hf hs h0 hc).pfx⟩

/-! ## C38 -/

/-- C38, more specifics: the answer has no errors, no duplicates, no empty records, and
only prefixes covered by `p` that some insert was called for.  With withdrawn routes
included it misses none whose insert returned before the iteration started, if no insert
below `p` needs a new tree node while it runs.  Partial: without that condition a prefix
can be missed, see `concurrent_iteration_misses`; not for host prefixes and the default
route. -/
theorem concurrent_more_specifics_partial {t u : List ι} {j : ι} (hj : j ∉ t) {p : Prefix W}
    {mui : Option Mui} {iw : Bool} {l : List (FatalResult (PrefixRecord M W))}
    (hr : Returned ((start st F fuel s calls).exec (t ++ u)) j (.moreIter p mui iw) l) :
    ∃ qs : List (PrefixRecord M W), l = qs.map .ok ∧ (qs.map Prod.fst).Nodup ∧
      (∀ x ∈ qs, x.2 ≠ [] ∧ Covers p x.1 ∧ ∃ m, Begun h calls (t ++ u) x.1 m) ∧
      (iw = true → NoNewNodes h ((start st F fuel s calls).exec t) (t ++ u) p → p.len < W →
        ∀ q m, 0 < q.len → Covers p q → (mui = none ∨ mui = some m) →
          Completed h ((start st F fuel s calls).exec t) q m → ∃ rs, (q, rs) ∈ qs) := by
  obtain ⟨qs, h1, h2, h3, h4⟩ := late_answer hF hf hs hj hr trivial
    (C := NoNewNodes h ((start st F fuel s calls).exec t) (t ++ u) p)
    (fun c v hv => kids_of_noNewNodes hF hf hs hv c)
  refine ⟨qs, h1, h2, fun x hx => ?_, fun hiw hq hW q m h0 hcov hm hc => ?_⟩
  · obtain ⟨e1, ⟨_, e2, e3⟩, e4⟩ := h3 x hx
    exact ⟨e1, covers_trunc'.2 ⟨e2, e3⟩, seen_begun hF hf hs e4⟩
  · obtain ⟨c1, c2⟩ := covers_trunc'.1 hcov
    exact h4 hq q (completed_settled hF hf hs h0 hc) ⟨hW, c1, c2⟩
      ⟨hiw, m, hm, (completed_placed hF hf hs hc).2⟩

/-- C38, all prefixes: as for more specifics; every prefix that is completed is given
with records. -/
theorem concurrent_prefixes_partial {t u : List ι} {j : ι} (hj : j ∉ t)
    {l : List (FatalResult (PrefixRecord M W))}
    (hr : Returned ((start st F fuel s calls).exec (t ++ u)) j .prefixesIter l) :
    ∃ qs : List (PrefixRecord M W), l = qs.map .ok ∧ (qs.map Prod.fst).Nodup ∧
      (∀ x ∈ qs, ∃ m, Begun h calls (t ++ u) x.1 m) ∧
      (NoNewNodes h ((start st F fuel s calls).exec t) (t ++ u) (Prefix.root W) →
        ∀ q m, 0 < q.len → Completed h ((start st F fuel s calls).exec t) q m →
          ∃ rs, (q, rs) ∈ qs ∧ rs ≠ []) := by
  obtain ⟨qs, h1, h2, h3, h4⟩ := late_answer hF hf hs hj hr trivial
    (C := NoNewNodes h ((start st F fuel s calls).exec t) (t ++ u) (Prefix.root W))
    (fun c v hv => kids_of_noNewNodes hF hf hs hv c)
  refine ⟨qs, h1, h2, fun x hx => seen_begun hF hf hs (h3 x hx), fun hq q m h0 hc => ?_⟩
  obtain ⟨rs, hmem, hne⟩ := h4 hq q (completed_settled hF hf hs h0 hc)
  exact ⟨rs, hmem, hne ⟨rfl, m, .inl rfl, (completed_placed hF hf hs hc).2⟩⟩

/-- C38, the records of one peer, likewise. -/
theorem concurrent_records_for_mui_partial {t u : List ι} {j : ι} (hj : j ∉ t) {m : Mui} {iw : Bool}
    {l : List (FatalResult (PrefixRecord M W))}
    (hr : Returned ((start st F fuel s calls).exec (t ++ u)) j (.recordsForMui m iw) l) :
    ∃ qs : List (PrefixRecord M W), l = qs.map .ok ∧ (qs.map Prod.fst).Nodup ∧
      (∀ x ∈ qs, x.2 ≠ [] ∧ ∃ m, Begun h calls (t ++ u) x.1 m) ∧
      (iw = true → NoNewNodes h ((start st F fuel s calls).exec t) (t ++ u) (Prefix.root W) →
        ∀ q, 0 < q.len → Completed h ((start st F fuel s calls).exec t) q m → ∃ rs, (q, rs) ∈ qs) := by
  obtain ⟨qs, h1, h2, h3, h4⟩ := late_answer hF hf hs hj hr trivial
    (C := NoNewNodes h ((start st F fuel s calls).exec t) (t ++ u) (Prefix.root W))
    (fun c v hv => kids_of_noNewNodes hF hf hs hv c)
  refine ⟨qs, h1, h2, fun x hx => ?_, fun hiw hq q h0 hc => ?_⟩
  · obtain ⟨e1, _, e4⟩ := h3 x hx
    exact ⟨e1, seen_begun hF hf hs e4⟩
  · obtain ⟨c1, c2⟩ := covers_trunc'.1 (covers_root q)
    exact h4 hq q (completed_settled hF hf hs h0 hc)
      ⟨by rcases ‹Fam W›.width with h | h <;> (show 0 < W; omega), c1, c2⟩
      ⟨hiw, m, .inr rfl, (completed_placed hF hf hs hc).2⟩

/-- C38, the more specifics of `match_prefix`, likewise. -/
theorem concurrent_match_more_partial {t u : List ι} {j : ι} (hj : j ∉ t) {p : Prefix W}
    {o : MatchOptions} {x : QueryResult M W} (ho : o.includeMoreSpecifics = true)
    (hr : Returned ((start st F fuel s calls).exec (t ++ u)) j (.matchPrefix p o) (.ok x)) :
    ∃ qs, x.moreSpecifics = some qs ∧ (qs.map Prod.fst).Nodup ∧
      (∀ y ∈ qs, y.2 ≠ [] ∧ Covers p y.1 ∧ y.1 ≠ p ∧ ∃ m, Begun h calls (t ++ u) y.1 m) ∧
      (o.includeWithdrawn = true → NoNewNodes h ((start st F fuel s calls).exec t) (t ++ u) p →
        p.len < W → ∀ q m, 0 < q.len → Covers p q → q ≠ p → (o.mui = none ∨ o.mui = some m) →
          Completed h ((start st F fuel s calls).exec t) q m → ∃ rs, (q, rs) ∈ qs) := by
  obtain ⟨x', hx, -, -, hmore⟩ := late_answer hF hf hs hj hr trivial
    (C := NoNewNodes h ((start st F fuel s calls).exec t) (t ++ u) p)
    (fun c v hv => kids_of_noNewNodes hF hf hs hv c)
  cases hx
  rcases hmore with ⟨h1, _⟩ | ⟨qs, out, h1, hy, hnd, h3, h4⟩
  · rw [ho] at h1; cases h1
  refine ⟨qs, h1, hnd, fun y hyq => ?_, fun hiw hq hW q m h0 hcov hne hm hc => ?_⟩
  · obtain ⟨e1, e2⟩ := h3 y hyq
    rw [List.mem_filter] at e2
    obtain ⟨⟨_, c1, c2⟩, hst⟩ := hy.sound _ e2.1
    refine ⟨e1, covers_trunc'.2 ⟨c1, c2⟩, fun he => ?_, seen_begun hF hf hs hst.2⟩
    rw [he] at e2; simp at e2
  · obtain ⟨c1, c2⟩ := covers_trunc'.1 hcov
    refine h4 q (List.mem_filter.2 ⟨hy.complete hq q.id (completed_settled hF hf hs h0 hc)
      ⟨hW, c1, c2⟩, ?_⟩) ⟨hiw, m, hm, (completed_placed hF hf hs hc).2⟩
    simp only [decide_eq_true_eq]
    exact fun he => hne (Prefix.id_inj he)

end

/-! ## Counterexamples and examples -/

section
open Demo

/-- C36 fails: of two concurrent inserts for a present prefix, both with path selection,
one can return an error (its record is stored all the same). -/
theorem concurrent_insert_fails :
    ∃ s, exec .memoryOnly 32 one = .ok () s ∧ ∃ t, Returned (two .memoryOnly s
      (.insert ten8 (rec1 2 2 3) (some ())) (.insert ten8 (rec1 3 2 3) (some ())) t) true
        (.insert ten8 (rec1 2 2 3) (some ())) (.error .pathSelectionOutdated) := by
  obtain ⟨s, hs, hc⟩ := after_ok (o := exec .memoryOnly 32 one) (chk := fun s =>
    ansIs (fun x : Except StoreError UpsertReport => match x with
      | .error .pathSelectionOutdated => true
      | _ => false) ((two .memoryOnly s (.insert ten8 (rec1 2 2 3) (some ()))
        (.insert ten8 (rec1 3 2 3) (some ())) (turns 15 40 10)).pool true)) (by decide +kernel)
  obtain ⟨a, ha, hP⟩ := ansIs_iff.1 hc
  refine ⟨s, hs, turns 15 40 10, ?_⟩
  split at hP
  · exact ⟨rfl, ha⟩
  · cases hP

/-- C37 fails: a longest match can come back empty although a matching prefix was there
from the start, because a longer one is just being inserted. -/
theorem concurrent_match_misses :
    ∃ s, exec .memoryOnly 32 one = .ok () s ∧ Completed one (two .memoryOnly s
        (.insert ten16 (rec1 1 2 3) none) (.matchPrefix host longest) []) ten8 1#32 ∧
      Covers ten8 host ∧ ∃ t x, Returned (two .memoryOnly s
        (.insert ten16 (rec1 1 2 3) none) (.matchPrefix host longest) t) false
          (.matchPrefix host longest) (.ok x) ∧ x.prefix_ = none := by
  obtain ⟨s, hs, hc⟩ := after_ok (o := exec .memoryOnly 32 one) (chk := fun s =>
    ansIs (fun x : FatalResult (QueryResult Md 32) => match x with
      | .ok x => x.prefix_.isNone
      | _ => false) ((two .memoryOnly s (.insert ten16 (rec1 1 2 3) none)
        (.matchPrefix host longest) (turns 33 100 0)).pool false)) (by decide +kernel)
  obtain ⟨a, ha, hP⟩ := ansIs_iff.1 hc
  refine ⟨s, hs, .inl ⟨_, _, List.mem_singleton.2 rfl, rfl⟩, by decide, turns 33 100 0, ?_⟩
  split at hP
  · exact ⟨_, ⟨rfl, ha⟩, Option.isNone_iff_eq_none.1 hP⟩
  · cases hP

/-- C38 fails: an iteration can end before a prefix that was there from the start, because
a node in front of it is announced but not yet created. -/
theorem concurrent_iteration_misses :
    ∃ s, exec .memoryOnly 32 pair = .ok () s ∧ Completed pair (two .memoryOnly s
        (.insert host (rec1 1 2 3) none) (.moreIter ten8 none true) []) ten16b 1#32 ∧
      Covers ten8 ten16b ∧ ∃ t, ∃ l : List (FatalResult (PrefixRecord Md 32)), Returned (two .memoryOnly s
        (.insert host (rec1 1 2 3) none) (.moreIter ten8 none true) t) false
          (.moreIter ten8 none true) l ∧ ∀ rs, .ok (ten16b, rs) ∉ l := by
  obtain ⟨s, hs, hc⟩ := after_ok (o := exec .memoryOnly 32 pair) (chk := fun s =>
    ansIs (fun l : List (FatalResult (PrefixRecord Md 32)) => l.all fun x => match x with
      | .ok y => y.1.id.bits != ten16b.id.bits
      | _ => true) ((two .memoryOnly s (.insert host (rec1 1 2 3) none)
        (.moreIter ten8 none true) (turns 17 400 0)).pool false)) (by decide +kernel)
  obtain ⟨a, ha, hP⟩ := ansIs_iff.1 hc
  refine ⟨s, hs, .inl ⟨_, _, List.mem_cons_of_mem _ (List.mem_singleton.2 rfl), rfl⟩, by decide,
    turns 17 400 0, a, ⟨rfl, ha⟩, fun rs hmem => ?_⟩
  have := List.all_eq_true.1 hP _ hmem
  simp at this

/-- A run in which an insert has returned while an iteration is under way; later the
iteration returns too. -/
theorem demo_run :
    ∃ s, exec .memoryOnly 32 pair = .ok () s ∧
      (∃ a, Returned (two .memoryOnly s (.insert host (rec1 1 2 3) none) (.moreIter ten8 none true)
        (turns 10 5 200)) true (.insert host (rec1 1 2 3) none) a) ∧
      (¬ ∃ a, Returned (two .memoryOnly s (.insert host (rec1 1 2 3) none) (.moreIter ten8 none true)
        (turns 10 5 200)) false (.moreIter ten8 none true) a) ∧
      ∃ a, Returned (two .memoryOnly s (.insert host (rec1 1 2 3) none) (.moreIter ten8 none true)
        (turns 10 5 200 ++ turns 0 400 0)) false (.moreIter ten8 none true) a := by
  obtain ⟨s, hs, hc⟩ := after_ok (o := exec .memoryOnly 32 pair) (chk := fun s =>
    ansIs (fun _ => true) ((two .memoryOnly s (.insert host (rec1 1 2 3) none)
        (.moreIter ten8 none true) (turns 10 5 200)).pool true) &&
    !ansIs (fun _ => true) ((two .memoryOnly s (.insert host (rec1 1 2 3) none)
        (.moreIter ten8 none true) (turns 10 5 200)).pool false) &&
    ansIs (fun _ => true) ((two .memoryOnly s (.insert host (rec1 1 2 3) none)
        (.moreIter ten8 none true) (turns 10 5 200 ++ turns 0 400 0)).pool false)) (by decide +kernel)
  simp only [Bool.and_eq_true, Bool.not_eq_true'] at hc
  obtain ⟨⟨h1, h2⟩, h3⟩ := hc
  obtain ⟨a, ha, _⟩ := ansIs_iff.1 h1
  obtain ⟨b, hb, _⟩ := ansIs_iff.1 h3
  refine ⟨s, hs, ⟨a, rfl, ha⟩, ?_, ⟨b, rfl, hb⟩⟩
  rintro ⟨c, hcall, hp⟩
  rw [ansIs_iff.2 ⟨_, hp, rfl⟩] at h2
  cases h2

/-- The hypotheses of `concurrent_contains_partial` hold in this run. -/
example : ∃ s, exec .memoryOnly 32 pair = .ok () s ∧ ∀ u, (ribContains host.id none).run
    (two .memoryOnly s (.insert host (rec1 1 2 3) none) (.moreIter ten8 none true)
      (turns 10 5 200 ++ u)).st = .ok true (two .memoryOnly s (.insert host (rec1 1 2 3) none)
        (.moreIter ten8 none true) (turns 10 5 200 ++ u)).st := by
  obtain ⟨s, hs, ⟨a, ha⟩, _⟩ := demo_run
  exact ⟨s, hs, fun u => concurrent_contains_partial (F := 32) (Nat.le_refl _) (Nat.le_refl _) hs
    (by decide) (.inr ⟨true, _, _, a, ha, rfl⟩) u⟩

/-- So do those of the iteration, for a schedule in which the iteration starts when the
insert has returned. -/
example : ∃ s, exec .memoryOnly 32 pair = .ok () s ∧ ∃ l : List (FatalResult (PrefixRecord Md 32)), Returned (two .memoryOnly s
    (.insert host (rec1 1 2 3) none) (.moreIter ten8 none true) (turns 200 0 0 ++ turns 0 400 0)) false
      (.moreIter ten8 none true) l ∧ ∃ qs : List (PrefixRecord Md 32), l = qs.map .ok ∧
        (∃ rs, (host, rs) ∈ qs) ∧ ∃ rs, (ten16b, rs) ∈ qs := by
  obtain ⟨s, hs, hc⟩ := after_ok (o := exec .memoryOnly 32 pair) (chk := fun s =>
    ansIs (fun _ => true) ((two .memoryOnly s (.insert host (rec1 1 2 3) none)
        (.moreIter ten8 none true) (turns 200 0 0)).pool true) &&
    ansIs (fun _ => true) ((two .memoryOnly s (.insert host (rec1 1 2 3) none)
        (.moreIter ten8 none true) (turns 200 0 0 ++ turns 0 400 0)).pool false)) (by decide +kernel)
  rw [Bool.and_eq_true] at hc
  obtain ⟨a, ha, _⟩ := ansIs_iff.1 hc.1
  obtain ⟨b, hb, _⟩ := ansIs_iff.1 hc.2
  have hcall : ∀ i q r tbi, (if i then .insert host (rec1 1 2 3) none else .moreIter ten8 none true :
      Call Md 32) = .insert q r tbi → i = true ∧ q = host ∧ r = rec1 1 2 3 ∧ tbi = none := by
    intro i q r tbi h
    cases i with
    | true => cases h; exact ⟨rfl, rfl, rfl, rfl⟩
    | false => cases h
  have hq : Quiet (two .memoryOnly s (.insert host (rec1 1 2 3) none) (.moreIter ten8 none true)
      (turns 200 0 0)) (turns 200 0 0 ++ turns 0 400 0) ten8 := by
    intro i _ q r tbi h _
    obtain ⟨rfl, rfl, rfl, rfl⟩ := hcall i q r tbi h
    exact ⟨a, rfl, ha⟩
  have hr : Returned (two .memoryOnly s (.insert host (rec1 1 2 3) none) (.moreIter ten8 none true)
      (turns 200 0 0 ++ turns 0 400 0)) false (.moreIter ten8 none true) b := ⟨rfl, hb⟩
  obtain ⟨qs, h1, _, _, h4⟩ := concurrent_more_specifics_partial
    (calls := fun i : Bool => if i then .insert host (rec1 1 2 3) none else .moreIter ten8 none true)
    (F := 32) (fuel := iterFuel 32) (Nat.le_refl _) (Nat.le_refl _)
    hs (t := turns 200 0 0) (u := turns 0 400 0) (j := false) (false_notMem_turns _ _) hr
  have hra : Returned (two .memoryOnly s (.insert host (rec1 1 2 3) none) (.moreIter ten8 none true)
      (turns 200 0 0)) true (.insert host (rec1 1 2 3) none) a := ⟨rfl, ha⟩
  have hcomp : Completed pair (two .memoryOnly s (.insert host (rec1 1 2 3) none)
      (.moreIter ten8 none true) (turns 200 0 0)) host 1#32 := .inr ⟨true, _, _, a, hra, rfl⟩
  refine ⟨s, hs, b, hr, qs, h1, ?_, ?_⟩
  · exact h4 rfl hq.noNewNodes (by decide) host 1#32 (by decide) (by decide) (.inl rfl) hcomp
  · exact h4 rfl hq.noNewNodes (by decide) ten16b 1#32 (by decide) (by decide) (.inl rfl)
      (.inl ⟨_, _, List.mem_cons_of_mem _ (List.mem_singleton.2 rfl), rfl⟩)

end

end Rotonda.Props
