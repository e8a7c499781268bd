import Verif.Props.Demo

/-!
# Prefix lookups: C01, C03, C04, C05, C06, C46

All theorems are about the state `s` of a store after an arbitrary history `h` of
calls, for every persistence strategy and both address families.
-/

namespace Rotonda.Props

open Prog Spec

variable {M : Type} [Meta M] {W : Nat}

theorem covers_len_eq {p q q' : Prefix W} (h : Covers q p) (h' : Covers q' p) (hl : q.len = q'.len) :
    q = q' := by
  apply Prefix.id_inj
  rw [← (covers_trunc.1 h).2, ← (covers_trunc.1 h').2, hl]

theorem covers_refl (p : Prefix W) : Covers p p := ⟨Nat.le_refl _, fun _ _ => rfl⟩

theorem isLongest_unique {P : Prefix W → Prop} {p q q' : Prefix W} (h : IsLongest P p q)
    (h' : IsLongest P p q') : q = q' :=
  covers_len_eq h.2.1 h'.2.1 (Nat.le_antisymm (h'.2.2 _ h.1 h.2.1) (h.2.2 _ h'.1 h'.2.1))

/-! ## C01 -/

/-- C01 as stated: `contains(p, None)` is true exactly for inserted prefixes. -/
def ContainsExact (M : Type) [Meta M] (W : Nat) : Prop :=
  ∀ (st : Strategy) (F : Nat) (h : History M W) (s : Rib M W), exec st F h = .ok () s →
    ∀ p : Prefix W, ∃ b, (ribContains p.id none).run s = .ok b s ∧ (b = true ↔ Present h p)

/-- C01 for all prefixes except the default route (missing: `p.len = 0`, for which
it is false, see `contains_default_false`). -/
theorem contains_partial [Fam W] {st : Strategy} {F : Nat} {h : History M W} {s : Rib M W}
    (hs : exec st F h = .ok () s) (p : Prefix W) (h0 : 0 < p.len) :
    ∃ b, (ribContains p.id none).run s = .ok b s ∧ (b = true ↔ Present h p) := by
  refine ⟨_, run_prefixExistsId (exec_ok_inv hs).toQ p, ?_⟩
  rw [inS_id]
  exact ⟨fun x => x.1, fun x => ⟨x, h0⟩⟩

/-- The default route is never reported by `contains`. -/
theorem contains_default [Fam W] {st : Strategy} {F : Nat} {h : History M W} {s : Rib M W}
    (hs : exec st F h = .ok () s) (p : Prefix W) (h0 : p.len = 0) :
    (ribContains p.id none).run s = .ok false s := by
  rw [run_prefixExistsId (exec_ok_inv hs).toQ p]
  congr 1
  rw [← Bool.not_eq_true, inS_id]
  rintro ⟨_, h1⟩; omega

example : ∃ s, exec .memoryOnly 3 Demo.hist = .ok () s ∧
    (ribContains Demo.ten8.id none).run s = .ok true s ∧
    (ribContains Demo.ten23.id none).run s = .ok false s := by
  obtain ⟨s, hs, _⟩ := exec_inv .memoryOnly 3 Demo.hist
  refine ⟨s, hs, ?_, ?_⟩
  · obtain ⟨b, hb, hc⟩ := contains_partial hs Demo.ten8 (by decide)
    rw [hb, hc.2 (by decide)]
  · obtain ⟨b, hb, hc⟩ := contains_partial hs Demo.ten23 (by decide)
    have : b = false := by
      rw [← Bool.not_eq_true, hc]; decide
    rw [hb, this]

/-- C01 as stated does not hold: witness, one insert of the default route. -/
theorem contains_default_false : ¬ ContainsExact Demo.Md 32 := by
  intro hall
  obtain ⟨s, hs, _⟩ := exec_inv .memoryOnly 0
    ([.insert (Prefix.root 32) (Demo.rec1 1 1 1) none] : History Demo.Md 32)
  obtain ⟨b, hb, hc⟩ := hall .memoryOnly 0 _ s hs (Prefix.root 32)
  rw [contains_default hs (Prefix.root 32) rfl] at hb
  cases hb
  exact absurd (hc.2 (by decide)) (by decide)

/-! ## C03, C04, C05, C06: `match_prefix` -/

/-- The prefix part of an answer of `match_prefix`. -/
def HasMatch (res : QueryResult M W) (ty : MatchType) (found : Prefix W → Prop)
    (V : Prefix W → Record M → Prop) : Prop :=
  (∀ q, res.prefix_ = some q ↔ found q ∧ ∃ r, V q r) ∧
  (∀ q, res.prefix_ = some q → res.matchType = ty ∧ Lists res.records (V q)) ∧
  (res.prefix_ = none → res.matchType = .emptyMatch ∧ res.records = [])

theorem hasMatch_none {res : QueryResult M W} {ty : MatchType} {found : Prefix W → Prop}
    {V : Prefix W → Record M → Prop} (h1 : res.prefix_ = none) (h2 : res.matchType = .emptyMatch)
    (h3 : res.records = []) (h4 : ∀ q, found q → ¬ ∃ r, V q r) : HasMatch res ty found V := by
  refine ⟨fun q => ?_, fun q hq => ?_, fun _ => ⟨h2, h3⟩⟩
  · rw [h1]; constructor
    · intro hx; cases hx
    · rintro ⟨ha, hb⟩; exact absurd hb (h4 q ha)
  · rw [h1] at hq; cases hq

theorem hasMatch_some [Fam W] {st : Strategy} {h : History M W} {mui : Option Mui} {iw : Bool}
    {res : QueryResult M W} {ty : MatchType} {found : Prefix W → Prop} {q : Prefix W}
    {rs : List (Record M)} (hv : valueOf st h q mui iw = some rs)
    (h1 : res.prefix_ = some q) (h2 : res.matchType = ty) (h3 : res.records = rs)
    (h4 : ∀ q', found q' ↔ q' = q) : HasMatch res ty found (Shown st h mui iw) := by
  have hans := (valueOf_answers st h q mui iw).1
  rw [hv] at hans
  refine ⟨fun q' => ?_, fun q' hq => ?_, fun hn => ?_⟩
  · rw [h1, h4]
    constructor
    · intro hx; cases hx; exact ⟨rfl, valueOf_some.1 ⟨_, hv⟩⟩
    · rintro ⟨rfl, _⟩; rfl
  · rw [h1] at hq; cases hq
    exact ⟨h2, h3 ▸ hans⟩
  · rw [h1] at hn; cases hn

/-- Everything `match_prefix` returns.  This is the common source of the next
theorems. -/
theorem match_prefix_partial [Fam W] {st : Strategy} {F : Nat} {h : History M W} {s : Rib M W}
    (hs : exec st F h = .ok () s) (p : Prefix W) (o : MatchOptions) :
    ∃ (N : Nat) (res : QueryResult M W),
      (∀ fuel, N ≤ fuel → (ribMatchPrefix st fuel p.id o).run s = .ok (.ok res) s) ∧
      (o.matchType ≠ .exactMatch →
        HasMatch res .longestMatch (IsLongest (Proper h) p) (Shown st h o.mui o.includeWithdrawn)) ∧
      (o.matchType = .exactMatch →
        HasMatch res .exactMatch (fun q => q = p ∧ Proper h p)
          (Shown st h o.mui o.includeWithdrawn)) ∧
      (o.includeLessSpecifics = true → ∃ l, res.lessSpecifics = some l ∧ Descending l ∧
        Listing (fun q => Proper h q ∧ Covers q p ∧ q ≠ p)
          (Shown st h o.mui o.includeWithdrawn) l) ∧
      (o.includeMoreSpecifics = true → ∃ l, res.moreSpecifics = some l ∧
        Listing (fun q => Proper h q ∧ Covers p q ∧ q ≠ p)
          (Shown st h o.mui o.includeWithdrawn) l) ∧
      (o.includeLessSpecifics = false → res.lessSpecifics = none) ∧
      (o.includeMoreSpecifics = false → res.moreSpecifics = none) := by
  obtain ⟨lm, ls, ms, N, hlm, ⟨hls, hls'⟩, ⟨hms, hms'⟩, hrun⟩ := run_match (exec_ok_inv hs).toQ p o
  refine ⟨N, _, hrun, ?_, ?_, ?_, ?_, ?_, ?_⟩
  · intro hne
    have hty : treeFound p o.matchType lm = (.longestMatch, lm) := by
      unfold treeFound
      cases hm : o.matchType with
      | exactMatch => exact absurd hm hne
      | _ => rfl
    cases lm with
    | none =>
      refine hasMatch_none (by simp only [hty, matchPart]) (by simp only [hty, matchPart])
        (by simp only [hty, matchPart]) ?_
      intro q hq; exact absurd hq.2.1 (hlm q hq.1)
    | some q =>
      have huniq : ∀ q', IsLongest (Proper h) p q' ↔ q' = q := by
        intro q'
        constructor
        · intro hq'; exact isLongest_unique hq' hlm
        · rintro rfl; exact hlm
      cases hv : valueOf st h q o.mui o.includeWithdrawn with
      | none =>
        refine hasMatch_none (by simp only [hty, matchPart, hv]) (by simp only [hty, matchPart, hv])
          (by simp only [hty, matchPart, hv]) ?_
        intro q' hq' hex
        rw [(huniq q').1 hq'] at hex
        obtain ⟨rs, hrs⟩ := valueOf_some.2 hex
        rw [hv] at hrs; cases hrs
      | some rs =>
        exact hasMatch_some (q := q) hv (by simp only [hty, matchPart, hv])
          (by simp only [hty, matchPart, hv]) (by simp only [hty, matchPart, hv]) huniq
  · intro hex
    by_cases hp : Proper h p
    · have hlp : lm = some p := by
        cases lm with
        | none => exact absurd (covers_refl p) (hlm p hp)
        | some q =>
          have h1 : p.len ≤ q.len := hlm.2.2 p hp (covers_refl p)
          rw [covers_len_eq hlm.2.1 (covers_refl p) (Nat.le_antisymm hlm.2.1.1 h1)]
      have hty : treeFound p o.matchType lm = (.exactMatch, some p) := by
        rw [hex, hlp]; simp [treeFound]
      cases hv : valueOf st h p o.mui o.includeWithdrawn with
      | none =>
        refine hasMatch_none (by simp only [hty, matchPart, hv]) (by simp only [hty, matchPart, hv])
          (by simp only [hty, matchPart, hv]) ?_
        rintro q' ⟨rfl, _⟩ hx
        obtain ⟨rs, hrs⟩ := valueOf_some.2 hx
        rw [hv] at hrs; cases hrs
      | some rs =>
        exact hasMatch_some (q := p) hv (by simp only [hty, matchPart, hv])
          (by simp only [hty, matchPart, hv]) (by simp only [hty, matchPart, hv])
          (fun q' => ⟨fun hq' => hq'.1, fun hq' => ⟨hq', hp⟩⟩)
    · have hty : treeFound p o.matchType lm = (.emptyMatch, none) := by
        rw [hex]
        cases lm with
        | none => rfl
        | some q =>
          simp only [treeFound]
          rw [if_neg]
          intro he
          exact hp (Prefix.id_inj he ▸ hlm.1)
      refine hasMatch_none (by simp only [hty, matchPart]) (by simp only [hty, matchPart])
        (by simp only [hty, matchPart]) ?_
      rintro q ⟨_, hq⟩; exact absurd hq hp
  · intro hl
    exact ⟨_, by simp only [hl, if_true], descending_withValues hls,
      listing_withValues (hls.imp (fun hab he => by rw [he] at hab; omega)) hls'⟩
  · intro hl
    exact ⟨_, by simp only [hl, if_true], listing_withValues hms hms'⟩
  · intro hl; simp only [hl, Bool.false_eq_true, if_false]
  · intro hl; simp only [hl, Bool.false_eq_true, if_false]

/-- What is missing in C03 when a shorter match would have visible records: the code
never falls back to it; and the default route is not a candidate. -/
theorem longest_match_partial [Fam W] {st : Strategy} {F : Nat} {h : History M W} {s : Rib M W}
    (hs : exec st F h = .ok () s) (p : Prefix W) (o : MatchOptions)
    (ho : o.matchType ≠ .exactMatch) :
    ∃ (N : Nat) (res : QueryResult M W),
      (∀ fuel, N ≤ fuel → (ribMatchPrefix st fuel p.id o).run s = .ok (.ok res) s) ∧
      (∀ q, res.prefix_ = some q → Present h q ∧ Covers q p ∧
        (∀ q', Present h q' → Covers q' p → q'.len ≤ q.len) ∧ res.matchType = .longestMatch ∧
        Lists res.records (Shown st h o.mui o.includeWithdrawn q)) ∧
      (∀ q, 0 < q.len → IsLongest (Present h) p q →
        (∃ r, Shown st h o.mui o.includeWithdrawn q r) → res.prefix_ = some q) := by
  obtain ⟨N, res, hrun, hl, _⟩ := match_prefix_partial hs p o
  obtain ⟨h1, h2, _⟩ := hl ho
  refine ⟨N, res, hrun, fun q hq => ?_, fun q h0 hq hv => ?_⟩
  · obtain ⟨⟨ha, hb, hc⟩, _⟩ := (h1 q).1 hq
    refine ⟨ha.1, hb, fun q' hq' hcov => ?_, h2 q hq⟩
    by_cases h0 : 0 < q'.len
    · exact hc q' ⟨hq', h0⟩ hcov
    · omega
  · exact (h1 q).2 ⟨⟨⟨hq.1, h0⟩, hq.2.1, fun q' hq' hc => hq.2.2 q' hq'.1 hc⟩, hv⟩

/-- A search for 10.1.2.3/32 with withdrawn routes. -/
def demoOpts (ty : MatchType) : MatchOptions := ⟨ty, true, true, true, none⟩

/-- The record of 10.1.0.0/16, shown as withdrawn because its id is. -/
theorem demo_shown : Shown .writeAhead Demo.hist none true Demo.ten16
    { Demo.rec1 2 3 9 with status := .withdrawn } :=
  ⟨Demo.rec1 2 3 9, (by decide), fun m hm => (by cases hm), (by decide)⟩

example : ∃ s, exec .writeAhead 0 Demo.hist = .ok () s ∧ ∃ N res,
    (∀ fuel, N ≤ fuel → (ribMatchPrefix .writeAhead fuel Demo.ten23.id
      (demoOpts .longestMatch)).run s = .ok (.ok res) s) ∧ res.prefix_ = some Demo.ten16 := by
  obtain ⟨s, hs, _⟩ := exec_inv .writeAhead 0 Demo.hist
  obtain ⟨N, res, hrun, _, h2⟩ := longest_match_partial hs Demo.ten23 (demoOpts .longestMatch)
    (by decide)
  refine ⟨s, hs, N, res, hrun, h2 Demo.ten16 (by decide) ⟨by decide, by decide, ?_⟩ ⟨_, demo_shown⟩⟩
  rintro q ⟨m, r, t, hm, _⟩ hc
  simp only [Demo.hist, List.mem_cons, List.not_mem_nil, or_false, reduceCtorEq, false_or,
    Op.insert.injEq] at hm
  rcases hm with hm | hm | hm | hm | hm <;> rw [hm.1] at hc ⊢ <;> revert hc <;> decide

/-- C04: exact match, for all prefixes except the default route. -/
theorem exact_match_partial [Fam W] {st : Strategy} {F : Nat} {h : History M W} {s : Rib M W}
    (hs : exec st F h = .ok () s) (p : Prefix W) (h0 : 0 < p.len) (o : MatchOptions)
    (ho : o.matchType = .exactMatch) :
    ∃ (N : Nat) (res : QueryResult M W),
      (∀ fuel, N ≤ fuel → (ribMatchPrefix st fuel p.id o).run s = .ok (.ok res) s) ∧
      ((Present h p ∧ ∃ r, Shown st h o.mui o.includeWithdrawn p r) →
        res.prefix_ = some p ∧ res.matchType = .exactMatch ∧
        Lists res.records (Shown st h o.mui o.includeWithdrawn p)) ∧
      (¬ (Present h p ∧ ∃ r, Shown st h o.mui o.includeWithdrawn p r) →
        res.prefix_ = none ∧ res.matchType = .emptyMatch ∧ res.records = []) := by
  obtain ⟨N, res, hrun, _, hl, _⟩ := match_prefix_partial hs p o
  obtain ⟨h1, h2, h3⟩ := hl ho
  refine ⟨N, res, hrun, fun hv => ?_, fun hv => ?_⟩
  · have := (h1 p).2 ⟨⟨rfl, hv.1, h0⟩, hv.2⟩
    exact ⟨this, h2 p this⟩
  · have hn : res.prefix_ = none := by
      cases hr : res.prefix_ with
      | none => rfl
      | some q =>
        obtain ⟨⟨ha, hb⟩, hc⟩ := (h1 q).1 hr
        exact absurd ⟨hb.1, ha ▸ hc⟩ hv
    exact ⟨hn, h3 hn⟩

example : ∃ s, exec .writeAhead 0 Demo.hist = .ok () s ∧ ∃ N res,
    (∀ fuel, N ≤ fuel → (ribMatchPrefix .writeAhead fuel Demo.ten16.id
      (demoOpts .exactMatch)).run s = .ok (.ok res) s) ∧ res.prefix_ = some Demo.ten16 := by
  obtain ⟨s, hs, _⟩ := exec_inv .writeAhead 0 Demo.hist
  obtain ⟨N, res, hrun, h1, _⟩ := exact_match_partial hs Demo.ten16 (by decide)
    (demoOpts .exactMatch) rfl
  exact ⟨s, hs, N, res, hrun, (h1 ⟨by decide, _, demo_shown⟩).1⟩

/-- C05: the less specifics of `match_prefix`; missing: the default route is never
listed. -/
theorem less_specifics_partial [Fam W] {st : Strategy} {F : Nat} {h : History M W} {s : Rib M W}
    (hs : exec st F h = .ok () s) (p : Prefix W) (o : MatchOptions)
    (ho : o.includeLessSpecifics = true) :
    ∃ (N : Nat) (res : QueryResult M W) (l : List (PrefixRecord M W)),
      (∀ fuel, N ≤ fuel → (ribMatchPrefix st fuel p.id o).run s = .ok (.ok res) s) ∧
      res.lessSpecifics = some l ∧ Descending l ∧
      Listing (fun q => (Present h q ∧ 0 < q.len) ∧ Covers q p ∧ q ≠ p)
        (Shown st h o.mui o.includeWithdrawn) l := by
  obtain ⟨N, res, hrun, _, _, hl, _⟩ := match_prefix_partial hs p o
  obtain ⟨l, h1, h2, h3⟩ := hl ho
  exact ⟨N, res, l, hrun, h1, h2, h3⟩

example : ∃ s, exec .writeAhead 0 Demo.hist = .ok () s ∧ ∃ N res l,
    (∀ fuel, N ≤ fuel → (ribMatchPrefix .writeAhead fuel Demo.ten23.id
      (demoOpts .exactMatch)).run s = .ok (.ok res) s) ∧ res.lessSpecifics = some l ∧
    ∃ rs, (Demo.ten16, rs) ∈ l := by
  obtain ⟨s, hs, _⟩ := exec_inv .writeAhead 0 Demo.hist
  obtain ⟨N, res, l, hrun, h1, _, h3⟩ := less_specifics_partial hs Demo.ten23
    (demoOpts .exactMatch) rfl
  exact ⟨s, hs, N, res, l, hrun, h1, (h3.mem _).2 ⟨⟨by decide, by decide, by decide⟩, _, demo_shown⟩⟩

/-- C05: the same for `less_specifics_iter_from`. -/
theorem less_specifics_iter_partial [Fam W] {st : Strategy} {F : Nat} {h : History M W}
    {s : Rib M W} (hs : exec st F h = .ok () s) (p : Prefix W) (mui : Option Mui) (iw : Bool) :
    ∃ l : List (PrefixRecord M W), (ribLessSpecificsIter st p.id mui iw).run s =
        .ok (l.map .ok) s ∧ Descending l ∧
      Listing (fun q => (Present h q ∧ 0 < q.len) ∧ Covers q p ∧ q ≠ p) (Shown st h mui iw) l := by
  obtain ⟨l, hr, hd, hm⟩ := run_lessIter (exec_ok_inv hs).toQ p mui iw
  exact ⟨_, hr, descending_withValues hd,
    listing_withValues (hd.imp (fun hab he => by rw [he] at hab; omega)) hm⟩

/-- C06: the more specifics of `match_prefix`, the searched prefix excluded.  (The
default route is not a more specific of another prefix.) -/
theorem more_specifics [Fam W] {st : Strategy} {F : Nat} {h : History M W} {s : Rib M W}
    (hs : exec st F h = .ok () s) (p : Prefix W) (o : MatchOptions)
    (ho : o.includeMoreSpecifics = true) :
    ∃ (N : Nat) (res : QueryResult M W) (l : List (PrefixRecord M W)),
      (∀ fuel, N ≤ fuel → (ribMatchPrefix st fuel p.id o).run s = .ok (.ok res) s) ∧
      res.moreSpecifics = some l ∧
      Listing (fun q => Present h q ∧ Covers p q ∧ q ≠ p)
        (Shown st h o.mui o.includeWithdrawn) l := by
  obtain ⟨N, res, hrun, _, _, _, hl, _⟩ := match_prefix_partial hs p o
  obtain ⟨l, h1, h2⟩ := hl ho
  refine ⟨N, res, l, hrun, h1, ?_⟩
  convert h2 using 1
  funext q
  rw [eq_iff_iff]
  constructor
  · rintro ⟨ha, hb, hc⟩
    refine ⟨⟨ha, ?_⟩, hb, hc⟩
    by_contra h0
    have hl0 : p.len = q.len := by have := hb.1; omega
    exact hc (covers_len_eq hb (covers_refl q) hl0).symm
  · rintro ⟨ha, hb, hc⟩; exact ⟨ha.1, hb, hc⟩

example : ∃ s, exec .writeAhead 0 Demo.hist = .ok () s ∧ ∃ N res l,
    (∀ fuel, N ≤ fuel → (ribMatchPrefix .writeAhead fuel Demo.ten8.id
      (demoOpts .exactMatch)).run s = .ok (.ok res) s) ∧ res.moreSpecifics = some l ∧
    ∃ rs, (Demo.ten16, rs) ∈ l := by
  obtain ⟨s, hs, _⟩ := exec_inv .writeAhead 0 Demo.hist
  obtain ⟨N, res, l, hrun, h1, h3⟩ := more_specifics hs Demo.ten8 (demoOpts .exactMatch) rfl
  exact ⟨s, hs, N, res, l, hrun, h1, (h3.mem _).2 ⟨⟨by decide, by decide, by decide⟩, _, demo_shown⟩⟩

/-- C06 for `more_specifics_iter_from`: what it yields.  Missing: for a full-length
prefix it yields nothing, not even the prefix itself; the default route is not
yielded; and it stops at once for a globally withdrawn id (which is what it should
do, the records of that id are not visible). -/
theorem more_specifics_iter_partial [Fam W] {st : Strategy} {F : Nat} {h : History M W}
    {s : Rib M W} (hs : exec st F h = .ok () s) (p : Prefix W) (mui : Option Mui) (iw : Bool)
    (hstop : ∀ m, mui = some m → iw = false → globWd h m = false) :
    ∃ (N : Nat) (l : List (PrefixRecord M W)),
      (∀ fuel, N ≤ fuel → (ribMoreSpecificsIter st fuel p.id mui iw).run s = .ok (l.map .ok) s) ∧
      Listing (fun q => p.len < W ∧ (Present h q ∧ 0 < q.len) ∧ Covers p q)
        (Visible st h mui iw) l := by
  obtain ⟨l, N, hrun, hnd, hm⟩ := run_moreIter (exec_ok_inv hs).toQ p mui iw
  have hst : stopped h mui iw = false := by
    unfold stopped
    cases mui with
    | none => rfl
    | some m =>
      cases iw with
      | true => rfl
      | false => simp [hstop m rfl rfl]
  refine ⟨N, withValues st h mui iw l, fun fuel hf => ?_, ?_⟩
  · rw [hrun fuel hf, hst]; simp
  · have hl := listing_withValues (st := st) (h := h) (mui := mui) (iw := iw) hnd hm
    have hv : Shown st h mui iw = Visible st h mui iw := by
      funext q r
      rw [eq_iff_iff]
      unfold Shown Visible
      cases iw with
      | true => rfl
      | false =>
        simp only
        constructor
        · rintro ⟨r0, h1, h2, h3, h4, h5⟩
          refine ⟨r0, h1, h2, h3, h4, ?_⟩
          rcases h5 with h5 | h5
          · exact h5
          · cases mui with
            | none => simp at h5
            | some m => rw [h2 m rfl]; exact hstop m rfl rfl
        · rintro ⟨r0, h1, h2, h3, h4, h5⟩
          exact ⟨r0, h1, h2, h3, h4, .inl h5⟩
    rw [hv] at hl
    exact hl

/-- C06 as stated for the iterator: exactly the stored prefixes covered by `p`. -/
def MoreIterExact (M : Type) [Meta M] (W : Nat) : Prop :=
  ∀ (st : Strategy) (F : Nat) (h : History M W) (s : Rib M W), exec st F h = .ok () s →
    ∀ p : Prefix W, ∃ (N : Nat) (l : List (PrefixRecord M W)),
      (∀ fuel, N ≤ fuel → (ribMoreSpecificsIter st fuel p.id none true).run s = .ok (l.map .ok) s) ∧
      Listing (fun q => Present h q ∧ Covers p q) (Visible st h none true) l

/-- It fails for a full-length prefix, which the iterator does not yield although it
covers itself (for shorter prefixes it is yielded). -/
theorem more_iter_host_false : ¬ MoreIterExact Demo.Md 32 := by
  intro hall
  obtain ⟨s, hs, _⟩ := exec_inv .memoryOnly 0 Demo.hist
  obtain ⟨N, l, hrun, hl⟩ := hall .memoryOnly 0 _ s hs Demo.host
  obtain ⟨N', l', hrun', hl'⟩ := more_specifics_iter_partial hs Demo.host none true
    (fun m hm => by cases hm)
  have h1 := hrun (max N N') (by omega)
  rw [hrun' (max N N') (by omega)] at h1
  have h2 : l'.map (.ok : PrefixRecord Demo.Md 32 → FatalResult _) = l.map .ok := by
    injection h1
  have h3 : l' = l := List.map_injective_iff.2 (fun a b hab => by injection hab) h2
  obtain ⟨rs, hrs⟩ := (hl.mem Demo.host).2 ⟨⟨by decide, by decide⟩,
    { Demo.rec1 2 4 11 with status := .withdrawn }, Demo.rec1 2 4 11, by decide,
      fun m hm => (by cases hm), by decide⟩
  rw [← h3] at hrs
  have := ((hl'.mem Demo.host).1 ⟨rs, hrs⟩).1.1
  exact absurd this (by decide)

/-! ## C46: the default route -/

/-- Records of the default route are retrieved like any other (this is C46 for
record queries). -/
theorem default_records [Fam W] {st : Strategy} {F : Nat} {h : History M W} {s : Rib M W}
    (hs : exec st F h = .ok () s) (mui : Option Mui) (iw : Bool) :
    ∃ o, (ribGetValue st (Prefix.root W).id mui iw).run s = .ok (.ok o) s ∧
      Answers o (Shown st h mui iw (Prefix.root W)) :=
  ⟨_, run_ribGetValue (exec_ok_inv hs).toQ _ mui iw, valueOf_answers _ _ _ _ _⟩

/-- C46 fails for every other query: whatever was inserted, the default route is not
reported by `contains`, as an exact or longest match, as a less specific, nor by the
iterators. -/
theorem default_route_invisible [hW : Fam W] {st : Strategy} {F : Nat} {h : History M W}
    {s : Rib M W} (hs : exec st F h = .ok () s) :
    (ribContains (Prefix.root W).id none).run s = .ok false s ∧
    (∀ (p : Prefix W) (o : MatchOptions), ∃ (N : Nat) (res : QueryResult M W),
      (∀ fuel, N ≤ fuel → (ribMatchPrefix st fuel p.id o).run s = .ok (.ok res) s) ∧
      res.prefix_ ≠ some (Prefix.root W) ∧
      ∀ l rs, res.lessSpecifics = some l → (Prefix.root W, rs) ∉ l) ∧
    (∃ (N : Nat) (l : List (PrefixRecord M W)), (∀ fuel, N ≤ fuel →
      (ribPrefixesIter st fuel).run s = .ok (l.map .ok) s) ∧ ∀ rs, (Prefix.root W, rs) ∉ l) := by
  have hroot : ¬ Proper h (Prefix.root W) := fun hp => absurd hp.2 (Nat.lt_irrefl 0)
  refine ⟨contains_default hs _ rfl, fun p o => ?_, ?_⟩
  · obtain ⟨N, res, hrun, hl, he, hls, _, hno, _⟩ := match_prefix_partial hs p o
    refine ⟨N, res, hrun, fun hr => ?_, fun l rs hl' hm => ?_⟩
    · by_cases c : o.matchType = .exactMatch
      · have := ((he c).1 _).1 hr
        exact hroot (this.1.1 ▸ this.1.2)
      · exact hroot (((hl c).1 _).1 hr).1.1
    · cases c : o.includeLessSpecifics with
      | true =>
        obtain ⟨l2, h1, _, h3⟩ := hls c
        rw [hl'] at h1; cases h1
        exact hroot ((h3.mem _).1 ⟨rs, hm⟩).1.1
      | false => rw [hno c] at hl'; cases hl'
  · obtain ⟨l, N, hrun, _, hm⟩ := run_prefixesIter (exec_ok_inv hs).toQ
    refine ⟨N, l.map fun q => (q, (valueOf st h q none true).getD []), fun fuel hf => ?_, ?_⟩
    · rw [hrun fuel hf, List.map_map]; rfl
    · intro rs hx
      obtain ⟨q, hq, he⟩ := List.mem_map.1 hx
      have : q = Prefix.root W := congrArg Prod.fst he
      exact hroot (this ▸ (hm q).1 hq)

/-- A store holding only a default route. -/
def defaultOnly : History Demo.Md 32 := [.insert (Prefix.root 32) (Demo.rec1 1 1 1) none]

example : ∃ s, exec .memoryOnly 0 defaultOnly = .ok () s ∧
    (∃ o, (ribGetValue .memoryOnly (Prefix.root 32).id none false).run s = .ok (.ok o) s ∧
      Demo.rec1 1 1 1 ∈ o.getD []) ∧
    (ribContains (Prefix.root 32).id none).run s = .ok false s := by
  obtain ⟨s, hs, _⟩ := exec_inv .memoryOnly 0 defaultOnly
  obtain ⟨o, h1, h2⟩ := default_records hs none false
  exact ⟨s, hs, ⟨o, h1, (h2.1.2 _).2 ⟨Demo.rec1 1 1 1, by decide, fun m hm => (by cases hm), rfl,
    (rfl : passes .memoryOnly .active), .inl (by decide)⟩⟩, (default_route_invisible hs).1⟩

/-- C03 as stated does not hold: with only a default route stored, a longest match
query for 10.1.2.3/32 finds nothing. -/
theorem longest_match_default_false : ∃ s, exec .memoryOnly 0 defaultOnly = .ok () s ∧
    IsLongest (Present defaultOnly) Demo.host (Prefix.root 32) ∧
    (∃ r, Shown .memoryOnly defaultOnly none true (Prefix.root 32) r) ∧
    ∃ (N : Nat) (res : QueryResult Demo.Md 32), (∀ fuel, N ≤ fuel →
      (ribMatchPrefix .memoryOnly fuel Demo.host.id (demoOpts .longestMatch)).run s =
        .ok (.ok res) s) ∧ res.prefix_ = none := by
  obtain ⟨s, hs, _⟩ := exec_inv .memoryOnly 0 defaultOnly
  refine ⟨s, hs, ⟨by decide, covers_root _, ?_⟩, ⟨Demo.rec1 1 1 1, Demo.rec1 1 1 1, by decide,
    fun m hm => (by cases hm), by decide⟩, ?_⟩
  · rintro q ⟨m, r, t, hm, _⟩ _
    simp only [defaultOnly, List.mem_cons, List.not_mem_nil, or_false, Op.insert.injEq] at hm
    rw [hm.1]
  · obtain ⟨N, res, hrun, hl, _⟩ := match_prefix_partial hs Demo.host (demoOpts .longestMatch)
    refine ⟨N, res, hrun, ?_⟩
    cases hr : res.prefix_ with
    | none => rfl
    | some q =>
      obtain ⟨⟨⟨⟨m, r, t, hm, _⟩, h0⟩, _⟩, _⟩ := ((hl (by decide)).1 q).1 hr
      simp only [defaultOnly, List.mem_cons, List.not_mem_nil, or_false, Op.insert.injEq] at hm
      rw [hm.1] at h0
      exact absurd h0 (by decide)

end Rotonda.Props
