import Verif.Props.Public
import Verif.Spec.Options

/-!
# The options of `match_prefix` mean what they say: C75
-/

namespace Rotonda.Props

open Prog Spec

variable {M : Type} [Meta M] {st : Strategy} {F : Nat} {h : List (StarOp M)} {s : Star M}

/-- Answers made of the parts of one family. -/
private theorem parts {W : Nat} [Fam W] {g : History M W} {t : Rib M W}
    (hs : exec st F g = .ok () t) (p : Prefix W) (e : Prefix W → AnyPrefix)
    (he : ∀ a b, e a = e b → a = b) (f : QueryResult M W → Star.Result M)
    (hf : ∃ k, ∀ r, f r = ⟨r.matchType, r.prefix_.map e, r.records, r.lessSpecifics.map k,
      r.moreSpecifics.map k⟩) :
    ∃ (N : Nat) (x : MatchOptions → QueryResult M W),
      (∀ o fuel, N ≤ fuel → (ribMatchPrefix st fuel p.id o).run t = .ok (.ok (x o)) t) ∧
      Pub.Apart (fun o => f (x o.toMatchOptions)) ∧
      Pub.TypesAgree (e p) (fun o => f (x o.toMatchOptions)) := by
  obtain ⟨lm, ls, ms, N, -, -, -, hr⟩ := run_match_all (exec_ok_inv hs).toQ p
  obtain ⟨k, hf⟩ := hf
  refine ⟨N, fun o => ⟨(matchPart st g o (treeFound p o.matchType lm)).1,
    (matchPart st g o (treeFound p o.matchType lm)).2.1,
    (matchPart st g o (treeFound p o.matchType lm)).2.2,
    if o.includeLessSpecifics then some (withValues st g o.mui o.includeWithdrawn ls) else none,
    if o.includeMoreSpecifics then some (withValues st g o.mui o.includeWithdrawn ms) else none⟩,
    fun o fuel hN => hr o fuel hN, ?_, ?_⟩
  · refine ⟨fun ty mui iw =>
        ((matchPart st g ⟨ty, iw, true, true, mui⟩ (treeFound p ty lm)).1,
          (matchPart st g ⟨ty, iw, true, true, mui⟩ (treeFound p ty lm)).2.1.map e,
          (matchPart st g ⟨ty, iw, true, true, mui⟩ (treeFound p ty lm)).2.2),
      fun mui iw => k (withValues st g mui iw ls), fun mui iw => k (withValues st g mui iw ms),
      fun o => ?_⟩
    show f _ = _
    rw [hf]
    obtain ⟨⟨ty, iw, il, im, mui⟩, ih⟩ := o
    cases il <;> cases im <;> rfl
  · rintro ⟨⟨ty, iw, il, im, mui⟩, ih⟩
    simp only [hf]
    refine ⟨?_, fun hp => ?_, fun hp => ?_⟩
    · cases lm <;> rfl
    · cases lm with
      | none => cases hp
      | some q =>
        cases hv : valueOf st g q mui iw with
        | none => simp [treeFound, matchPart, hv] at hp
        | some rs =>
          simp only [treeFound, matchPart, hv, Option.map_some, Option.some.injEq] at hp ⊢
          have := he _ _ hp
          subst this
          simp [hv]
    · cases lm with
      | none => rfl
      | some q =>
        simp only [treeFound, matchPart] at hp ⊢
        by_cases hq : q.id = p.id
        · have := Prefix.id_inj hq
          subst this
          cases hv : valueOf st g q mui iw with
          | none => simp [hv]
          | some rs => simp [hv] at hp
        · simp [hq]

private theorem exist (hs : starExec st F h = .ok () s) (p : AnyPrefix) :
    ∃ answers, Pub.AnswersTo st s p answers ∧ Pub.Apart answers ∧ Pub.TypesAgree p answers := by
  obtain ⟨h4, h6⟩ := starExec_ok hs
  cases p with
  | v4 p =>
    obtain ⟨N, x, h1, h2, h3⟩ := parts h4 p .v4 (fun a b k => by cases k; rfl) Star.result4
      ⟨_, fun r => rfl⟩
    refine ⟨_, ⟨N, fun o fuel hN => ?_⟩, h2, h3⟩
    unfold Star.matchPrefixFull Star.matchPrefix Star.on
    simp only
    rw [run_v4, run_bind, h1 _ fuel hN]; rfl
  | v6 p =>
    obtain ⟨N, x, h1, h2, h3⟩ := parts h6 p .v6 (fun a b k => by cases k; rfl) Star.result6
      ⟨_, fun r => rfl⟩
    refine ⟨_, ⟨N, fun o fuel hN => ?_⟩, h2, h3⟩
    unfold Star.matchPrefixFull Star.matchPrefix Star.on
    simp only
    rw [run_v6, run_bind, h1 _ fuel hN]; rfl

private theorem unique {p : AnyPrefix} {a b : FullOptions → Star.Result M}
    (ha : Pub.AnswersTo st s p a) (hb : Pub.AnswersTo st s p b) : a = b := by
  obtain ⟨N, ha⟩ := ha
  obtain ⟨N', hb⟩ := hb
  funext o
  have h1 := ha o (max N N') (Nat.le_max_left _ _)
  rw [hb o (max N N') (Nat.le_max_right _ _)] at h1
  injection h1 with h1
  injection h1 with h1
  exact h1.symm

/-- C75: every search is answered, whatever the options. -/
theorem options_answered (hs : starExec st F h = .ok () s) (p : AnyPrefix) :
    ∃ answers, Pub.AnswersTo st s p answers := by
  obtain ⟨a, h1, -⟩ := exist hs p
  exact ⟨a, h1⟩

section

variable {p : AnyPrefix} {answers : FullOptions → Star.Result M}

/-- C75: the options do not interfere: the match, the less specifics and the more specifics
each depend only on the options that speak of them. -/
theorem options_apart (hs : starExec st F h = .ok () s) (ha : Pub.AnswersTo st s p answers) :
    Pub.Apart answers := by
  obtain ⟨a, h1, h2, -⟩ := exist hs p
  rw [unique ha h1]; exact h2

/-- C75: the answers for the three match types agree. -/
theorem options_types (hs : starExec st F h = .ok () s) (ha : Pub.AnswersTo st s p answers) :
    Pub.TypesAgree p answers := by
  obtain ⟨a, h1, -, h2⟩ := exist hs p
  rw [unique ha h1]; exact h2

/-- The set of prefixes that are reported with the option set. -/
private def among (h : List (StarOp M)) (p : AnyPrefix) (o : FullOptions) (q : AnyPrefix) : Prop :=
  (o.matchType ≠ .exactMatch ∧ Pub.IsLongest (Pub.Proper h) p q) ∨
  (o.matchType = .exactMatch ∧ q = p ∧ Pub.Proper h p) ∨
  (o.includeLessSpecifics = true ∧ Pub.Proper h q ∧ Pub.Covers q p ∧ q ≠ p) ∨
  (o.includeMoreSpecifics = true ∧ Pub.Proper h q ∧ Pub.Covers p q ∧ q ≠ p)

private theorem holds (hs : starExec st F h = .ok () s) (ha : Pub.AnswersTo st s p answers)
    (o : FullOptions) :
    (∀ q rs, ⟨q, rs⟩ ∈ Pub.inAnswer (answers o) →
      among h p o q ∧ Lists rs (Pub.Shown st h o.mui o.includeWithdrawn q)) ∧
    (∀ q r, among h p o q → Pub.Shown st h o.mui o.includeWithdrawn q r →
      ∃ rs, ⟨q, rs⟩ ∈ Pub.inAnswer (answers o) ∧ r ∈ rs) := by
  obtain ⟨N, res, hr, k1, k2, k3, k4, k5, k6⟩ :=
    public_match_prefix_partial hs p o.toMatchOptions
  obtain ⟨N', ha⟩ := ha
  have he : answers o = res := by
    have h1 := ha o (max N N') (Nat.le_max_right _ _)
    unfold Star.matchPrefixFull at h1
    rw [hr _ (Nat.le_max_left _ _)] at h1
    injection h1 with h1
    injection h1 with h1
    exact h1.symm
  rw [he]
  constructor
  · intro q rs hm
    unfold Pub.inAnswer at hm
    simp only [List.mem_append] at hm
    rcases hm with hm | hm | hm
    · have hq : res.prefix_ = some q ∧ rs = res.records := by
        cases hp : res.prefix_ with
        | none => rw [hp] at hm; cases hm
        | some q' =>
          rw [hp] at hm
          simp only [List.mem_singleton, PubRecord.mk.injEq] at hm
          exact ⟨by rw [hm.1], hm.2⟩
      obtain ⟨hq, rfl⟩ := hq
      by_cases ht : o.matchType = .exactMatch
      · obtain ⟨j1, j2, -⟩ := k2 ht
        exact ⟨.inr (.inl ⟨ht, ((j1 q).1 hq).1⟩), (j2 q hq).2⟩
      · obtain ⟨j1, j2, -⟩ := k1 ht
        exact ⟨.inl ⟨ht, ((j1 q).1 hq).1⟩, (j2 q hq).2⟩
    · cases hl : o.includeLessSpecifics with
      | false => rw [k5 hl] at hm; cases hm
      | true =>
        obtain ⟨l, hl', -, hL⟩ := k3 hl
        rw [hl'] at hm
        exact ⟨.inr (.inr (.inl ⟨hl, ((hL.mem q).1 ⟨_, hm⟩).1⟩)), hL.recs _ _ hm⟩
    · cases hl : o.includeMoreSpecifics with
      | false => rw [k6 hl] at hm; cases hm
      | true =>
        obtain ⟨l, hl', hL⟩ := k4 hl
        rw [hl'] at hm
        exact ⟨.inr (.inr (.inr ⟨hl, ((hL.mem q).1 ⟨_, hm⟩).1⟩)), hL.recs _ _ hm⟩
  · intro q r hq hv
    unfold Pub.inAnswer
    simp only [List.mem_append]
    rcases hq with ⟨ht, hq⟩ | ⟨ht, hq⟩ | ⟨ht, hq⟩ | ⟨ht, hq⟩
    · obtain ⟨j1, j2, -⟩ := k1 ht
      have := (j1 q).2 ⟨hq, r, hv⟩
      exact ⟨res.records, .inl (by rw [this]; exact List.mem_singleton.2 rfl),
        ((j2 q this).2.2 r).2 hv⟩
    · obtain ⟨j1, j2, -⟩ := k2 ht
      have := (j1 q).2 ⟨hq, r, hv⟩
      exact ⟨res.records, .inl (by rw [this]; exact List.mem_singleton.2 rfl),
        ((j2 q this).2.2 r).2 hv⟩
    · obtain ⟨l, hl', -, hL⟩ := k3 ht
      obtain ⟨rs, hrs⟩ := (hL.mem q).2 ⟨hq, r, hv⟩
      exact ⟨rs, .inr (.inl (by rw [hl']; exact hrs)), ((hL.recs _ _ hrs).2 r).2 hv⟩
    · obtain ⟨l, hl', hL⟩ := k4 ht
      obtain ⟨rs, hrs⟩ := (hL.mem q).2 ⟨hq, r, hv⟩
      exact ⟨rs, .inr (.inr (by rw [hl']; exact hrs)), ((hL.recs _ _ hrs).2 r).2 hv⟩

private theorem restricts (hs : starExec st F h = .ok () s) (ha : Pub.AnswersTo st s p answers)
    {o o' : FullOptions} {pass : Record M → Prop} (hq : ∀ q, among h p o q ↔ among h p o' q)
    (hv : ∀ q r, Pub.Shown st h o.mui o.includeWithdrawn q r ↔
      pass r ∧ Pub.Shown st h o'.mui o'.includeWithdrawn q r) :
    Pub.Restricts pass (Pub.inAnswer (answers o)) (Pub.inAnswer (answers o')) := by
  obtain ⟨i1, i2⟩ := holds hs ha o
  obtain ⟨j1, j2⟩ := holds hs ha o'
  intro q r
  constructor
  · rintro ⟨rs, h1, h2⟩
    obtain ⟨k1, k2⟩ := i1 q rs h1
    obtain ⟨k3, k4⟩ := (hv q r).1 ((k2.2 r).1 h2)
    exact ⟨k3, j2 q r ((hq q).1 k1) k4⟩
  · rintro ⟨h0, rs, h1, h2⟩
    obtain ⟨k1, k2⟩ := j1 q rs h1
    exact i2 q r ((hq q).2 k1) ((hv q r).2 ⟨h0, (k2.2 r).1 h2⟩)

/-- C75: with an id, exactly the records of the id are reported out of those reported
without.  Missing: with withdrawn routes excluded, see `options_mui_fails`. -/
theorem options_mui_partial (hs : starExec st F h = .ok () s) (ha : Pub.AnswersTo st s p answers)
    (o : FullOptions) (ho : o.includeWithdrawn = true) (m : Mui) :
    Pub.Restricts (fun r => r.mui = m) (Pub.inAnswer (answers { o with mui := some m }))
      (Pub.inAnswer (answers { o with mui := none })) := by
  refine restricts hs ha (fun q => Iff.rfl) (fun q r => ?_)
  simp only [ho]
  constructor
  · rintro ⟨r0, k1, k2, k3⟩
    exact ⟨k2 m rfl, r0, k1, fun m hm => (by cases hm), k3⟩
  · rintro ⟨rfl, r0, k1, -, k3⟩
    exact ⟨r0, k1, fun m hm => (by cases hm; rfl), k3⟩

/-- C75: with withdrawn routes excluded, exactly the records that are not reported as
withdrawn are reported, out of those reported with them (a store that keeps its records in
memory also leaves out inactive ones).  Missing: for one id, see `options_mui_fails`. -/
theorem options_withdrawn_partial (hs : starExec st F h = .ok () s)
    (ha : Pub.AnswersTo st s p answers) (o : FullOptions) (ho : o.mui = none) :
    Pub.Restricts (fun r => passes st r.status)
      (Pub.inAnswer (answers { o with includeWithdrawn := false }))
      (Pub.inAnswer (answers { o with includeWithdrawn := true })) := by
  refine restricts hs ha (fun q => Iff.rfl) (fun q r => ?_)
  simp only [ho]
  have hw : ¬ passes st .withdrawn := by
    cases st <;> simp [passes]
  constructor
  · rintro ⟨r0, k1, -, rfl, k3, k4⟩
    rcases k4 with k4 | ⟨-, k4⟩
    · refine ⟨k3, r, k1, fun m hm => (by cases hm), ?_⟩
      show r = Pub.effective h q r
      unfold Pub.effective
      rw [k4]; rfl
    · cases k4
  · rintro ⟨k0, r0, k1, -, (rfl : r = Pub.effective h q r0)⟩
    unfold Pub.effective at k0 k1 ⊢
    cases hwd : Pub.withdrawn h q r0.mui with
    | true => rw [hwd] at k0; exact absurd k0 hw
    | false =>
      rw [hwd] at k0 k1
      exact ⟨r0, k1, fun m hm => (by cases hm), rfl, k0, .inl hwd⟩

/-- C75, the part about historical records that holds: nothing but the current record of
each prefix and id is ever reported, at most one for each id. -/
theorem options_current (hs : starExec st F h = .ok () s) (ha : Pub.AnswersTo st s p answers)
    (o : FullOptions) (q : AnyPrefix) (rs : List (Record M))
    (hq : ⟨q, rs⟩ ∈ Pub.inAnswer (answers o)) :
    rs.Pairwise (fun a b => a.mui ≠ b.mui) ∧ ∀ r ∈ rs, ∃ r0,
      Pub.storedRec st h q r.mui = some r0 ∧ (r = r0 ∨ r = Pub.effective h q r0) := by
  obtain ⟨-, k1, k2⟩ := (holds hs ha o).1 q rs hq
  refine ⟨k1, fun r hr => ?_⟩
  obtain ⟨r0, j1, -, j3⟩ := (k2 r).1 hr
  refine ⟨r0, j1, ?_⟩
  cases hw : o.includeWithdrawn with
  | true => rw [hw] at j3; exact .inr j3
  | false => rw [hw] at j3; exact .inl j3.1

/-- `include_history` changes nothing. -/
theorem options_history_ignored (hs : starExec st F h = .ok () s)
    (ha : Pub.AnswersTo st s p answers) (o : FullOptions) (x : IncludeHistory) :
    answers { o with includeHistory := x } = answers o := by
  obtain ⟨f, l, m, hA⟩ := options_apart hs ha
  rw [hA, hA]

end

/-! ## What does not hold -/

/-- `10.0.0.0/8` announced twice by id 1. -/
def newer : List (StarOp Demo.Md) :=
  [.insert (.v4 Demo.ten8) (Demo.rec1 1 2 8) none, .insert (.v4 Demo.ten8) (Demo.rec1 1 1 7) none]

/-- C75 as documented is false of the code: a replaced record is not reported although
the answer should include the history, and although it is persisted. -/
theorem options_history_fails : ¬ Pub.HistoryReported Demo.Md := by
  intro hall
  obtain ⟨s, hs⟩ := star_never_fails .persistHistory 0 newer
  obtain ⟨a, ha⟩ := options_answered hs (.v4 Demo.ten8)
  have ho := options_current hs ha ⟨⟨.exactMatch, true, false, false, none⟩, .searchPrefix⟩
  obtain ⟨-, i2⟩ := holds hs ha ⟨⟨.exactMatch, true, false, false, none⟩, .searchPrefix⟩
  obtain ⟨rs, hrs, hr⟩ := i2 (.v4 Demo.ten8) (Demo.rec1 1 2 8)
    (.inr (.inl ⟨rfl, rfl, ⟨_, _, List.mem_cons_self⟩, by decide⟩))
    ⟨Demo.rec1 1 2 8, by decide, fun m hm => (by cases hm), by decide⟩
  obtain ⟨N, hN⟩ := ha
  have hx := hall .persistHistory 0 newer s s N (.v4 Demo.ten8) _ _ rfl hs
    (hN ⟨⟨.exactMatch, true, false, false, none⟩, .searchPrefix⟩ N (Nat.le_refl _)) rfl rfl
    (.v4 Demo.ten8) rs (Demo.rec1 1 1 7) hrs (.inl ⟨rfl, rfl, by decide⟩) (.inl ⟨rfl, rfl⟩)
  obtain ⟨-, hc⟩ := ho _ _ hrs
  obtain ⟨r0, j1, j2⟩ := hc _ hx
  have j3 : r0 = Demo.rec1 1 2 8 := by
    have : Pub.storedRec .persistHistory newer (.v4 Demo.ten8) (Demo.rec1 1 1 7).mui =
      some (Demo.rec1 1 2 8) := by decide
    rw [this] at j1; cases j1; rfl
  subst j3
  exact absurd j2 (by decide)

/-- `10.0.0.0/8` announced by id 1, which is withdrawn afterwards. -/
def goneAll : List (StarOp Demo.Md) :=
  [.withdraw 1#32, .insert (.v4 Demo.ten8) (Demo.rec1 1 1 7) none]

/-- With withdrawn routes excluded, a search for one id reports a route that a search for
all ids does not report: the restrictions by id and by status do not commute. -/
theorem options_mui_fails : ∃ s answers, starExec .memoryOnly 0 goneAll = .ok () s ∧
    Pub.AnswersTo .memoryOnly s (.v4 Demo.ten8) answers ∧
    ¬ Pub.Restricts (fun r => r.mui = 1#32)
      (Pub.inAnswer (answers ⟨⟨.exactMatch, false, false, false, some 1#32⟩, .none⟩))
      (Pub.inAnswer (answers ⟨⟨.exactMatch, false, false, false, none⟩, .none⟩)) := by
  obtain ⟨s, hs⟩ := star_never_fails .memoryOnly 0 goneAll
  obtain ⟨a, ha⟩ := options_answered hs (.v4 Demo.ten8)
  refine ⟨s, a, hs, ha, fun hR => ?_⟩
  have h1 := (holds hs ha ⟨⟨.exactMatch, false, false, false, some 1#32⟩, .none⟩).2
    (.v4 Demo.ten8) (Demo.rec1 1 1 7)
    (.inr (.inl ⟨rfl, rfl, ⟨Demo.rec1 1 1 7, none, .tail _ (.head _)⟩, by decide⟩))
    ⟨Demo.rec1 1 1 7, by decide, fun m hm => (by cases hm; rfl), rfl, rfl, .inr ⟨rfl, rfl⟩⟩
  obtain ⟨-, rs, hrs, hr⟩ := (hR (.v4 Demo.ten8) (Demo.rec1 1 1 7)).1 h1
  obtain ⟨-, -, k⟩ := (holds hs ha ⟨⟨.exactMatch, false, false, false, none⟩, .none⟩).1 _ _ hrs
  obtain ⟨r0, -, -, -, -, k4⟩ := (k _).1 hr
  rcases k4 with k4 | ⟨-, k4⟩
  · exact absurd k4 (by decide)
  · cases k4

/-! ## Examples -/

/-- The theorems apply: the nested IPv6 routes of C61, a search for the host address. -/
example : ∃ s answers, starExec .memoryOnly 0 nested = .ok () s ∧
    Pub.AnswersTo .memoryOnly s (.v6 docHost) answers ∧
    ∃ rs, ⟨.v6 doc48, rs⟩ ∈
        Pub.inAnswer (answers ⟨⟨.emptyMatch, true, false, false, some 2#32⟩, .all⟩) ∧
      { Demo.rec1 2 3 9 with status := .withdrawn } ∈ rs := by
  obtain ⟨s, hs⟩ := star_never_fails .memoryOnly 0 nested
  obtain ⟨a, ha⟩ := options_answered hs (.v6 docHost)
  refine ⟨s, a, hs, ha, (holds hs ha _).2 _ _ (.inl ⟨by decide, ?_⟩)
    ⟨Demo.rec1 2 3 9, by decide, fun m hm => (by cases hm; rfl), by decide⟩⟩
  refine ⟨⟨(nested_present _).2 (.inl rfl), by decide⟩, ?_, ?_⟩
  · show Covers doc48 docHost; decide
  · rintro q ⟨hq, -⟩ hc
    rcases (nested_present q).1 hq with rfl | rfl | rfl
    · exact Nat.le_refl _
    · exact absurd hc id
    · decide

example : Pub.keepsHistory .persistHistory = true ∧
    Pub.Replaced newer (.v4 Demo.ten8) (Demo.rec1 1 1 7) := ⟨rfl, .inl ⟨rfl, rfl, by decide⟩⟩

end Rotonda.Props
