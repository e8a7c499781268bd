import Verif.Props.ContainsMui

/-!
# `more_specifics_from` and `less_specifics_from`: C44

The records of the searched prefix are right and the sets hold the right prefixes, but
every prefix of a set is given the records of the searched prefix, the set is `None`
when the searched prefix has nothing to show, and the searched prefix itself is
reported exactly when it is *not* contained.
-/

namespace Rotonda.Props

open Prog Spec

variable {M : Type} [Meta M] {W : Nat}

/-- The set of an answer: all prefixes with one and the same value. -/
def sameSet (v : Option (List (Record M))) (l : List (Prefix W)) :
    Option (List (PrefixRecord M W)) :=
  if l = [] then some [] else v.map fun rs => l.map fun q => (q, rs)

theorem run_sameItems [Fam W] {st : Strategy} {h : History M W} {s : Rib M W}
    (hi : HInv st h s) (p : Prefix W) (mui : Option Mui) (iw : Bool) (l : List (Prefix W)) :
    List.Forall₂ (fun q b => (sameItem st p.id mui iw q).run s = .ok b s) (l.map Prefix.id)
      (l.map fun q => .ok ((valueOf st h p mui iw).map fun v => (q, v))) := by
  induction l with
  | nil => exact .nil
  | cons q l ih =>
    refine .cons ?_ ih
    unfold sameItem
    rw [run_bind, run_ribGetValue hi.toQ]
    simp only [Outcome.andThen, toPrefix_id, ofOption, ret_bind]
    rfl

omit [Meta M] in
theorem collect_same (v : Option (List (Record M))) (l : List (Prefix W)) :
    collectFatalOption (l.map fun q => (.ok (v.map fun v => (q, v)) : FatalResult _)) =
      .ok (sameSet v l) := by
  induction l with
  | nil => rfl
  | cons q l ih =>
    cases v with
    | none => rfl
    | some v =>
      simp only [List.map_cons, Option.map_some, collectFatalOption] at ih ⊢
      rw [ih]
      unfold sameSet
      by_cases hl : l = []
      · subst hl; simp
      · simp [hl]

theorem run_fromCommon [Fam W] {st : Strategy} {h : History M W} {s : Rib M W}
    (hi : HInv st h s) (p : Prefix W) (mui : Option Mui) (iw : Bool)
    {walk : Prog (Rib M W) (List (FatalResult (Option (PrefixRecord M W))))}
    {l : List (Prefix W)} {b : Bool}
    (hc : (ribContains p.id mui).run s = .ok b s)
    (hw : walk.run s = .ok (l.map fun q => .ok ((valueOf st h p mui iw).map fun v => (q, v))) s) :
    (ribFromCommon st p.id mui iw walk).run s =
      .ok (.ok (if b then none else some p, (valueOf st h p mui iw).getD [],
        sameSet (valueOf st h p mui iw) l)) s := by
  unfold ribFromCommon
  rw [run_bind, hc]
  simp only [Outcome.andThen]
  have hcont : ∀ o : Option (Prefix W),
      (ribGetValue st p.id mui iw >>= fun x =>
        match x with
        | .error e => pure (.error e)
        | .ok r => walk >>= fun l =>
          match collectFatalOption l with
          | .error e => pure (.error e)
          | .ok set => pure (.ok (o, r.getD [], set)) :
        Prog (Rib M W) (FatalResult _)).run s =
      .ok (.ok (o, (valueOf st h p mui iw).getD [], sameSet (valueOf st h p mui iw) l)) s := by
    intro o
    simp only [run_bind, run_ribGetValue hi.toQ, Outcome.andThen, hw, collect_same,
      pure_def, run]
  cases b with
  | true => exact hcont none
  | false =>
    simp only [if_true, toPrefix_id, ofOption, ret_bind, pure_def]
    exact hcont (some p)

/-- `contains` in all its forms never fails. -/
theorem run_contains_any [Fam W] {st : Strategy} {h : History M W} {s : Rib M W}
    (hi : HInv st h s) (p : Prefix W) (mui : Option Mui) :
    ∃ b, (ribContains p.id mui).run s = .ok b s ∧ (mui = none → (b = true ↔ Proper h p)) := by
  cases mui with
  | none => exact ⟨_, run_prefixExistsId hi.toQ p, fun _ => inS_id⟩
  | some m =>
    obtain ⟨b, hb, _⟩ := run_containsMui hi p m
    exact ⟨b, hb, fun h => by cases h⟩

/-- A faithful answer for `p` with a set of related prefixes. -/
def FaithfulFrom (h : History M W) (p : Prefix W) (P : Prefix W → Prop)
    (V : Prefix W → Record M → Prop) (pfx : Option (Prefix W)) (recs : List (Record M))
    (set : Option (List (PrefixRecord M W))) : Prop :=
  (pfx = some p ↔ Proper h p) ∧ Lists recs (V p) ∧ Listing P V (set.getD [])

/-- C44 as stated, for `less_specifics_from`. -/
def LessFromExact (M : Type) [Meta M] (W : Nat) : Prop :=
  ∀ (st : Strategy) (F : Nat) (h : History M W) (s : Rib M W), exec st F h = .ok () s →
    ∀ (p : Prefix W) (mui : Option Mui) (iw : Bool), ∃ res : QueryResult M W,
      (ribLessSpecificsFrom st p.id mui iw).run s = .ok (.ok res) s ∧
      FaithfulFrom h p (fun q => Proper h q ∧ Covers q p ∧ q ≠ p) (Shown st h mui iw)
        res.prefix_ res.records res.lessSpecifics

/-- C44 as stated, for `more_specifics_from`. -/
def MoreFromExact (M : Type) [Meta M] (W : Nat) : Prop :=
  ∀ (st : Strategy) (F : Nat) (h : History M W) (s : Rib M W), exec st F h = .ok () s →
    ∀ (p : Prefix W) (mui : Option Mui) (iw : Bool), ∃ (N : Nat) (res : QueryResult M W),
      (∀ fuel, N ≤ fuel → (ribMoreSpecificsFrom st fuel p.id mui iw).run s = .ok (.ok res) s) ∧
      FaithfulFrom h p (fun q => Proper h q ∧ Covers p q) (Shown st h mui iw)
        res.prefix_ res.records res.moreSpecifics

/-- The set of an answer as the code computes it: the right prefixes, once each, all
with the records of `p`; nothing when `p` has no records to show. -/
def SetOf (st : Strategy) (h : History M W) (mui : Option Mui) (iw : Bool) (p : Prefix W)
    (P : Prefix W → Prop) (set : Option (List (PrefixRecord M W))) : Prop :=
  (set = none ↔ (∃ q, P q) ∧ ¬ ∃ r, Shown st h mui iw p r) ∧
  ∀ l, set = some l → (l.map Prod.fst).Nodup ∧ (∀ q, (∃ rs, (q, rs) ∈ l) ↔ P q) ∧
    ∀ q rs, (q, rs) ∈ l → Lists rs (Shown st h mui iw p)

theorem setOf_sameSet [Fam W] {st : Strategy} {h : History M W} {mui : Option Mui} {iw : Bool}
    {p : Prefix W} {P : Prefix W → Prop} {l : List (Prefix W)} (hnd : l.Nodup)
    (hP : ∀ q, q ∈ l ↔ P q) : SetOf st h mui iw p P (sameSet (valueOf st h p mui iw) l) := by
  have hv := valueOf_answers st h p mui iw
  unfold sameSet
  by_cases hl : l = []
  · subst hl
    have hno : ∀ q, ¬ P q := fun q hq => by have := (hP q).2 hq; simp at this
    refine ⟨by simp [hno], fun l' hl' => ?_⟩
    simp only [if_true] at hl'
    cases hl'
    exact ⟨by simp, by simp [hno], by simp⟩
  · rw [if_neg hl]
    have hex : ∃ q, P q := by
      obtain ⟨q, hq⟩ := List.exists_mem_of_ne_nil l hl
      exact ⟨q, (hP q).1 hq⟩
    rw [SetOf]
    rw [← valueOf_some]
    cases hval : valueOf st h p mui iw with
    | none => simp [hex]
    | some rs =>
      rw [hval] at hv
      refine ⟨by simp, fun l' hl' => ?_⟩
      simp only [Option.map_some, Option.some.injEq] at hl'
      subst hl'
      have hmap : (l.map fun q => (q, rs)).map Prod.fst = l := by simp [Function.comp_def]
      refine ⟨by rw [hmap]; exact hnd, fun q => ?_, fun q rs' hq => ?_⟩
      · rw [← hP]; simp
      · simp only [List.mem_map, Prod.mk.injEq] at hq
        obtain ⟨q', _, _, rfl⟩ := hq
        exact hv.1

/-- What `less_specifics_from` returns (missing for C44: the record lists of the set
are those of `p`, and `p` is reported exactly when absent; see `less_from_fails`). -/
theorem less_from_partial [Fam W] {st : Strategy} {F : Nat} {h : History M W} {s : Rib M W}
    (hs : exec st F h = .ok () s) (p : Prefix W) (mui : Option Mui) (iw : Bool) :
    ∃ res : QueryResult M W,
      (ribLessSpecificsFrom st p.id mui iw).run s = .ok (.ok res) s ∧
      res.matchType = .emptyMatch ∧ Lists res.records (Shown st h mui iw p) ∧
      res.moreSpecifics = none ∧
      SetOf st h mui iw p (fun q => Proper h q ∧ Covers q p ∧ q ≠ p) res.lessSpecifics ∧
      (mui = none → (res.prefix_ = none ↔ Proper h p)) ∧
      (∀ q, res.prefix_ = some q → q = p) := by
  have hi := exec_ok_inv hs
  obtain ⟨l, hl, hd, hm⟩ := run_less hi.toQ p
  obtain ⟨b, hb, hbn⟩ := run_contains_any hi p mui
  refine ⟨⟨.emptyMatch, if b then none else some p, (valueOf st h p mui iw).getD [],
    sameSet (valueOf st h p mui iw) l, none⟩, ?_, rfl, (valueOf_answers st h p mui iw).1, rfl,
    setOf_sameSet ?_ hm, ?_, ?_⟩
  · unfold ribLessSpecificsFrom
    rw [run_bind, run_fromCommon hi p mui iw hb (run_eachLess hl (run_sameItems hi p mui iw l))]
    rfl
  · exact hd.imp (fun {a b} hab heq => by subst heq; omega)
  · intro hmn
    rw [← hbn hmn]
    cases b <;> simp
  · intro q hq
    cases b <;> simp_all

/-- What `more_specifics_from` returns; see `less_from_partial`. -/
theorem more_from_partial [Fam W] {st : Strategy} {F : Nat} {h : History M W} {s : Rib M W}
    (hs : exec st F h = .ok () s) (p : Prefix W) (mui : Option Mui) (iw : Bool) :
    ∃ (N : Nat) (res : QueryResult M W),
      (∀ fuel, N ≤ fuel → (ribMoreSpecificsFrom st fuel p.id mui iw).run s = .ok (.ok res) s) ∧
      res.matchType = .emptyMatch ∧ Lists res.records (Shown st h mui iw p) ∧
      res.lessSpecifics = none ∧
      SetOf st h mui iw p (fun q => p.len < W ∧ Proper h q ∧ Covers p q) res.moreSpecifics ∧
      (mui = none → (res.prefix_ = none ↔ Proper h p)) ∧
      (∀ q, res.prefix_ = some q → q = p) := by
  have hi := exec_ok_inv hs
  obtain ⟨l, N, hl, hnd, hm⟩ := run_more hi.toQ p
  obtain ⟨b, hb, hbn⟩ := run_contains_any hi p mui
  refine ⟨N, ⟨.emptyMatch, if b then none else some p, (valueOf st h p mui iw).getD [], none,
    sameSet (valueOf st h p mui iw) l⟩, fun fuel hf => ?_, rfl,
    (valueOf_answers st h p mui iw).1, rfl, setOf_sameSet hnd hm, ?_, ?_⟩
  · unfold ribMoreSpecificsFrom
    rw [run_bind, run_fromCommon hi p mui iw hb
      (run_eachMore (hl fuel hf) (run_sameItems hi p mui iw l))]
    rfl
  · intro hmn
    rw [← hbn hmn]
    cases b <;> simp
  · intro q hq
    cases b <;> simp_all

/-- C44 does not hold for `less_specifics_from`: 10.1.0.0/16 is stored, but not
reported. -/
theorem less_from_fails : ¬ LessFromExact Demo.Md 32 := by
  intro hall
  obtain ⟨s, hs, _⟩ := exec_inv .memoryOnly 0 Demo.hist
  obtain ⟨res, hr, ⟨h1, _, _⟩⟩ := hall .memoryOnly 0 _ s hs Demo.ten16 none true
  obtain ⟨res', hr', _, _, _, _, h2, _⟩ := less_from_partial hs Demo.ten16 none true
  rw [hr] at hr'; cases hr'
  have hp : Proper Demo.hist Demo.ten16 := ⟨by decide, by decide⟩
  have := (h2 rfl).2 hp
  rw [h1.2 hp] at this; cases this

theorem more_from_fails : ¬ MoreFromExact Demo.Md 32 := by
  intro hall
  obtain ⟨s, hs, _⟩ := exec_inv .memoryOnly 0 Demo.hist
  obtain ⟨N, res, hr, ⟨h1, _, _⟩⟩ := hall .memoryOnly 0 _ s hs Demo.ten8 none true
  obtain ⟨N', res', hr', _, _, _, _, h2, _⟩ := more_from_partial hs Demo.ten8 none true
  have := hr (N + N') (by omega)
  rw [hr' (N + N') (by omega)] at this; cases this
  have hp : Proper Demo.hist Demo.ten8 := ⟨by decide, by decide⟩
  have := (h2 rfl).2 hp
  rw [h1.2 hp] at this; cases this

/-- Not only the prefix is wrong: 10.0.0.0/8, which was inserted with ids 1 and 3 only,
is returned as a less-specific of 10.1.0.0/16 with the record of 10.1.0.0/16, id 2. -/
theorem less_from_wrong_records (F : Nat) (s : Rib Demo.Md 32)
    (hs : exec .memoryOnly F Demo.hist = .ok () s) :
    ∃ res l rs, (ribLessSpecificsFrom .memoryOnly Demo.ten16.id none true).run s = .ok (.ok res) s ∧
      res.lessSpecifics = some l ∧ (Demo.ten8, rs) ∈ l ∧
      (∃ r ∈ rs, r.mui = 2#32) ∧ ¬ Inserted Demo.hist Demo.ten8 2#32 := by
  obtain ⟨res, hr, _, _, _, ⟨hset, hset'⟩, _, _⟩ := less_from_partial hs Demo.ten16 none true
  have hcov : Covers Demo.ten8 Demo.ten16 := ⟨by decide, by
    intro i hi
    have h8 : i < 8 := hi
    interval_cases i <;> decide⟩
  have h8 : Proper Demo.hist Demo.ten8 ∧ Covers Demo.ten8 Demo.ten16 ∧ Demo.ten8 ≠ Demo.ten16 :=
    ⟨⟨by decide, by decide⟩, hcov, fun h => absurd (congrArg Prefix.len h) (by decide)⟩
  have hsh : Shown .memoryOnly Demo.hist none true Demo.ten16
      (effective Demo.hist (Demo.rec1 2 3 9)) := by
    refine ⟨Demo.rec1 2 3 9, ?_, by simp, rfl⟩
    decide
  cases hl : res.lessSpecifics with
  | none =>
    exact absurd ⟨_, hsh⟩ (hset.1 hl).2
  | some l =>
    obtain ⟨_, hmem, hrec⟩ := hset' l hl
    obtain ⟨rs, hrs⟩ := (hmem Demo.ten8).2 h8
    refine ⟨res, l, rs, hr, hl, hrs, ⟨_, ((hrec _ _ hrs).2 _).2 hsh, by decide⟩, ?_⟩
    rintro ⟨r, tbi, hm, hmui⟩
    simp only [Demo.hist, List.mem_cons, List.not_mem_nil, or_false] at hm
    have hne : Demo.ten8 ≠ Demo.host ∧ Demo.ten8 ≠ Demo.other ∧ Demo.ten8 ≠ Demo.ten16 :=
      ⟨fun h => absurd (congrArg Prefix.len h) (by decide),
       fun h => absurd (congrArg Prefix.len h) (by decide),
       fun h => absurd (congrArg Prefix.len h) (by decide)⟩
    rcases hm with h | h | h | h | h | h | h | h
    · cases h
    · cases h
    · cases h
    all_goals injection h with h1 h2
    · exact hne.1 h1
    · exact hne.2.1 h1
    · exact hne.2.2 h1
    · subst h2; exact absurd hmui (by decide)
    · subst h2; exact absurd hmui (by decide)

end Rotonda.Props
