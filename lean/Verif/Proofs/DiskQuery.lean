import Verif.Proofs.Disk

/-!
# Queries, with any way to look up the records of a prefix
-/

namespace Rotonda

open Prog Spec

variable {M : Type} [Meta M] {W : Nat}

/-- The entry of a listing for one prefix. -/
def listed (v : Values M W) (q : Prefix W) : Option (PrefixRecord M W) :=
  match v q with
  | .ok (some rs) => some (q, rs)
  | _ => none

theorem mem_listed {v : Values M W} {l : List (Prefix W)} {q : Prefix W} {rs : List (Record M)} :
    (q, rs) ∈ l.filterMap (listed v) ↔ q ∈ l ∧ v q = .ok (some rs) := by
  rw [List.mem_filterMap]
  constructor
  · rintro ⟨q', hq', he⟩
    unfold listed at he
    split at he
    · rename_i rs' hv
      cases he
      exact ⟨hq', hv⟩
    · cases he
  · rintro ⟨h1, h2⟩
    exact ⟨q, h1, by simp only [listed, h2]⟩

theorem nodup_listed {v : Values M W} {l : List (Prefix W)} (h : l.Nodup) :
    ((l.filterMap (listed v)).map Prod.fst).Nodup := by
  refine h.sublist ?_
  clear h
  induction l with
  | nil => simp
  | cons q l ih =>
    rw [List.filterMap_cons]
    unfold listed
    split
    · exact ih.cons _
    · rename_i x hx
      split at hx
      · cases hx; exact ih.cons_cons _
      · cases hx

theorem collect_items {v : Values M W} (l : List (Prefix W)) :
    ((∃ q ∈ l, v q = .error ()) ∧ collectFatal (l.filterMap (itemOf v)) = .error ()) ∨
    ((∀ q ∈ l, v q ≠ .error ()) ∧
      collectFatal (l.filterMap (itemOf v)) = .ok (l.filterMap (listed v))) := by
  induction l with
  | nil => exact .inr ⟨fun q hq => (by cases hq), rfl⟩
  | cons q l ih =>
    rw [List.filterMap_cons, List.filterMap_cons]
    cases hv : v q with
    | error e =>
      refine .inl ⟨⟨q, List.mem_cons_self, hv⟩, ?_⟩
      simp only [itemOf, hv]
      rfl
    | ok o =>
      rcases ih with ⟨⟨q', hq', he⟩, h2⟩ | ⟨h1, h2⟩
      · refine .inl ⟨⟨q', List.mem_cons_of_mem _ hq', he⟩, ?_⟩
        cases o with
        | none => simp only [itemOf, hv]; exact h2
        | some rs => simp only [itemOf, hv, collectFatal]; rw [h2]
      · refine .inr ⟨fun q' hq' => ?_, ?_⟩
        · rcases List.mem_cons.1 hq' with rfl | hq'
          · rw [hv]; intro h; cases h
          · exact h1 q' hq'
        · cases o with
          | none => simp only [itemOf, listed, hv]; exact h2
          | some rs => simp only [itemOf, listed, hv, collectFatal]; rw [h2]

section
variable {gv : GetValue M W} {s : Rib M W} {v : Values M W}
  (hv : ∀ q : Prefix W, (gv q.id).run s = .ok (v q) s)
include hv

theorem run_gvItem (q : Prefix W) : (gvItem gv q.id).run s = .ok (itemOf v q) s := by
  unfold gvItem itemOf
  rw [run_bind, hv]
  simp only [Outcome.andThen, toPrefix_id, ofOption, ret_bind]
  rcases v q with e | (_ | rs) <;> rfl

theorem run_gvValues (l : List (Prefix W)) :
    (gvValues gv (l.map Prefix.id)).run s = .ok (l.filterMap (itemOf v)) s := by
  induction l with
  | nil => rfl
  | cons q l ih =>
    simp only [List.map_cons, gvValues, run_bind, hv, Outcome.andThen, toPrefix_id, ofOption,
      ret_bind, ih, List.filterMap_cons, itemOf]
    rcases v q with e | (_ | rs) <;> rfl

theorem run_gvFill_none : (gvFill gv none).run s = .ok (.ok none) s := rfl

theorem run_gvFill_some (l : List (Prefix W)) :
    ((∃ q ∈ l, v q = .error ()) ∧ (gvFill gv (some (l.map Prefix.id))).run s = .ok (.error ()) s) ∨
    ((∀ q ∈ l, v q ≠ .error ()) ∧
      (gvFill gv (some (l.map Prefix.id))).run s = .ok (.ok (some (l.filterMap (listed v)))) s) := by
  rcases collect_items (v := v) l with ⟨h1, h2⟩ | ⟨h1, h2⟩
  · refine .inl ⟨h1, ?_⟩
    simp only [gvFill, run_bind, run_gvValues hv, Outcome.andThen, h2]
    rfl
  · refine .inr ⟨h1, ?_⟩
    simp only [gvFill, run_bind, run_gvValues hv, Outcome.andThen, h2]
    rfl

/-- The prefix part of the answer. -/
theorem run_gvFound (ty : MatchType) (c : Option (Prefix W)) :
    ∃ f, (gvFound gv ty (c.map Prefix.id)).run s = .ok f s ∧
      ((∃ q r rs, c = some q ∧ v q = .ok (some (r :: rs)) ∧ f = (ty, some q, r :: rs)) ∨
        ((∀ q r rs, c = some q → v q ≠ .ok (some (r :: rs))) ∧ f = (.emptyMatch, none, []))) := by
  cases c with
  | none => exact ⟨_, rfl, .inr ⟨fun q r rs h => (by cases h), rfl⟩⟩
  | some q =>
    simp only [Option.map_some, gvFound, toPrefix_id, ofOption, ret_bind, run_bind, hv,
      Outcome.andThen]
    rcases hq : v q with e | (_ | (_ | ⟨r, rs⟩))
    · exact ⟨_, rfl, .inr ⟨fun q' r rs h => (by cases h; rw [hq]; intro h; cases h), rfl⟩⟩
    · exact ⟨_, rfl, .inr ⟨fun q' r rs h => (by cases h; rw [hq]; intro h; cases h), rfl⟩⟩
    · exact ⟨_, rfl, .inr ⟨fun q' r rs h => (by cases h; rw [hq]; intro h; cases h), rfl⟩⟩
    · exact ⟨_, rfl, .inl ⟨q, r, rs, rfl, hq, rfl⟩⟩

end

/-- The tree part of `match_prefix`. -/
theorem run_treeMatch [Fam W] {st : Strategy} {h : History M W} {s : Rib M W}
    (hi : HInv st h s) (p : Prefix W) (o : MatchOptions) :
    ∃ (lm : Option (Prefix W)) (ls ms : List (Prefix W)) (N : Nat),
      (match lm with
        | some q => IsLongest (Proper h) p q
        | none => ∀ q, Proper h q → ¬ Covers q p) ∧
      (ls.Nodup ∧ ∀ q, q ∈ ls ↔ Spec.Above h p q) ∧
      (ms.Nodup ∧ ∀ q, q ∈ ms ↔ Below h p q) ∧
      ∀ fuel, N ≤ fuel → (onNodes (M := M) (treeMatchPrefix fuel p.id o.matchType
        o.includeLessSpecifics o.includeMoreSpecifics)).run s = .ok ⟨(treeFound p o.matchType lm).1,
          (treeFound p o.matchType lm).2.map Prefix.id,
          ((if o.includeLessSpecifics then some ls else none).map fun l => l.map Prefix.id),
          ((if o.includeMoreSpecifics then some ms else none).map fun l => l.map Prefix.id)⟩ s := by
  obtain ⟨lm, hlm, hlm'⟩ := run_longest hi.toQ p
  obtain ⟨ls, hls, hls', hls2⟩ := run_less hi.toQ p
  obtain ⟨ms, N, hms, hnd, hms'⟩ := run_more hi.toQ p
  refine ⟨lm, ls, ms.filter (fun q => decide (q.id ≠ p.id)), N, hlm',
    ⟨hls'.imp (fun h e => by subst e; omega), hls2⟩, ⟨hnd.filter _, fun q => ?_⟩, fun fuel hf => ?_⟩
  · rw [List.mem_filter, hms', decide_eq_true_iff]
    have hne : q.id ≠ p.id ↔ q ≠ p := by
      constructor
      · rintro h1 rfl; exact h1 rfl
      · intro h1 h2; exact h1 (Prefix.id_inj h2)
    rw [hne]
    constructor
    · rintro ⟨⟨_, h1, h2⟩, h3⟩; exact ⟨h1, h2, h3⟩
    · rintro ⟨h1, h2, h3⟩
      refine ⟨⟨?_, h1, h2⟩, h3⟩
      by_contra hc
      have hl := h2.1
      have := q.le
      have := p.le
      have hc' := (covers_trunc.1 h2).2
      have : p.len = q.len := by omega
      apply h3
      apply Prefix.id_inj
      rw [← hc', this]
      exact (truncate_self q.clean).symm
  · have inv : ∀ {α : Type} {q : Prog (NSlots W) α} {a : α}, (onNodes (M := M) q).run s = .ok a s →
        q.run s.tree.slots = .ok a s.tree.slots := by
      intro α q a hq
      rw [run_onNodes] at hq
      cases hr : q.run s.tree.slots with
      | ok b x =>
        rw [hr] at hq
        simp only [Outcome.mapState, Outcome.ok.injEq] at hq
        have : x = s.tree.slots := congrArg (fun r : Rib M W => r.tree.slots) hq.2
        rw [hq.1, this]
      | panic => rw [hr] at hq; cases hq
      | diverge => rw [hr] at hq; cases hq
    have opt : ∀ {α : Type} (b : Bool) {q : Prog (NSlots W) α} {a : α},
        q.run s.tree.slots = .ok a s.tree.slots →
        (optionally b q).run s.tree.slots = .ok (if b then some a else none) s.tree.slots := by
      intro α b q a hq
      cases b
      · rfl
      · simp only [optionally, if_true, run_bind, hq, Outcome.andThen, pure_def, run]
    apply nodes_read
    unfold treeMatchPrefix
    rw [run_bind, inv hlm]
    simp only [Outcome.andThen]
    rw [run_bind, opt _ (inv hls)]
    simp only [Outcome.andThen]
    rw [run_bind, opt _ (inv (hms fuel hf))]
    simp only [Outcome.andThen, pure_def, run]
    congr 2
    · cases o.matchType <;> cases lm <;> simp only [Option.map_some, Option.map_none, treeFound]
      split <;> rfl
    · cases o.matchType <;> cases lm <;> simp only [Option.map_some, Option.map_none, treeFound]
      split <;> rfl
    · cases o.includeLessSpecifics <;> rfl
    · cases o.includeMoreSpecifics
      · rfl
      · simp only [if_true, Option.map_some, filter_map_id]

theorem treeFound_matches {h : History M W} {p : Prefix W} {o : MatchOptions} {lm : Option (Prefix W)}
    (hlm : match lm with
      | some q => IsLongest (Proper h) p q
      | none => ∀ q, Proper h q → ¬ Covers q p) {q : Prefix W} :
    (treeFound p o.matchType lm).2 = some q ↔ Matches h p o q := by
  have uniq : ∀ {q q'}, IsLongest (Proper h) p q → IsLongest (Proper h) p q' → q = q' := by
    intro q q' h1 h2
    have e : q.len = q'.len :=
      Nat.le_antisymm (h2.2.2 q h1.1 h1.2.1) (h1.2.2 q' h2.1 h2.2.1)
    apply Prefix.id_inj
    rw [← (covers_trunc.1 h1.2.1).2, ← (covers_trunc.1 h2.2.1).2, e]
  cases lm with
  | none =>
    have : (treeFound p o.matchType (none : Option (Prefix W))).2 = none := by
      cases o.matchType <;> rfl
    rw [this]
    constructor
    · intro h; cases h
    · rintro ⟨hl, _⟩; exact absurd hl.2.1 (hlm q hl.1)
  | some l =>
    simp only at hlm
    cases hm : o.matchType with
    | exactMatch =>
      simp only [treeFound]
      constructor
      · intro hq
        split at hq
        · rename_i he
          cases hq
          exact ⟨hlm, fun _ => Prefix.id_inj he⟩
        · cases hq
      · rintro ⟨h1, h2⟩
        have := h2 hm
        subst this
        have := uniq hlm h1
        subst this
        rw [if_pos rfl]
    | longestMatch =>
      simp only [treeFound, Option.some.injEq]
      constructor
      · rintro rfl; exact ⟨hlm, fun h => by rw [hm] at h; cases h⟩
      · rintro ⟨h1, _⟩; exact uniq hlm h1
    | emptyMatch =>
      simp only [treeFound, Option.some.injEq]
      constructor
      · rintro rfl; exact ⟨hlm, fun h => by rw [hm] at h; cases h⟩
      · rintro ⟨h1, _⟩; exact uniq hlm h1

theorem treeFound_type {p : Prefix W} {mt : MatchType} {lm : Option (Prefix W)} {q : Prefix W}
    (h : (treeFound p mt lm).2 = some q) : (treeFound p mt lm).1 ≠ .emptyMatch := by
  unfold treeFound at h ⊢
  split
  · rename_i q'
    split
    · intro h; cases h
    · rename_i hne; simp only [if_neg hne] at h; cases h
  · cases h
  · intro h; cases h

theorem matchAnswer_error {h : History M W} {p : Prefix W} {o : MatchOptions} {v : Values M W}
    (he : (o.includeMoreSpecifics = true ∧ ∃ q, Below h p q ∧ v q = .error ()) ∨
      (o.includeLessSpecifics = true ∧ ∃ q, Spec.Above h p q ∧ v q = .error ())) :
    MatchAnswer h p o v (.error ()) :=
  ⟨⟨fun _ => he, fun _ => rfl⟩, fun _ _ h => (by cases h), fun _ _ h => (by cases h),
    fun _ h => (by cases h), fun _ h => (by cases h), fun _ h => (by cases h)⟩

theorem run_gvMatch [Fam W] {st : Strategy} {h : History M W} {s : Rib M W} (hi : HInv st h s)
    {gv : GetValue M W} {v : Values M W} (hv : ∀ q : Prefix W, (gv q.id).run s = .ok (v q) s)
    (p : Prefix W) (o : MatchOptions) :
    ∃ N, ∀ fuel, N ≤ fuel → ∃ a, (gvMatchPrefix gv fuel p.id o).run s = .ok a s ∧
      MatchAnswer h p o v a := by
  obtain ⟨lm, ls, ms, N, hlm, ⟨hlsn, hls⟩, ⟨hmsn, hms⟩, htree⟩ := run_treeMatch hi p o
  refine ⟨N, fun fuel hf => ?_⟩
  have hmatch := fun q => treeFound_matches (o := o) (q := q) hlm
  unfold gvMatchPrefix
  rw [run_bind, htree fuel hf]
  simp only [Outcome.andThen]
  obtain ⟨f, hfrun, hf'⟩ := run_gvFound hv (treeFound p o.matchType lm).1 (treeFound p o.matchType lm).2
  rw [run_bind, hfrun]
  simp only [Outcome.andThen]
  -- the fills
  have fill : ∀ (b : Bool) (l : List (Prefix W)) (P : Prefix W → Prop), l.Nodup → (∀ q, q ∈ l ↔ P q) →
      (b = true ∧ (∃ q, P q ∧ v q = .error ()) ∧
        (gvFill gv ((if b then some l else none).map fun l => l.map Prefix.id)).run s =
          .ok (.error ()) s) ∨
      (¬ (b = true ∧ ∃ q, P q ∧ v q = .error ()) ∧ ∃ x,
        (gvFill gv ((if b then some l else none).map fun l => l.map Prefix.id)).run s =
          .ok (.ok x) s ∧ if b then ∃ l, x = some l ∧ ListsValues v P l else x = none) := by
    intro b l P hn hP
    cases b with
    | false => exact .inr ⟨fun h => (by cases h.1), none, rfl, rfl⟩
    | true =>
      rcases run_gvFill_some hv l with ⟨⟨q, hq, he⟩, h2⟩ | ⟨h1, h2⟩
      · exact .inl ⟨rfl, ⟨q, (hP q).1 hq, he⟩, h2⟩
      · refine .inr ⟨?_, _, h2, _, rfl, nodup_listed hn, fun q rs => ?_⟩
        · rintro ⟨_, q, hq, he⟩; exact h1 q ((hP q).2 hq) he
        · rw [mem_listed, hP]
  rcases fill o.includeMoreSpecifics ms (Below h p) hmsn hms with ⟨hb, he, hrun⟩ | ⟨hne1, x, hrun, hx⟩
  · rw [run_bind, hrun]
    exact ⟨_, rfl, matchAnswer_error (.inl ⟨hb, he⟩)⟩
  · rw [run_bind, hrun]
    simp only [Outcome.andThen]
    rcases fill o.includeLessSpecifics ls (Spec.Above h p) hlsn hls with ⟨hb, he, hrun⟩ | ⟨hne2, y, hrun, hy⟩
    · rw [run_bind, hrun]
      exact ⟨_, rfl, matchAnswer_error (.inr ⟨hb, he⟩)⟩
    · rw [run_bind, hrun]
      refine ⟨_, rfl, ⟨⟨fun h => (by cases h), fun h => ?_⟩, ?_, ?_, ?_, ?_, ?_⟩⟩
      · rcases h with h | h
        · exact absurd h hne1
        · exact absurd h hne2
      · intro res q hres hq rs hrs hvq
        cases hres
        have hq' := (hmatch _).2 hq
        rcases hf' with ⟨q', r, rs', h1, h2, rfl⟩ | ⟨h1, _⟩
        · rw [hq'] at h1
          cases h1
          rw [hvq] at h2
          cases h2
          exact ⟨rfl, rfl, treeFound_type hq'⟩
        · cases rs with
          | nil => exact absurd rfl hrs
          | cons r rs => exact absurd hvq (h1 q r rs hq')
      · intro res q hres hq
        cases hres
        rcases hf' with ⟨q', r, rs', h1, h2, rfl⟩ | ⟨_, rfl⟩
        · cases hq
          exact ⟨(hmatch _).1 h1, h2, by simp⟩
        · cases hq
      · intro res hres hq
        cases hres
        rcases hf' with ⟨q', r, rs', h1, h2, rfl⟩ | ⟨_, rfl⟩
        · cases hq
        · exact ⟨rfl, rfl⟩
      · intro res hres; cases hres; exact hx
      · intro res hres; cases hres; exact hy

/-! ## Iterators -/

theorem run_gvItems {gv : GetValue M W} {s : Rib M W} {v : Values M W}
    (hv : ∀ q : Prefix W, (gv q.id).run s = .ok (v q) s) (l : List (Prefix W)) :
    List.Forall₂ (fun p b => (gvItem gv p).run s = .ok b s) (l.map Prefix.id) (l.map (itemOf v)) := by
  induction l with
  | nil => exact .nil
  | cons q l ih => exact .cons (run_gvItem hv q) ih

theorem filterMap_items (v : Values M W) (l : List (Prefix W)) :
    (l.map (itemOf v)).filterMap id = l.filterMap (itemOf v) := by
  rw [List.filterMap_map]; rfl

theorem run_gvMoreIter [Fam W] {st : Strategy} {h : History M W} {s : Rib M W} (hi : HInv st h s)
    (p : Prefix W) :
    ∃ (l : List (Prefix W)) (N : Nat), l.Nodup ∧ (∀ q, q ∈ l ↔ p.len < W ∧ Proper h q ∧ Covers p q) ∧
      ∀ (gv : GetValue M W) (v : Values M W), (∀ q : Prefix W, (gv q.id).run s = .ok (v q) s) →
      ∀ fuel, N ≤ fuel → (gvMoreIter gv fuel p.id).run s = .ok (l.filterMap (itemOf v)) s := by
  obtain ⟨l, N, hms, hnd, hms'⟩ := run_more hi.toQ p
  refine ⟨l, N, hnd, hms', fun gv v hv fuel hf => ?_⟩
  unfold gvMoreIter
  rw [run_bind, run_eachMore (hms fuel hf) (run_gvItems hv l), ← filterMap_items]
  rfl

theorem run_gvLessIter [Fam W] {st : Strategy} {h : History M W} {s : Rib M W} (hi : HInv st h s)
    (p : Prefix W) :
    ∃ l : List (Prefix W), l.Nodup ∧ (∀ q, q ∈ l ↔ Spec.Above h p q) ∧
      ∀ (gv : GetValue M W) (v : Values M W), (∀ q : Prefix W, (gv q.id).run s = .ok (v q) s) →
      (gvLessIter gv p.id).run s = .ok (l.filterMap (itemOf v)) s := by
  obtain ⟨l, hls, hl1, hl2⟩ := run_less hi.toQ p
  refine ⟨l, hl1.imp (fun h e => by subst e; omega), hl2, fun gv v hv => ?_⟩
  unfold gvLessIter
  rw [run_bind, run_eachLess hls (run_gvItems hv l), ← filterMap_items]
  rfl

/-- The item of `prefixes_iter` for one prefix. -/
def pfxItemOf (v : Values M W) (q : Prefix W) : FatalResult (PrefixRecord M W) :=
  match v q with
  | .ok r => .ok (q, r.getD [])
  | .error e => .error e

theorem run_gvPfxItems {gv : GetValue M W} {s : Rib M W} {v : Values M W}
    (hv : ∀ q : Prefix W, (gv q.id).run s = .ok (v q) s) (l : List (Prefix W)) :
    List.Forall₂ (fun p b => (gvPfxItem gv p).run s = .ok b s) (l.map Prefix.id)
      (l.map (pfxItemOf v)) := by
  induction l with
  | nil => exact .nil
  | cons q l ih =>
    refine .cons ?_ ih
    unfold gvPfxItem pfxItemOf
    simp only [toPrefix_id, ofOption, ret_bind]
    rw [run_bind, hv]
    simp only [Outcome.andThen]
    rcases v q with e | o <;> rfl

theorem run_gvPrefixesIter [hW : Fam W] {st : Strategy} {h : History M W} {s : Rib M W}
    (hi : HInv st h s) :
    ∃ (l : List (Prefix W)) (N : Nat), l.Nodup ∧ (∀ q, q ∈ l ↔ Proper h q) ∧
      ∀ (gv : GetValue M W) (v : Values M W), (∀ q : Prefix W, (gv q.id).run s = .ok (v q) s) →
      ∀ fuel, N ≤ fuel → (gvPrefixesIter gv fuel).run s = .ok (l.map (pfxItemOf v)) s := by
  obtain ⟨l, N, hms, hnd, hms'⟩ := run_more hi.toQ (Prefix.root W)
  refine ⟨l, N, hnd, fun q => ?_, fun gv v hv fuel hf => ?_⟩
  · rw [hms']
    have : (Prefix.root W).len < W := by
      have := hW.width; simp only [Prefix.root]; omega
    simp only [this, covers_root, and_true, true_and]
  · exact run_eachMore (hms fuel hf) (run_gvPfxItems hv l)

theorem run_diskMoreIter [Fam W] {st : Strategy} {h : History M W} {s : Rib M W} (hi : HInv st h s)
    (D : Disk) (fuel : Nat) (p : Prefix W) (mui : Option Mui) (iw : Bool) :
    (diskMoreIter D fuel p.id mui iw).run s =
      if stopped h mui iw then .ok [] s else (gvMoreIter (diskGetValue D mui iw) fuel p.id).run s := by
  unfold diskMoreIter stopped
  cases mui with
  | none =>
    simp only [pure_bind', Bool.false_eq_true, if_false]
  | some m =>
    cases iw with
    | true =>
      simp only [pure_bind', Bool.false_eq_true, if_false, Bool.true_eq_false, Bool.not_true,
        Bool.false_and]
    | false =>
      simp only [if_true, Bool.not_false, Bool.true_and]
      rw [run_bind, run_muiIsWithdrawn hi.toQ]
      simp only [Outcome.andThen]
      cases globWd h m <;> rfl

/-! ## A disk without faults -/

theorem diskRecords_healthy (t : Lsm) (p : PrefixId W) (mui : Option Mui) (iw : Bool)
    (wd : Mui → Bool) :
    diskRecordsForPrefix t.disk p mui iw wd = recordsForPrefix t p mui iw wd := by
  unfold diskRecordsForPrefix recordsForPrefix Lsm.disk
  cases iw <;> simp only [eachEntry_ok]
  · rw [Option.map_map]
    congr 1
    funext L
    simp only [Function.comp, transposed_ok, allOk_ok, Option.bind_some]
  · rw [Option.map_map]
    congr 1
    funext L
    simp only [Function.comp, allOk_ok, Option.bind_some]

theorem run_diskGetValue_healthy (s : Rib M W) (p : PrefixId W) (mui : Option Mui) (iw : Bool) :
    (diskGetValue s.lsm.disk mui iw p).run s = (ribGetValue .persistOnly p mui iw).run s := by
  unfold diskGetValue ribGetValue
  rw [run_bind, run_bind, run_wd]
  simp only [Outcome.andThen, diskRecords_healthy]
  rfl

/-- The queries are the same as those of the model without faults. -/
theorem gvValues_rib (st : Strategy) (mui : Option Mui) (iw : Bool) (l : List (PrefixId W)) :
    gvValues (fun p => ribGetValue (M := M) st p mui iw) l = filterValues st mui iw l := by
  induction l with
  | nil => rfl
  | cons p l ih => simp only [gvValues, filterValues, ih]; rfl

theorem gvMatch_rib (st : Strategy) (fuel : Nat) (p : PrefixId W) (o : MatchOptions) :
    gvMatchPrefix (fun p => ribGetValue (M := M) st p o.mui o.includeWithdrawn) fuel p o =
      ribMatchPrefix st fuel p o := by
  have hf : ∀ l, gvFill (fun p : PrefixId W => ribGetValue (M := M) st p o.mui o.includeWithdrawn) l =
      fillRecords st o.mui o.includeWithdrawn l := by
    intro l
    cases l with
    | none => rfl
    | some l => simp only [gvFill, fillRecords, gvValues_rib]; rfl
  have hg : ∀ ty c, gvFound (fun p : PrefixId W => ribGetValue (M := M) st p o.mui o.includeWithdrawn) ty c =
      ribMatchFound st o.mui o.includeWithdrawn ty c := by
    intro ty c
    cases c <;> rfl
  unfold gvMatchPrefix ribMatchPrefix
  simp only [hf, hg]
  rfl

/-- Only the answers of the lookups matter. -/
theorem run_gvMatch_congr [Fam W] {st : Strategy} {h : History M W} {s : Rib M W} (hi : HInv st h s)
    {gv gv' : GetValue M W} {v : Values M W} (hv : ∀ q : Prefix W, (gv q.id).run s = .ok (v q) s)
    (hv' : ∀ q : Prefix W, (gv' q.id).run s = .ok (v q) s) (p : Prefix W) (o : MatchOptions) :
    ∃ N, ∀ fuel, N ≤ fuel →
      (gvMatchPrefix gv fuel p.id o).run s = (gvMatchPrefix gv' fuel p.id o).run s := by
  obtain ⟨lm, ls, ms, N, -, -, -, htree⟩ := run_treeMatch hi p o
  refine ⟨N, fun fuel hf => ?_⟩
  have hfill : ∀ l : Option (List (Prefix W)), (gvFill gv (l.map fun l => l.map Prefix.id)).run s =
      (gvFill gv' (l.map fun l => l.map Prefix.id)).run s := by
    intro l
    cases l with
    | none => rfl
    | some l => simp only [Option.map_some, gvFill, run_bind, run_gvValues hv, run_gvValues hv']
  have hfs : ∀ l : Option (List (Prefix W)), ∃ x,
      (gvFill gv' (l.map fun l => l.map Prefix.id)).run s = .ok x s := by
    intro l
    cases l with
    | none => exact ⟨_, rfl⟩
    | some l => rcases run_gvFill_some hv' l with ⟨_, h2⟩ | ⟨_, h2⟩ <;> exact ⟨_, h2⟩
  have hfound : ∀ ty (c : Option (Prefix W)), (gvFound gv ty (c.map Prefix.id)).run s =
      (gvFound gv' ty (c.map Prefix.id)).run s := by
    intro ty c
    cases c with
    | none => rfl
    | some q =>
      simp only [Option.map_some, gvFound, toPrefix_id, ofOption, ret_bind, run_bind, hv, hv']
  unfold gvMatchPrefix
  rw [run_bind, run_bind, htree fuel hf]
  simp only [Outcome.andThen]
  obtain ⟨f, hf', -⟩ := run_gvFound hv' (treeFound p o.matchType lm).1
    (treeFound p o.matchType lm).2
  rw [run_bind, run_bind, hfound, hf']
  simp only [Outcome.andThen]
  obtain ⟨x, hx⟩ := hfs (if o.includeMoreSpecifics then some ms else none)
  rw [run_bind, run_bind, hfill, hx]
  simp only [Outcome.andThen]
  cases x with
  | error e => rfl
  | ok x =>
    dsimp only
    rw [run_bind, run_bind, hfill]

end Rotonda
