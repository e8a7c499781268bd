import Verif.Spec.StarQuiet
import Verif.Proofs.StarView
import Verif.Proofs.Quiet

/-!
# A store of both families at rest, family by family
-/

namespace Rotonda

open Prog Spec

variable {M : Type} [Meta M] {ι : Type}

theorem op4_change4 (c : StarCall M) : (change4 c).bind op4 = changeOf (call4 c) := by
  cases c with
  | insert q | withdrawFor q | activateFor q | calcBest q | contains q | getRecords q | matchPrefix q
  | moreFrom q | lessFrom q | moreIter q | lessIter q | bestPath q | isPsOutdated q =>
    cases q <;> rfl
  | _ => rfl

theorem op6_change6 (c : StarCall M) : (change6 c).bind op6 = changeOf (call6 c) := by
  cases c with
  | insert q | withdrawFor q | activateFor q | calcBest q | contains q | getRecords q | matchPrefix q
  | moreFrom q | lessFrom q | moreIter q | lessIter q | bestPath q | isPsOutdated q =>
    cases q <;> rfl
  | _ => rfl

theorem op4_change6 (c : StarCall M) : (change6 c).bind op4 = none := by
  cases c with
  | insert q | withdrawFor q | activateFor q | calcBest q | contains q | getRecords q | matchPrefix q
  | moreFrom q | lessFrom q | moreIter q | lessIter q | bestPath q | isPsOutdated q =>
    cases q <;> rfl
  | _ => rfl

theorem op6_change4 (c : StarCall M) : (change4 c).bind op6 = none := by
  cases c with
  | insert q | withdrawFor q | activateFor q | calcBest q | contains q | getRecords q | matchPrefix q
  | moreFrom q | lessFrom q | moreIter q | lessIter q | bestPath q | isPsOutdated q =>
    cases q <;> rfl
  | _ => rfl

private theorem filterMap_none {α β : Type} (l : List α) : l.filterMap (fun _ => (none : Option β)) = [] := by
  induction l with
  | nil => rfl
  | cons a l ih => rw [List.filterMap_cons_none rfl]; exact ih

theorem hist4_starHistAfter (h : List (StarOp M)) (calls : ι → StarCall M) (l4 l6 : List ι) :
    hist4 (starHistAfter h calls l4 l6) = histAfter (hist4 h) (fun i => call4 (calls i)) l4 := by
  unfold hist4 starHistAfter histAfter
  rw [List.filterMap_append, List.filterMap_append, List.filterMap_filterMap, List.filterMap_filterMap]
  simp only [op4_change4, op4_change6, filterMap_none, List.nil_append]

theorem hist6_starHistAfter (h : List (StarOp M)) (calls : ι → StarCall M) (l4 l6 : List ι) :
    hist6 (starHistAfter h calls l4 l6) = histAfter (hist6 h) (fun i => call6 (calls i)) l6 := by
  unfold hist6 starHistAfter histAfter
  rw [List.filterMap_append, List.filterMap_append, List.filterMap_filterMap, List.filterMap_filterMap]
  simp only [op6_change6, op6_change4, filterMap_none, List.nil_append]

variable [DecidableEq ι] {calls : ι → StarCall M} {st : Strategy} {F fuel : Nat} {s : Star M}
  {t : List ι} {t4 t6 : ℕ → List ι}
  (hI : Interleaves (starStart st F fuel s calls) (start4 st F fuel s calls)
    (start6 st F fuel s calls) t t4 t6)
include hI

theorem insertsDone4 (hq : StarInsertsDone ((starStart st F fuel s calls).exec t) t) :
    InsertsDone ((start4 st F fuel s calls).exec (t4 t.length)) (t4 t.length) := by
  intro i hi p r tbi hc
  have hi' := hI.split.mem4 (Nat.le_refl _) hi
  rw [List.take_length] at hi'
  obtain ⟨a, ha⟩ := hq i hi' _ r tbi (call4_insert hc)
  rw [← List.take_length (l := t)] at ha
  exact ⟨a, (runView4 [] hI).returned (Nat.le_refl _) ha⟩

theorem insertsDone6 (hq : StarInsertsDone ((starStart st F fuel s calls).exec t) t) :
    InsertsDone ((start6 st F fuel s calls).exec (t6 t.length)) (t6 t.length) := by
  intro i hi p r tbi hc
  have hi' := hI.split.mem6 (Nat.le_refl _) hi
  rw [List.take_length] at hi'
  obtain ⟨a, ha⟩ := hq i hi' _ r tbi (call6_insert hc)
  rw [← List.take_length (l := t)] at ha
  exact ⟨a, (runView6 [] hI).returned (Nat.le_refl _) ha⟩

theorem oneByOne4 {order : List ι} (ho : OneByOne (start4 st F fuel s calls) (t4 t.length) order) :
    StarOneByOne .v4 .withdraw4 .activate4 change4 (starStart st F fuel s calls) t order := by
  have hn := Nat.le_refl t.length
  have hfix : t.take t.length = t := List.take_length
  refine ⟨ho.once, fun i hi => ?_, fun i p r tbi a hr => ?_, fun i m a hr => ?_, fun i m a hr => ?_,
    fun i m a hr => ?_, fun i p m tm a hr => ?_, fun i p m tm a hr => ?_, fun l1 j l2 i he hi hj => ?_⟩
  · have := hI.split.mem4 hn (ho.begun i hi)
    rwa [hfix] at this
  all_goals try rw [← hfix] at hr
  · obtain ⟨b, hb, -⟩ := returned_v4 hI hn (x := .insert (.v4 p) r tbi)
      (y := .insert p r tbi) (g := fun a => a) rfl hr
    exact ho.inserts i _ _ _ _ hb
  · obtain ⟨hc, hp⟩ := hr
    obtain ⟨b, hb⟩ := part4_returned hI hn hp (by rw [hc]; rintro y g ⟨⟩)
    have h4 : call4 (calls i) = .withdraw m := by rw [hc]; rfl
    have key : ∀ (x : Call M 32) (hx : call4 (calls i) = x), ∃ b', b = hx ▸ b' := by
      rintro x rfl; exact ⟨b, rfl⟩
    obtain ⟨b', rfl⟩ := key _ h4
    exact ho.withdrawn i m b' ⟨h4, hb⟩
  · obtain ⟨b, hb, -⟩ := returned_v4 hI hn (x := .withdraw4 m) (y := .withdraw m) (g := id) rfl hr
    exact ho.withdrawn i _ _ hb
  · obtain ⟨b, hb, -⟩ := returned_v4 hI hn (x := .activate4 m) (y := .activate m) (g := id) rfl hr
    exact ho.activated i _ _ hb
  · obtain ⟨b, hb, rfl⟩ := returned_v4 hI hn (x := .withdrawFor (.v4 p) m tm)
      (y := .withdrawFor p m tm) (g := fun a => a) rfl hr
    exact ho.withdrawnFor i _ _ _ _ hb
  · obtain ⟨b, hb, rfl⟩ := returned_v4 hI hn (x := .activateFor (.v4 p) m tm)
      (y := .activateFor p m tm) (g := fun a => a) rfl hr
    exact ho.activatedFor i _ _ _ _ hb
  · have hne : changeOf (call4 (calls j)) ≠ none := by
      rw [← op4_change4]
      revert hj
      generalize calls j = c
      intro hj
      cases c with
      | insert q | withdrawFor q | activateFor q | calcBest q | contains q | getRecords q | matchPrefix q
      | moreFrom q | lessFrom q | moreIter q | lessIter q | bestPath q | isPsOutdated q =>
        cases q <;> first | exact absurd rfl hj | exact Option.some_ne_none _
      | _ => first | exact absurd rfl hj | exact Option.some_ne_none _
    refine notBefore_v4 hI ?_ (ho.realTime l1 j l2 i he hi hne)
    intro y g hp
    have hc4 : call4 (calls j) = .nodesCount := by unfold call4; rw [hp]; rfl
    rw [hc4] at hne
    exact hne rfl

theorem oneByOne6 {order : List ι} (ho : OneByOne (start6 st F fuel s calls) (t6 t.length) order) :
    StarOneByOne .v6 .withdraw6 .activate6 change6 (starStart st F fuel s calls) t order := by
  have hn := Nat.le_refl t.length
  have hfix : t.take t.length = t := List.take_length
  refine ⟨ho.once, fun i hi => ?_, fun i p r tbi a hr => ?_, fun i m a hr => ?_, fun i m a hr => ?_,
    fun i m a hr => ?_, fun i p m tm a hr => ?_, fun i p m tm a hr => ?_, fun l1 j l2 i he hi hj => ?_⟩
  · have := hI.split.mem6 hn (ho.begun i hi)
    rwa [hfix] at this
  all_goals try rw [← hfix] at hr
  · obtain ⟨b, hb, -⟩ := returned_v6 hI hn (x := .insert (.v6 p) r tbi)
      (y := .insert p r tbi) (g := fun a => a) rfl hr
    exact ho.inserts i _ _ _ _ hb
  · obtain ⟨hc, hp⟩ := hr
    obtain ⟨b, hb⟩ := part6_returned hI hn hp (by rw [hc]; exact .inr ⟨_, _, _, rfl⟩)
    have h6 : call6 (calls i) = .withdraw m := by rw [hc]; rfl
    have key : ∀ (x : Call M 128) (hx : call6 (calls i) = x), ∃ b', b = hx ▸ b' := by
      rintro x rfl; exact ⟨b, rfl⟩
    obtain ⟨b', rfl⟩ := key _ h6
    exact ho.withdrawn i m b' ⟨h6, hb⟩
  · obtain ⟨b, hb, -⟩ := returned_v6 hI hn (x := .withdraw6 m) (y := .withdraw m) (g := id) rfl hr
    exact ho.withdrawn i _ _ hb
  · obtain ⟨b, hb, -⟩ := returned_v6 hI hn (x := .activate6 m) (y := .activate m) (g := id) rfl hr
    exact ho.activated i _ _ hb
  · obtain ⟨b, hb, rfl⟩ := returned_v6 hI hn (x := .withdrawFor (.v6 p) m tm)
      (y := .withdrawFor p m tm) (g := fun a => a) rfl hr
    exact ho.withdrawnFor i _ _ _ _ hb
  · obtain ⟨b, hb, rfl⟩ := returned_v6 hI hn (x := .activateFor (.v6 p) m tm)
      (y := .activateFor p m tm) (g := fun a => a) rfl hr
    exact ho.activatedFor i _ _ _ _ hb
  · have key : changeOf (call6 (calls j)) ≠ none ∧ ((∃ y g, parts (calls j) = .v6 y g) ∨
        ∃ x y g, parts (calls j) = .both x y (fun _ => none) g) := by
      rw [← op6_change6]
      revert hj
      generalize calls j = c
      intro hj
      cases c with
      | insert q | withdrawFor q | activateFor q | calcBest q | contains q | getRecords q | matchPrefix q
      | moreFrom q | lessFrom q | moreIter q | lessIter q | bestPath q | isPsOutdated q =>
        cases q <;> first | exact absurd rfl hj | exact ⟨Option.some_ne_none _, .inl ⟨_, _, rfl⟩⟩
      | _ => first
        | exact absurd rfl hj
        | exact ⟨Option.some_ne_none _, .inl ⟨_, _, rfl⟩⟩
        | exact ⟨Option.some_ne_none _, .inr ⟨_, _, _, rfl⟩⟩
    exact notBefore_v6 hI key.2 (ho.realTime l1 j l2 i he hi key.1)

end Rotonda
