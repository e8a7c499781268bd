import Verif.Proofs.StarQuiet
import Verif.Props.Quiet
import Verif.Props.StarConc

/-!
# A store of both families at rest: C85 for the public interface

The store is in the state `s` after any history of calls of the public interface; then any
set of these calls runs concurrently, their atomic actions interleaved by any schedule.
-/

namespace Rotonda.Props

open Prog Spec

variable {M : Type} [Meta M] {ι : Type} [DecidableEq ι] {calls : ι → StarCall M}

section
variable {st : Strategy} {F0 F fuel : Nat} (hF : 32 ≤ F) (hf : iterFuel 128 ≤ fuel)
  {h : List (StarOp M)} {s : Star M} (hs : starExec st F0 h = .ok () s)
include hF hf hs

/-- C85: after any run in which every insert that has started has returned, there is for each
family an order of the calls that changed its store, in keeping with the order in time, such
that the store answers every query as one in which one thread made these changes in these
orders.  `mark_mui_as_withdrawn`, which changes both stores, is in both orders when it has
returned; one that is under way may be in the order of IPv4 only. -/
theorem star_quiet_one_by_one (t : List ι) (ht : StarTracked st calls)
    (hq : StarInsertsDone ((starStart st F fuel s calls).exec t) t) :
    ∃ l4 l6, StarOneByOne .v4 .withdraw4 .activate4 change4 (starStart st F fuel s calls) t l4 ∧
      StarOneByOne .v6 .withdraw6 .activate6 change6 (starStart st F fuel s calls) t l6 ∧
      ∃ s', starExec st F0 (starHistAfter h calls l4 l6) = .ok () s' ∧
        SameAnswers st ((starStart st F fuel s calls).exec t).st.v4 s'.v4 ∧
        SameAnswers st ((starStart st F fuel s calls).exec t).st.v6 s'.v6 := by
  obtain ⟨t4, t6, hI⟩ := run_interleaves st F fuel s calls t
  obtain ⟨h4, h6⟩ := starExec_ok hs
  have hf4 : iterFuel 32 ≤ fuel := Nat.le_trans (by unfold iterFuel; norm_num) hf
  have ht4 := (runView4 h hI).tracked ht
  have ht6 := (runView6 h hI).tracked ht
  obtain ⟨l4, ho4, hl4⟩ := run_one_by_one hF hf4 h4 (t4 t.length) ht4
  obtain ⟨l6, ho6, hl6⟩ := run_one_by_one hF hf h6 (t6 t.length) ht6
  obtain ⟨s', hs', e4, e6⟩ := starExec_split (st := st) (F := F0) (starHistAfter h calls l4 l6)
  rw [hist4_starHistAfter] at e4
  rw [hist6_starHistAfter] at e6
  have hst := hI.state t.length (Nat.le_refl _)
  rw [List.take_length] at hst
  refine ⟨l4, l6, oneByOne4 hI ho4, oneByOne6 hI ho6, s', hs', ?_, ?_⟩
  · rw [hst]
    exact (run_at_rest hF hf4 h4 ht4 (insertsDone4 hI hq) ho4.inserts ho4.begun hl4).same
      (exec_ok_inv e4).toQ
  · rw [hst]
    exact (run_at_rest hF hf h6 ht6 (insertsDone6 hI hq) ho6.inserts ho6.begun hl6).same
      (exec_ok_inv e6).toQ

/-- C85: in particular the records of any prefix of either family are those in this store. -/
theorem star_quiet_records (t : List ι) (ht : StarTracked st calls)
    (hq : StarInsertsDone ((starStart st F fuel s calls).exec t) t) :
    ∃ l4 l6, StarOneByOne .v4 .withdraw4 .activate4 change4 (starStart st F fuel s calls) t l4 ∧
      StarOneByOne .v6 .withdraw6 .activate6 change6 (starStart st F fuel s calls) t l6 ∧
      ∃ s', starExec st F0 (starHistAfter h calls l4 l6) = .ok () s' ∧ ∀ p mui iw, ∃ v,
        (Star.getRecords st p mui iw).run ((starStart st F fuel s calls).exec t).st =
          .ok (.ok v) ((starStart st F fuel s calls).exec t).st ∧
        (Star.getRecords st p mui iw).run s' = .ok (.ok v) s' := by
  obtain ⟨l4, l6, ho4, ho6, s', hs', a4, a6⟩ := star_quiet_one_by_one hF hf hs t ht hq
  refine ⟨l4, l6, ho4, ho6, s', hs', fun p mui iw => ?_⟩
  cases p with
  | v4 p =>
    obtain ⟨v, h1, h2⟩ := a4.records p mui iw
    refine ⟨v, ?_, ?_⟩ <;> simp only [Star.getRecords, Star.on, run_v4, h1, h2] <;> rfl
  | v6 p =>
    obtain ⟨v, h1, h2⟩ := a6.records p mui iw
    refine ⟨v, ?_, ?_⟩ <;> simp only [Star.getRecords, Star.on, run_v6, h1, h2] <;> rfl

/-- C85: in particular `prefixes_iter` of the whole store, called when no insert is under way,
misses nothing: it yields the IPv4 prefixes and then the IPv6 ones, each prefix that was inserted
once, but for the default routes (C07). -/
theorem star_quiet_lists_all_partial (t : List ι) (ht : StarTracked st calls)
    (hq : StarInsertsDone ((starStart st F fuel s calls).exec t) t) :
    ∃ (N : Nat) (l4 : List (PrefixRecord M 32)) (l6 : List (PrefixRecord M 128)),
      (∀ fuel', N ≤ fuel' → (Star.prefixesIter st fuel').run ((starStart st F fuel s calls).exec t).st =
        .ok ((l4.map Star.pub4 ++ l6.map Star.pub6).map .ok) ((starStart st F fuel s calls).exec t).st) ∧
      ((l4.map Star.pub4 ++ l6.map Star.pub6).map PubRecord.pfx).Nodup ∧
      ∀ q, q ∈ (l4.map Star.pub4 ++ l6.map Star.pub6).map PubRecord.pfx ↔ 0 < Pub.len q ∧
        (Pub.Present h q ∨ ∃ i ∈ t, ∃ r tbi, calls i = .insert q r tbi) := by
  obtain ⟨t4, t6, hI⟩ := run_interleaves st F fuel s calls t
  obtain ⟨h4, h6⟩ := starExec_ok hs
  have hf4 : iterFuel 32 ≤ fuel := Nat.le_trans (by unfold iterFuel; norm_num) hf
  have ht4 := (runView4 h hI).tracked ht
  have ht6 := (runView6 h hI).tracked ht
  obtain ⟨N4, l4, r4, nd4, m4⟩ := quiet_lists_all_partial hF hf4 h4 (t4 t.length) ht4 (insertsDone4 hI hq)
  obtain ⟨N6, l6, r6, nd6, m6⟩ := quiet_lists_all_partial hF hf h6 (t6 t.length) ht6 (insertsDone6 hI hq)
  have hst := hI.state t.length (Nat.le_refl _)
  rw [List.take_length] at hst
  obtain ⟨o4, ho4, -⟩ := run_one_by_one hF hf4 h4 (t4 t.length) ht4
  obtain ⟨o6, ho6, -⟩ := run_one_by_one hF hf h6 (t6 t.length) ht6
  have e4 : (l4.map Star.pub4).map PubRecord.pfx = (l4.map Prod.fst).map .v4 := by
    rw [List.map_map, List.map_map]; rfl
  have e6 : (l6.map Star.pub6).map PubRecord.pfx = (l6.map Prod.fst).map .v6 := by
    rw [List.map_map, List.map_map]; rfl
  have b4 : ∀ q, (∃ m, Begun (hist4 h) (fun i => call4 (calls i)) (t4 t.length) q m) ↔
      (Pub.Present h (.v4 q) ∨ ∃ i ∈ t, ∃ r tbi, calls i = .insert (.v4 q) r tbi) := by
    intro q
    constructor
    · rintro ⟨m, hp | ⟨i, hi, r, tbi, hc, -⟩⟩
      · exact .inl (present_hist4.1 ⟨m, hp⟩)
      · have := hI.split.mem4 (Nat.le_refl _) hi
        rw [List.take_length] at this
        exact .inr ⟨i, this, r, tbi, call4_insert hc⟩
    · rintro (hp | ⟨i, hi, r, tbi, hc⟩)
      · obtain ⟨m, hm⟩ := present_hist4.2 hp
        exact ⟨m, .inl hm⟩
      · obtain ⟨a, ha⟩ := hq i hi _ r tbi hc
        rw [← List.take_length (l := t)] at ha
        have hb := (runView4 h hI).returned (Nat.le_refl _) ha
        exact ⟨r.mui, .inr ⟨i, ho4.begun i (ho4.inserts i _ _ _ _ hb), r, tbi, hb.1, rfl⟩⟩
  have b6 : ∀ q, (∃ m, Begun (hist6 h) (fun i => call6 (calls i)) (t6 t.length) q m) ↔
      (Pub.Present h (.v6 q) ∨ ∃ i ∈ t, ∃ r tbi, calls i = .insert (.v6 q) r tbi) := by
    intro q
    constructor
    · rintro ⟨m, hp | ⟨i, hi, r, tbi, hc, -⟩⟩
      · exact .inl (present_hist6.1 ⟨m, hp⟩)
      · have := hI.split.mem6 (Nat.le_refl _) hi
        rw [List.take_length] at this
        exact .inr ⟨i, this, r, tbi, call6_insert hc⟩
    · rintro (hp | ⟨i, hi, r, tbi, hc⟩)
      · obtain ⟨m, hm⟩ := present_hist6.2 hp
        exact ⟨m, .inl hm⟩
      · obtain ⟨a, ha⟩ := hq i hi _ r tbi hc
        rw [← List.take_length (l := t)] at ha
        have hb := (runView6 h hI).returned (Nat.le_refl _) ha
        exact ⟨r.mui, .inr ⟨i, ho6.begun i (ho6.inserts i _ _ _ _ hb), r, tbi, hb.1, rfl⟩⟩
  refine ⟨max N4 N6, l4, l6, fun fuel' hf' => ?_, ?_, fun q => ?_⟩
  · rw [hst]
    refine (run_mixed (s := ⟨((start4 st F fuel s calls).exec (t4 t.length)).st,
      ((start6 st F fuel s calls).exec (t6 t.length)).st⟩) (sim_start st F fuel' (.prefixesIter (M := M)))
      (r4 fuel' (by omega)) (r6 fuel' (by omega))).trans ?_
    rw [List.map_append, Star.pubs4, Star.pubs6, List.map_map, List.map_map, List.map_map,
      List.map_map]
    rfl
  · rw [List.map_append, e4, e6]
    refine List.nodup_append.2 ⟨nd4.map fun a b e => by injection e, nd6.map fun a b e => by injection e, ?_⟩
    rintro a ha b hb rfl
    obtain ⟨x, -, rfl⟩ := List.mem_map.1 ha
    obtain ⟨y, -, e⟩ := List.mem_map.1 hb
    cases e
  · rw [List.map_append, List.mem_append, e4, e6]
    cases q with
    | v4 q =>
      rw [← b4 q]
      refine Iff.trans ?_ (m4 q)
      simp
    | v6 q =>
      rw [← b6 q]
      refine Iff.trans ?_ (m6 q)
      simp

end

open Rotonda.Demo

/-- In this run inserts into both stores and a withdrawal of both return; all have their place. -/
example : ∃ s, starExec .memoryOnly 32 Demo.mixed = .ok () s ∧ ∃ l4 l6 s',
    starExec .memoryOnly 32 (starHistAfter Demo.mixed starCalls l4 l6) = .ok () s' ∧
    SameAnswers .memoryOnly ((starStart .memoryOnly 32 (iterFuel 128) s starCalls).exec starTurns).st.v6 s'.v6 ∧
    0 ∈ l4 ∧ 2 ∈ l4 ∧ 1 ∈ l6 ∧ 2 ∈ l6 := by
  obtain ⟨s, hs, ⟨ra, ha⟩, ⟨rb, hb⟩, hc⟩ := star_demo
  generalize starTurns = t at ha hb hc ⊢
  have hd : StarInsertsDone ((starStart .memoryOnly 32 (iterFuel 128) s starCalls).exec t) t := by
    intro i _ p r tbi hi
    fin_cases i
    · cases hi; exact ⟨_, ha⟩
    · cases hi; exact ⟨_, hb⟩
    · cases hi
  obtain ⟨l4, l6, ho4, ho6, s', hs', _, a6⟩ := star_quiet_one_by_one (F := 32) (Nat.le_refl _)
    (Nat.le_refl _) hs t (fun h => by cases h) hd
  exact ⟨s, hs, l4, l6, s', hs', a6, ho4.inserts 0 _ _ _ _ ha, ho4.withdrawn 2 _ _ hc,
    ho6.inserts 1 _ _ _ _ hb, ho6.withdrawn 2 _ _ hc⟩

/-- After this run the prefixes of both inserts are listed. -/
example : ∃ s, starExec .memoryOnly 32 Demo.mixed = .ok () s ∧ ∃ (N : Nat) (l : List (PubRecord Md)),
    (∀ fuel', N ≤ fuel' → (Star.prefixesIter .memoryOnly fuel').run
      ((starStart .memoryOnly 32 (iterFuel 128) s starCalls).exec starTurns).st =
        .ok (l.map .ok) ((starStart .memoryOnly 32 (iterFuel 128) s starCalls).exec starTurns).st) ∧
    ∀ i ∈ starTurns, ∀ q r tbi, starCalls i = .insert q r tbi → 0 < Pub.len q → q ∈ l.map PubRecord.pfx := by
  obtain ⟨s, hs, ⟨ra, ha⟩, ⟨rb, hb⟩, hc⟩ := star_demo
  generalize starTurns = t at ha hb hc ⊢
  have hd : StarInsertsDone ((starStart .memoryOnly 32 (iterFuel 128) s starCalls).exec t) t := by
    intro i _ p r tbi hi
    fin_cases i
    · cases hi; exact ⟨_, ha⟩
    · cases hi; exact ⟨_, hb⟩
    · cases hi
  obtain ⟨N, l4, l6, h1, -, h2⟩ := star_quiet_lists_all_partial (F := 32) (Nat.le_refl _)
    (Nat.le_refl _) hs t (fun h => by cases h) hd
  exact ⟨s, hs, N, _, h1, fun i hi q r tbi hq hl => (h2 q).2 ⟨hl, .inr ⟨i, hi, r, tbi, hq⟩⟩⟩

end Rotonda.Props
