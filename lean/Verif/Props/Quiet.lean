import Verif.Props.ConcDemo
import Verif.Props.Records
import Verif.Proofs.Quiet

/-!
# A store at rest: C85

The store is in the state `s` after any history `h` of calls; then any set of calls runs
concurrently, their atomic actions interleaved by any schedule.  When no insert is under way
the store cannot be told from one that was changed by the same calls one after another.
-/

namespace Rotonda.Props

open Prog Spec

variable {M : Type} [Meta M] {W : Nat} {ι : Type} [DecidableEq ι] {calls : ι → Call M W}

section
variable [Fam W] {st : Strategy} {F0 F fuel : Nat} (hF : 32 ≤ F) (hf : iterFuel W ≤ fuel)
  {h : History M W} {s : Rib M W} (hs : exec st F0 h = .ok () s)
include hF hf hs

/-- C85: after any run in which every insert that has started has returned, there is an order
of the calls that changed something, in keeping with the order in time, such that every
query answers as it does in a store in which these calls were made one after another.  Other
calls may still be under way.  (`PersistOnly`: when no call marks a single route active,
which it does with separate reads and writes, see `Tracked`.) -/
theorem quiet_one_by_one (t : List ι) (ht : Tracked st calls)
    (hq : InsertsDone ((start st F fuel s calls).exec t) t) :
    ∃ order, OneByOne (start st F fuel s calls) t order ∧
      ∃ s', exec st F0 (histAfter h calls order) = .ok () s' ∧
        SameAnswers st ((start st F fuel s calls).exec t).st s' := by
  obtain ⟨order, ho, hl⟩ := run_one_by_one hF hf hs t ht
  obtain ⟨s', hs', hi'⟩ := exec_inv st F0 (histAfter h calls order)
  exact ⟨order, ho, s', hs', (run_at_rest hF hf hs ht hq ho.inserts ho.begun hl).same hi'.toQ⟩

/-- C85: in particular `match_prefix` and the iterators, called when no insert is under way,
miss nothing: the prefixes present are those of the inserts that were made, and all are
listed.  (The default route is not, C07.) -/
theorem quiet_lists_all_partial (t : List ι) (ht : Tracked st calls)
    (hq : InsertsDone ((start st F fuel s calls).exec t) t) :
    ∃ (N : Nat) (l : List (PrefixRecord M W)),
      (∀ fuel', N ≤ fuel' → (ribPrefixesIter st fuel').run ((start st F fuel s calls).exec t).st =
        .ok (l.map .ok) ((start st F fuel s calls).exec t).st) ∧
      (l.map Prod.fst).Nodup ∧
      ∀ q, q ∈ l.map Prod.fst ↔ 0 < q.len ∧ ∃ m, Begun h calls t q m := by
  obtain ⟨order, ho, hl⟩ := run_one_by_one hF hf hs t ht
  have hi := run_at_rest hF hf hs ht hq ho.inserts ho.begun hl
  obtain ⟨l, N, hr, hn, hm⟩ := run_prefixesIter hi
  have hfst : (l.map fun q => (q, (valueOf st (histAfter h calls order) q none true).getD [])).map
      Prod.fst = l := by rw [List.map_map]; exact List.map_id _
  refine ⟨N, l.map fun q => (q, (valueOf st (histAfter h calls order) q none true).getD []),
    fun fuel' hf' => ?_, by rw [hfst]; exact hn, fun q => ?_⟩
  · rw [hr fuel' hf', List.map_map]; rfl
  · rw [hfst, hm q]
    have hb : Present (histAfter h calls order) q ↔ ∃ m, Begun h calls t q m := by
      rw [← pairsOf_id]
      refine exists_congr fun m => ?_
      rw [pairs_histAfter, begunIds_id]
      constructor
      · rintro (hb | ⟨i, hi, hrest⟩)
        · exact .inl hb
        · exact .inr ⟨i, ho.begun i hi, hrest⟩
      · rintro (hb | ⟨i, hi, r, tbi, hc, hm⟩)
        · exact .inl hb
        · obtain ⟨a, ha⟩ := hq i hi q r tbi hc
          exact .inr ⟨i, ho.inserts i q r tbi a ha, r, tbi, hc, hm⟩
    exact ⟨fun hp => ⟨hp.2, hb.1 hp.1⟩, fun hp => ⟨hb.2 hp.2, hp.1⟩⟩

end

open Demo

/-- Inserts of 10.0.0.0/8 and of 10.255.0.0/16, of which the first is interrupted. -/
def restCalls : Bool → Call Md 32 := fun i =>
  if i then .insert ten8 (rec1 1 5 8) none else .insert ten16b (rec1 2 6 9) none

theorem rest_done : ∃ s, exec .memoryOnly 32 one = .ok () s ∧
    InsertsDone ((start .memoryOnly 32 (iterFuel 32) s restCalls).exec (turns 9 300 300)) (turns 9 300 300) := by
  obtain ⟨s, hs, hc⟩ := after_ok (o := exec .memoryOnly 32 one) (chk := fun s =>
    ansIs (fun _ => true) (((start .memoryOnly 32 (iterFuel 32) s restCalls).exec (turns 9 300 300)).pool true) &&
    ansIs (fun _ => true) (((start .memoryOnly 32 (iterFuel 32) s restCalls).exec (turns 9 300 300)).pool false))
    (by decide +kernel)
  refine ⟨s, hs, ?_⟩
  rw [Bool.and_eq_true] at hc
  generalize turns 9 300 300 = t at hc ⊢
  obtain ⟨a, ha, _⟩ := ansIs_iff.1 hc.1
  obtain ⟨b, hb, _⟩ := ansIs_iff.1 hc.2
  intro i _ p r tbi hcall
  cases i with
  | true => cases hcall; exact ⟨a, rfl, ha⟩
  | false => cases hcall; exact ⟨b, rfl, hb⟩

example : ∃ s, exec .memoryOnly 32 one = .ok () s ∧ ∃ order,
    OneByOne (start .memoryOnly 32 (iterFuel 32) s restCalls) (turns 9 300 300) order ∧
    true ∈ order ∧ false ∈ order := by
  obtain ⟨s, hs, hd⟩ := rest_done
  refine ⟨s, hs, ?_⟩
  generalize ht : turns 9 300 300 = t at hd ⊢
  have hmem : ∀ b : Bool, b ∈ t := by subst ht; decide
  obtain ⟨order, ho, _⟩ := quiet_one_by_one (F := 32) (fuel := iterFuel 32) (Nat.le_refl _) (Nat.le_refl _) hs
    (calls := restCalls) t (fun c => by cases c) hd
  obtain ⟨a, ha⟩ := hd true (hmem _) ten8 (rec1 1 5 8) none rfl
  obtain ⟨b, hb⟩ := hd false (hmem _) ten16b (rec1 2 6 9) none rfl
  exact ⟨order, ho, ho.inserts true _ _ _ a ha, ho.inserts false _ _ _ b hb⟩

example : ∃ s, exec .memoryOnly 32 one = .ok () s ∧ ∃ (N : Nat) (l : List (PrefixRecord Md 32)),
    (∀ fuel, N ≤ fuel → (ribPrefixesIter .memoryOnly fuel).run
      ((start .memoryOnly 32 (iterFuel 32) s restCalls).exec (turns 9 300 300)).st =
        .ok (l.map .ok) ((start .memoryOnly 32 (iterFuel 32) s restCalls).exec (turns 9 300 300)).st) ∧
    ten16b ∈ l.map Prod.fst ∧ host ∉ l.map Prod.fst := by
  obtain ⟨s, hs, hd⟩ := rest_done
  refine ⟨s, hs, ?_⟩
  generalize ht : turns 9 300 300 = t at hd ⊢
  have hmem : false ∈ t := by subst ht; decide
  obtain ⟨N, l, hr, _, hm⟩ := quiet_lists_all_partial (F := 32) (fuel := iterFuel 32) (Nat.le_refl _)
    (Nat.le_refl _) hs (calls := restCalls) t (fun c => by cases c) hd
  refine ⟨N, l, hr, (hm _).2 ⟨by decide, 2#32, .inr ⟨false, hmem, rec1 2 6 9, none, rfl, rfl⟩⟩, fun hx => ?_⟩
  obtain ⟨_, m, ⟨r, tbi, hin, _⟩ | ⟨i, _, r, tbi, hc, _⟩⟩ := (hm _).1 hx
  · revert hin; simp only [one, List.mem_cons, List.not_mem_nil, or_false]
    intro hin
    injection hin with h1
    exact absurd h1 (by decide)
  · cases i <;> (injection hc with h1; exact absurd h1 (by decide))

/-- The prefix is in the tree and has no record. -/
def halfDone (x : Rib Md 32) : Bool :=
  (match (ribContains ten8.id none).run x with
    | .ok true _ => true
    | _ => false) &&
  (match (ribGetValue .memoryOnly ten8.id none true).run x with
    | .ok (.ok none) _ => true
    | _ => false)

/-- While an insert is under way it is different: the prefix can be in the tree and have no
record yet, which is so of no store that was changed by one call after another. -/
theorem not_quiet_false : ∃ (s : Rib Md 32) (t : List Unit), exec .memoryOnly 32 [] = .ok () s ∧
    ∀ (F : Nat) (h' : History Md 32) (s' : Rib Md 32), exec .memoryOnly F h' = .ok () s' →
      ¬ SameAnswers .memoryOnly ((start .memoryOnly 32 (iterFuel 32) s
        (fun _ : Unit => .insert ten8 (rec1 1 5 8) none)).exec t).st s' := by
  obtain ⟨s, hs, hc⟩ := after_ok (o := exec .memoryOnly 32 []) (chk := fun s =>
    halfDone ((start .memoryOnly 32 (iterFuel 32) s
      (fun _ : Unit => .insert ten8 (rec1 1 5 8) none)).exec (List.replicate 17 ())).st) (by decide +kernel)
  refine ⟨s, List.replicate 17 (), hs, fun F h' s' hs' hsame => ?_⟩
  generalize ((start .memoryOnly 32 (iterFuel 32) s
    (fun _ : Unit => Call.insert ten8 (rec1 1 5 8) none)).exec (List.replicate 17 ())).st = x at hc hsame
  obtain ⟨b, hb, hb'⟩ := hsame.contains ten8
  obtain ⟨v, hv, hv'⟩ := hsame.records ten8 none true
  simp only [halfDone, hb, hv] at hc
  have hbt : b = true := by
    cases b with
    | true => rfl
    | false => simp at hc
  have hvn : v = none := by
    cases v with
    | none => rfl
    | some l => simp at hc
  rw [hbt] at hb'
  rw [hvn] at hv'
  obtain ⟨b2, h1, h2⟩ := contains_partial hs' ten8 (by decide)
  rw [hb'] at h1
  cases h1
  obtain ⟨m, hm⟩ := h2.1 rfl
  obtain ⟨r0, hr0⟩ := Option.ne_none_iff_exists'.1 (storedRec_inserted .memoryOnly hm)
  obtain ⟨o, h3, h4, _⟩ := get_records hs' ten8 none true
  rw [hv'] at h3
  cases h3
  have hmui : (effective h' r0).mui = m := by
    rw [← storedRec_mui hr0]
    unfold effective
    split <;> rfl
  exact absurd ((h4.2 (effective h' r0)).2 ⟨r0, by rw [hmui]; exact hr0, fun m hm => (by cases hm), rfl⟩)
    (by simp)

end Rotonda.Props
