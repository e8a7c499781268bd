import Verif.Proofs.TurnsRib
import Verif.Props.Concurrent
import Verif.Props.Retries
import Verif.Props.StarConc

/-!
# C80: the work of a call is bounded by the length of its prefix
-/

namespace Rotonda.Props

open Spec Prog Rotonda.Demo

variable {M : Type} [Meta M] {W : Nat} {ι : Type} [DecidableEq ι] {calls : ι → Call M W}

/-- C80: however full the store is and whatever other threads do, and whenever they are run, a call
with a bound (`Call.turns`, which depends on nothing but the call's own prefix and options) has
returned once it was given that many turns. -/
theorem calls_return_within [Fam W] {st : Strategy} {F0 F fuel : Nat} (hF : 32 ≤ F)
    (hf : iterFuel W ≤ fuel) {h : History M W} {s : Rib M W} (hs : exec st F0 h = .ok () s)
    {i : ι} {n : Nat} (hn : (calls i).turns st F = some n) {t : List ι} (ht : n ≤ t.count i) :
    ∃ a, ((start st F fuel s calls).exec t).pool i = .ret a := by
  have hb := Bounded.exec (c := start st F fuel s calls) (bounded_call (fuel := fuel) hn) t
    fun u _ => ⟨(run_sane hF hf hs u).nodes, (run_sane hF hf hs u).recs⟩
  rw [Nat.sub_eq_zero_of_le ht] at hb
  obtain ⟨h1, h2⟩ := concurrent_no_panic (calls := calls) hF hf hs t i
  have h3 := h2 (fun m e => by rw [e] at hn; cases hn) (fun m e => by rw [e] at hn; cases hn)
  cases hp : ((start st F fuel s calls).exec t).pool i with
  | ret a => exact ⟨a, rfl⟩
  | act f k => rw [hp] at hb; exact hb.elim
  | panic => exact absurd hp h1
  | diverge => exact absurd hp h3

/-! ## The public interface -/

/-- The invariants of the tables of both families. -/
def StarOk (s : Star M) : Prop := TablesOk s.v4 ∧ TablesOk s.v6

theorem bounded_star_call {st : Strategy} {F fuel n : Nat} {c : StarCall M}
    (h : Parts.turns st F (parts c) = some n) :
    (c.prog st F fuel).Bounded StarOk (fun _ => True) n := by
  have hs := sim_start st F fuel c
  have z4 : ∀ {x : Call M 32} {n}, x.turns st F = some n →
      ((x.prog st F fuel).zoom Star.v4L).Bounded StarOk (fun _ => True) n := fun h =>
    Bounded.zoom (L := Star.v4L) (fun (s : Star M) (hs : StarOk s) => hs.1) (bounded_call h)
  have z6 : ∀ {y : Call M 128} {n}, y.turns st F = some n →
      ((y.prog st F fuel).zoom Star.v6L).Bounded StarOk (fun _ => True) n := fun h =>
    Bounded.zoom (L := Star.v6L) (fun (s : Star M) (hs : StarOk s) => hs.2) (bounded_call h)
  revert hs h
  unfold call4 call6
  generalize c.prog st F fuel = P
  cases parts c with
  | v4 x g =>
    intro h hs
    change P = ((x.prog st F fuel).zoom Star.v4L).bind fun a => ret (g a) at hs
    rw [hs]
    exact Bounded.then (m := 0) (z4 h) le_rfl fun _ _ => trivial
  | v6 y g =>
    intro h hs
    change P = ((y.prog st F fuel).zoom Star.v6L).bind fun a => ret (g a) at hs
    rw [hs]
    exact Bounded.then (m := 0) (z6 h) le_rfl fun _ _ => trivial
  | both x y e g =>
    intro h hs
    obtain ⟨a, ha, h⟩ := Option.bind_eq_some_iff.1 h
    obtain ⟨b, hb, h⟩ := Option.map_eq_some_iff.1 h
    rw [← h]
    rcases hs with ⟨hs, -⟩ | ⟨r, hr, he, hs⟩
    · rw [hs]
      refine Bounded.bind (z4 ha) fun r _ => ?_
      cases e r with
      | some _ => trivial
      | none => exact Bounded.then (m := 0) (z6 hb) le_rfl fun _ _ => trivial
    · rw [hs]
      exact Bounded.then (n := b) (m := 0) (z6 hb) (by omega) fun _ _ => trivial
  | mixed x y g => intro h; cases h

/-- C80 for the calls of the public interface. -/
theorem star_calls_return_within {st : Strategy} {F0 F fuel : Nat} (hF : 32 ≤ F)
    (hf : iterFuel 128 ≤ fuel) {h : List (StarOp M)} {s : Star M} (hs : starExec st F0 h = .ok () s)
    {calls : ι → StarCall M} {i : ι} {n : Nat} (hn : Parts.turns st F (parts (calls i)) = some n) {t : List ι}
    (ht : n ≤ t.count i) : ∃ a, ((starStart st F fuel s calls).exec t).pool i = .ret a := by
  obtain ⟨t4, t6, hI⟩ := run_interleaves st F fuel s calls t
  obtain ⟨h4, h6⟩ := starExec_ok hs
  have hf4 : iterFuel 32 ≤ fuel := Nat.le_trans (by unfold iterFuel; norm_num) hf
  have hb := Bounded.exec (c := starStart st F fuel s calls) (bounded_star_call (fuel := fuel) hn) t
    fun u hu => by
      have hst := hI.state u.length hu.length_le
      rw [← List.prefix_iff_eq_take.1 hu] at hst
      rw [hst]
      exact ⟨⟨(run_sane hF hf4 h4 _).nodes, (run_sane hF hf4 h4 _).recs⟩,
        (run_sane hF hf h6 _).nodes, (run_sane hF hf h6 _).recs⟩
  rw [Nat.sub_eq_zero_of_le ht] at hb
  obtain ⟨h1, h2⟩ := star_concurrent_no_panic (calls := calls) hF hf hs t i
  have h3 := h2 fun m => by
    refine ⟨?_, ?_, ?_, ?_, ?_⟩ <;>
      · intro e
        rw [e] at hn
        cases hn
  cases hp : ((starStart st F fuel s calls).exec t).pool i with
  | ret a => exact ⟨a, rfl⟩
  | act f k => rw [hp] at hb; exact hb.elim
  | panic => exact absurd hp h1
  | diverge => exact absurd hp h3

/-! ## In numbers -/

theorem walkTurns_le {F len w : Nat} (h : len ≤ w) (hw : 8 ≤ w) :
    walkTurns F len ≤ strides w * (6 * levels (nodeLen w) + F + 7) := by
  unfold walkTurns
  split
  · have : 2 ≤ strides w := by unfold strides; omega
    exact (Nat.mul_le_mul this (Nat.le_add_left 7 _)).trans' (by omega)
  · have h1 : strides len ≤ strides w := by unfold strides; omega
    have h2 := levels_mono (nodeLen_mono h)
    exact Nat.mul_le_mul h1 (by omega)

/-- C80: the bounds for IPv4 addresses of any length: 8 turns to know whether a prefix is there, 10
for its records, 27 for a status change, 1299 for an insert with all its failed swaps, 824 for a longest
match with the less specific prefixes and all their records. -/
theorem work_v4 {st : Strategy} (p : Prefix 32) (r : Record M) (tbi : Option (Meta.TBI M)) (o : MatchOptions)
    (ho : o.includeMoreSpecifics = false) (mui : Option Mui) (iw : Bool) (m : Mui) (t : LTime)
    (hst : st ≠ .persistOnly) :
    (∃ n ≤ 8, (Call.contains p none : Call M 32).turns st 32 = some n) ∧
    (∃ n ≤ 10, (Call.getRecords p mui iw : Call M 32).turns st 32 = some n) ∧
    (∃ n ≤ 27, (Call.withdrawFor p m t : Call M 32).turns st 32 = some n) ∧
    (∃ n ≤ 1299, (Call.insert p r tbi).turns st 32 = some n) ∧
    ∃ n ≤ 824, (Call.matchPrefix p o : Call M 32).turns st 32 = some n := by
  have hp := p.le
  have hE : existsTurns p.len ≤ 8 := (existsTurns_mono hp).trans (by decide)
  have hR : recordsTurns st p.len ≤ 10 := (recordsTurns_mono hp).trans (by cases st <;> decide)
  have hL : levels p.len ≤ 8 := (levels_mono hp).trans (by decide)
  have hk : walkTurns 32 p.len ≤ 648 := (walkTurns_le hp (by decide)).trans (by decide)
  refine ⟨⟨_, hE, rfl⟩, ⟨_, hR, rfl⟩, ?_, ⟨_, ?_, rfl⟩, ?_⟩
  · cases st with
    | persistOnly => exact absurd rfl hst
    | _ => exact ⟨_, by omega, rfl⟩
  · cases st <;> simp only [walks, upsertTurns] <;> omega
  · refine ⟨_, ?_, by simp only [Call.turns, ho, Bool.false_eq_true, if_false]; rfl⟩
    have h1 : p.len * existsTurns p.len ≤ 32 * 8 := Nat.mul_le_mul hp hE
    have h2 : (p.len - 1) * (existsTurns p.len + recordsTurns st p.len) ≤ 31 * 18 :=
      Nat.mul_le_mul (by omega) (by omega)
    split <;> omega

/-- C80: the same for IPv6. -/
theorem work_v6 {st : Strategy} (p : Prefix 128) (r : Record M) (tbi : Option (Meta.TBI M)) (o : MatchOptions)
    (ho : o.includeMoreSpecifics = false) (mui : Option Mui) (iw : Bool) (m : Mui) (t : LTime)
    (hst : st ≠ .persistOnly) :
    (∃ n ≤ 32, (Call.contains p none : Call M 128).turns st 32 = some n) ∧
    (∃ n ≤ 34, (Call.getRecords p mui iw : Call M 128).turns st 32 = some n) ∧
    (∃ n ≤ 99, (Call.withdrawFor p m t : Call M 128).turns st 32 = some n) ∧
    (∃ n ≤ 14403, (Call.insert p r tbi).turns st 32 = some n) ∧
    ∃ n ≤ 12512, (Call.matchPrefix p o : Call M 128).turns st 32 = some n := by
  have hp := p.le
  have hE : existsTurns p.len ≤ 32 := (existsTurns_mono hp).trans (by decide)
  have hR : recordsTurns st p.len ≤ 34 := (recordsTurns_mono hp).trans (by cases st <;> decide)
  have hL : levels p.len ≤ 32 := (levels_mono hp).trans (by decide)
  have hk : walkTurns 32 p.len ≤ 7200 := (walkTurns_le hp (by decide)).trans (by decide)
  refine ⟨⟨_, hE, rfl⟩, ⟨_, hR, rfl⟩, ?_, ⟨_, ?_, rfl⟩, ?_⟩
  · cases st with
    | persistOnly => exact absurd rfl hst
    | _ => exact ⟨_, by omega, rfl⟩
  · cases st <;> simp only [walks, upsertTurns] <;> omega
  · refine ⟨_, ?_, by simp only [Call.turns, ho, Bool.false_eq_true, if_false]; rfl⟩
    have h1 : p.len * existsTurns p.len ≤ 128 * 32 := Nat.mul_le_mul hp hE
    have h2 : (p.len - 1) * (existsTurns p.len + recordsTurns st p.len) ≤ 127 * 66 :=
      Nat.mul_le_mul (by omega) (by omega)
    split <;> omega

/-! ## Examples -/

/-- The bounds of some calls of the public interface. -/
example : Parts.turns .writeAhead 32 (parts (.contains (.v6 host6) none : StarCall Md)) = some 32 ∧
    Parts.turns .memoryOnly 32 (parts (.insert (.v4 host) (rec1 1 1 7) none : StarCall Md)) = some 681 ∧
    Parts.turns .memoryOnly 32 (parts (.prefixesCount : StarCall Md)) = some 516 ∧
    Parts.turns .memoryOnly 32 (parts (.prefixesIter : StarCall Md)) = none := by decide

/-- 10.16.0.0/12 -/
def ten12 : Prefix 32 := pfx 0x0A100000#32 12 (by decide)
/-- 11.16.0.0/12 -/
def eleven12 : Prefix 32 := pfx 0x0B100000#32 12 (by decide)

/-- Two routes whose nodes compete for one slot. -/
def twelves : History Md 32 := [.insert eleven12 (rec1 1 1 7) none, .insert ten12 (rec1 1 1 7) none]

/-- Has the second of two calls not returned yet? -/
def busy {α : Type} : Prog (Rib Md 32) α → Bool
  | .act .. => true
  | _ => false

/-- The bound for `contains` is met: 3 turns for a /12 whose node was pushed down to the second level,
one for each level and one for the bits; while an insert of a host route next to it is half done. -/
example : existsTurns 12 = 3 ∧ after (Rotonda.exec .memoryOnly 32 twelves) (fun s =>
    busy ((two .memoryOnly s (.insert host (rec1 2 2 8) none) (.contains eleven12 none) (turns 9 2 20)).pool
      false) &&
    ansIs (fun b => b) ((two .memoryOnly s (.insert host (rec1 2 2 8) none) (.contains eleven12 none)
      (turns 9 3 20)).pool false)) = true := by
  decide +kernel

/-- The theorem applies to it. -/
example : ∃ s, Rotonda.exec .memoryOnly 32 twelves = .ok () s ∧
    ∃ a, (two .memoryOnly s (.insert host (rec1 2 2 8) none) (.contains eleven12 none)
      (turns 9 3 20)).pool false = .ret a := by
  have h0 : after (Rotonda.exec .memoryOnly 32 twelves) (fun _ => true) = true := by decide +kernel
  obtain ⟨s, hs, -⟩ := after_ok h0
  exact ⟨s, hs, calls_return_within (n := 3) (t := turns 9 3 20) (le_refl 32) (le_refl _) hs (i := false)
    (calls := fun i => if i then .insert host (rec1 2 2 8) none else .contains eleven12 none) rfl (by decide)⟩

/-- 11.0.0.0/8 -/
def eleven8 : Prefix 32 := pfx 0x0B000000#32 8 (by decide)

/-- Two routes whose records compete for one slot. -/
def eights : History Md 32 := [.insert eleven8 (rec1 1 1 7) none, .insert ten8 (rec1 1 1 7) none]

/-- So is the bound for the records of a prefix: 2 levels, the list of withdrawn ids and the lock. -/
example : recordsTurns .memoryOnly 8 = 4 ∧ after (Rotonda.exec .memoryOnly 32 eights) (fun s =>
    busy ((two .memoryOnly s (.contains ten8 none) (.getRecords eleven8 none true) (turns 1 3 1)).pool false) &&
    ansIs (fun _ => true) ((two .memoryOnly s (.contains ten8 none) (.getRecords eleven8 none true)
      (turns 1 4 1)).pool false)) = true := by
  decide +kernel

end Rotonda.Props
