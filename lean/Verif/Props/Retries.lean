import Verif.Proofs.Retries
import Verif.Props.ConcDemo

/-!
# C79: the retry count of an insert

`UpsertReport::cas_count` should be the number of swaps that failed.  Shown: what it is instead.
The store is in the state `s` after any history `h` of calls; then any set of calls runs
concurrently, as in C35–C38.
-/

namespace Rotonda.Props

open Prog Spec

variable {M : Type} [Meta M] {W : Nat} {ι : Type} [DecidableEq ι] {calls : ι → Call M W}

/-- C79: with wrapping additions the retry counts have no influence on anything else: without them
all calls do exactly what they do in the rest of the model. -/
theorem retry_counts_erased {st : Strategy} {F fuel : Nat} {s : Rib M W} (t : List ι) :
    uncounted ((countedStart false st F fuel s calls).exec t) = (start st F fuel s calls).exec t := by
  rw [uncounted_exec, uncounted_start]

/-- C79: an insert that runs alone reports no retries, and there were none. -/
theorem retries_alone {ck : Bool} {st : Strategy} {F : Nat} {p : Prefix W} {r : Record M}
    {tbi : Option (Meta.TBI M)} {s s' : Rib M W} {x : CountedReport}
    (h : (ribInsertR ck st F p.id r tbi).run s = .ok (.ok x) s') :
    x.casCount = 0 ∧ retries x.failed = 0 := by
  obtain ⟨h1, h2⟩ := ribInsertR_alone h
  refine ⟨h1, ?_⟩
  unfold retries
  rw [List.sum_eq_zero]
  intro y hy
  obtain ⟨l, hl, rfl⟩ := List.mem_map.1 hy
  exact List.sum_eq_zero (h2 l hl)

/-- The program of every insert in a checked build is that of an unchecked one if the prefixes are
short enough; `F` bounds the number of retries in one stride. -/
theorem retry_counts_checked {st : Strategy} {F fuel : Nat} (hF : F + 1 < 2 ^ 32) {s : Rib M W}
    (hb : ∀ i p r tbi, calls i = .insert p r tbi → F * 2 ^ (strides p.len - 1) < 2 ^ 32) :
    countedStart true st F fuel s calls = countedStart false st F fuel s calls := by
  refine congrArg (Conf.mk s) (funext fun i => ?_)
  have hb' := hb i
  generalize calls i = x at hb'
  cases x with
  | insert p r tbi => exact ribInsertR_checked hF (hb' p r tbi rfl)
  | _ => rfl

/-- C79: IPv4 inserts never overflow the retry count. -/
theorem retry_counts_checked_v4 {calls : ι → Call M 32} {st : Strategy} {fuel : Nat} {s : Rib M 32} :
    countedStart true st 32 fuel s calls = countedStart false st 32 fuel s calls :=
  retry_counts_checked (by omega) fun i p r tbi _ => by
    have h : strides p.len - 1 ≤ 7 := by have := p.le; unfold strides; omega
    calc 32 * 2 ^ (strides p.len - 1) ≤ 32 * 2 ^ 7 :=
          Nat.mul_le_mul_left _ (Nat.pow_le_pow_right (by omega) h)
      _ < 2 ^ 32 := by omega

section
variable [Fam W] {st : Strategy} {F0 F fuel : Nat} (hF : 32 ≤ F) (hf : iterFuel W ≤ fuel)
  {h : History M W} {s : Rib M W} (hs : Rotonda.exec st F0 h = .ok () s)
include hF hf hs

/-- C79, partial: what `cas_count` is.  It should be `retries x.failed`, the number of failed swaps.
In fact the retries of a stride are counted once more for each later stride but the last, and again
doubled each time; and the count wraps at 2^32. -/
theorem retries_reported_partial {t : List ι} {i : ι} {p : Prefix W} {x : CountedReport}
    (hr : ReturnedCounted ((countedStart false st F fuel s calls).exec t) i p x) :
    x.casCount = (x.failed.map fun l => weighted l % 2 ^ 32).sum ∧ x.failed.length = walks st ∧
      ∀ l ∈ x.failed, l.length = strides p.len ∧ ∀ n ∈ l, n ≤ F := by
  obtain ⟨r, tbi, hc, hp⟩ := hr
  have hI : ∀ u, u <+: t → RibOk ((countedStart false st F fuel s calls).exec u).st := by
    intro u _
    have h1 := (run_sane (calls := calls) hF hf hs u).nodes
    have h2 : ((countedStart false st F fuel s calls).exec u).st =
        ((start st F fuel s calls).exec u).st :=
      congrArg Conf.st (retry_counts_erased (calls := calls) u)
    show ChainInv (nodeLayout W) _
    rw [h2]; exact h1
  have hleaf : ∀ y : Call M W, ∀ h : y = .insert p r tbi, (y.countedProg false st F fuel).Leaves RibOk
      (fun a => ∀ x, a = (h ▸ (.ok x : Except StoreError CountedReport)) →
        InsertCount false st F p.len x) := by
    rintro y rfl
    exact leaves_ribInsertR p.clean
  have := leaves_exec (c := countedStart false st F fuel s calls) (i := i) (hleaf _ hc) t hI
  rw [hp] at this
  obtain ⟨h1, h2, h3⟩ := this x rfl
  exact ⟨h1, h2, fun l hl => ⟨(h3 l hl).1, (h3 l hl).2.1⟩⟩

omit [DecidableEq ι] [Meta M] [Fam W] hF hf hs in
theorem sum_le_weighted : ∀ l : List Nat, l.sum ≤ weighted l
  | [] => le_refl _
  | x :: l => by
    rw [List.sum_cons, weighted]
    have := sum_le_weighted l
    have h2 : x ≤ x * 2 ^ (l.length - 1) := Nat.le_mul_of_pos_right _ (Nat.two_pow_pos _)
    omega

omit [DecidableEq ι] [Meta M] [Fam W] hF hf hs in
theorem weighted_le_sum : ∀ l : List Nat, weighted l ≤ 2 ^ (l.length - 2) * l.sum
  | [] => le_refl _
  | x :: l => by
    rw [List.sum_cons, weighted, Nat.mul_add]
    have := weighted_le_sum l
    have h1 : 2 ^ (l.length - 2) * l.sum ≤ 2 ^ ((x :: l).length - 2) * l.sum :=
      Nat.mul_le_mul_right _ (Nat.pow_le_pow_right (by omega) (by simp only [List.length_cons]; omega))
    have h2 : x * 2 ^ (l.length - 1) = 2 ^ ((x :: l).length - 2) * x := by
      rw [List.length_cons, Nat.mul_comm, show l.length + 1 - 2 = l.length - 1 by omega]
    omega

omit [DecidableEq ι] [Meta M] [Fam W] hF hf hs in
theorem weighted_le_bound {F : Nat} : ∀ l : List Nat, (∀ x ∈ l, x ≤ F) → weighted l ≤ F * 2 ^ (l.length - 1)
  | [], _ => by simp [weighted]
  | [x], h => by simpa [weighted] using h x (by simp)
  | x :: y :: l, h => by
    rw [weighted]
    have h1 := weighted_le_bound (y :: l) fun z hz => h z (List.mem_cons_of_mem _ hz)
    have h2 : x * 2 ^ ((y :: l).length - 1) ≤ F * 2 ^ ((y :: l).length - 1) :=
      Nat.mul_le_mul_right _ (h x List.mem_cons_self)
    have h3 : F * 2 ^ ((x :: y :: l).length - 1) =
        F * 2 ^ ((y :: l).length - 1) + F * 2 ^ ((y :: l).length - 1) := by
      simp only [List.length_cons, Nat.add_sub_cancel, Nat.pow_succ]
      ring
    omega

/-- C79: unless the prefix is so long that the count wraps, `cas_count` is at least the number of
retries, and zero only if there were none; it is the number of retries for prefixes of up to eight
bits. -/
theorem retries_bounds_partial {t : List ι} {i : ι} {p : Prefix W} {x : CountedReport}
    (hb : F * 2 ^ (strides p.len - 1) < 2 ^ 32)
    (hr : ReturnedCounted ((countedStart false st F fuel s calls).exec t) i p x) :
    retries x.failed ≤ x.casCount ∧ x.casCount ≤ 2 ^ (strides p.len - 2) * retries x.failed ∧
      (p.len ≤ 8 → x.casCount = retries x.failed) := by
  obtain ⟨h1, _, h3⟩ := retries_reported_partial hF hf hs hr
  have hw : x.casCount = (x.failed.map weighted).sum := by
    rw [h1]
    congr 1
    refine List.map_congr_left fun l hl => Nat.mod_eq_of_lt ?_
    have := weighted_le_bound l (h3 l hl).2
    rw [(h3 l hl).1] at this
    omega
  have key : retries x.failed ≤ x.casCount ∧
      x.casCount ≤ 2 ^ (strides p.len - 2) * retries x.failed := by
    rw [hw]
    unfold retries
    have h3' : ∀ l ∈ x.failed, l.length = strides p.len := fun l hl => (h3 l hl).1
    generalize x.failed = ls at h3'
    induction ls with
    | nil => simp
    | cons l ls ih =>
      obtain ⟨i1, i2⟩ := ih fun l hl => h3' l (List.mem_cons_of_mem _ hl)
      simp only [List.map_cons, List.sum_cons, Nat.mul_add]
      have j1 := sum_le_weighted l
      have j2 := weighted_le_sum l
      rw [h3' l List.mem_cons_self] at j2
      omega
  refine ⟨key.1, key.2, fun h8 => ?_⟩
  have h0 : strides p.len - 2 = 0 := by unfold strides; omega
  have := key.2
  rw [h0, Nat.pow_zero, Nat.one_mul] at this
  omega

end

/-! ## Examples and counterexamples -/

section Demo
open Demo

/-- The prefix with the given first four bits, of length 8. -/
def nibble8 (n : Nat) : Prefix 128 := pfx (BitVec.ofNat 128 (n * 2 ^ 124)) 8 (by decide)

/-- 2001:db8:1::1/128 -/
def host6 : Prefix 128 := pfx 0x20010db8000100000000000000000001#128 128 (by decide)

/-- An insert of a host route, and four of short prefixes elsewhere. -/
def five : Fin 5 → Call Md 128
  | 0 => .insert host6 (rec1 1 1 7) none
  | i => .insert (nibble8 (i + 4)) (rec1 1 1 7) none

/-- The insert of the host route loads the bits of the root node; then each of the others changes
them just before the first tries to. -/
def crowd (c : Nat) : List (Fin 5) :=
  List.replicate 5 0 ++ (([1, 2, 3, 4] : List (Fin 5)).flatMap fun j => List.replicate 6 j ++ [0]) ++
    List.replicate c 0

/-- A test of the first of the five calls on a new store. -/
def crowded (ck : Bool) (c : Nat) (P : Prog (Rib Md 128) (Except StoreError CountedReport) → Bool) :
    Bool :=
  match Rotonda.exec .memoryOnly 0 ([] : History Md 128) with
  | .ok _ s => P (((countedStart ck .memoryOnly 32 (iterFuel 128) s five).exec (crowd c)).pool 0)
  | _ => false

/-- Both programs of a test can be read off. -/
theorem crowded_ok {ck : Bool} {c : Nat}
    {P : Prog (Rib Md 128) (Except StoreError CountedReport) → Bool} (h : crowded ck c P = true) :
    ∃ s, Rotonda.exec .memoryOnly 0 ([] : History Md 128) = .ok () s ∧
      P (((countedStart ck .memoryOnly 32 (iterFuel 128) s five).exec (crowd c)).pool 0) = true := by
  unfold crowded at h
  split at h
  · rename_i s hs; exact ⟨s, hs, h⟩
  · cases h

/-- The answer passes the test. -/
def reports (P : CountedReport → Bool) : Except StoreError CountedReport → Bool
  | .ok x => P x
  | .error _ => false

theorem reports_ok {P : CountedReport → Bool} {a : Except StoreError CountedReport}
    (h : reports P a = true) : ∃ x, a = .ok x ∧ P x = true := by
  cases a with
  | ok x => exact ⟨x, rfl, h⟩
  | error e => cases h

/-- `cas_count` can be 0 when there were retries: four of them in the first stride of a host route. -/
theorem cas_count_wraps : ∃ s, Rotonda.exec .memoryOnly 0 ([] : History Md 128) = .ok () s ∧
    ∃ t x, ReturnedCounted ((countedStart false .memoryOnly 32 (iterFuel 128) s five).exec t) 0 host6 x ∧
      x.casCount = 0 ∧ retries x.failed = 4 := by
  have h : crowded false 350 (ansIs (reports fun x =>
      decide (x.casCount = 0) && decide (retries x.failed = 4))) = true := by decide +kernel
  obtain ⟨s, hs, h1⟩ := crowded_ok h
  obtain ⟨a, ha, h2⟩ := ansIs_iff.1 h1
  obtain ⟨x, rfl, h3⟩ := reports_ok h2
  simp only [Bool.and_eq_true, decide_eq_true_eq] at h3
  exact ⟨s, hs, crowd 350, x, ⟨rec1 1 1 7, none, rfl, ha⟩, h3⟩

/-- The program has panicked. -/
def panics {σ α : Type} : Prog σ α → Bool
  | .panic => true
  | _ => false

theorem panics_ok {σ α : Type} {p : Prog σ α} (h : panics p = true) : p = .panic := by
  cases p with
  | panic => rfl
  | ret a => cases h
  | act f k => cases h
  | diverge => cases h

/-- In a checked build the same insert panics, although no other call does anything wrong: the bound
on the length in `retry_counts_checked` is needed. -/
theorem cas_count_overflows : ∃ s, Rotonda.exec .memoryOnly 0 ([] : History Md 128) = .ok () s ∧
    ∃ t, ((countedStart true .memoryOnly 32 (iterFuel 128) s five).exec t).pool 0 = .panic := by
  have h : crowded true 350 panics = true := by decide +kernel
  obtain ⟨s, hs, h1⟩ := crowded_ok h
  exact ⟨s, hs, crowd 350, panics_ok h1⟩

/-- Two IPv4 inserts at the same time, on a new store. -/
def rivals : Bool → Call Md 32
  | true => .insert host (rec1 1 1 7) none
  | false => .insert other (rec1 1 1 7) none

/-- One retry is reported as 64: `cas_count` is not the number of retries. -/
theorem cas_count_overcounts : ∃ s, Rotonda.exec .memoryOnly 0 ([] : History Md 32) = .ok () s ∧
    ∃ t x, ReturnedCounted ((countedStart false .memoryOnly 32 (iterFuel 32) s rivals).exec t) true host x ∧
      x.casCount = 64 ∧ retries x.failed = 1 := by
  have h : (match Rotonda.exec .memoryOnly 0 ([] : History Md 32) with
      | .ok _ s => ansIs (reports fun x => decide (x.casCount = 64) && decide (retries x.failed = 1))
        (((countedStart false .memoryOnly 32 (iterFuel 32) s rivals).exec (turns 5 6 150)).pool true)
      | _ => false) = true := by decide +kernel
  split at h
  · rename_i s hs
    obtain ⟨a, ha, h2⟩ := ansIs_iff.1 h
    obtain ⟨x, rfl, h3⟩ := reports_ok h2
    simp only [Bool.and_eq_true, decide_eq_true_eq] at h3
    exact ⟨s, hs, turns 5 6 150, x, ⟨rec1 1 1 7, none, rfl, ha⟩, h3⟩
  · cases h

/-- The hypotheses of `retries_reported_partial` and `retries_bounds_partial` are met by a run with
a retry. -/
example : ∃ x : CountedReport, x.casCount = (x.failed.map fun l => weighted l % 2 ^ 32).sum ∧
    retries x.failed ≤ x.casCount ∧ x.casCount ≤ 2 ^ 6 * retries x.failed ∧ retries x.failed = 1 := by
  obtain ⟨s, hs, t, x, hr, -, h1⟩ := cas_count_overcounts
  have h2 := retries_reported_partial (le_refl 32) (le_refl _) hs hr
  have h3 := retries_bounds_partial (le_refl 32) (le_refl _) hs (by decide) hr
  exact ⟨x, h2.1, h3.1, h3.2.1, h1⟩

/-- The hypothesis of `retries_alone` is met by the insert of a host route on a new store, with every
strategy. -/
example (st : Strategy) : ∃ s s' x, (ribInsertR true st 32 host.id (rec1 1 1 7) none).run s =
    .ok (.ok x) s' ∧ x.casCount = 0 ∧ x.failed.length = walks st := by
  have h : ∀ st, (match (ribInsertR true st 32 host.id (rec1 1 1 7) none).run
        (match Rotonda.exec .memoryOnly 0 ([] : History Md 32) with
          | .ok _ s => s
          | _ => Rib.empty) with
      | .ok (.ok x) _ => decide (x.failed.length = walks st)
      | _ => false) = true := by
    intro st; cases st <;> decide +kernel
  have h := h st
  split at h
  · rename_i x s' hx
    exact ⟨_, s', x, hx, (retries_alone hx).1, of_decide_eq_true h⟩
  · cases h

/-- The hypothesis of `retry_counts_checked` is met by an IPv6 insert of a /48. -/
example (s : Rib Md 128) : countedStart (ι := Bool) true .memoryOnly 32 (iterFuel 128) s
      (fun _ => .insert (pfx 0x20010db8000100000000000000000000#128 48 (by decide)) (rec1 1 1 7) none) =
    countedStart false .memoryOnly 32 (iterFuel 128) s
      (fun _ => .insert (pfx 0x20010db8000100000000000000000000#128 48 (by decide)) (rec1 1 1 7) none) :=
  retry_counts_checked (by decide) fun i p r tbi h => by cases h; decide

end Demo

end Rotonda.Props
