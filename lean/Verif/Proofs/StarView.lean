import Verif.Proofs.StarBridge
import Verif.Proofs.Public
import Verif.Spec.StarQueries
import Verif.Spec.Walks

/-!
# A run of the public interface as seen by one family
-/

namespace Rotonda

open Prog Spec

variable {M : Type} [Meta M] {ι : Type} [DecidableEq ι]

/-- The run `t` of the calls, and that of their parts for one family. -/
structure RunView (W : Nat) (e : Prefix W → AnyPrefix) (h : List (StarOp M)) (g : History M W)
    (calls : ι → StarCall M) (cw : ι → Call M W) (cs : Conf (Star M) ι (fun i => (calls i).Ans))
    (c : Conf (Rib M W) ι (fun i => (cw i).Ans)) (t : List ι) (tw : ℕ → List ι) : Prop
    extends View W e h g where
  inserted : ∀ {p m}, Inserted g p m ↔ ∃ r tbi, .insert (e p) r tbi ∈ h ∧ r.mui = m
  way : ∀ {q x}, Pub.OnTheWay (e q) x → ∃ q', x = e q' ∧ OnTheWay q q'
  pre : ∀ {n m}, n ≤ m → m ≤ t.length → tw n <+: tw m
  mem : ∀ {n}, n ≤ t.length → ∀ {i}, i ∈ tw n → i ∈ t.take n
  insert : ∀ {i p r tbi}, cw i = .insert p r tbi → calls i = .insert (e p) r tbi
  withdrawFor : ∀ {i p m tm}, cw i = .withdrawFor p m tm → calls i = .withdrawFor (e p) m tm
  activateFor : ∀ {i p m tm}, cw i = .activateFor p m tm → calls i = .activateFor (e p) m tm
  returned : ∀ {n}, n ≤ t.length → ∀ {i p r tbi a},
    StarReturned (cs.exec (t.take n)) i (.insert (e p) r tbi) a →
    Returned (c.exec (tw n)) i (.insert p r tbi) a
  notBefore : ∀ {j i}, (∃ p r tbi, cw j = .insert p r tbi) ∨
      (∃ p m tm rs, MarksRoute (cw j) p m tm rs) → NotBefore c (tw t.length) j i →
    StarNotBefore cs t j i
  /-- Calls that touch a route. -/
  touches : ∀ {i p m}, Touches (cw i) p m → StarTouches (calls i) (e p) m

theorem inserted_hist4 {h : List (StarOp M)} {p : Prefix 32} {m : Mui} :
    Inserted (hist4 h) p m ↔ ∃ r tbi, .insert (.v4 p) r tbi ∈ h ∧ r.mui = m := by
  unfold Inserted hist4
  constructor
  · rintro ⟨r, t, hm, hr⟩
    obtain ⟨op, ho, he⟩ := List.mem_filterMap.1 hm
    rcases op with (⟨q | q, r', t'⟩ | ⟨q | q, k, t'⟩ | ⟨q | q, k, t'⟩ | k | k | k | k | k | ⟨q | q, t'⟩)
    all_goals simp only [op4, Option.some.injEq, Op.insert.injEq, reduceCtorEq] at he
    obtain ⟨rfl, rfl, rfl⟩ := he
    exact ⟨_, _, ho, hr⟩
  · rintro ⟨r, t, hm, hr⟩
    exact ⟨r, t, List.mem_filterMap.2 ⟨_, hm, rfl⟩, hr⟩

theorem inserted_hist6 {h : List (StarOp M)} {p : Prefix 128} {m : Mui} :
    Inserted (hist6 h) p m ↔ ∃ r tbi, .insert (.v6 p) r tbi ∈ h ∧ r.mui = m := by
  unfold Inserted hist6
  constructor
  · rintro ⟨r, t, hm, hr⟩
    obtain ⟨op, ho, he⟩ := List.mem_filterMap.1 hm
    rcases op with (⟨q | q, r', t'⟩ | ⟨q | q, k, t'⟩ | ⟨q | q, k, t'⟩ | k | k | k | k | k | ⟨q | q, t'⟩)
    all_goals simp only [op6, Option.some.injEq, Op.insert.injEq, reduceCtorEq] at he
    obtain ⟨rfl, rfl, rfl⟩ := he
    exact ⟨_, _, ho, hr⟩
  · rintro ⟨r, t, hm, hr⟩
    exact ⟨r, t, List.mem_filterMap.2 ⟨_, hm, rfl⟩, hr⟩

section
variable {calls : ι → StarCall M} {st : Strategy} {F fuel : Nat} {s : Star M}
  {t : List ι} {t4 t6 : ℕ → List ι} (h : List (StarOp M))

theorem runView4 (hI : Interleaves (starStart st F fuel s calls) (start4 st F fuel s calls)
    (start6 st F fuel s calls) t t4 t6) :
    RunView 32 .v4 h (hist4 h) calls (fun i => call4 (calls i)) (starStart st F fuel s calls)
      (start4 st F fuel s calls) t t4 where
  toView := view4 h
  inserted := inserted_hist4
  way := fun {q x} hw => by
    cases x with
    | v4 p => exact ⟨p, rfl, hw.2⟩
    | v6 p => exact absurd hw.1 (by simp [Pub.width])
  pre := hI.split.prefix4
  mem := hI.split.mem4
  insert := call4_insert
  withdrawFor := call4_withdrawFor
  activateFor := call4_activateFor
  returned := fun {n} hn {i p r tbi a} hr => by
    obtain ⟨b, hb, rfl⟩ := returned_v4 hI hn (x := .insert (.v4 p) r tbi)
      (y := .insert p r tbi) (g := fun a => a) rfl hr
    exact hb
  notBefore := fun {j i} hj hnb => by
    refine notBefore_v4 hI ?_ hnb
    rcases hj with ⟨p, r, tbi, hj⟩ | ⟨p, m, tm, rs, ⟨hj, -⟩ | ⟨hj, -⟩⟩
    · rw [call4_insert hj]; rintro y g ⟨⟩
    · rw [call4_withdrawFor hj]; rintro y g ⟨⟩
    · rw [call4_activateFor hj]; rintro y g ⟨⟩
  touches := fun {i p m} ht => by
    rcases ht with ⟨r, tbi, hc, hm⟩ | ⟨tm, rs, ⟨hc, hr⟩ | ⟨hc, hr⟩⟩ | hc | hc
    · exact .inl ⟨r, tbi, call4_insert hc, hm⟩
    · exact .inr (.inl ⟨tm, rs, .inl ⟨call4_withdrawFor hc, hr⟩⟩)
    · exact .inr (.inl ⟨tm, rs, .inr ⟨call4_activateFor hc, hr⟩⟩)
    · rcases call4_withdraw hc with hc | hc
      · exact .inr (.inr (.inr (.inl ⟨rfl, .inl hc⟩)))
      · exact .inr (.inr (.inl hc))
    · exact .inr (.inr (.inr (.inl ⟨rfl, .inr (call4_activate hc)⟩)))

theorem runView6 (hI : Interleaves (starStart st F fuel s calls) (start4 st F fuel s calls)
    (start6 st F fuel s calls) t t4 t6) :
    RunView 128 .v6 h (hist6 h) calls (fun i => call6 (calls i)) (starStart st F fuel s calls)
      (start6 st F fuel s calls) t t6 where
  toView := view6 h
  inserted := inserted_hist6
  way := fun {q x} hw => by
    cases x with
    | v6 p => exact ⟨p, rfl, hw.2⟩
    | v4 p => exact absurd hw.1 (by simp [Pub.width])
  pre := hI.split.prefix6
  mem := hI.split.mem6
  insert := call6_insert
  withdrawFor := call6_withdrawFor
  activateFor := call6_activateFor
  returned := fun {n} hn {i p r tbi a} hr => by
    obtain ⟨b, hb, rfl⟩ := returned_v6 hI hn (x := .insert (.v6 p) r tbi)
      (y := .insert p r tbi) (g := fun a => a) rfl hr
    exact hb
  notBefore := fun {j i} hj hnb => by
    refine notBefore_v6 hI (.inl ?_) hnb
    rcases hj with ⟨p, r, tbi, hj⟩ | ⟨p, m, tm, rs, ⟨hj, -⟩ | ⟨hj, -⟩⟩
    · rw [call6_insert hj]; exact ⟨_, _, rfl⟩
    · rw [call6_withdrawFor hj]; exact ⟨_, _, rfl⟩
    · rw [call6_activateFor hj]; exact ⟨_, _, rfl⟩
  touches := fun {i p m} ht => by
    rcases ht with ⟨r, tbi, hc, hm⟩ | ⟨tm, rs, ⟨hc, hr⟩ | ⟨hc, hr⟩⟩ | hc | hc
    · exact .inl ⟨r, tbi, call6_insert hc, hm⟩
    · exact .inr (.inl ⟨tm, rs, .inl ⟨call6_withdrawFor hc, hr⟩⟩)
    · exact .inr (.inl ⟨tm, rs, .inr ⟨call6_activateFor hc, hr⟩⟩)
    · rcases call6_withdraw hc with hc | hc
      · exact .inr (.inr (.inr (.inr ⟨rfl, .inl hc⟩)))
      · exact .inr (.inr (.inl hc))
    · exact .inr (.inr (.inr (.inr ⟨rfl, .inr (call6_activate hc)⟩)))

end

namespace RunView

variable {W : Nat} {e : Prefix W → AnyPrefix} {h : List (StarOp M)} {g : History M W}
  {calls : ι → StarCall M} {cw : ι → Call M W} {cs : Conf (Star M) ι (fun i => (calls i).Ans)}
  {c : Conf (Rib M W) ι (fun i => (cw i).Ans)} {t : List ι} {tw : ℕ → List ι}
  (v : RunView W e h g calls cw cs c t tw)
include v

theorem begun {n : ℕ} (hn : n ≤ t.length) {p : Prefix W} {m : Mui} (hb : Begun g cw (tw n) p m) :
    StarBegun h calls (t.take n) (e p) m := by
  rcases hb with hb | ⟨i, hi, r, tbi, hc, hm⟩
  · exact .inl (v.inserted.1 hb)
  · exact .inr ⟨i, v.mem hn hi, r, tbi, v.insert hc, hm⟩

theorem completed {n : ℕ} (hn : n ≤ t.length) {p : Prefix W} {m : Mui}
    (hb : StarCompleted h (cs.exec (t.take n)) (e p) m) : Completed g (c.exec (tw n)) p m := by
  rcases hb with hb | ⟨i, r, tbi, a, hr, hm⟩
  · exact .inl (v.inserted.2 hb)
  · exact .inr ⟨i, r, tbi, a, v.returned hn hr, hm⟩

theorem noNewNodes {k n : ℕ} (hk : k ≤ t.length) (hn : n ≤ t.length) {p : Prefix W}
    {R : AnyPrefix → Prop} (hR : ∀ q, Covers p q → R (e q))
    (hq : StarNoNewNodes h (cs.exec (t.take k)) (t.take n) R) :
    NoNewNodes g (c.exec (tw k)) (tw n) p := by
  intro i hi q r tbi hc hcov h0
  obtain ⟨x, m, hx, hw⟩ := hq i (v.mem hn hi) (e q) r tbi (v.insert hc) (hR q hcov)
    (by rw [v.len]; exact h0)
  obtain ⟨q', rfl, hw'⟩ := v.way hw
  exact ⟨q', m, v.completed hk hx, hw'⟩

theorem marksRoute {i : ι} {p : Prefix W} {m : Mui} {tm : LTime} {rs : RouteStatus}
    (hm : MarksRoute (cw i) p m tm rs) : StarMarksRoute (calls i) (e p) m tm rs :=
  hm.imp (fun h => ⟨v.withdrawFor h.1, h.2⟩) (fun h => ⟨v.activateFor h.1, h.2⟩)

theorem tracked {st : Strategy} (ht : StarTracked st calls) : Tracked st cw :=
  fun he i _ m tm hc => ht he i _ m tm (v.activateFor hc)

end RunView

end Rotonda
