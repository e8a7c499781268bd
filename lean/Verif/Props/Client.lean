import Verif.Proofs.Client
import Verif.Proofs.Report
import Verif.Props.StarQueries

/-!
# Threads that make one call after another: C83

The theorems about concurrency are about calls, each with a name of its own.  Here the threads
are let loose: each makes a sequence of calls, and what it calls next depends on
the answers so far.
-/

namespace Rotonda.Props

open Prog Spec

section generic
variable {σ C : Type} {Ans : C → Type} {ι : Type} [DecidableEq ι] {A : ι → Type}
  (prog : ∀ c, Prog σ (Ans c))

/-- C83: every run of threads, with any calls whatever, is a run of single calls: there is the
same state after every turn; each thread has made the first of its calls with the
answers these returned, is within the next, and has not come to those after it. -/
theorem threads_are_calls [Inhabited C] (s : σ) (cl : ∀ i, Client Ans (A i)) (t : List ι) :
    ∃ (calls : ι × ℕ → C) (T : ℕ → List (ι × ℕ)),
      AsCalls prog cl calls (clients prog s cl) ⟨s, fun j => prog (calls j)⟩ t T :=
  clients_asCalls prog s cl t

variable {prog} {cl : ∀ i, Client Ans (A i)} {calls : ι × ℕ → C} {c : Conf σ ι A}
  {c' : Conf σ (ι × ℕ) (fun j => Ans (calls j))} {t : List ι} {T : ℕ → List (ι × ℕ)}

theorem _root_.Rotonda.Spec.CallTurns.prefix (hT : CallTurns t T) {m n : ℕ} (hmn : m ≤ n) (hn : n ≤ t.length) :
    T m <+: T n := by
  induction n, hmn using Nat.le_induction with
  | base => exact List.prefix_rfl
  | succ n _ ih =>
    refine (ih (by omega)).trans ?_
    rcases hT.step n (by omega) with h | ⟨k, h⟩
    · rw [h]
    · rw [h]; exact List.prefix_append _ _

/-- C83: in that run no call is given a turn before the earlier calls of its thread have returned. -/
theorem calls_in_order [Inhabited C] (h : AsCalls prog cl calls c c' t T) {m : ℕ} (hm : m ≤ t.length) {i : ι}
    {n n' : ℕ} (hn : n < n') (hin : (i, n') ∈ T m) :
    ∃ m0 < m, (i, n') ∉ T m0 ∧ ∃ a, (c'.exec (T m0)).pool (i, n) = .ret a := by
  induction m with
  | zero => rw [h.turns.start] at hin; cases hin
  | succ m ih =>
    by_cases hin' : (i, n') ∈ T m
    · obtain ⟨m0, h0, h1⟩ := ih (by omega) hin'
      exact ⟨m0, by omega, h1⟩
    · refine ⟨m, by omega, hin', ?_⟩
      obtain ⟨l, rest, -, hat⟩ := h.threads (m + 1) hm i
      have hr : ∃ a, (c'.exec (T (m + 1))).pool (i, n) = .ret a := by
        obtain ⟨e, he⟩ := hat.made n (by have := (hat.later n' hin).1; omega)
        exact ⟨_, he⟩
      rcases h.turns.step m hm with hs | ⟨k, hs⟩
      · rw [hs] at hin; exact absurd hin hin'
      · rw [hs] at hin hr
        rcases List.mem_append.1 hin with h1 | h1
        · exact absurd h1 hin'
        · have hj := List.mem_singleton.1 h1
          obtain ⟨a, ha⟩ := hr
          refine ⟨a, ?_⟩
          rw [Conf.exec_append, ← hj] at ha
          have hne : (i, n) ≠ (i, n') := fun e => by
            have := congrArg Prod.snd e
            simp only at this
            omega
          exact (Conf.step_other _ hne).symm.trans ha

end generic

/-! ## The store -/

section store
variable {M : Type} [Meta M] {ι : Type} [DecidableEq ι] {A : ι → Type} {st : Strategy}
  {F0 F fuel : ℕ} (hF : 32 ≤ F) (hf : iterFuel 128 ≤ fuel) {h : List (StarOp M)} {s : Star M}
  (hs : starExec st F0 h = .ok () s)

instance : Inhabited (StarCall M) := ⟨.nodesCount⟩

omit [DecidableEq ι] in
private theorem returned_as {calls : ι → StarCall M} {c : Conf (Star M) ι (fun i => (calls i).Ans)} {i : ι}
    {x : StarCall M} {a : (calls i).Ans} (e : calls i = x) (h : c.pool i = .ret a) :
    ∃ b, StarReturned c i x b := by
  subst e
  exact ⟨a, rfl, h⟩

/-- The global status changes, which may be kept from ending. -/
def MayWait : StarCall M → Prop
  | .withdraw _ | .withdraw4 _ | .withdraw6 _ | .activate4 _ | .activate6 _ => True
  | _ => False

include hF hf hs

/-- C83: a thread panics only by itself, and gets stuck only in a global status change. -/
theorem threads_no_panic (cl : ∀ i, Client StarCall.Ans (A i)) (t : List ι) (i : ι) :
    (((clients (StarCall.prog st F fuel) s cl).exec t).pool i = .panic → ∃ l, Made (cl i) l .panic) ∧
    (((clients (StarCall.prog st F fuel) s cl).exec t).pool i = .diverge →
      ∃ l c k, Made (cl i) l (.call c k) ∧ MayWait c) := by
  obtain ⟨calls, T, hA⟩ := threads_are_calls (StarCall.prog st F fuel) s cl t
  obtain ⟨l, rest, hmade, hat⟩ := hA.threads t.length (Nat.le_refl _) i
  rw [List.take_length] at hat
  have hnp := star_concurrent_no_panic (calls := calls) hF hf hs (T t.length) (i, l.length)
  cases rest with
  | done a => rw [hat.ended a rfl]; exact ⟨fun h => (by cases h), fun h => (by cases h)⟩
  | panic => exact ⟨fun _ => ⟨l, hmade⟩, fun h => (by rw [hat.panicked rfl] at h; cases h)⟩
  | call x k =>
    obtain ⟨hx, hret, hp⟩ := hat.within x k rfl
    rw [hp]
    change ((starStart st F fuel s calls).exec (T t.length)).pool (i, l.length) ≠ _ ∧ _ at hnp
    change (((((starStart st F fuel s calls).exec (T t.length)).pool (i, l.length) >>= fun a => _) = _) → _) ∧
      (((((starStart st F fuel s calls).exec (T t.length)).pool (i, l.length) >>= fun a => _) = _) → _)
    change ∀ a, ((starStart st F fuel s calls).exec (T t.length)).pool (i, l.length) ≠ .ret a at hret
    cases hq : ((starStart st F fuel s calls).exec (T t.length)).pool (i, l.length) with
    | ret a => exact absurd hq (hret a)
    | panic => exact absurd hq hnp.1
    | act f kq => exact ⟨fun h => (by cases h), fun h => (by cases h)⟩
    | diverge =>
      refine ⟨fun h => (by cases h), fun _ => ⟨l, x, k, hmade, ?_⟩⟩
      by_contra hw
      refine hnp.2 (fun m => ?_) hq
      rw [hx]
      refine ⟨?_, ?_, ?_, ?_, ?_⟩ <;> · intro e; exact hw (by rw [e]; trivial)

/-- C83: with a fair schedule every thread ends that neither panics by itself nor changes the
global status of a peer. -/
theorem threads_return (cl : ∀ i, Client StarCall.Ans (A i)) (sched : ℕ → ι) {i : ι}
    (hfair : ∀ n, ∃ m, n ≤ m ∧ sched m = i) (hp : ∀ l, ¬ Made (cl i) l .panic)
    (hw : ∀ l c k, Made (cl i) l (.call c k) → ¬ MayWait c) :
    ∃ n a, ((clients (StarCall.prog st F fuel) s cl).exec ((List.range n).map sched)).pool i = .ret a := by
  obtain ⟨n, hn⟩ := Conf.ends (clients (StarCall.prog st F fuel) s cl) sched i hfair
  have := threads_no_panic hF hf hs cl ((List.range n).map sched) i
  refine ⟨n, ?_⟩
  cases hq : ((clients (StarCall.prog st F fuel) s cl).exec ((List.range n).map sched)).pool i with
  | ret a => exact ⟨a, rfl⟩
  | act f k => rw [hq] at hn; exact hn.elim
  | panic => obtain ⟨l, hl⟩ := this.1 hq; exact absurd hl (hp l)
  | diverge => obtain ⟨l, c, k, hl, hc⟩ := this.2 hq; exact absurd hc (hw l c k hl)

/-- C83: a thread reads its own writes: whatever the other threads do, when a thread has inserted a
prefix, and later asks for it, it is told that the prefix is there.  Partial, as `contains` is: not
for the default routes. -/
theorem thread_contains_own_partial {cl : ∀ i, Client StarCall.Ans (A i)} {t : List ι}
    {calls : ι × ℕ → StarCall M} {T : ℕ → List (ι × ℕ)}
    (hA : AsCalls (StarCall.prog st F fuel) cl calls (clients (StarCall.prog st F fuel) s cl)
      (starStart st F fuel s calls) t T) {i : ι} {n n' : ℕ} (hn : n < n') {p : AnyPrefix} {r : Record M}
    {tbi : Option (Meta.TBI M)} {a : Except StoreError UpsertReport} {b : Bool} (h0 : 0 < Pub.len p)
    (hi : StarReturned ((starStart st F fuel s calls).exec (T t.length)) (i, n) (.insert p r tbi) a)
    (hc : StarReturned ((starStart st F fuel s calls).exec (T t.length)) (i, n') (.contains p none) b) :
    b = true := by
  obtain ⟨l, rest, -, hat⟩ := hA.threads t.length (Nat.le_refl _) i
  by_cases hin : (i, n') ∈ T t.length
  · obtain ⟨m0, hm0, hnot, a', ha⟩ := calls_in_order hA (Nat.le_refl _) hn hin
    obtain ⟨u, hu⟩ := hA.turns.prefix (Nat.le_of_lt hm0) (Nat.le_refl _)
    rw [← hu] at hc hi
    refine star_concurrent_contains_complete_partial hF hf hs hnot h0 (m := r.mui) ?_ hc
    obtain ⟨e, -⟩ := hi
    obtain ⟨a1, h1⟩ := returned_as e ha
    exact .inr ⟨(i, n), r, tbi, a1, h1, rfl⟩
  · rw [← List.append_nil (T t.length)] at hc
    exact star_concurrent_contains_complete_partial hF hf hs hin h0 (m := r.mui)
      (.inr ⟨(i, n), r, tbi, _, hi, rfl⟩) hc

/-- C83: so a thread that inserts a prefix and then asks for it gets the answer true, whatever the
other threads do (not for the default routes). -/
theorem insert_then_contains_partial {cl : ∀ i, Client StarCall.Ans (A i)} {i : ι} {p : AnyPrefix}
    {r : Record M} {tbi : Option (Meta.TBI M)} {k : Bool → A i} (h0 : 0 < Pub.len p)
    (hcl : cl i = .call (.insert p r tbi) fun _ => .call (.contains p none) fun b => .done (k b))
    (t : List ι) {x : A i} (hx : ((clients (StarCall.prog st F fuel) s cl).exec t).pool i = .ret x) :
    x = k true := by
  obtain ⟨calls, T, hA⟩ := threads_are_calls (StarCall.prog st F fuel) s cl t
  obtain ⟨l, rest, hmade, hat⟩ := hA.threads t.length (Nat.le_refl _) i
  rw [List.take_length, hx] at hat
  rw [hcl] at hmade
  have hrest : ∃ a b, l = [⟨.insert p r tbi, a⟩, ⟨.contains p none, b⟩] ∧ rest = .done (k b) := by
    have hno : ∀ c k', rest ≠ .call c k' := by
      intro c k' e
      obtain ⟨_, hr, he⟩ := hat.within c k' e
      cases hq : (({ st := s, pool := fun j => StarCall.prog st F fuel (calls j) } :
        Conf (Star M) (ι × ℕ) (fun j => (calls j).Ans)).exec (T t.length)).pool (i, l.length) with
      | ret a => exact hr a hq
      | act f k => rw [hq] at he; cases he
      | panic => rw [hq] at he; cases he
      | diverge => rw [hq] at he; cases he
    cases hmade with
    | nil => exact absurd rfl (hno _ _)
    | @cons _ _ a _ _ h1 =>
      cases h1 with
      | nil => exact absurd rfl (hno _ _)
      | @cons _ _ b _ _ h2 =>
        cases h2
        exact ⟨a, b, rfl, rfl⟩
  obtain ⟨a, b, rfl, rfl⟩ := hrest
  have hb : b = true := by
    refine thread_contains_own_partial hF hf hs hA (i := i) (n := 0) (n' := 1) (by omega) h0 ?_ ?_
      (p := p) (r := r) (tbi := tbi) (a := a)
    · exact hat.made 0 (by simp)
    · exact hat.made 1 (by simp)
  have := hat.ended _ rfl
  rw [hb] at this
  injection this

end store

/-! ## An example -/

open Rotonda.Demo

/-- The first thread inserts a prefix and asks for it; the second asks for that prefix, and if it is
not there inserts another one and asks for that. -/
private abbrev demoThreads : Fin 2 → Client (StarCall.Ans (M := Md)) Bool
  | 0 => .call (.insert (.v4 ten16) (rec1 2 2 3) none) fun _ =>
      .call (.contains (.v4 ten16) none) fun b => .done b
  | 1 => .call (.contains (.v4 ten16) none) fun (b : Bool) =>
      if b then .done false else
        .call (.insert (.v4 other) (rec1 2 2 3) none) fun _ =>
          .call (.contains (.v4 other) none) fun b => .done b

private def demoTurns : List (Fin 2) := (List.replicate 100 [0, 1]).flatten

private theorem demo_threads : ∃ s, starExec .memoryOnly 32 Demo.mixed = .ok () s ∧
    (∃ a, ((clients (StarCall.prog .memoryOnly 32 (iterFuel 128)) s demoThreads).exec demoTurns).pool 0 =
      .ret a) ∧
    ((clients (StarCall.prog .memoryOnly 32 (iterFuel 128)) s demoThreads).exec demoTurns).pool 1 =
      .ret true := by
  have h : (match starExec (M := Md) .memoryOnly 32 Demo.mixed with
    | .ok _ s =>
      let c := (clients (StarCall.prog .memoryOnly 32 (iterFuel 128)) s demoThreads).exec demoTurns
      ansIs (fun _ => true) (c.pool 0) && ansIs (fun b => b) (c.pool 1)
    | _ => false) = true := by decide +kernel
  cases ho : starExec (M := Md) .memoryOnly 32 Demo.mixed with
  | panic => rw [ho] at h; cases h
  | diverge => rw [ho] at h; cases h
  | ok _ s =>
    rw [ho] at h
    simp only [Bool.and_eq_true] at h
    obtain ⟨a, ha, -⟩ := ansIs_iff.1 h.1
    obtain ⟨b, hb, ob⟩ := ansIs_iff.1 h.2
    have : b = true := ob
    exact ⟨s, rfl, ⟨a, ha⟩, this ▸ hb⟩

/-- The hypotheses can be met: in this run both threads end, the second one having made the
second insert within the first thread's; the first is told the truth, and with every fair
schedule both end. -/
example : ∃ s, starExec .memoryOnly 32 Demo.mixed = .ok () s ∧
    ((clients (StarCall.prog .memoryOnly 32 (iterFuel 128)) s demoThreads).exec demoTurns).pool 0 =
      .ret true ∧
    ((clients (StarCall.prog .memoryOnly 32 (iterFuel 128)) s demoThreads).exec demoTurns).pool 1 =
      .ret true ∧
    ∀ sched : ℕ → Fin 2, (∀ n, ∃ m, n ≤ m ∧ sched m = 0) → ∃ n a,
      ((clients (StarCall.prog .memoryOnly 32 (iterFuel 128)) s demoThreads).exec
        ((List.range n).map sched)).pool 0 = .ret a := by
  obtain ⟨s, hs, ⟨a, ha⟩, hb⟩ := demo_threads
  have := insert_then_contains_partial (F := 32) (Nat.le_refl _) (Nat.le_refl _) hs (cl := demoThreads)
    (i := 0) (p := .v4 ten16) (k := fun b => b) (by decide) rfl demoTurns ha
  subst this
  refine ⟨s, hs, ha, hb, fun sched hfair => threads_return (Nat.le_refl _) (Nat.le_refl _) hs demoThreads
    sched hfair ?_ ?_⟩
  · intro l hl
    cases hl with
    | cons h => cases h with
      | cons h => cases h
  · intro l c k hl
    cases hl with
    | nil => exact id
    | cons h => cases h with
      | nil => exact id
      | cons h => cases h

end Rotonda.Props
