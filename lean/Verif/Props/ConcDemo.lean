import Verif.Props.Demo
import Verif.Proofs.ConcRun

/-!
# Concrete concurrent runs for the examples and counterexamples

A run is evaluated by the kernel; the results are read off with `ansIs`.
-/

namespace Rotonda.Demo

open Prog Spec

/-- The program has returned an answer that passes the test. -/
def ansIs {σ α : Type} (P : α → Bool) : Prog σ α → Bool
  | .ret a => P a
  | _ => false

theorem ansIs_iff {σ α : Type} {P : α → Bool} {p : Prog σ α} :
    ansIs P p = true ↔ ∃ a, p = .ret a ∧ P a = true := by
  cases p with
  | ret a => exact ⟨fun h => ⟨a, rfl, h⟩, fun ⟨b, hb, h⟩ => by cases hb; exact h⟩
  | act f k => exact ⟨fun h => (by cases h), fun ⟨b, hb, _⟩ => by cases hb⟩
  | panic => exact ⟨fun h => (by cases h), fun ⟨b, hb, _⟩ => by cases hb⟩
  | diverge => exact ⟨fun h => (by cases h), fun ⟨b, hb, _⟩ => by cases hb⟩

/-- A test of the state after a history. -/
def after (o : Outcome Unit (Rib Md 32)) (chk : Rib Md 32 → Bool) : Bool :=
  match o with
  | .ok _ s => chk s
  | _ => false

theorem after_ok {o : Outcome Unit (Rib Md 32)} {chk : Rib Md 32 → Bool} (h : after o chk = true) :
    ∃ s, o = .ok () s ∧ chk s = true := by
  cases o with
  | ok a s => exact ⟨s, rfl, h⟩
  | panic => cases h
  | diverge => cases h

/-- Turns of the call `true`, then of the call `false`, then of `true` again. -/
def turns (a b c : Nat) : List Bool :=
  List.replicate a true ++ List.replicate b false ++ List.replicate c true

theorem false_notMem_turns (a c : Nat) : false ∉ turns a 0 c := by
  intro h
  unfold turns at h
  rw [List.mem_append, List.mem_append] at h
  rcases h with (h | h) | h <;> have := List.mem_replicate.1 h
  · cases this.2
  · exact this.1 rfl
  · cases this.2

/-- Two calls at the same time, with enough fuel. -/
def two (st : Strategy) (s : Rib Md 32) (x y : Call Md 32) (t : List Bool) :
    Conf (Rib Md 32) Bool (fun i => (if i then x else y : Call Md 32).Ans) :=
  (start st 32 (iterFuel 32) s (fun i => if i then x else y)).exec t

/-- One route, 10.0.0.0/8. -/
def one : History Md 32 := [.insert ten8 (rec1 1 1 7) none]

/-- 10.255.0.0/16 -/
def ten16b : Prefix 32 := pfx 0x0AFF0000#32 16 (by decide)

/-- Two routes, 10.0.0.0/8 and 10.255.0.0/16. -/
def pair : History Md 32 := [.insert ten8 (rec1 1 1 7) none, .insert ten16b (rec1 1 1 7) none]

def longest : MatchOptions := ⟨.longestMatch, true, false, false, none⟩

end Rotonda.Demo
