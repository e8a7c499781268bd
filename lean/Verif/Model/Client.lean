import Verif.Model.Conc
import Verif.Model.StarConc

/-!
# Threads that make one call after another

What a thread calls next may depend on all the answers it got so far.  Between two calls it does
nothing that other threads can see.
-/

namespace Rotonda

/-- A thread: it ends with a value, makes a call and goes on with its answer, or panics. -/
inductive Client {C : Type} (Ans : C → Type) (α : Type) : Type
  | done (a : α)
  | call (c : C) (k : Ans c → Client Ans α)
  | panic

variable {σ C α : Type} {Ans : C → Type}

/-- The program of a thread, given those of the calls. -/
def Client.prog (prog : ∀ c, Prog σ (Ans c)) : Client Ans α → Prog σ α
  | .done a => .ret a
  | .call c k => prog c >>= fun a => (k a).prog prog
  | .panic => .panic

/-- All threads about to start. -/
def clients {ι : Type} {A : ι → Type} (prog : ∀ c, Prog σ (Ans c)) (s : σ)
    (cl : ∀ i, Client Ans (A i)) : Conf σ ι A :=
  ⟨s, fun i => (cl i).prog prog⟩

end Rotonda
