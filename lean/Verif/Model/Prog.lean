/-!
# Programs over shared memory

The code of the store that touches shared memory is written once, as a value of
`Prog σ α`.  The only primitive is `act`: one *atomic* action on the shared
state (one atomic load, one compare-and-swap, one critical section).  The same
text is then run sequentially (`Prog.run`) or interleaved (`Verif.Model.Conc`).
-/

namespace Rotonda

/-- A program fragment over shared state `σ`, returning an `α`.
`panic` is a Rust panic (overflow in a checked build, index out of bounds,
dangling reference); `diverge` is a retry loop that used up its fuel. -/
inductive Prog (σ : Type) (α : Type) : Type 1
  | ret (a : α)
  | act {ρ : Type} (f : σ → ρ × σ) (k : ρ → Prog σ α)
  | panic
  | diverge

/-- Result of running a program alone, to completion. -/
inductive Outcome (α σ : Type) : Type
  | ok (a : α) (s : σ)
  | panic
  | diverge

namespace Prog

variable {σ τ α β : Type}

/-- Sequential composition. -/
protected def bind : Prog σ α → (α → Prog σ β) → Prog σ β
  | ret a, k => k a
  | act f g, k => act f (fun r => (g r).bind k)
  | panic, _ => panic
  | diverge, _ => diverge

instance : Monad (Prog σ) where
  pure := Prog.ret
  bind := Prog.bind

/-- One atomic action. -/
def atomic (f : σ → α × σ) : Prog σ α := act f ret

/-- One atomic read. -/
def read (f : σ → α) : Prog σ α := act (fun s => (f s, s)) ret

/-- A partial computation without memory access; `none` is a panic. -/
def ofOption : Option α → Prog σ α
  | some a => ret a
  | none => panic

/-- Run a program sequentially. -/
def run : Prog σ α → σ → Outcome α σ
  | ret a, s => .ok a s
  | act f k, s => (k (f s).1).run (f s).2
  | panic, _ => .panic
  | diverge, _ => .diverge

end Prog

namespace Outcome
variable {α β σ τ : Type}

/-- Continue with a state transformer if the outcome is regular. -/
def andThen : Outcome α σ → (α → σ → Outcome β σ) → Outcome β σ
  | ok a s, k => k a s
  | panic, _ => panic
  | diverge, _ => diverge

end Outcome

/-- A component `τ` of a larger state `σ`. -/
structure Lens (σ τ : Type) where
  get : σ → τ
  set : σ → τ → σ

namespace Prog
variable {σ τ α β : Type}

/-- Run a program that only knows about a component inside the larger state
(e.g. a method of `TreeBitMap` called on `self.tree_bitmap`). -/
def zoom (L : Lens σ τ) : Prog τ α → Prog σ α
  | ret a => ret a
  | act f k => act (fun s => ((f (L.get s)).1, L.set s (f (L.get s)).2)) (fun r => (k r).zoom L)
  | panic => panic
  | diverge => diverge

end Prog
end Rotonda
