import Verif.Model.WeakCell
import Verif.Model.WeakTree

/-!
# What is asked of programs on the weak machine
-/

namespace Rotonda.Weak

/-- The words that the next step of a program uses (reads, writes or frees). -/
def WProg.uses {α : Type} : WProg α → List Nat
  | .ret _ | .alloc _ _ | .panic => []
  | .free a n _ => (List.range n).map fun j => a + j
  | .plain a _ | .load a _ _ | .cas a _ _ _ _ _ => [a]

/-- No thread is about to use a word that is not allocated (any more). -/
def Mach.NoDangling {ι α : Type} (c : Mach ι α) : Prop := ∀ i, ∀ a ∈ (c.pool i).uses, c.mem a ≠ []

/-- Calls on the bitmap of withdrawn muis. -/
def StatusCall : CellCall Bool Word → Prop
  | .read | .modify _ _ => True
  | _ => False

/-- Calls on the path selections of a prefix. -/
def SelectionCall : CellCall Bool Word → Prop
  | .read | .tag | .set _ _ | .mark _ => True
  | _ => False

/-- The orderings that a call needs. -/
def CellOrders.Sync (o : CellOrders) : CellCall Bool Word → Prop
  | .read => o.get.acquires = true
  | .modify _ _ => o.cur.acquires = true ∧ o.ok.releases = true ∧ o.err.acquires = true
  | .set _ _ => o.cur.acquires = true ∧ o.ok.releases = true
  | .tag | .mark _ => True

/-- The calls of an execution are about ids of the table and bits of the arrays. -/
def OwnCalls {ι : Type} (T : Table) (t : List (Event ι)) : Prop :=
  ∀ i c, Event.begin i c ∈ t → T.ids c.id ∧ ∀ arr x b, c = .set arr x b → b < 32

/-- What is known at `a` is passed on to `b`, by synchronisation outside of the store: `a` and
`b` are threads or places where threads synchronise. -/
inductive Carries {ι : Type} : List (Event ι) → ι ⊕ Nat → ι ⊕ Nat → Prop
  | nil (a) : Carries [] a a
  | keep {t a b} (e : Event ι) : Carries t a b → Carries (t ++ [e]) a b
  | send {t a i} (s : Nat) : Carries t a (.inl i) → Carries (t ++ [.send i s]) a (.inr s)
  | recv {t a s} (i : ι) : Carries t a (.inr s) → Carries (t ++ [.recv i s]) a (.inl i)

/-- The thread has ended its last call `c`, with this answer. -/
def Sys.Answers {ι : Type} (S : Sys ι) (i : ι) (c : TreeCall) (a : Word) : Prop :=
  S.mach.pool i = .ret (some (c, a))

/-- The thread makes no call. -/
def Sys.Idle {ι : Type} (S : Sys ι) (i : ι) : Prop := ∃ r, S.mach.pool i = .ret r

/-- The number of steps of a thread. -/
def steps {ι : Type} [DecidableEq ι] (i : ι) (t : List (Event ι)) : Nat := t.countP fun e =>
  match e with
  | .step j _ => decide (j = i)
  | _ => false

/-- Such an answer says that the bit is set. -/
def SaysSet (arr : Arr) (x b : Nat) (c : TreeCall) (a : Word) : Prop :=
  c = .set arr x b ∨ (c = .test arr x b ∧ a = some 1)

end Rotonda.Weak
