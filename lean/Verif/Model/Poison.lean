import Verif.Model.Lock

/-!
# Panics of the user's code under a lock

The metadata type is the user's: `as_orderable` and the comparison of its results
(`src/prefix_cht/cht.rs` 101-109, `best_backup`) and `Clone` (80-99, 111-128, 185-231) run
with the mutex of a record map held, in sections that do not write.  When such code
panics the mutex is poisoned: from then on `lock` and `try_lock` give an error, also when
nobody holds it.  `acquire_write_lock` (46-66) and `acquire_read_guard` (68-78) take every
error for a lock that is held and try again.

No code of the user runs with the `RwLock` of a mui set of a node held
(`src/tree_bitmap/node_cht.rs` 39-56, `src/tree_bitmap/mod.rs` 889-911).

Simplification: the thread unwinds without further effects (the user's `Drop` code is not
modelled).
-/

namespace Rotonda

/-- What has become of a thread: it runs, it is going to panic with lock `a` held, or it
has panicked. -/
inductive Fate (A : Type)
  | fine
  | doomed (a : A)
  | gone

/-- The threads of `base`, of which some have panicked where they are, and the locks that
are poisoned. -/
structure PConf (σ A : Type) (T : A → Type) (ι : Type) (R : ι → Type) where
  base : LConf σ A T ι R
  fate : ι → Fate A
  poison : A → Prop

/-- How the locks are used: the ones under which code of the user runs, and the ones that
are not given out any more once poisoned. -/
structure LockUse (A : Type) where
  user : A → Prop
  stops : A → Prop

/-- The locks of the store: record maps (`src/prefix_cht/cht.rs` 46-78) and mui sets. -/
def ribUse : LockUse (Addr ⊕ Addr) where
  user a := a.isLeft = true
  stops a := a.isLeft = true

/-- The same, if poisoning were ignored, as with `PoisonError::into_inner`. -/
def ribUseRecovering : LockUse (Addr ⊕ Addr) where
  user a := a.isLeft = true
  stops _ := False

/-- What happens: a small step of a thread, a thread about to panic, its end, or a vain
attempt at a lock. -/
inductive PEvent (ι : Type)
  | ran (i : ι) (e : StepKind)
  | doom (i : ι)
  | unwind (i : ι)
  | spin (i : ι)

section
variable {σ A : Type} {T : A → Type} {ι : Type} [DecidableEq ι] {R : ι → Type}

/-- Lock `a` can be taken, as far as panics are concerned. -/
def PConf.Open (U : LockUse A) (c : PConf σ A T ι R) (a : A) : Prop :=
  ¬ (U.stops a ∧ c.poison a) ∧ ∀ j, c.fate j ≠ .doomed a

/-- `f` is the section of lock `a`.  No action of the store that needs no lock has this
form: they all look at, or change, what is not behind the locks. -/
inductive IsSect (P : Guarded σ A T) : {ρ : Type} → (σ → ρ × σ) → A → Prop
  | mk {ρ : Type} (a : A) (g : T a → ρ × T a) : IsSect P (P.sect a g) a

/-- Thread `i` has come to the lock `a`. -/
def LConf.AtLock (P : Guarded σ A T) (c : LConf σ A T ι R) (i : ι) (a : A) : Prop :=
  ∃ (ρ : Type) (f : σ → ρ × σ) (k : ρ → Prog σ (R i)), c.pool i = .out (.act f k) ∧
    IsSect P f a ∧ (P.get c.st a).isSome

/-- One event. -/
inductive PStep (P : Guarded σ A T) (U : LockUse A) :
    PConf σ A T ι R → PEvent ι → PConf σ A T ι R → Prop
  /-- A small step of a thread that has not panicked.  At a lock, the lock must be open. -/
  | ran {c i e l} (hf : c.fate i = .fine) (hs : LStep P c.base (i, e) l)
      (ho : ∀ a, c.base.AtLock P i a → c.Open U a) :
    PStep P U c (.ran i e) ⟨l, c.fate, c.poison⟩
  /-- The lock is taken for a section that does not write and in which the code of the
  user panics on what it finds. -/
  | doom {c i ρ} {a : A} {g : T a → ρ × T a} {k v} (b : Prog (T a) ρ) (hf : c.fate i = .fine)
      (h : c.base.pool i = .out (.act (P.sect a g) k)) (hu : U.user a)
      (hg : ∀ v, (g v).2 = v) (hv : P.get c.base.st a = some v) (hl : ¬ c.base.Held a)
      (ho : c.Open U a) (hw : b.JustReads) (hb : b.run v = .panic) :
    PStep P U c (.doom i) ⟨c.base, Function.update c.fate i (.doomed a), c.poison⟩
  /-- The panic: the guard is dropped, which poisons the lock. -/
  | unwind {c i a} (hf : c.fate i = .doomed a) :
    PStep P U c (.unwind i) ⟨c.base, Function.update c.fate i .gone, fun x => x = a ∨ c.poison x⟩
  /-- The lock is not given out: the thread tries again. -/
  | spin {c i a} (hf : c.fate i = .fine) (h : c.base.AtLock P i a) (ho : ¬ c.Open U a) :
    PStep P U c (.spin i) c

/-- A run. -/
inductive PRun (P : Guarded σ A T) (U : LockUse A) (c : PConf σ A T ι R) :
    List (PEvent ι) → PConf σ A T ι R → Prop
  | nil : PRun P U c [] c
  | snoc {t c₁ e c₂} (h : PRun P U c t c₁) (s : PStep P U c₁ e c₂) : PRun P U c (t ++ [e]) c₂

/-- The small steps of a run. -/
def smallSteps : List (PEvent ι) → List (ι × StepKind)
  | [] => []
  | .ran i e :: t => (i, e) :: smallSteps t
  | _ :: t => smallSteps t

/-- All threads outside, none panicked, nothing poisoned. -/
def Conf.fresh (c : Conf σ ι R) : PConf σ A T ι R := ⟨c.small, fun _ => .fine, fun _ => False⟩

end
end Rotonda
