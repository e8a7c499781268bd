import Verif.Model.Conc

/-!
# Locks and retry loops, step by step

The programs of the model do a critical section of a lock, and the retry loop of
`fetch_update`, in one action.  Here the same programs run in smaller steps:

* a lock is taken (or found taken: the thread tries again), the accesses to the
  data behind it are made one after another, and the lock is released
  (`src/prefix_cht/cht.rs` 46-78, the mutex of the record map;
  `src/tree_bitmap/node_cht.rs` 32-56, the `RwLock` of the mui set of a node);
* an atomic read-modify-write is a load and a compare-and-swap that may fail and is
  then tried again with the value found (`fetch_update`, used by
  `src/prefix_cht/cht.rs` 460-470).
-/

namespace Rotonda

/-- The parts of the state that are behind locks: the lock named `a` guards a value
of type `T a`, which need not exist (yet).  `same`: equal but for these parts. -/
structure Guarded (σ A : Type) (T : A → Type) where
  get : σ → (a : A) → Option (T a)
  put : σ → (a : A) → T a → σ
  same : σ → σ → Prop

namespace Guarded
variable {σ A : Type} {T : A → Type}

/-- A critical section as one action: `g` on the value behind lock `a`. -/
def sect {ρ : Type} (P : Guarded σ A T) (a : A) (g : T a → ρ × T a) : σ → Option ρ × σ :=
  fun s => match P.get s a with
    | none => (none, s)
    | some v => (some (g v).1, P.put s a (g v).2)

/-- An action that has nothing to do with what is behind the locks. -/
structure Neutral {ρ : Type} (P : Guarded σ A T) (f : σ → ρ × σ) : Prop where
  blind : ∀ s s', P.same s s' → (f s).1 = (f s').1 ∧ P.same (f s).2 (f s').2 ∧
    ∀ a, P.get s a = P.get s' a → P.get (f s).2 a = P.get (f s').2 a
  keeps : ∀ s a v, P.get s a = some v → P.get (f s).2 a = some v

/-- What an action may be. -/
inductive Act (P : Guarded σ A T) : {ρ : Type} → (σ → ρ × σ) → Prop
  | neutral {ρ : Type} {f : σ → ρ × σ} (h : P.Neutral f) : P.Act f
  | sect {ρ : Type} (a : A) (g : T a → ρ × T a) : P.Act (P.sect a g)

end Guarded

/-- The program changes nothing. -/
def Prog.JustReads {σ α : Type} : Prog σ α → Prop
  | .ret _ | .panic | .diverge => True
  | .act f k => (∀ s, (f s).2 = s) ∧ ∀ r, (k r).JustReads

/-- Where a thread is. -/
inductive Thread (σ A : Type) (T : A → Type) (α : Type) : Type 1
  /-- Outside of any critical section, `p` to do. -/
  | out (p : Prog σ α)
  /-- Holding lock `a` (`excl`: as the only one), with `b` left to do on the value
  behind it and `k` after the release. -/
  | inside {ρ : Type} (excl : Bool) (a : A) (b : Prog (T a) ρ) (k : ρ → Prog σ α)
  /-- In a retry loop, having seen `seen`, about to try the compare-and-swap. -/
  | trying {ρ κ : Type} (view : σ → κ) (upd : κ → σ → ρ × σ) (seen : κ) (k : ρ → Prog σ α)

/-- The shared state and where each thread is. -/
structure LConf (σ A : Type) (T : A → Type) (ι : Type) (R : ι → Type) where
  st : σ
  pool : ∀ i, Thread σ A T (R i)

namespace LConf
variable {σ A : Type} {T : A → Type} {ι : Type} [DecidableEq ι] {R : ι → Type}

/-- Some thread holds lock `a`. -/
def Held (c : LConf σ A T ι R) (a : A) : Prop :=
  ∃ j ρ x b k, c.pool j = .inside (ρ := ρ) x a b k

/-- Some thread holds lock `a` as the only one. -/
def HeldExcl (c : LConf σ A T ι R) (a : A) : Prop :=
  ∃ j ρ b k, c.pool j = .inside (ρ := ρ) true a b k

/-- Thread `i` goes on to `t`. -/
def goto (c : LConf σ A T ι R) (i : ι) (s : σ) (t : Thread σ A T (R i)) : LConf σ A T ι R :=
  ⟨s, Function.update c.pool i t⟩

end LConf

section
variable {σ A : Type} {T : A → Type} {ι : Type} [DecidableEq ι] {R : ι → Type}

/-- What a small step is: one that stands for the whole action (taking the lock, the
successful compare-and-swap, an action that is one step anyway), another part of an
action, or waiting for a lock. -/
inductive StepKind
  | whole
  | part
  | wait
  deriving DecidableEq, Repr

/-- One small step of thread `i`. -/
inductive LStep (P : Guarded σ A T) :
    LConf σ A T ι R → ι × StepKind → LConf σ A T ι R → Prop
  /-- An action that needs no lock. -/
  | plain {c i ρ} {f : σ → ρ × σ} {k} (h : c.pool i = .out (.act f k)) (hf : P.Neutral f) :
    LStep P c (i, .whole) (c.goto i (f c.st).2 (.out (k (f c.st).1)))
  /-- The data to be locked does not exist. -/
  | missing {c i ρ} {a : A} {g : T a → ρ × T a} {k} (h : c.pool i = .out (.act (P.sect a g) k))
      (hn : P.get c.st a = none) :
    LStep P c (i, .whole) (c.goto i c.st (.out (k none)))
  /-- The lock is free and is taken.  `b` is any step by step way to do the section
  on what is there. -/
  | lock {c i ρ} {a : A} {g : T a → ρ × T a} {k v} (b : Prog (T a) ρ)
      (h : c.pool i = .out (.act (P.sect a g) k)) (hv : P.get c.st a = some v) (hl : ¬ c.Held a)
      (hb : b.run v = .ok (g v).1 (g v).2) :
    LStep P c (i, .whole) (c.goto i c.st (.inside true a b fun r => k (some r)))
  /-- The lock (an `RwLock`) is free or has readers only, and is taken for reading. -/
  | lockRead {c i ρ} {a : A} {g : T a → ρ × T a} {k v} (b : Prog (T a) ρ)
      (h : c.pool i = .out (.act (P.sect a g) k)) (hv : P.get c.st a = some v)
      (hl : ¬ c.HeldExcl a) (hb : b.run v = .ok (g v).1 (g v).2) (hw : b.JustReads) :
    LStep P c (i, .whole) (c.goto i c.st (.inside false a b fun r => k (some r)))
  /-- The lock is taken by another thread: try again later. -/
  | wait {c i ρ} {a : A} {g : T a → ρ × T a} {k} (h : c.pool i = .out (.act (P.sect a g) k))
      (hl : c.Held a) : LStep P c (i, .wait) c
  /-- One access to the value behind the lock. -/
  | inner {c i ρ} {x a v} {ρ' : Type} {f : T a → ρ' × T a} {b k}
      (h : c.pool i = .inside (ρ := ρ) x a (.act f b) k) (hv : P.get c.st a = some v) :
    LStep P c (i, .part) (c.goto i (P.put c.st a (f v).2) (.inside x a (b (f v).1) k))
  /-- The lock is released. -/
  | unlock {c i ρ} {x a r k} (h : c.pool i = .inside (ρ := ρ) x a (.ret r) k) :
    LStep P c (i, .part) (c.goto i c.st (.out (k r)))
  /-- The first load of a retry loop. -/
  | load {c i ρ κ} {view : σ → κ} {upd : κ → σ → ρ × σ} {k}
      (h : c.pool i = .out (.act (fun s => upd (view s) s) k))
      (hf : P.Neutral fun s => upd (view s) s) :
    LStep P c (i, .part) (c.goto i c.st (.trying view upd (view c.st) k))
  /-- The compare-and-swap succeeds. -/
  | swap {c i ρ κ} {view : σ → κ} {upd : κ → σ → ρ × σ} {seen k}
      (h : c.pool i = .trying view upd seen k) (hs : view c.st = seen) :
    LStep P c (i, .whole) (c.goto i (upd seen c.st).2 (.out (k (upd seen c.st).1)))
  /-- The compare-and-swap fails (for the weak variant, for any reason). -/
  | retry {c i ρ κ} {view : σ → κ} {upd : κ → σ → ρ × σ} {seen k}
      (h : c.pool i = .trying view upd seen k) :
    LStep P c (i, .part) (c.goto i c.st (.trying view upd (view c.st) k))

/-- A run of small steps. -/
inductive LRun (P : Guarded σ A T) (c : LConf σ A T ι R) :
    List (ι × StepKind) → LConf σ A T ι R → Prop
  | nil : LRun P c [] c
  | snoc {t c₁ l c₂} (h : LRun P c t c₁) (s : LStep P c₁ l c₂) : LRun P c (t ++ [l]) c₂

/-- The schedule of whole actions behind a run of small steps. -/
def wholeActions (t : List (ι × StepKind)) : List ι := (t.filter fun e => e.2 = .whole).map Prod.fst

/-- All threads outside, with the programs of `c`. -/
def Conf.small (c : Conf σ ι R) : LConf σ A T ι R := ⟨c.st, fun i => .out (c.pool i)⟩

end

/-! ## What is behind the locks of the store -/

variable {M : Type} {W : Nat}

/-- One field of every entry of a table is behind a lock. -/
def entryLocks {E V : Type} (part : E → V) (setPart : E → V → E) (bare : E → E) :
    Guarded (Slots E) Addr fun _ => V where
  get s a := (s a).map part
  put s a v := match s a with
    | none => s
    | some e => s.set a (setPart e v)
  same s s' := ∀ a, (s a).map bare = (s' a).map bare

/-- The record maps, each behind the mutex of its stored prefix
(`src/prefix_cht/cht.rs` 35-37). -/
def recMaps (M : Type) (W : Nat) : Guarded (PSlots M W) Addr fun _ => Recs M :=
  entryLocks StoredPrefix.recs (fun e v => { e with recs := v }) fun e => { e with recs := [] }

/-- The mui sets of the nodes, each behind an `RwLock`
(`src/tree_bitmap/node_cht.rs` 32-37). -/
def nodeMuis (W : Nat) : Guarded (NSlots W) Addr fun _ => Mui → Bool :=
  entryLocks StoredNode.rbm (fun e v => { e with rbm := v }) fun e =>
    { e with rbm := fun _ => false }

/-- What the lock `a` of the store guards: `inl` a record map, `inr` a mui set. -/
def LockVal (M : Type) : Addr ⊕ Addr → Type
  | .inl _ => Recs M
  | .inr _ => Mui → Bool

/-- The store with the two tables emptied. -/
def Rib.rest (r : Rib M W) : Rib M W :=
  { r with tree := { r.tree with slots := fun _ => none }
           cht := { r.cht with slots := fun _ => none } }

/-- All locks of the store of one address family. -/
def ribLocks (M : Type) (W : Nat) : Guarded (Rib M W) (Addr ⊕ Addr) (LockVal M) where
  get r
    | .inl a => (recMaps M W).get r.cht.slots a
    | .inr a => (nodeMuis W).get r.tree.slots a
  put r
    | .inl a => fun v => { r with cht := { r.cht with slots := (recMaps M W).put r.cht.slots a v } }
    | .inr a => fun v =>
      { r with tree := { r.tree with slots := (nodeMuis W).put r.tree.slots a v } }
  same r r' := r.rest = r'.rest ∧ (recMaps M W).same r.cht.slots r'.cht.slots ∧
    (nodeMuis W).same r.tree.slots r'.tree.slots

/-! ## The critical sections of the record map, access by access -/

/-- `src/prefix_cht/cht.rs` 256-277, `upsert_record` with the lock held. -/
def upsertSteps (r : Record M) : Prog (Recs M) (Option (MMV M × Nat)) := do
  let has ← Prog.read fun v : Recs M => (v.get r.mui).isSome
  if has then
    let old ← Prog.atomic fun v : Recs M => (v.get r.mui, v.insert r.mui r.toMMV)
    match old with
    | some o =>
      let n ← Prog.read fun v : Recs M => v.length
      return some (o, n)
    | none => return none
  else
    let old ← Prog.atomic fun v : Recs M => (v.get r.mui, v.insert r.mui r.toMMV)
    match old with
    | none => return none
    | some _ => Prog.panic

/-- `src/prefix_cht/cht.rs` 234-249, `mark_as_withdrawn_for_mui` and
`mark_as_active_for_mui` with the lock held: `set_route_status`, then
`set_logical_time`. -/
def markSteps (m : Mui) (ltime : LTime) (st : RouteStatus) : Prog (Recs M) Unit := do
  let has ← Prog.read fun v : Recs M => (v.get m).isSome
  if has then
    Prog.atomic fun v : Recs M => ((), v.modify m fun x => { x with status := st })
    Prog.atomic fun v : Recs M => ((), v.modify m fun x => { x with ltime := ltime })
  else return ()

/-- `src/prefix_cht/cht.rs` 80-99, `get_record_for_mui`. -/
def recordSteps (m : Mui) (iw : Bool) : Prog (Recs M) (Option (Record M)) := do
  match ← Prog.read fun v : Recs M => v.get m with
  | none => return none
  | some x => return if iw = true ∨ x.status = .active then some (x.toRecord m) else none

/-- `src/prefix_cht/cht.rs` 111-128, `get_record_for_mui_with_rewritten_status`. -/
def recordRewrittenSteps (m : Mui) (bmin : Mui → Bool) : Prog (Recs M) (Option (Record M)) := do
  match ← Prog.read fun v : Recs M => v.get m with
  | none => return none
  | some x => return some ((rewriteStatus bmin m x).toRecord m)

/-- `HashMap::iter`, one entry at a time from position `i`, `n` entries. -/
def entriesFrom : (i n : Nat) → Prog (Recs M) (List (Mui × MMV M))
  | _, 0 => return []
  | i, n + 1 => do
    let e ← Prog.read fun v : Recs M => v[i]?
    let rest ← entriesFrom (i + 1) n
    return e.toList ++ rest

/-- All entries, one at a time. -/
def entriesSteps : Prog (Recs M) (List (Mui × MMV M)) := do
  let n ← Prog.read fun v : Recs M => v.length
  entriesFrom 0 n

/-- `src/prefix_cht/cht.rs` 101-109, `best_backup` with the lock held. -/
def bestBackupSteps [Meta M] (tbi : Meta.TBI M) : Prog (Recs M) (Option Mui × Option Mui) := do
  let l ← entriesSteps
  return bestBackup l tbi

/-- `src/prefix_cht/cht.rs` 148-179, `get_filtered_records` (with 130-144, 185-201 and
214-231): every way through it is one critical section. -/
def filteredSteps (mui : Option Mui) (iw : Bool) (bmin : Mui → Bool) :
    Prog (Recs M) (Option (List (Record M))) :=
  match mui, iw with
  | some m, false => do
    let r ← recordSteps m false
    return r.map fun r => [r]
  | some m, true => do
    let r ← recordRewrittenSteps m bmin
    return r.map fun r => [r]
  | none, false => do
    let l ← entriesSteps
    return noneIfEmpty (asActiveRecordsNotIn l bmin)
  | none, true => do
    let l ← entriesSteps
    return noneIfEmpty (asRecordsRewritten l bmin)

end Rotonda
