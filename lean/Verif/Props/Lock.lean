import Verif.Proofs.LockCalls
import Verif.Props.Concurrent

/-!
# C52: locks and retry loops, step by step

A run in which the critical sections and retry loops are done in small steps, with
other threads in between, gives every call the answer it has in a run of whole
actions, in the order in which the locks were taken.
-/

namespace Rotonda
namespace Props
open Prog

/-! ## The sections of the record map -/

section
variable {M : Type} {W : Nat}

theorem run_bind_ok {σ α β : Type} {p : Prog σ α} {k : α → Prog σ β} {s s' : σ} {a : α}
    (h : p.run s = .ok a s') : (p >>= k).run s = (k a).run s' := by
  induction p generalizing s with
  | ret b => cases h; rfl
  | act f g ih => exact ih _ h
  | panic => cases h
  | diverge => cases h

/-- C52: `upsert_record`, access by access, is the model's `upsertRecord`; its assertion
holds. -/
theorem upsert_section (r : Record M) (v : Recs M) :
    (upsertSteps r).run v = .ok (upsertRecord v r).1 (upsertRecord v r).2 := by
  cases h : v.get r.mui with
  | none =>
    simp only [upsertSteps, Prog.read, Prog.atomic, bind, Prog.bind, Prog.run, h,
      Option.isSome, pure, Bool.false_eq_true, if_false, upsertRecord, Option.map]
  | some o =>
    simp only [upsertSteps, Prog.read, Prog.atomic, bind, Prog.bind, Prog.run, h,
      Option.isSome, pure, if_true, upsertRecord, Option.map]

theorem get_none {v : Recs M} {m : Mui} (h : v.get m = none) (f : MMV M → MMV M) :
    v.modify m f = v := by
  induction v with
  | nil => rfl
  | cons kv v ih =>
    obtain ⟨k, x⟩ := kv
    simp only [Recs.get, List.lookup] at h
    by_cases hk : m = k
    · subst hk; simp at h
    · have hb : (m == k) = false := by simpa using hk
      rw [hb] at h
      have := ih h
      simp only [Recs.modify, List.map_cons] at this ⊢
      rw [this, if_neg (fun e => hk e.symm)]

/-- C52: a status change, status first and time second, is the model's `markStatus`. -/
theorem mark_section (m : Mui) (t : LTime) (rs : RouteStatus) (v : Recs M) :
    (markSteps m t rs).run v = .ok () (markStatus v m t rs) := by
  cases h : v.get m with
  | none =>
    simp only [markSteps, Prog.read, bind, Prog.bind, Prog.run, h, Option.isSome, pure,
      markStatus, get_none h]
    rfl
  | some o =>
    simp only [markSteps, Prog.read, Prog.atomic, bind, Prog.bind, Prog.run, h, Option.isSome,
      if_true, markStatus, Outcome.ok.injEq, true_and]
    simp only [Recs.modify, List.map_map]
    refine List.map_congr_left fun kv _ => ?_
    simp only [Function.comp]
    split <;> simp_all

theorem run_entriesFrom (v : Recs M) (n : Nat) : ∀ i, i + n ≤ v.length →
    (entriesFrom i n).run v = .ok ((v.drop i).take n) v := by
  induction n with
  | zero => intro i _; simp [entriesFrom, pure, Prog.run]
  | succ n ih =>
    intro i hi
    have h := ih (i + 1) (by omega)
    have hlt : i < v.length := by omega
    have e : (entriesFrom i (n + 1)).run v =
        ((entriesFrom (i + 1) n) >>= fun rest => pure ((v[i]?).toList ++ rest)).run v := rfl
    rw [e, run_bind_ok h, List.getElem?_eq_getElem hlt, List.drop_eq_getElem_cons hlt]
    rfl

theorem run_entries (v : Recs M) : entriesSteps.run v = .ok v v := by
  have := run_entriesFrom v v.length 0 (by omega)
  rw [List.drop_zero, List.take_length] at this
  exact this

/-- C52: `best_backup`, entry by entry. -/
theorem best_backup_section [Meta M] (tbi : Meta.TBI M) (v : Recs M) :
    (bestBackupSteps tbi).run v = .ok (bestBackup v tbi) v := by
  unfold bestBackupSteps
  rw [run_bind_ok (run_entries v)]
  rfl

/-- C52: `get_record_for_mui`. -/
theorem record_section (m : Mui) (iw : Bool) (v : Recs M) :
    (recordSteps m iw).run v = .ok (getRecordForMui v m iw) v := by
  cases h : v.get m <;>
    simp only [recordSteps, Prog.read, bind, Prog.bind, Prog.run, h, pure, getRecordForMui,
      Option.bind]

theorem record_rewritten_section (m : Mui) (bmin : Mui → Bool) (v : Recs M) :
    (recordRewrittenSteps m bmin).run v = .ok (getRecordForMuiRewritten v m bmin) v := by
  cases h : v.get m <;>
    simp only [recordRewrittenSteps, Prog.read, bind, Prog.bind, Prog.run, h, pure,
      getRecordForMuiRewritten, Option.map]

/-- C52: `get_filtered_records`, entry by entry. -/
theorem filtered_section (mui : Option Mui) (iw : Bool) (bmin : Mui → Bool) (v : Recs M) :
    (filteredSteps mui iw bmin).run v = .ok (getFilteredRecords v mui iw bmin) v := by
  cases mui with
  | some m =>
    cases iw
    · exact run_bind_ok (record_section m false v)
    · exact run_bind_ok (record_rewritten_section m bmin v)
  | none =>
    cases iw
    · exact run_bind_ok (run_entries v)
    · exact run_bind_ok (run_entries v)

end

/-! ## Small steps and whole actions -/

section
variable {σ A : Type} {T : A → Type} {P : Guarded σ A T}
  {ι : Type} [DecidableEq ι] {R : ι → Type}
  {c : Conf σ ι R} {t : List (ι × StepKind)} {l : LConf σ A T ι R}

/-- C52: what a thread holds alone no other thread holds. -/
theorem lock_exclusive (hP : P.Lawful) (h : LRun P c.small t l) {i j : ι} {a : A} {ρ ρ' x}
    {b : Prog (T a) ρ} {b' : Prog (T a) ρ'} {k k'} (hi : l.pool i = .inside true a b k)
    (hj : l.pool j = .inside x a b' k') : i = j :=
  (smallSim_run hP h).alone hi hj

/-- C52: the whole actions behind a run of small steps are a run with the same answers,
and the same state when no lock is held. -/
theorem small_steps_atomic (hP : P.Lawful) (h : LRun P c.small t l) :
    (∀ i p, l.pool i = .out p → (c.exec (wholeActions t)).pool i = p) ∧
      ((∀ a, ¬ l.Held a) → (c.exec (wholeActions t)).st = l.st) := by
  have hs := smallSim_run hP h
  refine ⟨fun i p hi => ?_, fun hh => ?_⟩
  · have := hs.thr i
    rwa [hi] at this
  · refine (hP.ext hs.same fun a => hs.free a ?_).symm
    rintro ⟨j, ρ, b, k, e⟩
    exact hh a ⟨j, ρ, _, b, k, e⟩

/-- C52: the holder of a lock waits for nobody: alone it reaches the release, with all
other threads where they were. -/
theorem holder_releases (hP : P.Lawful) (h : LRun P c.small t l) {i : ι} {a : A} {ρ x}
    {b : Prog (T a) ρ} {k} (hi : l.pool i = .inside x a b k) :
    ∃ n s r, LRun P l (List.replicate n (i, .part)) (l.goto i s (.out (k r))) := by
  have hs := smallSim_run hP h
  have ht := hs.thr i
  rw [hi] at ht
  obtain ⟨v, r, v', hv, hr, -, -, -⟩ := ht
  clear hs h
  have key : ∀ (b : Prog (T a) ρ) (l : LConf σ A T ι R) (v : T a), l.pool i = .inside x a b k →
      P.get l.st a = some v → b.run v = .ok r v' →
      ∃ n s, LRun P l (List.replicate n (i, .part)) (l.goto i s (.out (k r))) := by
    intro b
    induction b with
    | ret r' =>
      intro l v hl hv hr
      cases hr
      exact ⟨1, l.st, .snoc .nil (.unlock hl)⟩
    | act f b ih =>
      intro l v hl hv hr
      have hst := LStep.inner (P := P) hl hv
      obtain ⟨n, s, hrun⟩ := ih (f v).1 _ (f v).2 (LConf.goto_self ..)
        (hP.get_put (f v).2 hv) hr
      have e : (l.goto i (P.put l.st a (f v).2) (.inside x a (b (f v).1) k)).goto i s (.out (k r)) =
          l.goto i s (.out (k r)) := by
        simp [LConf.goto, Function.update_idem]
      rw [e] at hrun
      refine ⟨n + 1, s, ?_⟩
      clear ih e
      have cons : ∀ {t l₁ l₂}, LRun P l₁ t l₂ → LStep P l (i, .part) l₁ →
          LRun P l ((i, .part) :: t) l₂ := by
        intro t l₁ l₂ h hst
        induction h with
        | nil => exact .snoc .nil hst
        | snoc _ s ih => exact .snoc ih s
      exact cons hrun hst
    | panic => intro l v _ _ hr; cases hr
    | diverge => intro l v _ _ hr; cases hr
  obtain ⟨n, s, hn⟩ := key b l v hi hv hr
  exact ⟨n, s, r, hn⟩

/-- The program has something left to do. -/
def Unfinished {α : Type} : Prog σ α → Prop
  | .act .. => True
  | _ => False

/-- What a thread still has to do, in terms of actions. -/
def ThreadActs (P : Guarded σ A T) {α : Type} : Thread σ A T α → Prop
  | .out p => p.Acts P.Act
  | .inside _ _ _ k => ∀ r, (k r).Acts P.Act
  | .trying _ _ _ k => ∀ r, (k r).Acts P.Act

theorem threadActs_step {e : ι × StepKind} {l' : LConf σ A T ι R} (hs : LStep P l e l')
    (h : ∀ i, ThreadActs P (l.pool i)) (j : ι) : ThreadActs P (l'.pool j) := by
  have upd : ∀ (i : ι) (s : σ) (x : Thread σ A T (R i)), ThreadActs P x →
      ThreadActs P ((l.goto i s x).pool j) := by
    intro i s x hx
    by_cases hj : j = i
    · subst hj; rw [LConf.goto_self]; exact hx
    · rw [LConf.goto_other _ _ _ hj]; exact h j
  have was : ∀ {i x}, l.pool i = x → ThreadActs P x := fun {i x} e => e ▸ h i
  cases hs with
  | plain hi hf => exact upd _ _ _ ((was hi).2 _)
  | missing hi hn => exact upd _ _ _ ((was hi).2 _)
  | lock b hi hv hl hb => exact upd _ _ _ fun _ => (was hi).2 _
  | lockRead b hi hv hl hb hw =>
    exact upd _ _ _ fun _ => (was hi).2 _
  | wait hi hl => exact h j
  | inner hi hv => have := was hi; exact upd _ _ _ this
  | unlock hi => exact upd _ _ _ (was hi _)
  | load hi hf => exact upd _ _ _ (was hi).2
  | swap hi hs => exact upd _ _ _ (was hi _)
  | retry hi => have := was hi; exact upd _ _ _ this

/-- C52: no deadlock.  As long as some thread is not done, some thread can do more than
wait. -/
theorem no_deadlock (hP : P.Lawful) (hc : ∀ i, (c.pool i).Acts P.Act) (h : LRun P c.small t l)
    {i : ι} (hi : ∀ p, l.pool i = .out p → Unfinished p) :
    ∃ j e l', LStep P l (j, e) l' ∧ e ≠ .wait := by
  have hs := smallSim_run hP h
  have ha : ∀ i, ThreadActs P (l.pool i) := by
    clear hs hi
    induction h with
    | nil => exact fun i => hc i
    | snoc _ s ih => exact fun j => threadActs_step s ih j
  have inside : ∀ {j a ρ x} {b : Prog (T a) ρ} {k}, l.pool j = .inside x a b k →
      ∃ j e l', LStep P l (j, e) l' ∧ e ≠ .wait := by
    intro j a ρ x b k hj
    have ht := hs.thr j
    rw [hj] at ht
    obtain ⟨v, r, v', hv, hr, -⟩ := ht
    cases b with
    | ret r' => exact ⟨_, _, _, .unlock hj, by simp⟩
    | act f b => exact ⟨_, _, _, .inner hj hv, by simp⟩
    | panic => cases hr
    | diverge => cases hr
  cases hp : l.pool i with
  | inside x a b k => exact inside hp
  | trying view upd seen k => exact ⟨_, _, _, .retry hp, by simp⟩
  | out p =>
    have hu := hi p hp
    cases p with
    | act f k =>
      have := ha i
      rw [hp] at this
      have hf := this.1
      cases hf with
      | neutral hf => exact ⟨_, _, _, .plain hp hf, by simp⟩
      | sect a g =>
        cases hg : P.get l.st a with
        | none => exact ⟨_, _, _, .missing hp hg, by simp⟩
        | some v =>
          by_cases hl : l.Held a
          · obtain ⟨j, ρ, x, b, k, hj⟩ := hl
            exact inside hj
          · exact ⟨_, _, _, .lock (.atomic g) hp hg hl rfl, by simp⟩
    | ret _ => exact hu.elim
    | panic => exact hu.elim
    | diverge => exact hu.elim

/-- C52: nothing is lost the other way: every run of whole actions is a run of small
steps. -/
theorem whole_actions_small (hP : P.Lawful) (hc : ∀ i, (c.pool i).Acts P.Act) (t : List ι) :
    ∃ t', LRun P c.small t' (c.exec t).small := by
  suffices h : (∀ i, ((c.exec t).pool i).Acts P.Act) ∧
      ∃ t', LRun P c.small t' (c.exec t).small from h.2
  induction t using List.reverseRecOn with
  | nil => exact ⟨hc, [], .nil⟩
  | append_singleton t i ih =>
    obtain ⟨hc', t', ht⟩ := ih
    rw [Conf.exec_append, Conf.exec_cons, Conf.exec_nil]
    generalize c.exec t = d at hc' ht
    have goto : ∀ {s x}, (d.small (A := A) (T := T)).goto i s (.out x) =
        (⟨s, Function.update d.pool i x⟩ : Conf σ ι R).small := by
      intro s x
      simp only [LConf.goto, Conf.small, LConf.mk.injEq, true_and]
      funext j
      by_cases hj : j = i
      · subst hj; simp
      · simp [hj]
    cases hp : d.pool i with
    | act f k =>
      rw [Conf.step_act hp]
      have hi := hc' i
      rw [hp] at hi
      refine ⟨fun j => ?_, ?_⟩
      · by_cases hj : j = i
        · subst hj
          have e : (Function.update d.pool j (k (f d.st).1)) j = k (f d.st).1 :=
            Function.update_self ..
          dsimp only
          rw [e]
          exact hi.2 _
        · have e : (Function.update d.pool i (k (f d.st).1)) j = d.pool j :=
            Function.update_of_ne hj ..
          dsimp only
          rw [e]
          exact hc' j
      · have hps : (d.small (A := A) (T := T)).pool i = .out (.act f k) := by
          simp [Conf.small, hp]
        have hf := hi.1
        cases hf with
        | neutral hf =>
          rw [← goto]
          exact ⟨_, .snoc ht (.plain hps hf)⟩
        | sect a g =>
          cases hg : P.get d.st a with
          | none =>
            have e : P.sect a g d.st = (none, d.st) := by simp [Guarded.sect, hg]
            rw [e]
            rw [← goto]
            exact ⟨_, .snoc ht (.missing hps hg)⟩
          | some v =>
            have e : P.sect a g d.st = (some (g v).1, P.put d.st a (g v).2) := by
              simp [Guarded.sect, hg]
            rw [e]
            have hl : ¬ (d.small (A := A) (T := T)).Held a := by
              rintro ⟨j, ρ, x, b, k, h⟩
              cases h
            have h1 := LRun.snoc ht (.lock (.atomic g) hps hg hl rfl)
            have h2 := h1.snoc (.inner (LConf.goto_self ..) hg)
            have h3 := h2.snoc (.unlock (LConf.goto_self ..))
            rw [← goto]
            refine ⟨t' ++ [(i, .whole)] ++ [(i, .part)] ++ [(i, .part)], ?_⟩
            convert h3 using 1
            simp [LConf.goto, Function.update_idem, Conf.small]
    | ret r => rw [Conf.step_ret hp]; exact ⟨hc', t', ht⟩
    | panic => rw [Conf.step_panic hp]; exact ⟨hc', t', ht⟩
    | diverge => rw [Conf.step_diverge hp]; exact ⟨hc', t', ht⟩

end

/-! ## The retry loop on the path selection -/

section
variable {M : Type} {W : Nat}

/-- What `set_ps_outdated` loads. -/
def psSeen (a : Addr) (s : PSlots M W) : Option PsCell := (s a).map StoredPrefix.ps

/-- What it stores, from what it has seen alone. -/
def psTagged (a : Addr) (seen : Option PsCell) (s : PSlots M W) : Option Unit × PSlots M W :=
  match s a, seen with
  | some e, some c => (some (), s.set a { e with ps := { c with tag := true } })
  | _, _ => (none, s)

/-- C52: `set_ps_outdated` is a load and a compare-and-swap, tried again until it
succeeds. -/
theorem set_ps_outdated_retries (a : Addr) :
    (setPsOutdated a : Prog (PSlots M W) Unit) =
      .act (fun s => psTagged a (psSeen a s) s) Prog.ofOption := by
  unfold setPsOutdated accessAt
  simp only [Prog.atomic, bind, Prog.bind]
  congr 1
  funext s
  unfold psTagged psSeen
  cases s a <;> rfl

end

/-! ## The calls of the store -/

section
variable {M : Type} [Meta M] {W : Nat} {ι : Type} [DecidableEq ι] {calls : ι → Call M W}
  {st : Strategy} {F fuel : Nat} {s : Rib M W} {t : List (ι × StepKind)}
  {l : LConf (Rib M W) (Addr ⊕ Addr) (LockVal M) ι fun i => (calls i).Ans}

/-- C52: a call that has returned in a run of small steps has returned the same answer
in the run of whole actions; without a lock held the stores are the same. -/
theorem store_small_steps (h : LRun (ribLocks M W) (start st F fuel s calls).small t l) :
    (∀ i a, l.pool i = .out (.ret a) →
      ((start st F fuel s calls).exec (wholeActions t)).pool i = .ret a) ∧
    ((∀ a, ¬ l.Held a) → ((start st F fuel s calls).exec (wholeActions t)).st = l.st) :=
  have h' := small_steps_atomic ribLocks_lawful h
  ⟨fun i a hi => h'.1 i _ hi, h'.2⟩

/-- C52: a record map, or the mui set of a node, that a thread is changing is in no
other thread's hands. -/
theorem store_lock_exclusive (h : LRun (ribLocks M W) (start st F fuel s calls).small t l)
    {i j : ι} {a : Addr ⊕ Addr} {ρ ρ' x} {b : Prog (LockVal M a) ρ} {b' : Prog (LockVal M a) ρ'}
    {k k'} (hi : l.pool i = .inside true a b k) (hj : l.pool j = .inside x a b' k') : i = j :=
  lock_exclusive ribLocks_lawful h hi hj

/-- C52: the calls never block each other for good. -/
theorem store_no_deadlock (h : LRun (ribLocks M W) (start st F fuel s calls).small t l)
    {i : ι} (hi : ∀ p, l.pool i = .out p → Unfinished p) :
    ∃ j e l', LStep (ribLocks M W) l (j, e) l' ∧ e ≠ .wait :=
  no_deadlock ribLocks_lawful (fun i => call_acts st F fuel (calls i)) h hi

/-- C52: every run of whole actions is a run of small steps. -/
theorem store_whole_actions (t : List ι) :
    ∃ t', LRun (ribLocks M W) (start st F fuel s calls).small t'
      ((start st F fuel s calls).exec t).small :=
  whole_actions_small ribLocks_lawful (fun i => call_acts st F fuel (calls i)) t

/-- C52: no call panics in a run of small steps, and only the two global status changes
can run out of attempts. -/
theorem store_small_no_panic [Fam W] {F0 : Nat} {hist : History M W} (hF : 32 ≤ F)
    (hf : iterFuel W ≤ fuel) (hs : exec st F0 hist = .ok () s)
    (h : LRun (ribLocks M W) (start st F fuel s calls).small t l) (i : ι) :
    l.pool i ≠ .out .panic ∧
      ((∀ m, calls i ≠ .withdraw m) → (∀ m, calls i ≠ .activate m) →
        l.pool i ≠ .out .diverge) := by
  have h1 := (small_steps_atomic ribLocks_lawful h).1 i
  have h2 := concurrent_no_panic (calls := calls) hF hf hs (wholeActions t) i
  exact ⟨fun e => h2.1 (h1 _ e), fun a b e => h2.2 a b (h1 _ e)⟩

end

/-! ## Example: a status change and a query on the same record map -/

namespace LockDemo
open Rotonda.Demo

/-- 10.0.0.0/8 with one record. -/
def slot (x : MMV Md) : StoredPrefix Md 32 :=
  ⟨ten8.id, [(1#32, x)], ⟨0, false, (none, none)⟩, 0⟩

def a0 : Addr := ⟨8, [0]⟩

def mem (x : MMV Md) : PSlots Md 32 := Slots.set (fun _ => none) a0 (slot x)

def before : MMV Md := ⟨⟨[7#8]⟩, 1#64, .active⟩
def after : MMV Md := ⟨⟨[7#8]⟩, 9#64, .withdrawn⟩
/-- Status set, time not yet. -/
def half : MMV Md := ⟨⟨[7#8]⟩, 1#64, .withdrawn⟩

/-- The query, as a critical section. -/
def query : Recs Md → Option (List (Record Md)) × Recs Md :=
  fun v => (getFilteredRecords v none true fun _ => false, v)

/-- The status change, as a critical section. -/
def mark : Recs Md → Unit × Recs Md := fun v => ((), markStatus v 1#32 9#64 .withdrawn)

/-- These are the programs of the model. -/
theorem mark_prog : (markStatusAt a0 1#32 9#64 .withdrawn : Prog (PSlots Md 32) Unit) =
    .act ((recMaps Md 32).sect a0 mark) Prog.ofOption := by
  simp only [markStatusAt, accessAt, Prog.atomic, bind, Prog.bind]
  congr 1
  funext s
  cases h : s a0 <;> simp [Guarded.sect, recMaps, entryLocks, h, mark]

/-- The two at the same time: `true` changes the status, `false` queries. -/
def both : Conf (PSlots Md 32) Bool fun _ => Option (List (Record Md)) :=
  ⟨mem before, fun i =>
    if i then .act ((recMaps Md 32).sect a0 mark) fun _ => .ret none
    else .act ((recMaps Md 32).sect a0 query) fun r => .ret (r.getD none)⟩

/-- The record half changed while the query waits; then the lock is released and the
query gets the new record. -/
example : ∃ l l', LRun (recMaps Md 32) both.small
      [(true, .whole), (true, .part), (true, .part), (false, .wait)] l ∧
    l.st a0 = some (slot half) ∧
    LRun (recMaps Md 32) both.small
      [(true, .whole), (true, .part), (true, .part), (false, .wait), (true, .part), (true, .part),
        (false, .whole), (false, .part), (false, .part), (false, .part)] l' ∧
    l'.pool false = .out (.ret (some [after.toRecord 1#32])) ∧ l'.st a0 = some (slot after) := by
  have free : ∀ a, ¬ (both.small (A := Addr) (T := fun _ => Recs Md)).Held a := by
    rintro a ⟨j, ρ, x, b, k, h⟩; cases h
  have h1 := LRun.snoc (P := recMaps Md 32) .nil (.lock (i := true) (c := both.small)
    (markSteps 1#32 9#64 .withdrawn) (k := fun _ => .ret none) (g := mark) (a := a0)
    (v := [(1#32, before)]) rfl rfl (free _) (mark_section _ _ _ _))
  have h2 := h1.snoc (.inner (i := true) (v := [(1#32, before)]) (LConf.goto_self ..) rfl)
  have h3 := h2.snoc (.inner (i := true) (v := [(1#32, before)]) (LConf.goto_self ..) rfl)
  have h4 := h3.snoc (.wait (i := false) (a := a0) (g := query) (k := fun r => .ret (r.getD none)) rfl
    ⟨true, _, _, _, _, LConf.goto_self ..⟩)
  have h5 := h4.snoc (.inner (i := true) (v := [(1#32, half)]) (LConf.goto_self ..) rfl)
  have h6 := h5.snoc (.unlock (i := true) (LConf.goto_self ..))
  have h7 := h6.snoc (.lock (i := false) (filteredSteps none true fun _ => false)
    (k := fun r => .ret (r.getD none)) (g := query) (a := a0) (v := [(1#32, after)]) rfl rfl (by
      rintro ⟨j, ρ, x, b, k, h⟩; cases j <;> cases h) (filtered_section _ _ _ _))
  have h8 := h7.snoc (.inner (i := false) (v := [(1#32, after)]) (LConf.goto_self ..) rfl)
  have h9 := h8.snoc (.inner (i := false) (v := [(1#32, after)]) (LConf.goto_self ..) rfl)
  have h10 := h9.snoc (.unlock (i := false) (LConf.goto_self ..))
  exact ⟨_, _, h4, rfl, h10, rfl, rfl⟩

/-- The hypotheses of the theorems on the store: an insert and a query at the same time,
the insert done. -/
example : ∃ (s : Rib Md 32) (t : List (Bool × StepKind)) (l : _), exec .memoryOnly 32 one = .ok () s ∧
    LRun (ribLocks Md 32) (two .memoryOnly s (.insert host (rec1 1 2 3) none)
      (.getRecords ten8 none true) []).small t l ∧
    ∃ a : Except StoreError UpsertReport, l.pool true = .out (.ret a) := by
  obtain ⟨s, hs, hc⟩ := after_ok (o := exec .memoryOnly 32 one) (chk := fun s =>
    ansIs (fun _ => true) ((two .memoryOnly s (.insert host (rec1 1 2 3) none)
        (.getRecords ten8 none true) (turns 10 5 200)).pool true)) (by decide +kernel)
  obtain ⟨a, ha, -⟩ := ansIs_iff.1 hc
  have ht : ∃ t, LRun (ribLocks Md 32) (two .memoryOnly s (.insert host (rec1 1 2 3) none)
      (.getRecords ten8 none true) []).small t (two .memoryOnly s (.insert host (rec1 1 2 3) none)
      (.getRecords ten8 none true) (turns 10 5 200)).small := store_whole_actions _
  obtain ⟨t, ht⟩ := ht
  generalize (two .memoryOnly s (.insert host (rec1 1 2 3) none)
      (.getRecords ten8 none true) (turns 10 5 200)) = d at ha ht
  exact ⟨s, t, d.small, hs, ht, a, congrArg Thread.out ha⟩

end LockDemo
end Props
end Rotonda
