import Verif.Proofs.WeakTree
import Verif.Props.Weak

/-!
# C62: the bits of the tree under weak memory

Threads make calls on the nodes of one length, whenever they like, and synchronise with each
other outside of the store as they like (`Event`).  `ot` are the memory orderings of the
table that holds the nodes (see `Verif.Props.Weak` for the ones of the code, which race),
`ob` those of the bit arrays of the nodes; `codeBitOrders` are the ones of the code.  Nothing
below asks for anything of `ob`.
-/

namespace Rotonda.Props

open Rotonda.Weak

section
variable {ι : Type} [DecidableEq ι] {T : Table} {levels : Nat} {ot ob : Orders}

/-- With the orderings that the table needs there is no data race, whatever the orderings of
the bit arrays. -/
theorem tree_race_free (hT : T.Ok levels) (hl : ot.load.acquires = true) (hok : ot.ok.releases = true)
    (herr : ot.err.acquires = true) {t : List (Event ι)} (ht : OwnCalls T t) :
    ((treeStart ι).run ot ob T levels t).mach.races = [] := by
  obtain ⟨_, h⟩ := own_safe (ot := ot) (ob := ob) hT ht
  exact h.mach.2.2.2 ⟨hl, hok, herr⟩

/-- No thread uses a word that is not allocated, and no call panics. -/
theorem tree_no_panic (hT : T.Ok levels) {t : List (Event ι)} (ht : OwnCalls T t) :
    ((treeStart ι).run ot ob T levels t).mach.NoDangling ∧
      ∀ i, ((treeStart ι).run ot ob T levels t).mach.pool i ≠ .panic := by
  obtain ⟨role, h⟩ := own_safe (ot := ot) (ob := ob) hT ht
  refine ⟨Safe.noDangling ⟨role, h.mach⟩, fun i hp => ?_⟩
  have := h.mach.2.1 i
  rw [hp] at this
  exact this

/-- A call ends within a number of its own steps that depends on the table alone, whatever the
other threads do. -/
theorem tree_wait_free (hT : T.Ok levels) {t u : List (Event ι)} {i : ι} {c : TreeCall}
    (ht : OwnCalls T (t ++ [.begin i c] ++ u)) (hidle : ((treeStart ι).run ot ob T levels t).Idle i)
    (hno : ∀ d, Event.begin i d ∉ u) (hn : 11 * levels + 35 ≤ steps i u) :
    ((treeStart ι).run ot ob T levels (t ++ [.begin i c] ++ u)).Idle i := by
  have hp := (tree_no_panic (ot := ot) (ob := ob) hT ht).2 i
  rw [run_append, run_append] at hp ⊢
  change (Sys.run ot ob T levels (Sys.act ot ob T levels ((treeStart ι).run ot ob T levels t) (.begin i c)) u).Idle i
  change Mach.pool (Sys.mach (Sys.run ot ob T levels
    (Sys.act ot ob T levels ((treeStart ι).run ot ob T levels t) (.begin i c)) u)) i ≠ .panic at hp
  have hw : within ((Sys.act ot ob T levels ((treeStart ι).run ot ob T levels t) (.begin i c)).mach.pool i)
      (11 * levels + 35) := by
    rw [act_begin hidle c]
    simp only [Function.update_self]
    exact within_call T c
  have := run_within (ot := ot) (ob := ob) (T := T) (levels := levels) u hw hno
  rw [Nat.sub_eq_zero_of_le hn] at this
  exact (within_zero this).resolve_right hp

/-- A bit is reported only if a call to set it was begun. -/
theorem tree_bit_true (hT : T.Ok levels) {t : List (Event ι)} (ht : OwnCalls T t) {i : ι} {arr : Arr} {x b : Nat}
    (h : ((treeStart ι).run ot ob T levels t).Answers i (.test arr x b) (some 1)) :
    ∃ j, Event.begin j (.set arr x b) ∈ t := by
  obtain ⟨role, hs⟩ := own_safe (ot := ot) (ob := ob) hT ht
  have := hs.mach.2.1 i
  rw [show Mach.pool _ i = _ from h] at this
  rcases this.2.2 _ _ rfl with h0 | ⟨_, h1⟩
  · cases h0
  · obtain ⟨j, arr', ha, hj⟩ := h1.just this.1
    have : arr' = arr := by cases arr <;> cases arr' <;> simp_all [Arr.word]
    exact ⟨j, this ▸ hj⟩

/-- Once a call to set a bit has ended, or the bit was reported, everyone who comes to know of
it by synchronisation outside of the store gets to see the bit: a test is answered with yes,
and another call to set it reports it as set already. -/
theorem tree_bit_seen (hT : T.Ok levels) {t1 t2 t3 : List (Event ι)} {i j : ι} {arr : Arr} {x b : Nat}
    {c1 c : TreeCall} {a1 a : Word} (ht : OwnCalls T (t1 ++ t2 ++ [.begin i c] ++ t3))
    (h1 : ((treeStart ι).run ot ob T levels t1).Answers j c1 a1) (hs : SaysSet arr x b c1 a1)
    (hcar : Carries t2 (.inl j) (.inl i)) (hidle : ((treeStart ι).run ot ob T levels (t1 ++ t2)).Idle i)
    (hc : c = .test arr x b ∨ c = .set arr x b) (hno : ∀ d, Event.begin i d ∉ t3)
    (h : ((treeStart ι).run ot ob T levels (t1 ++ t2 ++ [.begin i c] ++ t3)).Answers i c a) : a = some 1 := by
  obtain ⟨w, k, hf, hhas, hp⟩ := own_prior (ot := ot) (ob := ob) hT
    (fact := fun w k => Has (withBits T (t1 ++ t2 ++ [.begin i c] ++ t3)) arr x b w k)
    (fun w w' k k' hf hw hk hh => hh.mono hf hw hk) ht h1
    (fun w k hf hp => by
      rcases hs with rfl | ⟨rfl, rfl⟩
      · exact hp.2
      · rcases hp with hp | hp
        · cases hp
        · exact hp.2) hcar hidle hno h
  rcases hc with rfl | rfl
  · exact hp hhas
  · exact hp hhas

/-- The same for the nodes themselves: a node that was found or made is found by everyone who
comes to know of it. -/
theorem tree_node_seen (hT : T.Ok levels) {t1 t2 t3 : List (Event ι)} {i j : ι} {d1 d : TableCall} {p : Nat} {a : Word}
    (ht : OwnCalls T (t1 ++ t2 ++ [.begin i (.table d)] ++ t3))
    (h1 : ((treeStart ι).run ot ob T levels t1).Answers j (.table d1) (some p)) (hid : d1.id = d.id)
    (hcar : Carries t2 (.inl j) (.inl i)) (hidle : ((treeStart ι).run ot ob T levels (t1 ++ t2)).Idle i)
    (hno : ∀ d, Event.begin i d ∉ t3)
    (h : ((treeStart ι).run ot ob T levels (t1 ++ t2 ++ [.begin i (.table d)] ++ t3)).Answers i (.table d) a) :
    a = some p := by
  obtain ⟨w, k, hf, hfound, hp⟩ := own_prior (ot := ot) (ob := ob) hT
    (fact := fun w k => Found (withBits T (t1 ++ t2 ++ [.begin i (.table d)] ++ t3)) d.id w (sees k) 0 rootLoc p)
    (fun w w' k k' hf hw hk hh => hh.more hf hw hk) ht h1
    (fun w k hf hp => by
      rw [← hid]
      match d1, hp with
      | .find x, hp => exact hp p rfl
      | .findOrInit x, ⟨q, hq, hp⟩ => cases hq; exact hp) hcar hidle hno h
  exact hp p hfound

end

/-! ## Examples -/

/-- The node 10.10.0.0/16. -/
def exNode : Nat := 0x0a0a0000

/-- One thread sets a bit. -/
def exSet : List (Event Bool) := .begin true (.set .pfx exNode 5) :: List.replicate 20 (.step true 0)

/-- It tells another thread. -/
def exTell : List (Event Bool) := [.send true 7, .recv false 7]

/-- The other thread reads as old writes as it may. -/
def exRead : List (Event Bool) := List.replicate 20 (.step false 0)

def goodOrders : Orders := ⟨.acquire, .release, .acquire⟩

def exRun (t : List (Event Bool)) : Sys Bool :=
  (treeStart Bool).run goodOrders codeBitOrders (lenTable 32 16) (lenLevels 16) t

/-- The result of a finished call. -/
def callResult : WProg (Option (TreeCall × Word)) → Option (Option (TreeCall × Word))
  | .ret a => some a
  | _ => none

theorem answers_of {S : Sys Bool} {i : Bool} {c : TreeCall} {a : Word}
    (h : callResult (S.mach.pool i) = some (some (c, a))) : S.Answers i c a := by
  unfold Sys.Answers
  cases hp : S.mach.pool i with
  | ret r => rw [hp] at h; simp only [callResult, Option.some.injEq] at h; rw [h]
  | _ => rw [hp] at h; cases h

theorem exNode_id : (lenTable 32 16).ids exNode := weakCalls_ids true (.findOrInit 0x0a0a0000) (by decide)

theorem ex_own (c : TreeCall) (hc : c.id = exNode) (hb : ∀ arr x b, c = .set arr x b → b < 32) (u : List (Event Bool))
    (hu : u = [] ∨ u = exTell) : OwnCalls (lenTable 32 16) (exSet ++ u ++ [.begin false c] ++ exRead) := by
  intro i d hd
  simp only [exSet, exRead, List.mem_append, List.mem_cons, List.mem_replicate, List.not_mem_nil, or_false] at hd
  rcases hd with ((hd | hd) | hd) | hd
  · rcases hd with hd | hd
    · cases hd
      exact ⟨exNode_id, fun arr x b h => by cases h; decide⟩
    · cases hd.2
  · rcases hu with rfl | rfl <;> simp [exTell] at hd
  · cases hd
    exact ⟨hc ▸ exNode_id, hb⟩
  · cases hd.2

theorem exSet_done : (exRun exSet).Answers true (.set .pfx exNode 5) (some 0) := answers_of (by decide +kernel)

theorem exTell_carries : Carries exTell (.inl true) (.inl false) :=
  Carries.recv (t := [.send true 7]) false (Carries.send (t := []) 7 (.nil _))

theorem exTell_idle : (exRun (exSet ++ exTell)).Idle false := ⟨none, rfl⟩

theorem exTest_done : (exRun (exSet ++ exTell ++ [.begin false (.test .pfx exNode 5)] ++ exRead)).Answers false
    (.test .pfx exNode 5) (some 1) := answers_of (by decide +kernel)

theorem exRead_quiet : ∀ d, Event.begin false d ∉ exRead := fun d hd => by cases (List.mem_replicate.1 hd).2

/-- A test that is not synchronised with the call that set the bit may miss it, although that
call has ended: the condition of `tree_bit_seen` is needed. -/
theorem tree_bit_stale : (exRun exSet).Answers true (.set .pfx exNode 5) (some 0) ∧
    (exRun (exSet ++ [.begin false (.test .pfx exNode 5)] ++ exRead)).Answers false (.test .pfx exNode 5) (some 0) :=
  ⟨exSet_done, answers_of (by decide +kernel)⟩

/-- One thread marks a child, then a prefix, in the same node. -/
def exBoth : List (Event Bool) :=
  .begin true (.set .ptr exNode 5) :: List.replicate 20 (.step true 0) ++
    .begin true (.set .pfx exNode 6) :: List.replicate 20 (.step true 0)

/-- Another sees the prefix; it looks for the child afterwards. -/
def exBackwards : List (Event Bool) :=
  exBoth ++ .begin false (.test .pfx exNode 6) :: List.replicate 20 (.step false 1)

/-- With the orderings of the code the bits of a node may be seen in another order than they
were set: the prefix is seen, but not the child that was marked before it.  With orderings that
acquire and release it would be seen. -/
theorem tree_bits_reordered :
    (exRun exBackwards).Answers false (.test .pfx exNode 6) (some 1) ∧
    (exRun (exBackwards ++ .begin false (.test .ptr exNode 5) :: exRead)).Answers false
      (.test .ptr exNode 5) (some 0) ∧
    callResult (((treeStart Bool).run goodOrders ⟨.acquire, .acqRel, .acquire⟩ (lenTable 32 16)
      (lenLevels 16) (exBackwards ++ .begin false (.test .ptr exNode 5) :: exRead)).mach.pool false) =
      some (some (.test .ptr exNode 5, some 1)) :=
  ⟨answers_of (by decide +kernel), answers_of (by decide +kernel), by decide +kernel⟩

/-- With the orderings of the code the table races, as in `Verif.Props.Weak`: the second thread
gets at the node made by the first without knowing that it is complete. -/
theorem tree_code_race : ∃ t : List (Event Bool), OwnCalls (lenTable 32 16) t ∧
    ((treeStart Bool).run codeOrders codeBitOrders (lenTable 32 16) (lenLevels 16) t).mach.races ≠ [] :=
  ⟨exSet ++ [] ++ [.begin false (.test .pfx exNode 5)] ++ List.replicate 20 (.step false 1),
    (by
      intro i d hd
      simp only [exSet, List.mem_append, List.mem_cons, List.mem_replicate, List.not_mem_nil, or_false] at hd
      rcases hd with ((hd | hd) | hd) | hd
      · cases hd
        exact ⟨exNode_id, fun arr x b h => by cases h; decide⟩
      · cases hd.2
      · cases hd
        exact ⟨exNode_id, fun arr x b h => by cases h⟩
      · cases hd.2),
    by decide +kernel⟩

/-- Two threads set different bits of one node at the same time: neither is lost.  Then a
thread that hears of both sees both. -/
example : let t : List (Event Bool) := [.begin true (.set .pfx exNode 5), .begin false (.set .pfx exNode 6)] ++
      (List.replicate 20 [Event.step true 0, .step false 0]).flatten ++ exTell ++
      .begin false (.test .pfx exNode 5) :: exRead
    (exRun t).Answers false (.test .pfx exNode 5) (some 1) := answers_of (by decide +kernel)

example : (exRun (exSet ++ exTell ++ [.begin false (.test .pfx exNode 5)] ++ exRead)).mach.races = [] :=
  tree_race_free (lenTable_ok 32 16) rfl rfl rfl (ex_own _ rfl (by intro _ _ _ h; cases h) _ (.inr rfl))

example : (exRun (exSet ++ exTell ++ [.begin false (.test .pfx exNode 5)] ++ exRead)).mach.NoDangling :=
  (tree_no_panic (lenTable_ok 32 16) (ex_own _ rfl (by intro _ _ _ h; cases h) _ (.inr rfl))).1

example : ∃ j, Event.begin j (.set .pfx exNode 5) ∈
    exSet ++ exTell ++ [.begin false (.test .pfx exNode 5)] ++ exRead :=
  tree_bit_true (lenTable_ok 32 16) (ex_own _ rfl (by intro _ _ _ h; cases h) _ (.inr rfl)) exTest_done

example : (some 1 : Word) = some 1 :=
  tree_bit_seen (lenTable_ok 32 16) (ex_own _ rfl (by intro _ _ _ h; cases h) _ (.inr rfl)) exSet_done (.inl rfl)
    exTell_carries exTell_idle (.inl rfl) exRead_quiet exTest_done

/-- The node is made by the first thread, and found by the second. -/
example : (some 18 : Word) = some 18 :=
  tree_node_seen (T := lenTable 32 16) (levels := lenLevels 16) (ot := goodOrders) (ob := codeBitOrders)
    (t1 := .begin true (.table (.findOrInit exNode)) :: List.replicate 20 (.step true 0)) (t2 := exTell) (t3 := exRead)
    (i := false) (j := true) (d1 := .findOrInit exNode) (d := .find exNode) (p := 18) (a := some 18)
    (lenTable_ok 32 16) (by
      intro i d hd
      simp only [exTell, exRead, List.mem_append, List.mem_cons, List.mem_replicate, List.not_mem_nil, or_false] at hd
      rcases hd with (((hd | hd) | hd | hd) | hd) | hd
      · cases hd; exact ⟨exNode_id, fun arr x b h => by cases h⟩
      · cases hd.2
      · cases hd
      · cases hd
      · cases hd; exact ⟨exNode_id, fun arr x b h => by cases h⟩
      · cases hd.2)
    (answers_of (by decide +kernel)) rfl exTell_carries ⟨none, rfl⟩ exRead_quiet (answers_of (by decide +kernel))

/-- 11 steps for each of the 4 levels and 35 for the bit array are enough. -/
example : ((treeStart Bool).run goodOrders codeBitOrders (lenTable 32 16) (lenLevels 16)
    ([] ++ [.begin true (.set .ptr exNode 3)] ++ List.replicate 79 (.step true 0))).Idle true :=
  tree_wait_free (lenTable_ok 32 16) (by
      intro i d hd
      simp only [List.nil_append, List.mem_append, List.mem_cons, List.mem_replicate, List.not_mem_nil, or_false] at hd
      rcases hd with hd | hd
      · cases hd; exact ⟨exNode_id, fun arr x b h => by cases h; decide⟩
      · cases hd.2)
    ⟨none, rfl⟩ (fun d hd => by cases (List.mem_replicate.1 hd).2) (by decide +kernel)

end Rotonda.Props
