import Verif.Proofs.WeakCount

/-!
# C69: the counters, with their memory orderings
-/

namespace Rotonda.Props

open Spec WeakCount

variable {ι : Type} [DecidableEq ι]

/-- C69: no increment is lost: the newest value of a counter is the number of increments. -/
theorem counter_newest (t : List (Event ι)) (c : Counter) :
    (((Mem.start ι).run t).hist c).getLast? = some (incs t {c} t.length).ncard := by
  rw [← Mem.at_length, (inv_at t _).hist, List.range_succ, List.getLast?_concat]

/-- C69: a load gets no less than the increments that its thread was told of, and no more than
there were. -/
theorem counter_load (t : List (Event ι)) (i : ι) (c : Counter) (n : Nat) :
    (toldIncs t {c} i t.length).ncard ≤ ((Mem.start ι).run t).answer i c n ∧
      ((Mem.start ι).run t).answer i c n ≤ (incs t {c} t.length).ncard := by
  rw [← Mem.at_length, answer_eq]
  have h := place_le (inv_at t t.length) i c n
  exact ⟨(told_le_view i c _).trans h.1, h.2⟩

/-- C69: a load that the thread was told of, by whichever thread, got no more. -/
theorem counter_coherent (t : List (Event ι)) {i j : ι} {c : Counter} {k m : Nat}
    (hk : t[k]? = some (.load j c m)) (ht : Told t i t.length k) (n : Nat) :
    ((Mem.start ι).run (t.take k)).answer j c m ≤ ((Mem.start ι).run t).answer i c n := by
  have h := (told_view ht hk c).trans (place_le (inv_at t t.length) i c n).1
  rw [Mem.at_succ hk] at h
  have ha : ((Mem.start ι).run t).answer i c n = (Mem.at t t.length).place i c n := by
    rw [← Mem.at_length, answer_eq]
  rw [ha]
  refine le_trans (le_of_eq ?_) h
  refine (answer_eq k j c m).trans ?_
  show _ = Function.update (Mem.at t k).view j _ j c
  rw [Function.update_self, Function.update_self]

/-- C69: whoever was told of all increments gets their number. -/
theorem counter_exact (t : List (Event ι)) (i : ι) (c : Counter)
    (h : ∀ k ∈ incs t {c} t.length, Told t i t.length k) (n : Nat) :
    ((Mem.start ι).run t).answer i c n = (incs t {c} t.length).ncard := by
  have e : toldIncs t {c} i t.length = incs t {c} t.length :=
    Set.ext fun k => ⟨fun hk => hk.1, fun hk => ⟨hk, h k hk⟩⟩
  have := counter_load t i c n
  rw [e] at this
  exact le_antisymm this.2 this.1

/-- C69: a sum of loads, each at its own moment between `a` and `b` (`prefixes_count` adds the
counters of all lengths): no less than the increments that the thread was told of when it began,
no more than there were when it ended. -/
theorem counter_sum (t : List (Event ι)) (i : ι) (C : Finset Counter) (a b : Nat)
    (at' : Counter → Nat) (hat : ∀ c ∈ C, a ≤ at' c ∧ at' c ≤ b) (n : Counter → Nat) :
    (toldIncs t C i a).ncard ≤ ∑ c ∈ C, ((Mem.start ι).run (t.take (at' c))).answer i c (n c) ∧
      ∑ c ∈ C, ((Mem.start ι).run (t.take (at' c))).answer i c (n c) ≤ (incs t C b).ncard := by
  have bounds : ∀ c ∈ C, (toldIncs t {c} i a).ncard ≤
      ((Mem.start ι).run (t.take (at' c))).answer i c (n c) ∧
      ((Mem.start ι).run (t.take (at' c))).answer i c (n c) ≤ (incs t {c} b).ncard := by
    intro c hc
    have hp := place_le (inv_at t (at' c)) i c (n c)
    have he := answer_eq (t := t) (at' c) i c (n c)
    have hv := view_mono (t := t) (hat c hc).1 i c
    have ht := told_le_view (t := t) i c a
    have hi : (incs t {c} (at' c)).ncard ≤ (incs t {c} b).ncard :=
      Set.ncard_le_ncard (incs_mono (fun _ h => h) (hat c hc).2) (incs_finite _ _)
    unfold Mem.at at *
    omega
  have fin : ∀ c : Counter, (toldIncs t {c} i a).Finite := fun c =>
    (incs_finite (t := t) {c} a).subset fun _ h => h.1
  constructor
  · refine le_trans ?_ (Finset.sum_le_sum fun c hc => (bounds c hc).1)
    have e : toldIncs t C i a = ⋃ c ∈ C, toldIncs t {c} i a := by
      ext k
      simp only [Set.mem_iUnion]
      constructor
      · rintro ⟨⟨hk, j, c, hj, hc⟩, ht⟩
        exact ⟨c, hc, ⟨hk, j, c, hj, rfl⟩, ht⟩
      · rintro ⟨c, hc, ⟨hk, j, d, hj, hd⟩, ht⟩
        cases hd
        exact ⟨⟨hk, j, c, hj, hc⟩, ht⟩
    rw [e]
    exact Finset.set_ncard_biUnion_le C _
  · refine le_trans (Finset.sum_le_sum fun c hc => (bounds c hc).2) ?_
    clear hat bounds fin
    induction C using Finset.induction_on with
    | empty => simp
    | insert c C hc ih =>
      rw [Finset.sum_insert hc]
      refine le_trans (Nat.add_le_add_left ih _) ?_
      rw [← Set.ncard_union_eq ?_ (incs_finite _ _) (incs_finite _ _)]
      · refine Set.ncard_le_ncard ?_ (incs_finite _ _)
        rintro k (h | h)
        · exact incs_mono (by simp) le_rfl h
        · exact incs_mono (by simp) le_rfl h
      · rw [Set.disjoint_left]
        rintro k ⟨_, j, d, hj, hd⟩ ⟨_, j', d', hj', hd'⟩
        cases hd
        rw [hj] at hj'
        cases hj'
        exact hc hd'

/-- Two threads insert a route each; a third is told of the first only, and may get one. -/
def countTrace : List (Event (Fin 3)) :=
  [.inc 0 .routes, .send 0 7, .inc 1 .routes, .recv 2 7]

example : toldIncs countTrace {.routes} 2 4 ≠ ∅ ∧
    ((Mem.start (Fin 3)).run countTrace).answer 2 .routes 0 = 1 ∧
    ((Mem.start (Fin 3)).run countTrace).answer 2 .routes 5 = 2 := by
  refine ⟨fun h => ?_, by decide, by decide⟩
  have : (0 : Nat) ∈ toldIncs countTrace {.routes} 2 4 :=
    ⟨⟨by decide, 0, .routes, rfl, rfl⟩,
      .sync (s := 7) (a := 3) (b := 1) (j := 0) rfl (by decide) rfl (by decide)
        (.own (.inc 0 .routes) rfl (by decide))⟩
  rw [h] at this
  exact this

/-- The second one tells as well. -/
def countTrace' : List (Event (Fin 3)) :=
  [.inc 0 .routes, .send 0 7, .inc 1 .routes, .send 1 7, .recv 2 7]

/-- Then the number is exact. -/
example (n : Nat) : ((Mem.start (Fin 3)).run countTrace').answer 2 .routes n =
    (incs countTrace' {.routes} 5).ncard := by
  refine counter_exact _ 2 .routes ?_ n
  rintro k ⟨hk, j, c, hj, hc⟩
  have hk' : k < 5 := hk
  have : k = 0 ∨ k = 1 ∨ k = 2 ∨ k = 3 ∨ k = 4 := by omega
  rcases this with rfl | rfl | rfl | rfl | rfl
  · exact .sync (s := 7) (a := 4) (b := 1) (j := 0) rfl (by decide) rfl (by decide)
      (.own (.inc 0 .routes) rfl (by decide))
  · cases hj
  · exact .sync (s := 7) (a := 4) (b := 3) (j := 1) rfl (by decide) rfl (by decide)
      (.own (.inc 1 .routes) rfl (by decide))
  · cases hj
  · cases hj

/-- A second load of a thread, after one that got the newest value. -/
example (n : Nat) : 2 ≤
    ((Mem.start (Fin 3)).run (countTrace ++ [.load 2 .routes 5])).answer 2 .routes n := by
  have h := counter_coherent (countTrace ++ [.load 2 .routes 5]) (i := 2) (j := 2) (k := 4)
    (m := 5) (c := .routes) rfl (.own (.load 2 .routes 5) rfl (by decide)) n
  have e : ((Mem.start (Fin 3)).run ((countTrace ++ [Event.load 2 .routes 5]).take 4)).answer 2
      .routes 5 = 2 := by decide
  rwa [e] at h

/-- Sums over two lengths, the loads at different moments. -/
example (n : Counter → Nat) (t : List (Event (Fin 3))) :
    ∑ c ∈ {.prefixes 8, .prefixes 16}, ((Mem.start (Fin 3)).run
      (t.take (if c = .prefixes 8 then 3 else 5))).answer 1 c (n c) ≤
      (incs t ({.prefixes 8, .prefixes 16} : Finset Counter) 5).ncard :=
  (counter_sum t 1 {.prefixes 8, .prefixes 16} 3 5 (fun c => if c = .prefixes 8 then 3 else 5)
    (fun c _ => by split <;> omega) n).2

end Rotonda.Props
