import Verif.Proofs.CountSteps
import Verif.Props.ConcCounts
import Verif.Props.StarConc

/-!
# Counts read while other calls run: C59

A count is the sum of up to 129 counters, read one after the other, while other calls may
increment them.  Whatever the state the calls start from, the schedule and the other
calls: the number reported is the count of one moment between the start and the end of the
call.  The in-memory and the total number of one report are each of one moment, but not
of the same one: a report can show fewer prefixes in memory than in total, although there are
never fewer.
-/

namespace Rotonda.Props

open Prog Spec

variable {M : Type} [Meta M] {W : Nat} {ι : Type} [DecidableEq ι] {calls : ι → Call M W}

section
variable {st : Strategy} {F fuel : Nat} {s : Rib M W} (t : List ι) {k n : ℕ}
  (hkn : k ≤ n) (hn : n ≤ t.length) {i : ι}

private theorem ticks_start (j : ℕ) :
    Ticks ((start st F fuel s calls).at t j).st ((start st F fuel s calls).at t (j + 1)).st :=
  Conf.always_at (fun i => ticks_call st F fuel (calls i)) Ticks.rfl' t j

include hkn hn

private theorem rib_reads {x : Call M W} {a : x.Ans}
    (hr : Returned ((start st F fuel s calls).exec (t.take n)) i x a) (hi : i ∉ t.take k) :
    Reads (fun j => ((start st F fuel s calls).at t j).st) (x.prog st F fuel) k a n := by
  obtain ⟨rfl, hp⟩ := hr
  have := Conf.reads (start st F fuel s calls) t hn hp k hkn
  unfold Conf.at at this
  rw [Conf.exec_idle _ hi] at this
  exact this

/-- C59: a prefix count that returned within `n` steps and had not started after `k` reports
as the number of prefixes in memory that of one moment in between, and as the total number
that of one moment in between, not earlier. -/
theorem prefixes_count_of_moment {a : UpsertCounters}
    (hr : Returned ((start st F fuel s calls).exec (t.take n)) i .prefixesCount a)
    (hi : i ∉ t.take k) :
    ∃ j j' c c', k ≤ j ∧ j ≤ j' ∧ j' ≤ n ∧
      ribPrefixesCount.run ((start st F fuel s calls).exec (t.take j)).st =
        .ok c ((start st F fuel s calls).exec (t.take j)).st ∧
      ribPrefixesCount.run ((start st F fuel s calls).exec (t.take j')).st =
        .ok c' ((start st F fuel s calls).exec (t.take j')).st ∧
      a = ⟨c.inMemory, 0, c'.total⟩ := by
  have hT := ticks_start (calls := calls) (st := st) (F := F) (fuel := fuel) (s := s) t
  have h := rib_reads t hkn hn hr hi
  change Reads _ ribPrefixesCount _ _ _ at h
  unfold ribPrefixesCount at h
  obtain ⟨mem, m, h1, h2⟩ := reads_bind.1 h
  obtain ⟨tot, m', h3, h4⟩ := reads_bind.1 h2
  obtain ⟨rfl, hm'⟩ := reads_pure.1 h4
  obtain ⟨l1, u1⟩ := reads_sumCounters (fun j l => ((hT j).mem.1 l).1) _ h1
  obtain ⟨l2, u2⟩ := reads_sumCounters (fun j l => ((hT j).total.1 l).1) _ h3
  obtain ⟨j, a1, a2, a3⟩ := exists_between
    (f := fun j => sumLens ((start st F fuel s calls).at t j).st.cht.prefixes)
    (fun j => ⟨(hT j).mem.sum, (hT j).mem.2⟩) h1.le l1 u1
  obtain ⟨j', b1, b2, b3⟩ := exists_between
    (f := fun j => sumLens ((start st F fuel s calls).at t j).st.prefixes)
    (fun j => ⟨(hT j).total.sum, (hT j).total.2⟩) h3.le l2 u2
  refine ⟨j, j', _, _, a1, a2.trans b1, b2.trans hm', run_ribPrefixesCount _,
    run_ribPrefixesCount _, ?_⟩
  rw [← a3, ← b3]
  rfl

/-- C59: the same for a count of routes. -/
theorem routes_count_of_moment {a : UpsertCounters}
    (hr : Returned ((start st F fuel s calls).exec (t.take n)) i .routesCount a)
    (hi : i ∉ t.take k) :
    ∃ j j' c c', k ≤ j ∧ j ≤ j' ∧ j' ≤ n ∧
      ribRoutesCount.run ((start st F fuel s calls).exec (t.take j)).st =
        .ok c ((start st F fuel s calls).exec (t.take j)).st ∧
      ribRoutesCount.run ((start st F fuel s calls).exec (t.take j')).st =
        .ok c' ((start st F fuel s calls).exec (t.take j')).st ∧
      a = ⟨c.inMemory, 0, c'.total⟩ := by
  have h := rib_reads t hkn hn hr hi
  change Reads _ ribRoutesCount _ _ _ at h
  unfold ribRoutesCount at h
  obtain ⟨mem, m, h1, h2⟩ := reads_bind.1 h
  obtain ⟨tot, m', h3, h4⟩ := reads_bind.1 h2
  obtain ⟨rfl, hm'⟩ := reads_pure.1 h4
  obtain ⟨j, a1, a2, a3⟩ := reads_read.1 h1
  obtain ⟨j', b1, b2, b3⟩ := reads_read.1 h3
  refine ⟨j, j', _, _, a1, a2.trans b1, b2.trans hm', run_ribRoutesCount _,
    run_ribRoutesCount _, ?_⟩
  rw [← a3, ← b3]
  rfl

/-- C59: a count for one length is that of one moment while the call ran. -/
theorem len_count_of_moment {l : ℕ} {a : Except StoreError UpsertCounters}
    (hr : Returned ((start st F fuel s calls).exec (t.take n)) i (.prefixesCountForLen l) a)
    (hi : i ∉ t.take k) :
    ∃ j, k ≤ j ∧ j ≤ n ∧
      (ribPrefixesCountForLen l).run ((start st F fuel s calls).exec (t.take j)).st =
        .ok a ((start st F fuel s calls).exec (t.take j)).st := by
  have h := rib_reads t hkn hn hr hi
  change Reads _ (ribPrefixesCountForLen l) _ _ _ at h
  unfold ribPrefixesCountForLen at h ⊢
  by_cases hl : l ≤ W
  · rw [if_pos hl] at h ⊢
    obtain ⟨j, a1, a2, a3⟩ := reads_read.1 h
    refine ⟨j, a1, a2, ?_⟩
    rw [← a3]
    rfl
  · rw [if_neg hl] at h ⊢
    obtain ⟨rfl, hm⟩ := reads_pure.1 h
    exact ⟨k, Nat.le_refl _, hkn, rfl⟩

/-- C59: the number of nodes reported is that of one moment while the call ran. -/
theorem nodes_count_of_moment {a : ℕ}
    (hr : Returned ((start st F fuel s calls).exec (t.take n)) i .nodesCount a)
    (hi : i ∉ t.take k) :
    ∃ j, k ≤ j ∧ j ≤ n ∧ ribNodesCount.run ((start st F fuel s calls).exec (t.take j)).st =
      .ok a ((start st F fuel s calls).exec (t.take j)).st := by
  have h := rib_reads t hkn hn hr hi
  obtain ⟨j, a1, a2, a3⟩ := reads_read.1 h
  refine ⟨j, a1, a2, ?_⟩
  rw [← a3]
  rfl

end

section
variable {st : Strategy} {F fuel : Nat} {s : Rib M W} (t : List ι)

private theorem total_mono {j j' : ℕ} (h : j ≤ j') {c c' : UpsertCounters}
    (hc : ribPrefixesCount.run ((start st F fuel s calls).exec (t.take j)).st =
        .ok c ((start st F fuel s calls).exec (t.take j)).st)
    (hc' : ribPrefixesCount.run ((start st F fuel s calls).exec (t.take j')).st =
        .ok c' ((start st F fuel s calls).exec (t.take j')).st) :
    c.inMemory ≤ c'.inMemory ∧ c.total ≤ c'.total := by
  have hT := ticks_start (calls := calls) (st := st) (F := F) (fuel := fuel) (s := s) t
  rw [run_ribPrefixesCount] at hc hc'
  obtain rfl := (Outcome.ok.inj hc).1
  obtain rfl := (Outcome.ok.inj hc').1
  exact ⟨up_mono (f := fun j => sumLens ((start st F fuel s calls).at t j).st.cht.prefixes)
      (fun j => (hT j).mem.sum) h,
    up_mono (f := fun j => sumLens ((start st F fuel s calls).at t j).st.prefixes)
      (fun j => (hT j).total.sum) h⟩

/-- C59: of two counts, the one of which starts when the other has returned, the later
reports no less. -/
theorem prefixes_count_grows {n n' : ℕ} (hnn : n ≤ n') (hn : n' ≤ t.length) {i i' : ι}
    {a a' : UpsertCounters}
    (hr : Returned ((start st F fuel s calls).exec (t.take n)) i .prefixesCount a)
    (hi : i' ∉ t.take n)
    (hr' : Returned ((start st F fuel s calls).exec (t.take n')) i' .prefixesCount a') :
    a.inMemory ≤ a'.inMemory ∧ a.total ≤ a'.total := by
  obtain ⟨j1, j2, c1, c2, h1, h2, h3, h4, h5, rfl⟩ :=
    prefixes_count_of_moment t (Nat.zero_le n) (hnn.trans hn) hr (by simp)
  obtain ⟨j1', j2', c1', c2', h1', h2', h3', h4', h5', rfl⟩ :=
    prefixes_count_of_moment t hnn hn hr' hi
  exact ⟨(total_mono t (by omega) h4 h4').1, (total_mono t (by omega) h5 h5').2⟩

variable [hW : Fam W] {F0 : Nat} (hF : 32 ≤ F) (hf : iterFuel W ≤ fuel)
  {h : History M W} (hs : exec st F0 h = .ok () s)
include hF hf hs

/-- C59 and C41: what a prefix count reports while inserts run.  The total is at least the
number of prefixes inserted before the calls started and at most that number plus the number
of inserts of new prefixes that have started when the count returns.  When the inserts
that had started before the count have all succeeded before it, the total is at least
the number of prefixes inserted by then. -/
theorem prefixes_count_during {k n : ℕ} (hkn : k ≤ n) (hn : n ≤ t.length) {i : ι} {a : UpsertCounters}
    (hr : Returned ((start st F fuel s calls).exec (t.take n)) i .prefixesCount a)
    (hi : i ∉ t.take k) :
    (prefixes h).ncard ≤ a.total ∧
    a.total ≤ (prefixes h).ncard + (newInserts h calls (t.take n)).ncard ∧
    (AllInserted ((start st F fuel s calls).exec (t.take k)) (t.take k) →
      (prefixesBy h calls (t.take k)).ncard ≤ a.total) := by
  obtain ⟨j, j', c, c', h1, h2, h3, h4, h5, rfl⟩ := prefixes_count_of_moment t hkn hn hr hi
  obtain ⟨d, e1, e2, -, -⟩ := concurrent_prefix_count_partial (calls := calls) hF hf hs (t.take j')
  obtain ⟨d', f1, -, f2, -⟩ := concurrent_prefix_count_partial (calls := calls) hF hf hs (t.take n)
  obtain ⟨d'', g1, -, -, g2⟩ := concurrent_prefix_count_partial (calls := calls) hF hf hs (t.take k)
  obtain rfl := (Outcome.ok.inj (h5.symm.trans e1)).1
  exact ⟨e2, (total_mono t h3 h5 f1).2.trans f2,
    fun hall => (g2 hall).1.trans (total_mono t (h1.trans h2) g1 h5).2⟩

end

/-! ## The public interface -/

section
variable {calls : ι → StarCall M} {st : Strategy} {F fuel : Nat} {s : Star M} (t : List ι) {k n : ℕ}
  (hkn : k ≤ n) (hn : n ≤ t.length) {i : ι}

private theorem starTicks_start (j : ℕ) : StarTicks ((starStart st F fuel s calls).at t j).st
    ((starStart st F fuel s calls).at t (j + 1)).st :=
  Conf.always_at (fun i => starTicks_call st F fuel (calls i))
    (fun s => .inl ⟨Ticks.rfl' _, rfl⟩) t j

private theorem reads_zoom {σ τ α : Type} {L : Lens σ τ} {S : ℕ → σ} {p : Prog τ α} :
    ∀ {k n : ℕ} {a : α}, Reads S (p.zoom L) k a n → Reads (fun j => L.get (S j)) p k a n := by
  induction p with
  | ret b => exact fun h => h
  | act f g ih => rintro k n a ⟨j, h1, h2⟩; exact ⟨j, h1, ih _ h2⟩
  | panic => exact fun h => h
  | diverge => exact fun h => h

include hkn hn

private theorem star_reads {x : StarCall M} {a : x.Ans}
    (hr : StarReturned ((starStart st F fuel s calls).exec (t.take n)) i x a) (hi : i ∉ t.take k) :
    Reads (fun j => ((starStart st F fuel s calls).at t j).st) (x.prog st F fuel) k a n := by
  obtain ⟨rfl, hp⟩ := hr
  have := Conf.reads (starStart st F fuel s calls) t hn hp k hkn
  unfold Conf.at at this
  rw [Conf.exec_idle _ hi] at this
  exact this

omit hkn hn in
private theorem reads_prefixesCount {S : ℕ → Rib M W} (hT : ∀ j, Ticks (S j) (S (j + 1)))
    {k n : ℕ} {a : UpsertCounters} (h : Reads S ribPrefixesCount k a n) :
    sumLens (S k).cht.prefixes ≤ a.inMemory ∧ a.inMemory ≤ sumLens (S n).cht.prefixes ∧
    a.persisted = 0 ∧ sumLens (S k).prefixes ≤ a.total ∧ a.total ≤ sumLens (S n).prefixes := by
  unfold ribPrefixesCount at h
  obtain ⟨mem, m, h1, h2⟩ := reads_bind.1 h
  obtain ⟨tot, m', h3, h4⟩ := reads_bind.1 h2
  obtain ⟨rfl, hm'⟩ := reads_pure.1 h4
  obtain ⟨l1, u1⟩ := reads_sumCounters (fun j l => ((hT j).mem.1 l).1) _ h1
  obtain ⟨l2, u2⟩ := reads_sumCounters (fun j l => ((hT j).total.1 l).1) _ h3
  have m1 : ∀ {a b : ℕ}, a ≤ b → sumLens (S a).cht.prefixes ≤ sumLens (S b).cht.prefixes :=
    fun hab => up_mono (f := fun j => sumLens (S j).cht.prefixes) (fun j => (hT j).mem.sum) hab
  have m2 : ∀ {a b : ℕ}, a ≤ b → sumLens (S a).prefixes ≤ sumLens (S b).prefixes :=
    fun hab => up_mono (f := fun j => sumLens (S j).prefixes) (fun j => (hT j).total.sum) hab
  have e1 := h1.le
  have e3 := h3.le
  exact ⟨l1, u1.trans (m1 (by omega)), rfl, (m2 e1).trans l2, u2.trans (m2 hm')⟩

omit hkn hn in
private theorem run_starPrefixesCount (s : Star M) : Star.prefixesCount.run s =
    .ok ⟨sumLens s.v4.cht.prefixes + sumLens s.v6.cht.prefixes, 0,
      sumLens s.v4.prefixes + sumLens s.v6.prefixes⟩ s := by
  unfold Star.prefixesCount Star.prefixesCount4 Star.prefixesCount6
  rw [run_bind, run_v4, run_ribPrefixesCount]
  simp only [Outcome.mapState, Outcome.andThen]
  rw [run_bind, run_v6, run_ribPrefixesCount]
  rfl

omit hkn hn in
private theorem star4 {s s' : Star M} (h : StarTicks s s') : Ticks s.v4 s'.v4 := by
  rcases h with ⟨h, -⟩ | ⟨-, h⟩
  · exact h
  · rw [h]; exact Ticks.rfl' _

omit hkn hn in
private theorem star6 {s s' : Star M} (h : StarTicks s s') : Ticks s.v6 s'.v6 := by
  rcases h with ⟨-, h⟩ | ⟨h, -⟩
  · rw [h]; exact Ticks.rfl' _
  · exact h

omit hkn hn in
/-- One thing is counted at a time, in one of the stores. -/
private theorem starTicks_up {s s' : Star M} (h : StarTicks s s') :
    Up (sumLens s.v4.cht.prefixes + sumLens s.v6.cht.prefixes)
      (sumLens s'.v4.cht.prefixes + sumLens s'.v6.cht.prefixes) ∧
    Up (sumLens s.v4.prefixes + sumLens s.v6.prefixes)
      (sumLens s'.v4.prefixes + sumLens s'.v6.prefixes) ∧
    Up (s.v4.routes + s.v6.routes) (s'.v4.routes + s'.v6.routes) ∧
    Up (s.v4.cht.routesCount + s.v6.cht.routesCount)
      (s'.v4.cht.routesCount + s'.v6.cht.routesCount) ∧
    Up (s.v4.tree.nodes + s.v6.tree.nodes) (s'.v4.tree.nodes + s'.v6.tree.nodes) := by
  have key : ∀ {a b c d : ℕ}, Up a b → d = c → Up (a + c) (b + d) ∧ Up (c + a) (d + b) :=
    fun h e => ⟨⟨by have := h.1; omega, by have := h.2; omega⟩, ⟨by have := h.1; omega, by have := h.2; omega⟩⟩
  rcases h with ⟨h, he⟩ | ⟨h, he⟩ <;> rw [he]
  · exact ⟨(key ⟨h.mem.sum, h.mem.2⟩ rfl).1, (key ⟨h.total.sum, h.total.2⟩ rfl).1,
      (key h.routes rfl).1, (key h.memRoutes rfl).1, (key h.nodes rfl).1⟩
  · exact ⟨(key ⟨h.mem.sum, h.mem.2⟩ rfl).2, (key ⟨h.total.sum, h.total.2⟩ rfl).2,
      (key h.routes rfl).2, (key h.memRoutes rfl).2, (key h.nodes rfl).2⟩

/-- C59: a prefix count over both families, which are counted one after the other, reports
as the number of prefixes in memory that of both families at one moment while it ran, and
the same of the total. -/
theorem star_prefixes_count_of_moment {a : UpsertCounters}
    (hr : StarReturned ((starStart st F fuel s calls).exec (t.take n)) i .prefixesCount a)
    (hi : i ∉ t.take k) :
    ∃ j j' c c', k ≤ j ∧ j ≤ n ∧ k ≤ j' ∧ j' ≤ n ∧
      Star.prefixesCount.run ((starStart st F fuel s calls).exec (t.take j)).st =
        .ok c ((starStart st F fuel s calls).exec (t.take j)).st ∧
      Star.prefixesCount.run ((starStart st F fuel s calls).exec (t.take j')).st =
        .ok c' ((starStart st F fuel s calls).exec (t.take j')).st ∧
      a = ⟨c.inMemory, 0, c'.total⟩ := by
  have hT := starTicks_start (calls := calls) (st := st) (F := F) (fuel := fuel) (s := s) t
  have h := star_reads t hkn hn hr hi
  change Reads _ Star.prefixesCount _ _ _ at h
  unfold Star.prefixesCount at h
  obtain ⟨c4, m, h1, h2⟩ := reads_bind.1 h
  obtain ⟨c6, m', h3, h4⟩ := reads_bind.1 h2
  obtain ⟨rfl, hm'⟩ := reads_pure.1 h4
  have e1 := h1.le
  have e3 := h3.le
  obtain ⟨x1, x2, x3, x4, x5⟩ := reads_prefixesCount (fun j => star4 (hT j))
    (reads_zoom (h1.mono (Nat.le_refl k) (show m ≤ n by omega)))
  obtain ⟨y1, y2, y3, y4, y5⟩ := reads_prefixesCount (fun j => star6 (hT j))
    (reads_zoom (h3.mono e1 hm'))
  obtain ⟨j, a1, a2, a3⟩ := exists_between
    (f := fun j => sumLens ((starStart st F fuel s calls).at t j).st.v4.cht.prefixes +
      sumLens ((starStart st F fuel s calls).at t j).st.v6.cht.prefixes)
    (fun j => (starTicks_up (hT j)).1) hkn (Nat.add_le_add x1 y1) (Nat.add_le_add x2 y2)
  obtain ⟨j', b1, b2, b3⟩ := exists_between
    (f := fun j => sumLens ((starStart st F fuel s calls).at t j).st.v4.prefixes +
      sumLens ((starStart st F fuel s calls).at t j).st.v6.prefixes)
    (fun j => (starTicks_up (hT j)).2.1) hkn (Nat.add_le_add x4 y4) (Nat.add_le_add x5 y5)
  refine ⟨j, j', _, _, a1, a2, b1, b2, run_starPrefixesCount _, run_starPrefixesCount _, ?_⟩
  change (⟨_, _, _⟩ : UpsertCounters) = ⟨_, _, _⟩
  rw [x3, y3]
  exact congrArg₂ (fun x y => (⟨x, 0, y⟩ : UpsertCounters)) a3.symm b3.symm

/-- C59: the same for a count of routes over both families. -/
theorem star_routes_count_of_moment {a : UpsertCounters}
    (hr : StarReturned ((starStart st F fuel s calls).exec (t.take n)) i .routesCount a)
    (hi : i ∉ t.take k) :
    ∃ j j' c c', k ≤ j ∧ j ≤ n ∧ k ≤ j' ∧ j' ≤ n ∧
      Star.routesCount.run ((starStart st F fuel s calls).exec (t.take j)).st =
        .ok c ((starStart st F fuel s calls).exec (t.take j)).st ∧
      Star.routesCount.run ((starStart st F fuel s calls).exec (t.take j')).st =
        .ok c' ((starStart st F fuel s calls).exec (t.take j')).st ∧
      a = ⟨c.inMemory, 0, c'.total⟩ := by
  have hT := starTicks_start (calls := calls) (st := st) (F := F) (fuel := fuel) (s := s) t
  have h := star_reads t hkn hn hr hi
  change Reads _ Star.routesCount _ _ _ at h
  unfold Star.routesCount at h
  obtain ⟨c4, m, h1, h2⟩ := reads_bind.1 h
  obtain ⟨c6, m', h3, h4⟩ := reads_bind.1 h2
  obtain ⟨rfl, hm'⟩ := reads_pure.1 h4
  have h1 := reads_zoom h1
  have h3 := reads_zoom h3
  unfold ribRoutesCount at h1 h3
  obtain ⟨p, m1, p1, p2⟩ := reads_bind.1 h1
  obtain ⟨q, m2, p3, p4⟩ := reads_bind.1 p2
  obtain ⟨rfl, hm2⟩ := reads_pure.1 p4
  obtain ⟨p', m1', p1', p2'⟩ := reads_bind.1 h3
  obtain ⟨q', m2', p3', p4'⟩ := reads_bind.1 p2'
  obtain ⟨rfl, hm2'⟩ := reads_pure.1 p4'
  obtain ⟨j1, d1, d2, rfl⟩ := reads_read.1 p1
  obtain ⟨j2, d3, d4, rfl⟩ := reads_read.1 p3
  obtain ⟨j3, d5, d6, rfl⟩ := reads_read.1 p1'
  obtain ⟨j4, d7, d8, rfl⟩ := reads_read.1 p3'
  have u1 := fun {a b : ℕ} => up_mono (f := fun j =>
    ((starStart st F fuel s calls).at t j).st.v4.cht.routesCount)
    (fun j => (star4 (hT j)).memRoutes.1) (a := a) (b := b)
  have u2 := fun {a b : ℕ} => up_mono (f := fun j => ((starStart st F fuel s calls).at t j).st.v4.routes)
    (fun j => (star4 (hT j)).routes.1) (a := a) (b := b)
  have u3 := fun {a b : ℕ} => up_mono (f := fun j =>
    ((starStart st F fuel s calls).at t j).st.v6.cht.routesCount)
    (fun j => (star6 (hT j)).memRoutes.1) (a := a) (b := b)
  have u4 := fun {a b : ℕ} => up_mono (f := fun j => ((starStart st F fuel s calls).at t j).st.v6.routes)
    (fun j => (star6 (hT j)).routes.1) (a := a) (b := b)
  obtain ⟨j, a1, a2, a3⟩ := exists_between
    (f := fun j => ((starStart st F fuel s calls).at t j).st.v4.cht.routesCount +
      ((starStart st F fuel s calls).at t j).st.v6.cht.routesCount)
    (fun j => (starTicks_up (hT j)).2.2.2.1) hkn
    (Nat.add_le_add (u1 d1) (u3 (show k ≤ j3 by omega)))
    (Nat.add_le_add (u1 (show j1 ≤ n by omega)) (u3 (show j3 ≤ n by omega)))
  obtain ⟨j', b1, b2, b3⟩ := exists_between
    (f := fun j => ((starStart st F fuel s calls).at t j).st.v4.routes +
      ((starStart st F fuel s calls).at t j).st.v6.routes)
    (fun j => (starTicks_up (hT j)).2.2.1) hkn
    (Nat.add_le_add (u2 (show k ≤ j2 by omega)) (u4 (show k ≤ j4 by omega)))
    (Nat.add_le_add (u2 (show j2 ≤ n by omega)) (u4 (show j4 ≤ n by omega)))
  refine ⟨j, j', _, _, a1, a2, b1, b2, rfl, rfl, ?_⟩
  exact congrArg₂ (fun x y => (⟨x, 0, y⟩ : UpsertCounters)) a3.symm b3.symm

/-- C59: the number of nodes reported over both families is that of one moment while the
call ran. -/
theorem star_nodes_count_of_moment {a : ℕ}
    (hr : StarReturned ((starStart st F fuel s calls).exec (t.take n)) i .nodesCount a)
    (hi : i ∉ t.take k) :
    ∃ j, k ≤ j ∧ j ≤ n ∧ Star.nodesCount.run ((starStart st F fuel s calls).exec (t.take j)).st =
      .ok a ((starStart st F fuel s calls).exec (t.take j)).st := by
  have hT := starTicks_start (calls := calls) (st := st) (F := F) (fuel := fuel) (s := s) t
  have h := star_reads t hkn hn hr hi
  change Reads _ Star.nodesCount _ _ _ at h
  unfold Star.nodesCount at h
  obtain ⟨c4, m, h1, h2⟩ := reads_bind.1 h
  obtain ⟨c6, m', h3, h4⟩ := reads_bind.1 h2
  obtain ⟨rfl, hm'⟩ := reads_pure.1 h4
  obtain ⟨j1, d1, d2, rfl⟩ := reads_read.1 (reads_zoom h1)
  obtain ⟨j2, d3, d4, rfl⟩ := reads_read.1 (reads_zoom h3)
  have u1 := fun {a b : ℕ} => up_mono (f := fun j => ((starStart st F fuel s calls).at t j).st.v4.tree.nodes)
    (fun j => (star4 (hT j)).nodes.1) (a := a) (b := b)
  have u2 := fun {a b : ℕ} => up_mono (f := fun j => ((starStart st F fuel s calls).at t j).st.v6.tree.nodes)
    (fun j => (star6 (hT j)).nodes.1) (a := a) (b := b)
  obtain ⟨j, a1, a2, a3⟩ := exists_between
    (f := fun j => ((starStart st F fuel s calls).at t j).st.v4.tree.nodes +
      ((starStart st F fuel s calls).at t j).st.v6.tree.nodes)
    (fun j => (starTicks_up (hT j)).2.2.2.2) hkn
    (Nat.add_le_add (u1 d1) (u2 (show k ≤ j2 by omega)))
    (Nat.add_le_add (u1 (show j1 ≤ n by omega)) (u2 (show j2 ≤ n by omega)))
  exact ⟨j, a1, a2, congrArg (fun x => Outcome.ok x _) a3⟩

end

/-! ## Counterexample and examples -/

section
open Rotonda.Demo

/-- A test of all moments of a run. -/
private def along {σ ι : Type} [DecidableEq ι] {A : ι → Type} (chk : σ → Bool) (c : Conf σ ι A) :
    List ι → Bool
  | [] => chk c.st
  | i :: t => chk c.st && along chk (c.step i) t

private theorem along_iff {σ ι : Type} [DecidableEq ι] {A : ι → Type} {chk : σ → Bool} {t : List ι} :
    ∀ {c : Conf σ ι A}, along chk c t = true → ∀ j, chk (c.exec (t.take j)).st = true := by
  induction t with
  | nil => intro c h j; rw [List.take_nil]; exact h
  | cons i t ih =>
    intro c h j
    obtain ⟨h1, h2⟩ := Bool.and_eq_true_iff.1 h
    cases j with
    | zero => exact h1
    | succ j => exact ih h2 j

/-- The counters in memory, then an insert, then the other counters. -/
private def countTurns : List Bool :=
  List.replicate 130 false ++ List.replicate 60 true ++ List.replicate 140 false

private abbrev newRoute : Call Md 32 := .insert ten16 (rec1 2 2 3) none

/-- The two numbers of a report need not be those of the same moment: a count beside one
insert reports one prefix in memory and two in total, although at every moment there
are at least as many in memory as in total. -/
theorem prefixes_count_no_snapshot :
    ∃ s, exec .memoryOnly 32 one = .ok () s ∧
      Returned (calls := fun i => if i then newRoute else .prefixesCount)
        (two .memoryOnly s newRoute .prefixesCount countTurns) false .prefixesCount
        (⟨1, 0, 2⟩ : UpsertCounters) ∧
      ∀ j, ∃ c, ribPrefixesCount.run
          (two .memoryOnly s newRoute .prefixesCount (countTurns.take j)).st =
          .ok c (two .memoryOnly s newRoute .prefixesCount (countTurns.take j)).st ∧
        c.total ≤ c.inMemory := by
  obtain ⟨s, hs, hc⟩ := after_ok (o := exec .memoryOnly 32 one) (chk := fun s =>
    ansIs (fun a : UpsertCounters => decide (a = ⟨1, 0, 2⟩))
      ((two .memoryOnly s newRoute .prefixesCount countTurns).pool false) &&
    along (fun s : Rib Md 32 => decide (sumLens s.prefixes ≤ sumLens s.cht.prefixes))
      (start .memoryOnly 32 (iterFuel 32) s (fun i => if i then newRoute else .prefixesCount))
      countTurns) (by decide +kernel)
  obtain ⟨h1, h2⟩ := Bool.and_eq_true_iff.1 hc
  obtain ⟨a, ha, hPa⟩ := ansIs_iff.1 h1
  obtain rfl := of_decide_eq_true hPa
  exact ⟨s, hs, ⟨rfl, ha⟩, fun j => ⟨_, run_ribPrefixesCount _,
    of_decide_eq_true (along_iff h2 j)⟩⟩

/-- The moments of that report. -/
example : ∃ s, exec .memoryOnly 32 one = .ok () s ∧ ∃ j j' c c', j ≤ j' ∧ j' ≤ countTurns.length ∧
    ribPrefixesCount.run (two .memoryOnly s newRoute .prefixesCount (countTurns.take j)).st =
      .ok c (two .memoryOnly s newRoute .prefixesCount (countTurns.take j)).st ∧
    ribPrefixesCount.run (two .memoryOnly s newRoute .prefixesCount (countTurns.take j')).st =
      .ok c' (two .memoryOnly s newRoute .prefixesCount (countTurns.take j')).st ∧
    c.inMemory = 1 ∧ c'.total = 2 := by
  obtain ⟨s, hs, hr, -⟩ := prefixes_count_no_snapshot
  obtain ⟨j, j', c, c', -, h2, h3, h4, h5, h6⟩ := prefixes_count_of_moment (F := 32)
    (fuel := iterFuel 32) (calls := fun i => if i then newRoute else .prefixesCount)
    countTurns (Nat.zero_le _) (Nat.le_refl _) (i := false) (a := ⟨1, 0, 2⟩)
    (by rw [List.take_length]; exact hr) (by simp)
  injection h6 with e1 _ e2
  exact ⟨s, hs, j, j', c, c', h2, h3, h4, h5, e1.symm, e2.symm⟩

private abbrev after : List Bool := turns 60 262 0

/-- The insert has returned before the count starts. -/
private theorem count_after :
    ∃ s, exec .memoryOnly 32 one = .ok () s ∧
      (∃ rep, Returned (calls := fun i => if i then newRoute else .prefixesCount)
        (two .memoryOnly s newRoute .prefixesCount (after.take 60)) true newRoute (.ok rep)) ∧
      Returned (calls := fun i => if i then newRoute else .prefixesCount)
        (two .memoryOnly s newRoute .prefixesCount after) false .prefixesCount
        (⟨2, 0, 2⟩ : UpsertCounters) := by
  obtain ⟨s, hs, hc⟩ := after_ok (o := exec .memoryOnly 32 one) (chk := fun s =>
    ansIs (fun a : Except StoreError UpsertReport => match a with
      | .ok _ => true
      | .error _ => false)
      ((two .memoryOnly s newRoute .prefixesCount (after.take 60)).pool true) &&
    ansIs (fun a : UpsertCounters => decide (a = ⟨2, 0, 2⟩))
      ((two .memoryOnly s newRoute .prefixesCount after).pool false)) (by decide +kernel)
  obtain ⟨h1, h2⟩ := Bool.and_eq_true_iff.1 hc
  obtain ⟨a, ha, hPa⟩ := ansIs_iff.1 h1
  obtain ⟨b, hb, hPb⟩ := ansIs_iff.1 h2
  obtain rfl := of_decide_eq_true hPb
  refine ⟨s, hs, ?_, rfl, hb⟩
  split at hPa
  · exact ⟨_, rfl, ha⟩
  · cases hPa

/-- Its prefix is counted. -/
example : ∃ s, exec .memoryOnly 32 one = .ok () s ∧
    ∃ a, Returned (calls := fun i => if i then newRoute else .prefixesCount)
        (two .memoryOnly s newRoute .prefixesCount after) false .prefixesCount a ∧
      (prefixesBy one (fun i => if i then newRoute else .prefixesCount) (after.take 60)).ncard ≤
        UpsertCounters.total a := by
  obtain ⟨s, hs, ⟨rep, h1⟩, h2⟩ := count_after
  refine ⟨s, hs, _, h2, (prefixes_count_during (F := 32) (fuel := iterFuel 32)
    (calls := fun i => if i then newRoute else .prefixesCount) after (Nat.le_refl _) (Nat.le_refl _)
    hs (k := 60) (n := after.length) (by decide +kernel) (Nat.le_refl _) (i := false)
    (by rw [List.take_length]; exact h2) (by decide +kernel)).2.2 ?_⟩
  rintro i - p r tbi hi
  cases i with
  | true => cases hi; exact ⟨rep, h1⟩
  | false => cases hi

/-- Two counts, one after the other, with an insert in between. -/
private abbrev countTwice : Fin 3 → Call Md 32
  | 0 => .prefixesCount
  | 1 => newRoute
  | 2 => .prefixesCount

private def twiceTurns : List (Fin 3) :=
  List.replicate 262 0 ++ List.replicate 60 1 ++ List.replicate 262 2

example : ∃ s, exec .memoryOnly 32 one = .ok () s ∧ ∃ a a' : UpsertCounters,
    Returned ((start .memoryOnly 32 (iterFuel 32) s countTwice).exec (twiceTurns.take 262)) 0
      .prefixesCount a ∧ 2 ∉ twiceTurns.take 262 ∧
    Returned ((start .memoryOnly 32 (iterFuel 32) s countTwice).exec (twiceTurns.take 584)) 2
      .prefixesCount a' ∧ a.total = 1 ∧ a'.total = 2 := by
  obtain ⟨s, hs, hc⟩ := after_ok (o := exec .memoryOnly 32 one) (chk := fun s =>
    ansIs (fun a : UpsertCounters => decide (a = ⟨1, 0, 1⟩))
      (((start .memoryOnly 32 (iterFuel 32) s countTwice).exec (twiceTurns.take 262)).pool 0) &&
    ansIs (fun a : UpsertCounters => decide (a = ⟨2, 0, 2⟩))
      (((start .memoryOnly 32 (iterFuel 32) s countTwice).exec (twiceTurns.take 584)).pool 2))
    (by decide +kernel)
  obtain ⟨h1, h2⟩ := Bool.and_eq_true_iff.1 hc
  obtain ⟨a, ha, hPa⟩ := ansIs_iff.1 h1
  obtain ⟨b, hb, hPb⟩ := ansIs_iff.1 h2
  obtain rfl := of_decide_eq_true hPa
  obtain rfl := of_decide_eq_true hPb
  exact ⟨s, hs, _, _, ⟨rfl, ha⟩, by decide +kernel, ⟨rfl, hb⟩, rfl, rfl⟩

/-- The other counts beside an insert. -/
private abbrev otherCounts : Fin 4 → Call Md 32
  | 0 => newRoute
  | 1 => .routesCount
  | 2 => .prefixesCountForLen 16
  | 3 => .nodesCount

private def otherTurns : List (Fin 4) :=
  List.replicate 12 0 ++ [1, 3] ++ List.replicate 60 0 ++ [1, 1, 2, 2, 3]

example : ∃ s, exec .memoryOnly 32 one = .ok () s ∧
    Returned ((start .memoryOnly 32 (iterFuel 32) s otherCounts).exec otherTurns) 1
      .routesCount (⟨0, 0, 2⟩ : UpsertCounters) ∧
    Returned ((start .memoryOnly 32 (iterFuel 32) s otherCounts).exec otherTurns) 2
      (.prefixesCountForLen 16) (.ok (⟨0, 0, 1⟩ : UpsertCounters)) ∧
    ∃ a : ℕ, Returned ((start .memoryOnly 32 (iterFuel 32) s otherCounts).exec otherTurns) 3
      .nodesCount a := by
  obtain ⟨s, hs, hc⟩ := after_ok (o := exec .memoryOnly 32 one) (chk := fun s =>
    ansIs (fun a : UpsertCounters => decide (a = ⟨0, 0, 2⟩))
      (((start .memoryOnly 32 (iterFuel 32) s otherCounts).exec otherTurns).pool 1) &&
    (ansIs (fun a : Except StoreError UpsertCounters => match a with
      | .ok a => decide (a = ⟨0, 0, 1⟩)
      | .error _ => false)
      (((start .memoryOnly 32 (iterFuel 32) s otherCounts).exec otherTurns).pool 2) &&
    ansIs (fun _ : ℕ => true)
      (((start .memoryOnly 32 (iterFuel 32) s otherCounts).exec otherTurns).pool 3)))
    (by decide +kernel)
  obtain ⟨h1, h2⟩ := Bool.and_eq_true_iff.1 hc
  obtain ⟨h2, h3⟩ := Bool.and_eq_true_iff.1 h2
  obtain ⟨a, ha, hPa⟩ := ansIs_iff.1 h1
  obtain ⟨b, hb, hPb⟩ := ansIs_iff.1 h2
  obtain ⟨c, hc, -⟩ := ansIs_iff.1 h3
  obtain rfl := of_decide_eq_true hPa
  refine ⟨s, hs, ⟨rfl, ha⟩, ?_, c, rfl, hc⟩
  split at hPb
  · obtain rfl := of_decide_eq_true hPb; exact ⟨rfl, hb⟩
  · cases hPb

/-- Inserts of both families beside counts over both. -/
private abbrev starCounts : Fin 5 → StarCall Md
  | 0 => .insert (.v4 ten16) (rec1 2 2 3) none
  | 1 => .insert (.v6 doc) (rec1 2 2 3) none
  | 2 => .prefixesCount
  | 3 => .routesCount
  | 4 => .nodesCount

private def starCountTurns : List (Fin 5) :=
  (List.replicate 10 [0, 1, 2, 3]).flatten ++ [4] ++ List.replicate 80 0 ++
    List.replicate 80 1 ++ List.replicate 330 2 ++ [4] ++ List.replicate 460 2

private theorem starChk {o : Outcome Unit (Star Md)} {chk : Star Md → Bool}
    (h : (match o with
      | .ok _ s => chk s
      | _ => false) = true) : ∃ s, o = .ok () s ∧ chk s = true := by
  cases o with
  | ok a s => exact ⟨s, rfl, h⟩
  | panic => cases h
  | diverge => cases h

example : ∃ s, starExec .memoryOnly 32 mixed = .ok () s ∧
    (∃ a : UpsertCounters, StarReturned ((starStart .memoryOnly 32 (iterFuel 128) s starCounts).exec
      starCountTurns) 2 .prefixesCount a) ∧
    (∃ a : UpsertCounters, StarReturned ((starStart .memoryOnly 32 (iterFuel 128) s starCounts).exec
      starCountTurns) 3 .routesCount a) ∧
    ∃ a : ℕ, StarReturned ((starStart .memoryOnly 32 (iterFuel 128) s starCounts).exec
      starCountTurns) 4 .nodesCount a := by
  obtain ⟨s, hs, hc⟩ := starChk (o := starExec .memoryOnly 32 mixed) (chk := fun s =>
    let c := (starStart .memoryOnly 32 (iterFuel 128) s starCounts).exec starCountTurns
    ansIs (fun _ => true) (c.pool 2) && ansIs (fun _ => true) (c.pool 3) &&
      ansIs (fun _ => true) (c.pool 4)) (by decide +kernel)
  simp only [Bool.and_eq_true] at hc
  obtain ⟨⟨h0, h1⟩, h2⟩ := hc
  obtain ⟨a, ha, -⟩ := ansIs_iff.1 h0
  obtain ⟨b, hb, -⟩ := ansIs_iff.1 h1
  obtain ⟨c, hc, -⟩ := ansIs_iff.1 h2
  exact ⟨s, hs, ⟨a, rfl, ha⟩, ⟨b, rfl, hb⟩, ⟨c, rfl, hc⟩⟩

end

end Rotonda.Props
