import Verif.Proofs.Loader

/-!
# What the loader of MRT files counts: C84
-/

namespace Rotonda.Props

open Prog Spec

variable {M : Type} [Meta M]

/-! ## Reports -/

theorem counterUpdate_ok {c : LoadCounters} {rep : UpsertReport} (h : rep.muiNew = true) :
    counterUpdate c rep = some ⟨c.uniquePrefixes + (if rep.prefixNew then 1 else 0), c.uniqueRoutes + 1,
      c.persistedRoutes, c.totalRoutes + 1⟩ := by
  unfold counterUpdate
  cases hp : rep.prefixNew <;> rw [h] <;> rfl

/-- The counters of a list of reports all of which say that the peer is new. -/
theorem fold_new {c : LoadCounters} {R : List (Route M)} {as : List (Except StoreError UpsertReport)}
    (hl : as.length ≤ R.length) (h : ∀ a ∈ as, ∃ rep, a = .ok rep ∧ rep.muiNew = true) :
    ∃ c', loadFold (fun c _ rep => counterUpdate c rep) c R as = some c' ∧
      c'.uniqueRoutes = c.uniqueRoutes + as.length ∧ c'.totalRoutes = c.totalRoutes + as.length ∧
      c'.uniquePrefixes ≤ c.uniquePrefixes + as.length ∧ c'.persistedRoutes = c.persistedRoutes := by
  induction as generalizing c R with
  | nil => exact ⟨c, by unfold loadFold; rfl, rfl, rfl, Nat.le_refl _, rfl⟩
  | cons a as ih =>
    obtain ⟨rep, rfl, hn⟩ := h a (List.mem_cons_self ..)
    cases R with
    | nil => simp at hl
    | cons x R =>
      obtain ⟨c', h1, h2, h3, h4, h5⟩ := ih (c := ⟨c.uniquePrefixes + (if rep.prefixNew then 1 else 0),
        c.uniqueRoutes + 1, c.persistedRoutes, c.totalRoutes + 1⟩) (R := R) (by simpa using hl)
        (fun a ha => h a (List.mem_cons_of_mem _ ha))
      refine ⟨c', ?_, ?_, ?_, ?_, h5⟩
      · unfold loadFold
        rw [counterUpdate_ok hn]
        exact h1
      · rw [h2]; simp only [List.length_cons]; omega
      · rw [h3]; simp only [List.length_cons]; omega
      · simp only [List.length_cons]
        have : (if rep.prefixNew then 1 else 0) ≤ 1 := by split <;> omega
        dsimp only at h4
        omega

theorem fold_total {c c' : LoadCounters} {R : List (Route M)}
    {as : List (Except StoreError UpsertReport)}
    (h : loadFold (fun c _ rep => counterUpdate c rep) c R as = some c') :
    c'.totalRoutes = c.totalRoutes + as.length ∧
      c'.persistedRoutes = c.persistedRoutes ∧
      ∃ d e, d ≤ e ∧ e ≤ as.length ∧ c'.uniquePrefixes = c.uniquePrefixes + d ∧
        c'.uniqueRoutes = c.uniqueRoutes + e := by
  induction as generalizing c R with
  | nil =>
    unfold loadFold at h
    injection h with h
    subst h
    exact ⟨rfl, rfl, 0, 0, Nat.le_refl _, Nat.le_refl _, rfl, rfl⟩
  | cons a as ih =>
    cases a with
    | error e => unfold loadFold at h; cases h
    | ok rep =>
      cases R with
      | nil => unfold loadFold at h; cases h
      | cons x R =>
        unfold loadFold at h
        cases hu : counterUpdate c rep with
        | none => simp only [hu] at h; cases h
        | some c1 =>
          simp only [hu] at h
          obtain ⟨h1, h2, d, e, h3, h4, h5, h6⟩ := ih h
          unfold counterUpdate at hu
          have hlen : (Except.ok rep :: as).length = as.length + 1 := rfl
          rw [hlen]
          cases hp : rep.prefixNew <;> cases hm : rep.muiNew <;> rw [hp, hm] at hu <;> cases hu
          · exact ⟨by rw [h1]; dsimp only; omega, h2, d, e, h3, by omega, h5, h6⟩
          · exact ⟨by rw [h1]; dsimp only; omega, h2, d, e + 1, by omega, by omega, h5, by
              rw [h6]; dsimp only; omega⟩
          · exact ⟨by rw [h1]; dsimp only; omega, h2, d + 1, e + 1, by omega, by omega, by
              rw [h5]; dsimp only; omega, by rw [h6]; dsimp only; omega⟩

theorem mtUpdate_total {st : Strategy} {c c' : LoadCounters × List AnyPrefix} {x : Route M}
    {rep : UpsertReport} (h : mtUpdate st c x rep = some c') :
    c'.1.totalRoutes = c.1.totalRoutes + 1 ∧ ∃ qs, c'.2 = c.2 ++ qs ∧ qs.Sublist [x.p] ∧
      c'.1.persistedRoutes = c.1.persistedRoutes + qs.length ∧ (st = .memoryOnly → qs = []) ∧
      (rep.muiNew = true → c'.1.uniqueRoutes = c.1.uniqueRoutes + 1 ∧
        qs = if st = .writeAhead ∨ st = .persistOnly then [x.p] else []) := by
  unfold mtUpdate reportCounters at h
  have e1 : [x.p].Sublist [x.p] := List.Sublist.refl _
  have e0 : ([] : List AnyPrefix).Sublist [x.p] := List.nil_sublist _
  cases hp : rep.prefixNew <;> cases hm : rep.muiNew <;> cases st <;> rw [hp, hm] at h <;> cases h
  all_goals
    first
    | exact ⟨rfl, [x.p], rfl, e1, rfl, fun h => (by cases h), fun h => ⟨rfl, by simp⟩⟩
    | exact ⟨rfl, [x.p], rfl, e1, rfl, fun h => (by cases h), fun h => (by cases h)⟩
    | exact ⟨rfl, [], (List.append_nil _).symm, e0, rfl, fun _ => rfl, fun h => ⟨rfl, by simp⟩⟩
    | exact ⟨rfl, [], (List.append_nil _).symm, e0, rfl, fun _ => rfl, fun h => (by cases h)⟩

theorem fold_mt {st : Strategy} {c c' : LoadCounters × List AnyPrefix} {R : List (Route M)}
    {as : List (Except StoreError UpsertReport)} (h : loadFold (mtUpdate st) c R as = some c') :
    c'.1.totalRoutes = c.1.totalRoutes + as.length ∧
      ∃ qs, c'.2 = c.2 ++ qs ∧ qs.Sublist ((R.take as.length).map (·.p)) ∧
        c'.1.persistedRoutes = c.1.persistedRoutes + qs.length ∧ (st = .memoryOnly → qs = []) ∧
        ((∀ a ∈ as, ∃ rep, a = .ok rep ∧ rep.muiNew = true) →
          c'.1.uniqueRoutes = c.1.uniqueRoutes + as.length ∧
          qs = if st = .writeAhead ∨ st = .persistOnly then (R.take as.length).map (·.p) else []) := by
  induction as generalizing c R with
  | nil =>
    unfold loadFold at h
    injection h with h
    subst h
    exact ⟨rfl, [], (List.append_nil _).symm, List.nil_sublist _, rfl, fun _ => rfl, fun _ => ⟨rfl, by simp⟩⟩
  | cons a as ih =>
    cases a with
    | error e => unfold loadFold at h; cases h
    | ok rep =>
      cases R with
      | nil => unfold loadFold at h; cases h
      | cons x R =>
        unfold loadFold at h
        cases hu : mtUpdate st c x rep with
        | none => simp only [hu] at h; cases h
        | some c1 =>
          simp only [hu] at h
          obtain ⟨a1, q1, a2, a3, a4, a5, a6⟩ := mtUpdate_total hu
          obtain ⟨b1, q2, b2, b3, b4, b5, b6⟩ := ih h
          refine ⟨by rw [b1, a1, List.length_cons]; omega, q1 ++ q2, by rw [b2, a2, List.append_assoc],
            ?_, by rw [b4, a4, List.length_append]; omega, fun e => by rw [a5 e, b5 e]; rfl, fun hall => ?_⟩
          · rw [List.length_cons, List.take_succ_cons, List.map_cons]
            exact a3.append b3
          · obtain ⟨rep', he, hn⟩ := hall _ (List.mem_cons_self ..)
            injection he with he
            subst he
            obtain ⟨c1', c2⟩ := a6 hn
            obtain ⟨d1, d2⟩ := b6 fun a ha => hall a (List.mem_cons_of_mem _ ha)
            refine ⟨by rw [d1, c1', List.length_cons]; omega, ?_⟩
            rw [c2, d2, List.length_cons, List.take_succ_cons, List.map_cons]
            split <;> rfl

theorem fold_mt_new {st : Strategy} {c : LoadCounters × List AnyPrefix} {R : List (Route M)}
    {as : List (Except StoreError UpsertReport)} (hl : as.length ≤ R.length)
    (h : ∀ a ∈ as, ∃ rep, a = .ok rep ∧ rep.muiNew = true) : loadFold (mtUpdate st) c R as ≠ none := by
  induction as generalizing c R with
  | nil => unfold loadFold; exact fun h => (by cases h)
  | cons a as ih =>
    obtain ⟨rep, rfl, hn⟩ := h a (List.mem_cons_self ..)
    cases R with
    | nil => simp at hl
    | cons x R =>
      unfold loadFold
      have hu : ∃ c1, mtUpdate st c x rep = some c1 := by
        unfold mtUpdate reportCounters
        cases hp : rep.prefixNew <;> rw [hn] <;> cases st <;> exact ⟨_, rfl⟩
      obtain ⟨c1, hu⟩ := hu
      rw [hu]
      exact ih (by simpa using hl) fun a ha => h a (List.mem_cons_of_mem _ ha)

/-! ## The number calculated for the display -/

/-- C84: the calculated number is what is missing from the unique routes to all of them, and there is
none exactly when there are more unique ones. -/
theorem loader_calculated (c : LoadCounters) :
    (∀ n, c.calculated = some n ↔ n + c.uniqueRoutes = c.totalRoutes) ∧
      (c.calculated = none ↔ c.totalRoutes < c.uniqueRoutes) := by
  unfold LoadCounters.calculated
  constructor
  · intro n
    split
    · rw [Option.some.injEq]; omega
    · constructor
      · intro h; cases h
      · omega
  · split
    · constructor
      · intro h; cases h
      · omega
    · exact ⟨fun _ => by omega, fun _ => rfl⟩

private theorem foldl_calculated {cs : List LoadCounters} {ns : List Nat} {c : LoadCounters} {n : Nat}
    (hc : c.calculated = some n) (h : cs.map LoadCounters.calculated = ns.map some) :
    (cs.foldl .add c).calculated = some (n + ns.sum) := by
  induction cs generalizing ns c n with
  | nil =>
    cases ns with
    | nil => exact hc
    | cons => cases h
  | cons d cs ih =>
    cases ns with
    | nil => cases h
    | cons k ns =>
      injection h with h1 h2
      have := ih (c := c.add d) (n := n + k) (((loader_calculated _).1 _).2 ?_) h2
      · rw [List.sum_cons, ← Nat.add_assoc]
        exact this
      · have a := ((loader_calculated _).1 _).1 hc
        have b := ((loader_calculated _).1 _).1 h1
        show n + k + (c.uniqueRoutes + d.uniqueRoutes) = c.totalRoutes + d.totalRoutes
        omega

/-- C84: when no task's number underflows, that of all tasks together does not and is the sum. -/
theorem loader_calculated_sum {cs : List LoadCounters} {ns : List Nat}
    (h : cs.map LoadCounters.calculated = ns.map some) :
    (reduceCounters cs).calculated = some ns.sum := by
  have := foldl_calculated (c := .zero) (n := 0) rfl h
  rwa [Nat.zero_add] at this

example : (reduceCounters [⟨1, 2, 0, 5⟩, ⟨0, 1, 1, 1⟩]).calculated = some 3 ∧
    LoadCounters.calculated ⟨1, 2, 0, 1⟩ = none ∧ LoadCounters.calculated ⟨2, 1, 0, 1⟩ = some 0 :=
  ⟨loader_calculated_sum (ns := [3, 0]) rfl, rfl, rfl⟩
/-! ## Tasks at the same time -/

section tasks
variable {ι : Type} [DecidableEq ι] {st : Strategy} {F0 F fuel : ℕ} (hF : 32 ≤ F)
  (hf : iterFuel 128 ≤ fuel) {h : List (StarOp M)} {s : Star M} (hs : starExec st F0 h = .ok () s)
  (ltime : LTime) (rs : RouteStatus) (R : ι → List (Route M))
include hF hf hs

/-- C84: whatever the tasks insert at the same time, when a task ends it has counted every route it
was given, the unique ones are among them, and the number calculated for the display is the rest. -/
theorem loader_total (t : List ι) {i : ι} {c : LoadCounters}
    (hc : ((clients (StarCall.prog st F fuel) s fun i => stLoad ltime rs (R i)).exec t).pool i = .ret c) :
    c.totalRoutes = (R i).length ∧ c.uniquePrefixes ≤ c.uniqueRoutes ∧ c.uniqueRoutes ≤ (R i).length ∧
      c.persistedRoutes = 0 ∧ c.calculated = some ((R i).length - c.uniqueRoutes) := by
  obtain ⟨as, -, -, h1, -, -⟩ := load_tasks hF hf hs R LoadCounters.zero t i
  obtain ⟨h2, h3⟩ := h1 c hc
  obtain ⟨h4, h5, d, e, h6, h7, h8, h9⟩ := fold_total h3
  have z : ∀ n, 0 + n = n := Nat.zero_add
  have e1 : c.totalRoutes = as.length := h4.trans (z _)
  have e2 : c.uniquePrefixes = d := h8.trans (z _)
  have e3 : c.uniqueRoutes = e := h9.trans (z _)
  refine ⟨by omega, by omega, by omega, h5, ?_⟩
  unfold LoadCounters.calculated
  rw [if_pos (by omega), e1, h2]

/-- C84: tasks with routes that are all different, and new, do not panic; each ends with a fair
schedule; and each counts every route as unique.  Partial: tasks with the same route can panic
(`loader_panics`). -/
theorem loader_tasks_partial (hno : NoneTwice h R) (i : ι) :
    (∀ t, ((clients (StarCall.prog st F fuel) s fun i => stLoad ltime rs (R i)).exec t).pool i ≠ .panic) ∧
    (∀ sched : ℕ → ι, (∀ n, ∃ m, n ≤ m ∧ sched m = i) → ∃ n c,
      ((clients (StarCall.prog st F fuel) s fun i => stLoad ltime rs (R i)).exec
        ((List.range n).map sched)).pool i = .ret c) ∧
    (∀ t c, ((clients (StarCall.prog st F fuel) s fun i => stLoad ltime rs (R i)).exec t).pool i = .ret c →
      c.uniqueRoutes = (R i).length ∧ c.calculated = some 0) := by
  have hnp : ∀ t, ((clients (StarCall.prog st F fuel) s fun i => stLoad ltime rs (R i)).exec t).pool i ≠
      .panic := by
    intro t hp
    obtain ⟨as, hl, hall, -, h1, -⟩ := load_tasks hF hf hs R LoadCounters.zero t i
    obtain ⟨c', hc', -⟩ := fold_new (c := .zero) hl fun a ha =>
      let ⟨rep, e, hm⟩ := hall a ha
      ⟨rep, e, hm hno⟩
    have := h1 hp
    rw [hc'] at this
    cases this
  refine ⟨hnp, ?_, ?_⟩
  · intro sched hfair
    obtain ⟨n, hn⟩ := Conf.ends (clients (StarCall.prog st F fuel) s fun i => stLoad ltime rs (R i))
      sched i hfair
    refine ⟨n, ?_⟩
    obtain ⟨as, -, -, -, -, hd⟩ := load_tasks (ltime := ltime) (rs := rs)
      (upd := fun c _ rep => counterUpdate c rep) hF hf hs R LoadCounters.zero ((List.range n).map sched) i
    cases hq : ((clients (StarCall.prog st F fuel) s fun i => stLoad ltime rs (R i)).exec
      ((List.range n).map sched)).pool i with
    | ret a => exact ⟨a, rfl⟩
    | act f k => rw [hq] at hn; exact hn.elim
    | panic => exact absurd hq (hnp _)
    | diverge => exact absurd hq hd
  · intro t c hc
    obtain ⟨as, hl, hall, h1, -, -⟩ := load_tasks hF hf hs R LoadCounters.zero t i
    obtain ⟨h2, h3⟩ := h1 c hc
    obtain ⟨c', hc', h4, -⟩ := fold_new (c := .zero) hl fun a ha =>
      let ⟨rep, e, hm⟩ := hall a ha
      ⟨rep, e, hm hno⟩
    rw [h3] at hc'
    cases hc'
    have hu : c.uniqueRoutes = (R i).length := by rw [h4, h2]; exact Nat.zero_add _
    have := (loader_total hF hf hs ltime rs R t hc).2.2.2.2
    rw [hu, Nat.sub_self] at this
    exact ⟨hu, this⟩

/-- C84, for the tasks of `mt_parse_and_insert_table`: every route is counted, and the persisted ones
are as many as the prefixes listed for the check, which are prefixes of the table; nothing is listed
when nothing is persisted. -/
theorem loader_mt_total (t : List ι) {i : ι} {c : LoadCounters} {ps : List AnyPrefix}
    (hc : ((clients (StarCall.prog st F fuel) s fun i => mtLoad st ltime (R i)).exec t).pool i =
      .ret (c, ps)) :
    c.totalRoutes = (R i).length ∧ c.persistedRoutes = ps.length ∧ ps.Sublist ((R i).map (·.p)) ∧
      (st = .memoryOnly → ps = []) := by
  obtain ⟨as, -, -, h1, -, -⟩ := load_tasks hF hf hs R (LoadCounters.zero, []) t i
  obtain ⟨h2, h3⟩ := h1 _ hc
  obtain ⟨h4, qs, h5, h6, h7, h8, -⟩ := fold_mt h3
  rw [h2, List.take_length] at h6
  have h5 : ps = qs := h5
  have h7 : c.persistedRoutes = 0 + qs.length := h7
  have h4 : c.totalRoutes = 0 + as.length := h4
  subst h5
  exact ⟨by omega, by omega, h6, h8⟩

/-- C84, for the tasks of `mt_parse_and_insert_table` with routes that are all different, and new:
none panics, each ends with a fair schedule and counts every route as unique.  With
`WriteAhead` and `PersistOnly` all prefixes of the table are listed for the check, with
`PersistHistory` none is.  Partial as above. -/
theorem loader_mt_tasks_partial (hno : NoneTwice h R) (i : ι) :
    (∀ t, ((clients (StarCall.prog st F fuel) s fun i => mtLoad st ltime (R i)).exec t).pool i ≠ .panic) ∧
    (∀ sched : ℕ → ι, (∀ n, ∃ m, n ≤ m ∧ sched m = i) → ∃ n c,
      ((clients (StarCall.prog st F fuel) s fun i => mtLoad st ltime (R i)).exec
        ((List.range n).map sched)).pool i = .ret c) ∧
    (∀ t c ps, ((clients (StarCall.prog st F fuel) s fun i => mtLoad st ltime (R i)).exec t).pool i =
        .ret (c, ps) →
      c.uniqueRoutes = (R i).length ∧
        ps = if st = .writeAhead ∨ st = .persistOnly then (R i).map (·.p) else []) := by
  have hnp : ∀ t, ((clients (StarCall.prog st F fuel) s fun i => mtLoad st ltime (R i)).exec t).pool i ≠
      .panic := by
    intro t hp
    obtain ⟨as, hl, hall, -, h1, -⟩ := load_tasks hF hf hs R (LoadCounters.zero, []) t i
    exact fold_mt_new hl (fun a ha =>
      let ⟨rep, e, hm⟩ := hall a ha
      ⟨rep, e, hm hno⟩) (h1 hp)
  refine ⟨hnp, ?_, ?_⟩
  · intro sched hfair
    obtain ⟨n, hn⟩ := Conf.ends (clients (StarCall.prog st F fuel) s fun i => mtLoad st ltime (R i))
      sched i hfair
    refine ⟨n, ?_⟩
    obtain ⟨as, -, -, -, -, hd⟩ := load_tasks (ltime := ltime) (rs := .active)
      (upd := mtUpdate st) hF hf hs R (LoadCounters.zero, []) ((List.range n).map sched) i
    cases hq : ((clients (StarCall.prog st F fuel) s fun i => mtLoad st ltime (R i)).exec
      ((List.range n).map sched)).pool i with
    | ret a => exact ⟨a, rfl⟩
    | act f k => rw [hq] at hn; exact hn.elim
    | panic => exact absurd hq (hnp _)
    | diverge => exact absurd hq hd
  · intro t c ps hc
    obtain ⟨as, -, hall, h1, -, -⟩ := load_tasks hF hf hs R (LoadCounters.zero, []) t i
    obtain ⟨h2, h3⟩ := h1 _ hc
    obtain ⟨-, qs, h5, -, -, -, h6⟩ := fold_mt h3
    obtain ⟨h7, h8⟩ := h6 fun a ha =>
      let ⟨rep, e, hm⟩ := hall a ha
      ⟨rep, e, hm hno⟩
    rw [h2, List.take_length] at h8
    exact ⟨by rw [h7, h2]; exact Nat.zero_add _, h5.trans h8⟩

end tasks

/-! ## One task alone -/

section alone
variable {st : Strategy} {F fuel : ℕ} {h : List (StarOp M)} {s : Star M}

theorem star_mui_new (hs : starExec st F h = .ok () s) {p : AnyPrefix} {r : Record M}
    {tbi : Option (Meta.TBI M)} {rep : UpsertReport} {s' : Star M}
    (hr : (Star.insert st F p r tbi).run s = .ok (.ok rep) s') : rep.muiNew = true := by
  obtain ⟨h4, h6⟩ := starExec_ok hs
  cases p with
  | v4 p =>
    obtain ⟨rep', s1, h1, h2, -⟩ := mui_report_partial h4 p r tbi
    unfold Star.insert Star.on at hr
    rw [run_v4, h1] at hr
    cases hr
    exact h2
  | v6 p =>
    obtain ⟨rep', s1, h1, h2, -⟩ := mui_report_partial h6 p r tbi
    unfold Star.insert Star.on at hr
    rw [run_v6, h1] at hr
    cases hr
    exact h2

theorem newPrefixes_finite (h : List (StarOp M)) (R : List (Route M)) : (newPrefixes h R).Finite :=
  ((R.map (·.p)).toFinset.finite_toSet).subset fun p hp => by
    obtain ⟨⟨x, hx, rfl⟩, -⟩ := hp
    simp only [List.coe_toFinset, List.mem_map, Set.mem_setOf_eq]
    exact ⟨x, hx, rfl⟩

theorem newPrefixes_cons (h : List (StarOp M)) (x : Route M) (R : List (Route M)) (r : Record M)
    (tbi : Option (Meta.TBI M)) [Decidable (Pub.Present h x.p)] :
    (newPrefixes h (x :: R)).ncard =
      (if Pub.Present h x.p then 0 else 1) + (newPrefixes (.insert x.p r tbi :: h) R).ncard := by
  have hp : ∀ p, Pub.Present (.insert x.p r tbi :: h) p ↔ p = x.p ∨ Pub.Present h p := by
    intro p
    constructor
    · rintro ⟨r', t', hin⟩
      rcases List.mem_cons.1 hin with e | hin
      · injection e with e; exact .inl e
      · exact .inr ⟨r', t', hin⟩
    · rintro (rfl | ⟨r', t', hin⟩)
      · exact ⟨r, tbi, List.mem_cons_self ..⟩
      · exact ⟨r', t', List.mem_cons_of_mem _ hin⟩
  split
  · next hx =>
    rw [Nat.zero_add]
    congr 1
    ext p
    constructor
    · rintro ⟨⟨y, hy, rfl⟩, hn⟩
      rcases List.mem_cons.1 hy with rfl | hy
      · exact absurd hx hn
      · refine ⟨⟨y, hy, rfl⟩, fun h => ?_⟩
        rcases (hp _).1 h with e | h
        · rw [e] at hn; exact hn hx
        · exact hn h
    · rintro ⟨⟨y, hy, rfl⟩, hn⟩
      exact ⟨⟨y, List.mem_cons_of_mem _ hy, rfl⟩, fun h => hn ((hp _).2 (.inr h))⟩
  · next hx =>
    rw [Nat.add_comm, ← Set.ncard_insert_of_notMem (a := x.p) (fun h => h.2 ((hp _).2 (.inl rfl)))
      (newPrefixes_finite _ _)]
    congr 1
    ext p
    constructor
    · rintro ⟨⟨y, hy, rfl⟩, hn⟩
      by_cases e : y.p = x.p
      · exact .inl e
      · rcases List.mem_cons.1 hy with rfl | hy
        · exact absurd rfl e
        · exact .inr ⟨⟨y, hy, rfl⟩, fun h => ((hp _).1 h).elim e hn⟩
    · rintro (rfl | ⟨⟨y, hy, rfl⟩, hn⟩)
      · exact ⟨⟨x, List.mem_cons_self .., rfl⟩, hx⟩
      · exact ⟨⟨y, List.mem_cons_of_mem _ hy, rfl⟩, fun h => hn ((hp _).2 (.inr h))⟩

private theorem alone_from (ltime : LTime) (rs : RouteStatus) (R : List (Route M)) (c : LoadCounters)
    (hs : starExec st F h = .ok () s) :
    ∃ c' s', ((loadLoop ltime rs (fun c _ rep => counterUpdate c rep) R c).prog
        (StarCall.prog st F fuel)).run s = .ok c' s' ∧
      starExec st F (loadHistory ltime rs R h) = .ok () s' ∧
      c'.totalRoutes = c.totalRoutes + R.length ∧ c'.uniqueRoutes = c.uniqueRoutes + R.length ∧
      c'.persistedRoutes = c.persistedRoutes ∧
      (st.inMemory = true → c'.uniquePrefixes = c.uniquePrefixes + (newPrefixes h R).ncard) ∧
      (st.inMemory = false → c'.uniquePrefixes = c.uniquePrefixes + R.length) := by
  induction R generalizing c h s with
  | nil =>
    refine ⟨c, s, rfl, hs, rfl, rfl, rfl, fun _ => ?_, fun _ => rfl⟩
    have : newPrefixes h ([] : List (Route M)) = ∅ := by
      ext p
      simp [newPrefixes]
    rw [this, Set.ncard_empty, Nat.add_zero]
  | cons x R ih =>
    obtain ⟨rep, s1, h1, h2, h3, h4⟩ := public_prefix_new_partial hs x.p ⟨x.mui, ltime, rs, x.md⟩ none
    have hm := star_mui_new hs h1
    obtain ⟨c', s', i1, i2, i3, i4, i5, i6, i7⟩ := ih ⟨c.uniquePrefixes + (if rep.prefixNew then 1 else 0),
      c.uniqueRoutes + 1, c.persistedRoutes, c.totalRoutes + 1⟩ h2
    dsimp only at i3 i4 i5 i6 i7
    refine ⟨c', s', ?_, i2, ?_, ?_, i5, fun hin => ?_, fun hin => ?_⟩
    · unfold loadLoop Client.prog
      rw [run_bind]
      show ((Star.insert st F x.p ⟨x.mui, ltime, rs, x.md⟩ none).run s).andThen _ = _
      rw [h1]
      dsimp only [Outcome.andThen]
      rw [counterUpdate_ok hm]
      exact i1
    · rw [i3, List.length_cons]; omega
    · rw [i4, List.length_cons]; omega
    · classical
      rw [i6 hin, newPrefixes_cons h x R ⟨x.mui, ltime, rs, x.md⟩ none]
      have := h3 hin
      by_cases hp : Pub.Present h x.p
      · rw [if_pos hp, if_neg (fun e => this.1 e hp)]; omega
      · rw [if_neg hp, if_pos (this.2 hp)]; omega
    · rw [i7 hin, if_pos (h4 hin), List.length_cons]; omega

/-- C84: a task that runs alone does not panic, whatever the routes, and has inserted them one
after another.  It counts all routes, and every one as unique.  In memory the unique prefixes
are those not in the store before, with `PersistOnly` every route counts as one. -/
theorem loader_alone_partial (ltime : LTime) (rs : RouteStatus) (R : List (Route M))
    (hs : starExec st F h = .ok () s) :
    ∃ c s', ((stLoad ltime rs R).prog (StarCall.prog st F fuel)).run s = .ok c s' ∧
      starExec st F (loadHistory ltime rs R h) = .ok () s' ∧
      c.totalRoutes = R.length ∧ c.uniqueRoutes = R.length ∧
      (st.inMemory = true → c.uniquePrefixes = (newPrefixes h R).ncard) ∧
      (st.inMemory = false → c.uniquePrefixes = R.length) := by
  obtain ⟨c, s', h1, h2, h3, h4, -, h5, h6⟩ := alone_from (fuel := fuel) ltime rs R .zero hs
  refine ⟨c, s', h1, h2, ?_, ?_, fun hm => ?_, fun hm => ?_⟩
  · rw [h3]; exact Nat.zero_add _
  · rw [h4]; exact Nat.zero_add _
  · rw [h5 hm]; exact Nat.zero_add _
  · rw [h6 hm]; exact Nat.zero_add _

end alone

/-! ## What goes wrong, and examples -/

open Rotonda.Demo

def route (p : AnyPrefix) (m : Mui) : Route Md := ⟨p, m, (rec1 1 1 7).md⟩

/-- Two tasks, each with a route for the same prefix. -/
def samePrefix (m : Mui) : Fin 2 → List (Route Md)
  | 0 => [route (.v4 ten16) 2#32]
  | 1 => [route (.v4 ten16) m]

/-- The first task has made the new entry when the second does all of its work. -/
def loadTurns : List (Fin 2) :=
  List.replicate 34 0 ++ List.replicate 60 1 ++ List.replicate 40 0

def chkLoad {α : Type} (t : List (Fin 2)) (st : Strategy) (cl : Fin 2 → Client (StarCall.Ans (M := Md)) α)
    (chk : Prog (Rotonda.Star Md) α → Prog (Rotonda.Star Md) α → Bool) : Bool :=
  match starExec (M := Md) st 32 Demo.mixed with
  | .ok _ s =>
    let c := (clients (StarCall.prog st 32 (iterFuel 128)) s cl).exec t
    chk (c.pool 0) (c.pool 1)
  | _ => false

theorem chkLoad_ok {α : Type} {t : List (Fin 2)} {st : Strategy} {cl : Fin 2 → Client (StarCall.Ans (M := Md)) α}
    {chk : Prog (Rotonda.Star Md) α → Prog (Rotonda.Star Md) α → Bool} (h : chkLoad t st cl chk = true) :
    ∃ s, starExec (M := Md) st 32 Demo.mixed = .ok () s ∧
      chk (((clients (StarCall.prog st 32 (iterFuel 128)) s cl).exec t).pool 0)
        (((clients (StarCall.prog st 32 (iterFuel 128)) s cl).exec t).pool 1) = true := by
  unfold chkLoad at h
  cases ho : starExec (M := Md) st 32 Demo.mixed with
  | panic => rw [ho] at h; cases h
  | diverge => rw [ho] at h; cases h
  | ok _ s => rw [ho] at h; exact ⟨s, rfl, h⟩

private def isPanic {σ α : Type} : Prog σ α → Bool
  | .panic => true
  | _ => false

private theorem isPanic_iff {σ α : Type} {p : Prog σ α} (h : isPanic p = true) : p = .panic := by
  cases p <;> first | rfl | cases h

/-- C84 fails for tasks with the same route: one of them panics with "THIS DOESN'T MEAN ANYTHING!"
(`src/bin/load_mrt.rs` 135 and 310), since its insert reports a new prefix with an old peer. -/
theorem loader_panics :
    (∃ s, starExec (M := Md) .memoryOnly 32 Demo.mixed = .ok () s ∧ ∃ t,
      ((clients (StarCall.prog .memoryOnly 32 (iterFuel 128)) s
        fun i => stLoad 0#64 .active (samePrefix 2#32 i)).exec t).pool 0 = .panic) ∧
    (∃ s, starExec (M := Md) .memoryOnly 32 Demo.mixed = .ok () s ∧ ∃ t,
      ((clients (StarCall.prog .memoryOnly 32 (iterFuel 128)) s
        fun i => mtLoad .memoryOnly 0#64 (samePrefix 2#32 i)).exec t).pool 0 = .panic) := by
  constructor
  · obtain ⟨s, hs, hc⟩ := chkLoad_ok (t := loadTurns) (st := .memoryOnly)
      (cl := fun i => stLoad 0#64 .active (samePrefix 2#32 i)) (chk := fun a _ => isPanic a)
      (by decide +kernel)
    exact ⟨s, hs, loadTurns, isPanic_iff hc⟩
  · obtain ⟨s, hs, hc⟩ := chkLoad_ok (t := loadTurns) (st := .memoryOnly)
      (cl := fun i => mtLoad .memoryOnly 0#64 (samePrefix 2#32 i)) (chk := fun a _ => isPanic a)
      (by decide +kernel)
    exact ⟨s, hs, loadTurns, isPanic_iff hc⟩

private theorem twoPeers : NoneTwice Demo.mixed (samePrefix 3#32) where
  apart := by
    intro i i' n n' x x' h1 h2 hp hm
    have key : ∀ i n x, (samePrefix 3#32 i)[n]? = some x →
        n = 0 ∧ ((i = 0 ∧ x.mui = 2#32) ∨ (i = 1 ∧ x.mui = 3#32)) := by
      intro i n x h
      fin_cases i <;> cases n <;> cases h <;> simp [route]
    obtain ⟨a1, a2⟩ := key i n x h1
    obtain ⟨b1, b2⟩ := key i' n' x' h2
    refine ⟨?_, a1.trans b1.symm⟩
    rcases a2 with ⟨e1, m1⟩ | ⟨e1, m1⟩ <;> rcases b2 with ⟨e2, m2⟩ | ⟨e2, m2⟩
    · rw [e1, e2]
    · rw [m1, m2] at hm; cases hm
    · rw [m1, m2] at hm; cases hm
    · rw [e1, e2]
  fresh := by
    intro i x hx r tbi hin
    exfalso
    have hp : x.p = .v4 ten16 := by
      fin_cases i <;> · rw [List.mem_singleton.1 hx]; rfl
    rw [hp] at hin
    simp only [Demo.mixed, List.mem_cons, List.not_mem_nil, or_false] at hin
    rcases hin with h | h | h
    · cases h
    · cases h
    · injection h with h _
      injection h with h
      exact absurd h (by decide)

/-- Routes that are all different for one new prefix: the prefix is counted twice when the tasks
are added up, as by the store itself (defect 12).  And the hypotheses of `loader_tasks_partial`
can be met. -/
theorem loader_prefixes_twice :
    ∃ s, starExec (M := Md) .memoryOnly 32 Demo.mixed = .ok () s ∧ NoneTwice Demo.mixed (samePrefix 3#32) ∧
      ∃ t c c', ((clients (StarCall.prog .memoryOnly 32 (iterFuel 128)) s
          fun i => stLoad 0#64 .active (samePrefix 3#32 i)).exec t).pool 0 = .ret c ∧
        ((clients (StarCall.prog .memoryOnly 32 (iterFuel 128)) s
          fun i => stLoad 0#64 .active (samePrefix 3#32 i)).exec t).pool 1 = .ret c' ∧
        reduceCounters [c, c'] = ⟨2, 2, 0, 2⟩ := by
  obtain ⟨s, hs, hc⟩ := chkLoad_ok (t := loadTurns) (st := .memoryOnly)
      (cl := fun i => stLoad 0#64 .active (samePrefix 3#32 i))
      (chk := fun a b => ansIs (· = ⟨1, 1, 0, 1⟩) a && ansIs (· = ⟨1, 1, 0, 1⟩) b)
      (by decide +kernel)
  simp only [Bool.and_eq_true] at hc
  obtain ⟨a, ha, oa⟩ := ansIs_iff.1 hc.1
  obtain ⟨b, hb, ob⟩ := ansIs_iff.1 hc.2
  refine ⟨s, hs, twoPeers, loadTurns, a, b, ha, hb, ?_⟩
  rw [of_decide_eq_true oa, of_decide_eq_true ob]
  rfl

/-- The same route twice, one after the other: both are counted as unique (defect 4). -/
example : ∃ s, starExec (M := Md) .memoryOnly 32 Demo.mixed = .ok () s ∧ ∃ c s',
    ((stLoad 0#64 .active [route (.v4 ten16) 2#32, route (.v4 ten16) 2#32]).prog
      (StarCall.prog .memoryOnly 32 (iterFuel 128))).run s = .ok c s' ∧
    c.uniqueRoutes = 2 ∧ c.totalRoutes = 2 := by
  obtain ⟨s, hs, -⟩ := loader_prefixes_twice
  obtain ⟨c, s', h1, -, h3, h4, -⟩ := loader_alone_partial (fuel := iterFuel 128) 0#64 .active
    [route (.v4 ten16) 2#32, route (.v4 ten16) 2#32] hs
  exact ⟨s, hs, c, s', h1, h4, h3⟩

/-- Nothing is listed for the check with `PersistHistory`, everything with `WriteAhead`. -/
example : (∃ s, starExec (M := Md) .persistHistory 32 Demo.mixed = .ok () s ∧ ∃ c,
      ((clients (StarCall.prog .persistHistory 32 (iterFuel 128)) s
        fun i => mtLoad .persistHistory 0#64 (samePrefix 3#32 i)).exec loadTurns).pool 0 = .ret (c, [])) ∧
    (∃ s, starExec (M := Md) .writeAhead 32 Demo.mixed = .ok () s ∧ ∃ c,
      ((clients (StarCall.prog .writeAhead 32 (iterFuel 128)) s
        fun i => mtLoad .writeAhead 0#64 (samePrefix 3#32 i)).exec loadTurns).pool 0 =
        .ret (c, [.v4 ten16])) := by
  constructor
  · obtain ⟨s, hs, hc⟩ := chkLoad_ok (t := loadTurns) (st := .persistHistory)
      (cl := fun i => mtLoad .persistHistory 0#64 (samePrefix 3#32 i))
      (chk := fun a _ => ansIs (fun _ => true) a) (by decide +kernel)
    obtain ⟨⟨c, ps⟩, ha, -⟩ := ansIs_iff.1 hc
    obtain ⟨-, hp⟩ := (loader_mt_tasks_partial (F := 32) (Nat.le_refl _) (Nat.le_refl _) hs 0#64 _ twoPeers
      0).2.2 _ _ _ ha
    rw [if_neg (by decide)] at hp
    subst hp
    exact ⟨s, hs, c, ha⟩
  · obtain ⟨s, hs, hc⟩ := chkLoad_ok (t := loadTurns) (st := .writeAhead)
      (cl := fun i => mtLoad .writeAhead 0#64 (samePrefix 3#32 i))
      (chk := fun a _ => ansIs (fun _ => true) a) (by decide +kernel)
    obtain ⟨⟨c, ps⟩, ha, -⟩ := ansIs_iff.1 hc
    obtain ⟨-, hp⟩ := (loader_mt_tasks_partial (F := 32) (Nat.le_refl _) (Nat.le_refl _) hs 0#64 _ twoPeers
      0).2.2 _ _ _ ha
    rw [if_pos (by decide)] at hp
    subst hp
    exact ⟨s, hs, c, ha⟩

end Rotonda.Props
