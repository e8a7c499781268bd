import Verif.Spec.LoadFiles
import Verif.Props.Loader
import Verif.Props.LoadVerify
import Verif.Props.Families

/-!
# The loader over all its files: C88
-/

namespace Rotonda.Props

open Prog Spec

variable {M : Type} [Meta M] {st : Strategy} {F fuel : Nat} {h : List (StarOp M)} {s : Star M}

private theorem prog_bind {σ C α β : Type} {Ans : C → Type} (prog : ∀ c, Prog σ (Ans c)) (cl : Client Ans α)
    (f : α → Client Ans β) : (cl.bind f).prog prog = cl.prog prog >>= fun a => (f a).prog prog := by
  induction cl with
  | done a => rfl
  | call c k ih =>
    show (prog c >>= fun a => ((k a).bind f).prog prog) = (prog c >>= fun a => (k a).prog prog) >>= _
    rw [bind_assoc']
    congr 1
    funext a
    exact ih a
  | panic => rfl

private theorem present_load (ltime : LTime) (rs : RouteStatus) (R : List (Route M)) (h : List (StarOp M))
    (p : AnyPrefix) : Pub.Present (loadHistory ltime rs R h) p ↔ (∃ x ∈ R, x.p = p) ∨ Pub.Present h p := by
  rw [loadHistory_eq]
  constructor
  · rintro ⟨r, tbi, hin⟩
    rcases List.mem_append.1 hin with hin | hin
    · obtain ⟨x, hx, e⟩ := List.mem_map.1 (List.mem_reverse.1 hin)
      injection e with e
      exact .inl ⟨x, hx, e⟩
    · exact .inr ⟨r, tbi, hin⟩
  · rintro (⟨x, hx, rfl⟩ | ⟨r, tbi, hin⟩)
    · exact ⟨_, _, List.mem_append_left _ (List.mem_reverse.2 (List.mem_map.2 ⟨x, hx, rfl⟩))⟩
    · exact ⟨r, tbi, List.mem_append_right _ hin⟩

private theorem new_append (ltime : LTime) (rs : RouteStatus) (R R' : List (Route M)) (h : List (StarOp M)) :
    (newPrefixes h (R ++ R')).ncard =
      (newPrefixes h R).ncard + (newPrefixes (loadHistory ltime rs R h) R').ncard := by
  rw [← Set.ncard_union_eq _ (newPrefixes_finite _ _) (newPrefixes_finite _ _)]
  · congr 1
    ext p
    constructor
    · rintro ⟨⟨x, hx, rfl⟩, hn⟩
      by_cases hR : ∃ y ∈ R, y.p = x.p
      · exact .inl ⟨hR, hn⟩
      · rcases List.mem_append.1 hx with hx | hx
        · exact .inl ⟨⟨x, hx, rfl⟩, hn⟩
        · exact .inr ⟨⟨x, hx, rfl⟩, fun hp => ((present_load ..).1 hp).elim hR hn⟩
    · rintro (⟨⟨x, hx, rfl⟩, hn⟩ | ⟨⟨x, hx, rfl⟩, hn⟩)
      · exact ⟨⟨x, List.mem_append_left _ hx, rfl⟩, hn⟩
      · exact ⟨⟨x, List.mem_append_right _ hx, rfl⟩, fun hp => hn ((present_load ..).2 (.inr hp))⟩
  · rw [Set.disjoint_left]
    rintro p ⟨hx, -⟩ ⟨-, hn⟩
    exact hn ((present_load ..).2 (.inl hx))

private theorem files_from (n : Nat) (fs : List (LoadFile M)) (c : LoadCounters)
    (hs : starExec st F h = .ok () s) :
    ∃ c' s', ((loadFiles n fs c).prog (StarCall.prog st F fuel)).run s = .ok c' s' ∧
      starExec st F (filesHistory n fs h) = .ok () s' ∧
      c'.totalRoutes = c.totalRoutes + (allRoutes fs).length ∧
      c'.uniqueRoutes = c.uniqueRoutes + (allRoutes fs).length ∧
      (st.inMemory = true → (∀ f ∈ fs, f.primed = []) →
        c'.uniquePrefixes = c.uniquePrefixes + (newPrefixes h (allRoutes fs)).ncard) ∧
      (st.inMemory = true → (∀ f ∈ fs, ∀ x ∈ f.routes, ∃ y ∈ f.primed, y.p = x.p) →
        c'.uniquePrefixes = c.uniquePrefixes) ∧
      (st.inMemory = false → c'.uniquePrefixes = c.uniquePrefixes + (allRoutes fs).length) := by
  induction fs generalizing n c h s with
  | nil =>
    refine ⟨c, s, rfl, hs, rfl, rfl, fun _ _ => ?_, fun _ _ => rfl, fun _ => rfl⟩
    have : newPrefixes h (allRoutes ([] : List (LoadFile M))) = ∅ := by
      ext p
      simp [newPrefixes, allRoutes]
    rw [this, Set.ncard_empty, Nat.add_zero]
  | cons f fs ih =>
    obtain ⟨c0, s0, a1, a2, -⟩ := loader_alone_partial (fuel := fuel) 0#64 .inActive f.primed hs
    obtain ⟨c1, s1, b1, b2, b3, b4, b5, b6⟩ :=
      loader_alone_partial (fuel := fuel) (BitVec.ofNat 64 n) .active f.routes a2
    obtain ⟨c', s', i1, i2, i3, i4, i5, i6, i7⟩ := ih (n + 1) (c.add c1) b2
    have el : (allRoutes (f :: fs)).length = f.routes.length + (allRoutes fs).length := by
      simp [allRoutes]
    have t1 : (c.add c1).totalRoutes = c.totalRoutes + c1.totalRoutes := rfl
    have t2 : (c.add c1).uniqueRoutes = c.uniqueRoutes + c1.uniqueRoutes := rfl
    have t3 : (c.add c1).uniquePrefixes = c.uniquePrefixes + c1.uniquePrefixes := rfl
    refine ⟨c', s', ?_, i2, by omega, by omega, fun hm hp => ?_, fun hm hp => ?_, fun hm => ?_⟩
    · show (((stLoad 0#64 .inActive f.primed).bind fun _ => _).prog (StarCall.prog st F fuel)).run s = _
      rw [prog_bind, run_bind, a1]
      dsimp only [Outcome.andThen]
      rw [prog_bind, run_bind, b1]
      exact i1
    · have e0 : f.primed = [] := hp f (List.mem_cons_self ..)
      rw [i5 hm fun g hg => hp g (List.mem_cons_of_mem _ hg), t3, b5 hm]
      rw [e0]
      show _ = _ + (newPrefixes h (f.routes ++ allRoutes fs)).ncard
      rw [new_append (BitVec.ofNat 64 n) .active]
      show c.uniquePrefixes + (newPrefixes h f.routes).ncard +
        (newPrefixes (loadHistory (BitVec.ofNat 64 n) .active f.routes h) (allRoutes fs)).ncard = _
      omega
    · rw [i6 hm fun g hg => hp g (List.mem_cons_of_mem _ hg), t3, b5 hm]
      have : newPrefixes (loadHistory 0#64 .inActive f.primed h) f.routes = ∅ := by
        ext p
        refine ⟨?_, fun h => h.elim⟩
        rintro ⟨⟨x, hx, rfl⟩, hn⟩
        exact hn ((present_load ..).2 (.inl (hp f (List.mem_cons_self ..) x hx)))
      rw [this, Set.ncard_empty, Nat.add_zero]
    · rw [i7 hm, t3, b6 hm]
      omega

/-- C88: the loader does not panic over its files, and inserts their routes one after another.  It
counts all routes, and every one as unique (defect 4).  In memory and without `--prime` the
unique prefixes are those of all files that were not in the store before.  With `--prime` none
is counted.  With `PersistOnly` every route counts as one. -/
theorem load_files_partial (fs : List (LoadFile M)) (hs : starExec st F h = .ok () s) :
    ∃ c s', ((loadFiles 0 fs .zero).prog (StarCall.prog st F fuel)).run s = .ok c s' ∧
      starExec st F (filesHistory 0 fs h) = .ok () s' ∧
      c.totalRoutes = (allRoutes fs).length ∧ c.uniqueRoutes = (allRoutes fs).length ∧
      (st.inMemory = true → (∀ f ∈ fs, f.primed = []) →
        c.uniquePrefixes = (newPrefixes h (allRoutes fs)).ncard) ∧
      (st.inMemory = true → (∀ f ∈ fs, ∀ x ∈ f.routes, ∃ y ∈ f.primed, y.p = x.p) →
        c.uniquePrefixes = 0) ∧
      (st.inMemory = false → c.uniquePrefixes = (allRoutes fs).length) := by
  obtain ⟨c, s', h1, h2, h3, h4, h5, h6, h7⟩ := files_from (fuel := fuel) 0 fs .zero hs
  have z : ∀ n, 0 + n = n := Nat.zero_add
  exact ⟨c, s', h1, h2, h3.trans (z _), h4.trans (z _), fun a b => (h5 a b).trans (z _), h6,
    fun a => (h7 a).trans (z _)⟩

/-! ## The number of prefixes that the store prints -/

private theorem files_inserts (n : Nat) (fs : List (LoadFile M)) (h : List (StarOp M)) :
    ∃ pre : List (StarOp M), filesHistory n fs h = pre ++ h ∧
      (∀ op ∈ pre, ∃ f ∈ fs, ∃ x, (x ∈ f.primed ∨ x ∈ f.routes) ∧ ∃ t rs,
        op = .insert x.p ⟨x.mui, t, rs, x.md⟩ none) ∧
      ∀ x ∈ allRoutes fs, ∃ r, .insert x.p r none ∈ pre := by
  induction fs generalizing n h with
  | nil => exact ⟨[], rfl, fun _ h => (by cases h), fun _ h => (by cases h)⟩
  | cons f fs ih =>
    obtain ⟨pre, h1, h2, h3⟩ := ih (n + 1)
      (loadHistory (BitVec.ofNat 64 n) .active f.routes (loadHistory 0#64 .inActive f.primed h))
    rw [loadHistory_eq, loadHistory_eq] at h1
    refine ⟨pre ++ ((f.routes.map fun x => .insert x.p ⟨x.mui, BitVec.ofNat 64 n, .active, x.md⟩ none).reverse ++
      (f.primed.map fun x => .insert x.p ⟨x.mui, 0#64, .inActive, x.md⟩ none).reverse), ?_, ?_, ?_⟩
    · unfold filesHistory
      rw [loadHistory_eq, loadHistory_eq, h1]
      simp only [List.append_assoc]
    · intro op hop
      rcases List.mem_append.1 hop with hop | hop
      · obtain ⟨g, hg, x, hx, hr⟩ := h2 op hop
        exact ⟨g, List.mem_cons_of_mem _ hg, x, hx, hr⟩
      · rcases List.mem_append.1 hop with hop | hop
        · obtain ⟨x, hx, rfl⟩ := List.mem_map.1 (List.mem_reverse.1 hop)
          exact ⟨f, List.mem_cons_self .., x, .inr hx, _, _, rfl⟩
        · obtain ⟨x, hx, rfl⟩ := List.mem_map.1 (List.mem_reverse.1 hop)
          exact ⟨f, List.mem_cons_self .., x, .inl hx, _, _, rfl⟩
    · intro x hx
      rcases List.mem_append.1 (show x ∈ f.routes ++ allRoutes fs from hx) with hx | hx
      · exact ⟨_, List.mem_append_right _ (List.mem_append_left _
          (List.mem_reverse.2 (List.mem_map.2 ⟨x, hx, rfl⟩)))⟩
      · obtain ⟨r, hr⟩ := h3 x hx
        exact ⟨r, List.mem_append_left _ hr⟩

private theorem first_insert {W : Nat} {h : History M W} (hh : ∀ op ∈ h, ∃ p r tbi, op = .insert p r tbi)
    (p : Prefix W) : firstCall h p ≠ some false := by
  induction h with
  | nil => exact fun h => by cases h
  | cons op h ih =>
    have := ih fun op ho => hh op (List.mem_cons_of_mem _ ho)
    obtain ⟨q, r, tbi, rfl⟩ := hh op (List.mem_cons_self ..)
    unfold firstCall
    cases hf : firstCall h p with
    | some b => rw [hf] at this; exact this
    | none =>
      dsimp only
      split <;> exact fun h => by cases h

private theorem ncard_families (S : Set AnyPrefix) (hS : S.Finite) :
    S.ncard = Set.ncard {p : Prefix 32 | .v4 p ∈ S} + Set.ncard {p : Prefix 128 | .v6 p ∈ S} := by
  have i4 : Function.Injective (AnyPrefix.v4) := fun a b e => by injection e
  have i6 : Function.Injective (AnyPrefix.v6) := fun a b e => by injection e
  have f4 : (AnyPrefix.v4 '' {p : Prefix 32 | .v4 p ∈ S}).Finite :=
    hS.subset (by rintro _ ⟨p, hp, rfl⟩; exact hp)
  have f6 : (AnyPrefix.v6 '' {p : Prefix 128 | .v6 p ∈ S}).Finite :=
    hS.subset (by rintro _ ⟨p, hp, rfl⟩; exact hp)
  rw [← Set.ncard_image_of_injective _ i4, ← Set.ncard_image_of_injective _ i6,
    ← Set.ncard_union_eq ?_ f4 f6]
  · congr 1
    ext p
    cases p with
    | v4 p => simp
    | v6 p => simp
  · rw [Set.disjoint_left]
    rintro _ ⟨p, -, rfl⟩ ⟨q, -, e⟩
    cases e

/-- C88: for a new store in memory, without `--prime`, the unique prefixes that the loader has
counted are the prefixes that the store says it has in memory (both are printed,
`src/bin/load_mrt.rs` 553-560). -/
theorem load_files_agree (fs : List (LoadFile M)) (hm : st.inMemory = true) (hp : ∀ f ∈ fs, f.primed = [])
    (hs : starExec st F ([] : List (StarOp M)) = .ok () s) :
    ∃ c s' n, ((loadFiles 0 fs .zero).prog (StarCall.prog st F fuel)).run s = .ok c s' ∧
      Star.prefixesCount.run s' = .ok n s' ∧ n.inMemory = c.uniquePrefixes ∧ n.total = c.uniquePrefixes := by
  obtain ⟨c, s', h1, h2, -, -, h3, -⟩ := load_files_partial (fuel := fuel) fs hs
  obtain ⟨pre, e1, e2, e3⟩ := files_inserts 0 fs ([] : List (StarOp M))
  rw [List.append_nil] at e1
  obtain ⟨h4, h6⟩ := starExec_ok h2
  obtain ⟨a, -, ha, -, -, ha', -⟩ := stored_counts_partial h4
  obtain ⟨b, -, hb, -, -, hb', -⟩ := stored_counts_partial h6
  obtain ⟨n, hn, ht⟩ := star_prefixes_count h2
  obtain ⟨⟨a', b', n', k1, k2, k3, k4, -⟩, -⟩ := star_counts_sum h2
  rw [hn] at k3
  cases k3
  rw [Star.prefixesCount4, run_v4, ha] at k1
  rw [Star.prefixesCount6, run_v6, hb] at k2
  cases k1
  cases k2
  have hins : ∀ op ∈ filesHistory 0 fs ([] : List (StarOp M)), ∃ p r tbi, op = .insert p r tbi := by
    rw [e1]
    intro op hop
    obtain ⟨-, -, x, -, t, rs, rfl⟩ := e2 op hop
    exact ⟨_, _, _, rfl⟩
  have c4 := ha' hm (first_insert fun op hop => by
    obtain ⟨o, ho, he⟩ := List.mem_filterMap.1 hop
    obtain ⟨p, r, tbi, rfl⟩ := hins o ho
    cases p <;> cases he
    exact ⟨_, _, _, rfl⟩)
  have c6 := hb' hm (first_insert fun op hop => by
    obtain ⟨o, ho, he⟩ := List.mem_filterMap.1 hop
    obtain ⟨p, r, tbi, rfl⟩ := hins o ho
    cases p <;> cases he
    exact ⟨_, _, _, rfl⟩)
  have hset : ∀ p, p ∈ newPrefixes ([] : List (StarOp M)) (allRoutes fs) ↔
      ∃ r t, StarOp.insert p r t ∈ filesHistory 0 fs ([] : List (StarOp M)) := by
    intro p
    rw [e1]
    constructor
    · rintro ⟨⟨x, hx, rfl⟩, -⟩
      obtain ⟨r, hr⟩ := e3 x hx
      exact ⟨r, _, hr⟩
    · rintro ⟨r, t, hin⟩
      obtain ⟨f, hf, x, hx, t', rs, e⟩ := e2 _ hin
      injection e with e
      subst e
      refine ⟨⟨x, ?_, rfl⟩, fun ⟨_, _, h⟩ => (by cases h)⟩
      rcases hx with hx | hx
      · rw [hp f hf] at hx; cases hx
      · exact List.mem_flatMap.2 ⟨f, hf, hx⟩
  have e4 : prefixes (hist4 (filesHistory 0 fs ([] : List (StarOp M)))) =
      {p : Prefix 32 | .v4 p ∈ newPrefixes ([] : List (StarOp M)) (allRoutes fs)} :=
    Set.ext fun p => present_hist4.trans (hset (.v4 p)).symm
  have e6 : prefixes (hist6 (filesHistory 0 fs ([] : List (StarOp M)))) =
      {p : Prefix 128 | .v6 p ∈ newPrefixes ([] : List (StarOp M)) (allRoutes fs)} :=
    Set.ext fun p => present_hist6.trans (hset (.v6 p)).symm
  have hc : c.uniquePrefixes = (prefixes (hist4 (filesHistory 0 fs ([] : List (StarOp M))))).ncard +
      (prefixes (hist6 (filesHistory 0 fs ([] : List (StarOp M))))).ncard := by
    rw [h3 hm hp, ncard_families _ (newPrefixes_finite _ _), e4, e6]
  refine ⟨c, s', n, h1, hn, ?_, ?_⟩
  · rw [k4, hc, c4, c6]
  · rw [ht, hc]
    have g4 : prefixes (hist4 (filesHistory 0 fs ([] : List (StarOp M)))) = _ :=
      Set.ext fun _ => present_hist4
    have g6 : prefixes (hist6 (filesHistory 0 fs ([] : List (StarOp M)))) = _ :=
      Set.ext fun _ => present_hist6
    rw [g4, g6]
    rfl

/-! ## What is in the store then -/

/-- Later inserts for other routes leave the record of a route as it is. -/
private theorem shown_last {pre : List (StarOp M)} {x : Route M} {n : Nat}
    (hpre : ∀ op ∈ pre, ∃ y : Route M, OtherRoute x y ∧ ∃ t rs, op = .insert y.p ⟨y.mui, t, rs, y.md⟩ none)
    (hw : Pub.withdrawn h x.p x.mui = false) :
    Pub.Shown st (pre ++ .insert x.p ⟨x.mui, BitVec.ofNat 64 n, .active, x.md⟩ none :: h) none false x.p
      (loadedRecord st n x) := by
  have hwd : Pub.withdrawn (pre ++ .insert x.p ⟨x.mui, BitVec.ofNat 64 n, .active, x.md⟩ none :: h)
      x.p x.mui = false := by
    induction pre with
    | nil => cases hp : x.p <;> rw [hp] at hw <;> exact hw
    | cons op pre ih =>
      obtain ⟨y, -, t, rs, rfl⟩ := hpre op (List.mem_cons_self ..)
      have := ih fun op hop => hpre op (List.mem_cons_of_mem _ hop)
      revert this
      cases x.p <;> exact fun h => h
  have key : Pub.storedRec st (pre ++ .insert x.p ⟨x.mui, BitVec.ofNat 64 n, .active, x.md⟩ none :: h)
      x.p x.mui = some (loadedRecord st n x) := by
    clear hwd
    induction pre with
    | nil =>
      cases st <;> simp [Pub.storedRec, Pub.recOf, Pub.keptOf, loadedRecord, Kept.toRecord]
    | cons op pre ih =>
      obtain ⟨y, hy, t, rs, rfl⟩ := hpre op (List.mem_cons_self ..)
      have := ih fun op hop => hpre op (List.mem_cons_of_mem _ hop)
      have hy' : ¬ (y.p = x.p ∧ y.mui = x.mui) := hy
      cases st with
      | persistOnly => simpa only [Pub.storedRec, List.cons_append, Pub.keptOf, if_neg hy'] using this
      | _ => simpa only [Pub.storedRec, List.cons_append, Pub.recOf, if_neg hy'] using this
  refine ⟨loadedRecord st n x, key, fun m hm => (by cases hm), rfl, ?_, .inl hwd⟩
  show passes st .active
  cases st <;> first | rfl | exact fun h => by cases h

private theorem withdrawn_inserts {pre : List (StarOp M)} {p : AnyPrefix} {m : Mui}
    (hpre : ∀ op ∈ pre, ∃ p r tbi, op = .insert p r tbi) (hw : Pub.withdrawn h p m = false) :
    Pub.withdrawn (pre ++ h) p m = false := by
  induction pre with
  | nil => exact hw
  | cons op pre ih =>
    obtain ⟨q, r, tbi, rfl⟩ := hpre op (List.mem_cons_self ..)
    have := ih fun op hop => hpre op (List.mem_cons_of_mem _ hop)
    revert this
    cases p <;> exact fun h => h

private theorem files_append (n : Nat) (fs gs : List (LoadFile M)) (h : List (StarOp M)) :
    filesHistory n (fs ++ gs) h = filesHistory (n + fs.length) gs (filesHistory n fs h) := by
  induction fs generalizing n h with
  | nil => rfl
  | cons f fs ih =>
    show filesHistory (n + 1) (fs ++ gs) _ = filesHistory (n + (fs.length + 1)) gs (filesHistory (n + 1) fs _)
    rw [ih, show n + 1 + fs.length = n + (fs.length + 1) by omega]

/-- C88: after the run a query shows for every route the record of its last occurrence, active and
with the number of the file as its time, primed or not, unless the peer was withdrawn before. -/
theorem load_files_shown (pre post : List (LoadFile M)) (f : LoadFile M) {a b : List (Route M)} {x : Route M}
    (hr : f.routes = a ++ x :: b) (hb : ∀ y ∈ b, OtherRoute x y)
    (hpost : ∀ g ∈ post, ∀ y, y ∈ g.primed ∨ y ∈ g.routes → OtherRoute x y)
    (hw : Pub.withdrawn h x.p x.mui = false) (hs : starExec st F h = .ok () s) :
    ∃ c s' o, ((loadFiles 0 (pre ++ f :: post) .zero).prog (StarCall.prog st F fuel)).run s = .ok c s' ∧
      (Star.getRecords st x.p none false).run s' = .ok (.ok (some o)) s' ∧
      loadedRecord st pre.length x ∈ o ∧ ∀ r ∈ o, r.mui = x.mui → r = loadedRecord st pre.length x := by
  obtain ⟨c, s', h1, h2, -⟩ := load_files_partial (fuel := fuel) (pre ++ f :: post) hs
  obtain ⟨o, h3, ⟨-, h4⟩, -⟩ := public_get_records h2 x.p none false
  obtain ⟨l1, e1, i1, -⟩ := files_inserts 0 pre h
  obtain ⟨l2, e2, i2, -⟩ := files_inserts (0 + pre.length + 1) post
    (loadHistory (BitVec.ofNat 64 (0 + pre.length)) .active f.routes
      (loadHistory 0#64 .inActive f.primed (filesHistory 0 pre h)))
  have hh : filesHistory 0 (pre ++ f :: post) h =
      (l2 ++ (b.map fun y => .insert y.p ⟨y.mui, BitVec.ofNat 64 pre.length, .active, y.md⟩ none).reverse) ++
        .insert x.p ⟨x.mui, BitVec.ofNat 64 pre.length, .active, x.md⟩ none ::
        (((a.map fun y => .insert y.p ⟨y.mui, BitVec.ofNat 64 pre.length, .active, y.md⟩ none).reverse ++
          (f.primed.map fun y => .insert y.p ⟨y.mui, 0#64, .inActive, y.md⟩ none).reverse ++ l1) ++ h) := by
    rw [files_append]
    unfold filesHistory
    rw [e2, loadHistory_eq, loadHistory_eq, e1, hr, Nat.zero_add]
    simp
  have hsh := shown_last (st := st) (n := pre.length) (x := x)
    (pre := l2 ++ (b.map fun y => .insert y.p ⟨y.mui, BitVec.ofNat 64 pre.length, .active, y.md⟩ none).reverse)
    (h := ((a.map fun y => .insert y.p ⟨y.mui, BitVec.ofNat 64 pre.length, .active, y.md⟩ none).reverse ++
          (f.primed.map fun y => .insert y.p ⟨y.mui, 0#64, .inActive, y.md⟩ none).reverse ++ l1) ++ h)
    (fun op hop => by
      rcases List.mem_append.1 hop with hop | hop
      · obtain ⟨g, hg, y, hy, t, rs, rfl⟩ := i2 op hop
        exact ⟨y, hpost g hg y hy, t, rs, rfl⟩
      · obtain ⟨y, hy, rfl⟩ := List.mem_map.1 (List.mem_reverse.1 hop)
        exact ⟨y, hb y hy, _, _, rfl⟩)
    (withdrawn_inserts (fun op hop => by
      rcases List.mem_append.1 hop with hop | hop
      · rcases List.mem_append.1 hop with hop | hop
        · obtain ⟨y, hy, rfl⟩ := List.mem_map.1 (List.mem_reverse.1 hop)
          exact ⟨_, _, _, rfl⟩
        · obtain ⟨y, hy, rfl⟩ := List.mem_map.1 (List.mem_reverse.1 hop)
          exact ⟨_, _, _, rfl⟩
      · obtain ⟨-, -, y, -, t, rs, rfl⟩ := i1 op hop
        exact ⟨_, _, _, rfl⟩) hw)
  rw [← hh] at hsh
  have hmem := (h4 _).2 hsh
  cases o with
  | none => cases hmem
  | some o =>
    refine ⟨c, s', o, h1, h3, hmem, fun r hro hm => ?_⟩
    obtain ⟨r0, k1, -, k2, -⟩ := (h4 r).1 hro
    obtain ⟨r1, k3, -, k4, -⟩ := hsh
    rw [hm] at k1
    rw [show (loadedRecord st pre.length x).mui = x.mui from rfl, k1] at k3
    cases k3
    rw [k2, k4]

/-! ## What goes wrong with `--prime`, and examples -/

open Rotonda.Demo

/-- Two files, with three routes for two prefixes. -/
def twoFiles (prime : Bool) : List (LoadFile Md) :=
  [⟨if prime then [route (.v4 ten16) 2#32, route (.v4 ten8) 2#32] else [],
      [route (.v4 ten8) 2#32, route (.v4 ten16) 2#32]⟩,
    ⟨if prime then [route (.v4 ten16) 2#32] else [], [route (.v4 ten16) 2#32]⟩]

private def chkFiles (prime : Bool) (chk : LoadCounters → UpsertCounters → Bool) : Bool :=
  match starExec (M := Md) .memoryOnly 32 [] with
  | .ok _ s =>
    match ((loadFiles 0 (twoFiles prime) .zero).prog (StarCall.prog .memoryOnly 32 (iterFuel 128))).run s with
    | .ok c s' =>
      match Star.prefixesCount.run s' with
      | .ok n _ => chk c n
      | _ => false
    | _ => false
  | _ => false

private theorem chkFiles_ok {prime : Bool} {c0 : LoadCounters} {k : Nat}
    (h : chkFiles prime (fun c n => c = c0 && n.inMemory == k) = true) :
    ∃ s c s' n, starExec (M := Md) .memoryOnly 32 [] = .ok () s ∧
      ((loadFiles 0 (twoFiles prime) .zero).prog (StarCall.prog .memoryOnly 32 (iterFuel 128))).run s =
        .ok c s' ∧ Star.prefixesCount.run s' = .ok n s' ∧ c = c0 ∧ n.inMemory = k := by
  unfold chkFiles at h
  cases ho : starExec (M := Md) .memoryOnly 32 [] with
  | panic => rw [ho] at h; cases h
  | diverge => rw [ho] at h; cases h
  | ok _ s =>
    obtain ⟨c, s', h1, h2, -⟩ := load_files_partial (fuel := iterFuel 128) (twoFiles prime) ho
    obtain ⟨n, h3, -⟩ := star_prefixes_count h2
    rw [ho] at h
    dsimp only at h
    rw [h1] at h
    dsimp only at h
    rw [h3] at h
    simp only [Bool.and_eq_true, decide_eq_true_eq, beq_iff_eq] at h
    exact ⟨s, c, s', n, rfl, h1, h3, h.1, h.2⟩

/-- C88 fails with `--prime`: the loader counts no unique prefix, the store has two. -/
theorem load_primed_fails : ∃ s c s' n, starExec (M := Md) .memoryOnly 32 [] = .ok () s ∧
    ((loadFiles 0 (twoFiles true) .zero).prog (StarCall.prog .memoryOnly 32 (iterFuel 128))).run s = .ok c s' ∧
    Star.prefixesCount.run s' = .ok n s' ∧ c = ⟨0, 3, 0, 3⟩ ∧ n.inMemory = 2 :=
  chkFiles_ok (by decide +kernel)

/-- `load_files_agree` for the two files: two prefixes, and three routes of which one was there. -/
example : (∀ f ∈ twoFiles false, f.primed = []) ∧
    ∃ s c s' n, starExec (M := Md) .memoryOnly 32 [] = .ok () s ∧
    ((loadFiles 0 (twoFiles false) .zero).prog (StarCall.prog .memoryOnly 32 (iterFuel 128))).run s = .ok c s' ∧
    Star.prefixesCount.run s' = .ok n s' ∧ c = ⟨2, 3, 0, 3⟩ ∧ n.inMemory = 2 := by
  refine ⟨?_, chkFiles_ok (by decide +kernel)⟩
  intro f hf
  simp only [twoFiles, Bool.false_eq_true, if_false, List.mem_cons, List.not_mem_nil, or_false] at hf
  rcases hf with rfl | rfl <;> rfl

/-- `load_files_shown` for the route in both files: the record is that of the second. -/
example : ∃ s c s' o, starExec (M := Md) .memoryOnly 32 [] = .ok () s ∧
    ((loadFiles 0 (twoFiles true) .zero).prog (StarCall.prog .memoryOnly 32 (iterFuel 128))).run s = .ok c s' ∧
    (Star.getRecords .memoryOnly (.v4 ten16) none false).run s' = .ok (.ok (some o)) s' ∧
    (⟨2#32, 1#64, .active, (rec1 1 1 7).md⟩ : Record Md) ∈ o := by
  obtain ⟨s, _, _, _, hs, -⟩ := load_primed_fails
  obtain ⟨c, s', o, h1, h2, h3, -⟩ := load_files_shown (fuel := iterFuel 128)
    [⟨[route (.v4 ten16) 2#32, route (.v4 ten8) 2#32], [route (.v4 ten8) 2#32, route (.v4 ten16) 2#32]⟩] []
    ⟨[route (.v4 ten16) 2#32], [route (.v4 ten16) 2#32]⟩ (a := []) (b := []) (x := route (.v4 ten16) 2#32)
    rfl (fun _ h => (by cases h)) (fun _ h => (by cases h)) rfl hs
  exact ⟨s, c, s', o, hs, h1, h2, h3⟩

end Rotonda.Props
