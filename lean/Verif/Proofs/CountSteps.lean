import Verif.Proofs.CountCalls
import Verif.Proofs.ReadsQueries
import Verif.Proofs.StarConc
import Verif.Proofs.CountSpec

/-!
# Counters only grow, one at a time
-/

namespace Rotonda

open Prog Spec

variable {M : Type} {W : Nat}

/-- The sum of the counters of all lengths. -/
def sumLens (f : Nat → Nat) : Nat := ((List.range 129).map f).sum

/-- At most one counter is one higher. -/
def OneUp (f g : Nat → Nat) : Prop := (∀ l, f l ≤ g l ∧ g l ≤ f l + 1) ∧ sumLens g ≤ sumLens f + 1

theorem OneUp.rfl' (f : Nat → Nat) : OneUp f f := ⟨fun _ => ⟨Nat.le_refl _, by omega⟩, by omega⟩

theorem sum_le_map {f g : Nat → Nat} (h : ∀ l, f l ≤ g l) (ls : List Nat) :
    (ls.map f).sum ≤ (ls.map g).sum := List.sum_le_sum fun l _ => h l

theorem OneUp.sum {f g : Nat → Nat} (h : OneUp f g) : sumLens f ≤ sumLens g :=
  sum_le_map (fun l => (h.1 l).1) _

theorem oneUp_bump (n : Nat) (f : Nat → Nat) : OneUp f (bump n f) := by
  refine ⟨fun l => ?_, ?_⟩
  · unfold bump; split <;> omega
  · have key : ∀ ls : List Nat, ls.Nodup → (ls.map (bump n f)).sum ≤ (ls.map f).sum + 1 ∧
        (n ∉ ls → (ls.map (bump n f)).sum = (ls.map f).sum) := by
      intro ls
      induction ls with
      | nil => exact fun _ => ⟨by simp, fun _ => rfl⟩
      | cons l ls ih =>
        intro hn
        obtain ⟨h1, h2⟩ := List.nodup_cons.1 hn
        obtain ⟨i1, i2⟩ := ih h2
        simp only [List.map_cons, List.sum_cons]
        by_cases hl : l = n
        · subst hl
          refine ⟨?_, fun h => absurd (List.mem_cons_self) h⟩
          rw [i2 h1]
          have : bump l f l ≤ f l + 1 := by unfold bump; split <;> omega
          omega
        · have : bump n f l = f l := by unfold bump; rw [if_neg (fun h => hl h.1)]
          rw [this]
          exact ⟨by omega, fun h => by rw [i2 fun h' => h (List.mem_cons_of_mem _ h')]⟩
    exact (key _ List.nodup_range).1

/-- At most one higher. -/
def Up (a b : Nat) : Prop := a ≤ b ∧ b ≤ a + 1

theorem Up.rfl' (a : Nat) : Up a a := ⟨Nat.le_refl _, Nat.le_succ _⟩

/-- What a step does to the counters of a store. -/
structure Ticks (s s' : Rib M W) : Prop where
  total : OneUp s.prefixes s'.prefixes
  mem : OneUp s.cht.prefixes s'.cht.prefixes
  routes : Up s.routes s'.routes
  memRoutes : Up s.cht.routesCount s'.cht.routesCount
  nodes : Up s.tree.nodes s'.tree.nodes

theorem Ticks.rfl' (s : Rib M W) : Ticks s s :=
  ⟨OneUp.rfl' _, OneUp.rfl' _, Up.rfl' _, Up.rfl' _, Up.rfl' _⟩

theorem ticks_readOnly {α : Type} {p : Prog (Rib M W) α} (h : p.ReadOnly) : p.Always Ticks :=
  ReadOnly.always Ticks.rfl' h

theorem ticks_onRecs {α : Type} (p : Prog (PSlots M W) α) : (onRecs p).Always (Ticks (M := M)) :=
  Always.zoom (G' := fun t t' => t'.prefixes = t.prefixes ∧ t'.nodes = t.nodes)
    (fun s t h => ⟨OneUp.rfl' _, by show OneUp _ t.prefixes; rw [h.1]; exact OneUp.rfl' _, Up.rfl' _,
      by show Up _ t.nodes; rw [h.2]; exact Up.rfl' _, Up.rfl' _⟩)
    (Always.zoom (G' := fun _ _ => True) (fun _ _ _ => ⟨rfl, rfl⟩) (always_true _))

theorem ticks_onLsm (f : Lsm → Lsm) : (onLsm (M := M) (W := W) f).Always Ticks :=
  always_atomic fun s => ⟨OneUp.rfl' _, OneUp.rfl' _, Up.rfl' _, Up.rfl' _, Up.rfl' _⟩

theorem ticks_onTree {α : Type} {p : Prog (Tree W) α}
    (h : p.Always fun t t' => Up t.nodes t'.nodes) : (p.zoom Rib.treeL).Always (Ticks (M := M)) :=
  Always.zoom (fun _ _ h => ⟨OneUp.rfl' _, OneUp.rfl' _, Up.rfl' _, Up.rfl' _, h⟩) h

theorem up_nslots {α : Type} (p : Prog (NSlots W) α) :
    (p.zoom Tree.slotsL).Always fun t t' => Up t.nodes t'.nodes :=
  Always.zoom (G' := fun _ _ => True) (fun _ _ _ => Up.rfl' _) (always_true _)

theorem up_storeNode (F : Nat) (id : NodeId W) (m : Mui) (ptr : BitVec 16) (pfx : BitVec 32) :
    (storeNode F id m ptr pfx).Always fun t t' => Up t.nodes t'.nodes := by
  unfold storeNode
  refine Always.bind (always_atomic fun t => ⟨Nat.le_succ _, Nat.le_refl _⟩) fun _ => ?_
  always [up_nslots _]

theorem up_updateDefaultRoute (m : Mui) :
    (updateDefaultRoute (W := W) m).Always fun t t' => Up t.nodes t'.nodes := by
  have h : (Prog.atomic (fun t : Tree W => ((), { t with rootRbm := muiInsert t.rootRbm m }))).Always
      fun t t' => Up t.nodes t'.nodes := always_atomic fun _ => Up.rfl' _
  unfold updateDefaultRoute
  always [up_nslots _, h]

theorem up_setPrefixExistsLoop (F : Nat) (p : PrefixId W) (m : Mui) : ∀ (fuel start : Nat)
    (cur : NodeId W), (setPrefixExistsLoop F p m fuel start cur).Always
      fun t t' => Up t.nodes t'.nodes := by
  intro fuel
  induction fuel with
  | zero => intro _ _; trivial
  | succ fuel ih =>
    intro start cur
    unfold setPrefixExistsLoop
    dsimp only
    always [up_nslots _, up_storeNode _ _ _ _ _, ih _ _]

theorem up_setPrefixExists (F : Nat) (p : PrefixId W) (m : Mui) :
    (setPrefixExists F p m).Always fun t t' => Up t.nodes t'.nodes := by
  have h : (Prog.atomic (fun t : Tree W => (t.defaultExists, { t with defaultExists := true }))).Always
      fun t t' => Up t.nodes t'.nodes := always_atomic fun _ => Up.rfl' _
  unfold setPrefixExists
  always [h, up_updateDefaultRoute _, up_setPrefixExistsLoop _ _ _ _ _ _]

theorem up_updateWithdrawnLoop (cur : Nat) : ∀ (fuel : Nat) (new : Mui → Bool),
    (updateWithdrawnLoop (W := W) cur fuel new).Always fun t t' => Up t.nodes t'.nodes := by
  intro fuel
  induction fuel with
  | zero => intro _; trivial
  | succ fuel ih =>
    intro new
    unfold updateWithdrawnLoop
    refine Always.bind (always_atomic fun t => ?_) fun r => ?_
    · split <;> exact Up.rfl' _
    · cases r with
      | none => trivial
      | some found => exact ih found

theorem ticks_rewriteAll (t : LTime) (rs : RouteStatus) :
    ∀ bs : List Bytes, (rewriteAll (M := M) W t rs bs).Always Ticks := by
  intro bs
  induction bs with
  | nil => trivial
  | cons b bs ih =>
    unfold rewriteAll
    refine Always.bind (always_atomic fun s => ?_) fun ok => ?_
    · cases rewriteHeader W s.lsm t rs b with
      | none => exact Ticks.rfl' _
      | some l => exact ⟨OneUp.rfl' _, OneUp.rfl' _, Up.rfl' _, Up.rfl' _, Up.rfl' _⟩
    · cases ok with
      | true => exact ih
      | false => trivial

theorem ticks_ribMarkMem (q : PrefixId W) (m : Mui) (l : LTime) (rs : RouteStatus) :
    (ribMarkMem (M := M) q m l rs).Always Ticks := by
  unfold ribMarkMem
  always [ticks_onRecs _]

theorem ticks_ribPersistMarker (sp : Ref W) (q : PrefixId W) (m : Mui) (l : LTime) :
    (ribPersistMarker (M := M) sp q m l).Always Ticks := by
  unfold ribPersistMarker
  always [ticks_onRecs _, ticks_onLsm _]

/-- What a step does to the counters of the prefix table. -/
def ChtTicks (t t' : PCht M W) : Prop := OneUp t.prefixes t'.prefixes ∧ Up t.nodes t'.nodes

theorem chtTicks_slots {α : Type} (p : Prog (PSlots M W) α) :
    (p.zoom PCht.slotsL).Always ChtTicks :=
  Always.zoom (G' := fun _ _ => True) (fun _ _ _ => ⟨OneUp.rfl' _, Up.rfl' _⟩) (always_true _)

variable [Meta M]

theorem ticks_pchtUpsert (p : PrefixId W) (r : Record M) (upd : Option (Meta.TBI M)) :
    ((pchtUpsert p r upd).zoom Rib.chtL).Always Ticks := by
  refine Always.zoom (G' := ChtTicks)
    (fun s t h => ⟨OneUp.rfl' _, h.1, Up.rfl' _, h.2, Up.rfl' _⟩) ?_
  have h1 : (PCht.incRoutes (M := M) (W := W)).Always ChtTicks :=
    always_atomic fun _ => ⟨OneUp.rfl' _, Up.rfl' _⟩
  have h2 : ∀ l, (PCht.incPrefixes (M := M) (W := W) l).Always ChtTicks := fun l =>
    always_atomic fun t => ⟨oneUp_bump l t.prefixes, Up.rfl' _⟩
  unfold pchtUpsert
  always [chtTicks_slots _, h1, h2 _]

theorem ticks_ribUpsert (st : Strategy) (F : Nat) (p : PrefixId W) (r : Record M)
    (upd : Option (Meta.TBI M)) : (ribUpsert st F p r upd).Always Ticks := by
  cases st <;> unfold ribUpsert <;>
    always [ticks_pchtUpsert _ _ _, ticks_onLsm _, ticks_onTree (up_setPrefixExists _ _ _)]

/-- Every call counts one thing at a time. -/
theorem ticks_call (st : Strategy) (F fuel : Nat) (x : Call M W) :
    (x.prog st F fuel).Always Ticks := by
  cases x with
  | insert q r tbi =>
    have h1 : (Rib.incRoutes (M := M) (W := W)).Always Ticks := always_atomic fun s =>
      ⟨OneUp.rfl' _, OneUp.rfl' _, ⟨Nat.le_succ _, Nat.le_refl _⟩, Up.rfl' _, Up.rfl' _⟩
    have h2 : (Rib.incPrefixes (M := M) (W := W) q.id.len).Always Ticks := always_atomic fun s =>
      ⟨oneUp_bump _ _, OneUp.rfl' _, Up.rfl' _, Up.rfl' _, Up.rfl' _⟩
    change (ribInsert st F q.id r tbi).Always _
    unfold ribInsert
    always [ticks_onTree (up_setPrefixExists _ _ _), ticks_ribUpsert _ _ _ _ _, h1, h2]
  | withdrawFor q m t =>
    change (ribMarkWithdrawnForPrefix st q.id m t).Always _
    cases st <;> unfold ribMarkWithdrawnForPrefix <;>
      always [ticks_ribMarkMem _ _ _ _, ticks_ribPersistMarker _ _ _ _,
        ticks_readOnly (readOnly_read _), ticks_rewriteAll _ _ _]
  | activateFor q m t =>
    change (ribMarkActiveForPrefix st q.id m t).Always _
    cases st <;> unfold ribMarkActiveForPrefix <;>
      always [ticks_ribMarkMem _ _ _ _, ticks_ribPersistMarker _ _ _ _,
        ticks_readOnly (readOnly_read _), ticks_rewriteAll _ _ _]
  | withdraw m =>
    change ((treeMarkWithdrawn F m).zoom Rib.treeL).Always _
    refine ticks_onTree ?_
    unfold treeMarkWithdrawn
    exact Always.bind (always_read (fun t : Tree W => Up.rfl' t.nodes) _) fun _ => up_updateWithdrawnLoop _ _ _
  | activate m =>
    change ((treeMarkActive F m).zoom Rib.treeL).Always _
    refine ticks_onTree ?_
    unfold treeMarkActive
    exact Always.bind (always_read (fun t : Tree W => Up.rfl' t.nodes) _) fun _ => up_updateWithdrawnLoop _ _ _
  | calcBest q tbi =>
    change (ribCalcBest q.id tbi).Always _
    unfold ribCalcBest
    always [ticks_onRecs _]
  | contains p mui => exact ticks_readOnly (readOnly_ribContains _ _)
  | getRecords p mui iw => exact ticks_readOnly (readOnly_ribGetValue _ _ _ _)
  | matchPrefix p o => exact ticks_readOnly (readOnly_ribMatchPrefix _ _ _ _)
  | moreFrom p mui iw => exact ticks_readOnly (readOnly_ribMoreSpecificsFrom _ _ _ _ _)
  | lessFrom p mui iw => exact ticks_readOnly (readOnly_ribLessSpecificsFrom _ _ _ _)
  | moreIter p mui iw => exact ticks_readOnly (readOnly_ribMoreSpecificsIter _ _ _ _ _)
  | lessIter p mui iw => exact ticks_readOnly (readOnly_ribLessSpecificsIter _ _ _ _)
  | prefixesIter => exact ticks_readOnly (readOnly_ribPrefixesIter _ _)
  | persistPrefixesIter => exact ticks_readOnly (readOnly_ribPersistPrefixesIter _)
  | recordsForMui m iw => exact ticks_readOnly (readOnly_ribIterRecordsForMui _ _ _ _)
  | bestPath p => exact ticks_readOnly (readOnly_ribBestPath _)
  | isPsOutdated p => exact ticks_readOnly (readOnly_ribIsPsOutdated _)
  | muiIsWithdrawn m => exact ticks_readOnly (readOnly_ribMuiIsWithdrawn _)
  | isMuiActive m => exact ticks_readOnly (readOnly_ribIsMuiActive _)
  | prefixesCount => exact ticks_readOnly readOnly_ribPrefixesCount
  | routesCount => exact ticks_readOnly readOnly_ribRoutesCount
  | prefixesCountForLen l => exact ticks_readOnly (readOnly_ribPrefixesCountForLen _)
  | nodesCount => exact ticks_readOnly (readOnly_read _)

/-- What a step does to the counters of both stores: it leaves one of the stores alone. -/
def StarTicks (s s' : Star M) : Prop :=
  (Ticks s.v4 s'.v4 ∧ s'.v6 = s.v6) ∨ (Ticks s.v6 s'.v6 ∧ s'.v4 = s.v4)

theorem starTicks_call (st : Strategy) (F fuel : Nat) (x : StarCall M) :
    (x.prog st F fuel).Always StarTicks := by
  have h4 : ∀ {α : Type} {p : Prog (Rib M 32) α}, p.Always Ticks →
      (p.zoom Star.v4L).Always StarTicks := fun h => Always.zoom (fun _ _ h => .inl ⟨h, rfl⟩) h
  have h6 : ∀ {α : Type} {p : Prog (Rib M 128) α}, p.Always Ticks →
      (p.zoom Star.v6L).Always StarTicks := fun h => Always.zoom (fun _ _ h => .inr ⟨h, rfl⟩) h
  have key : ∀ {α : Type} (q : Parts M α) (P : Prog (Star M) α) (P4 : Prog (Rib M 32) q.call4.Ans)
      (P6 : Prog (Rib M 128) q.call6.Ans), Sim st F fuel q P P4 P6 → P4.Always Ticks →
      P6.Always Ticks → P.Always StarTicks := by
    intro α q P P4 P6 h a4 a6
    cases q with
    | v4 x g =>
      have h : P = _ := h
      rw [h]; exact Always.bind (h4 a4) fun _ => trivial
    | v6 y g =>
      have h : P = _ := h
      rw [h]; exact Always.bind (h6 a6) fun _ => trivial
    | both x y e g =>
      rcases h with ⟨rfl, -⟩ | ⟨a, -, -, rfl⟩
      · refine Always.bind (h4 a4) fun a => ?_
        cases e a with
        | some r => trivial
        | none => exact Always.bind (h6 (ticks_call _ _ _ _)) fun _ => trivial
      · exact Always.bind (h6 a6) fun _ => trivial
    | mixed x y g =>
      change Mixed g P P4 P6 at h
      induction h with
      | last P4 P6 => exact Always.bind (h4 a4) fun _ => Always.bind (h6 a6) fun _ => trivial
      | act4 f k K P6 _ ih => exact ⟨fun s => .inl ⟨a4.1 s.v4, rfl⟩, fun r => ih r (a4.2 r) a6⟩
      | act6 f P4 k K _ ih => exact ⟨fun s => .inr ⟨a6.1 s.v6, rfl⟩, fun r => ih r a4 (a6.2 r)⟩
      | panic4 => trivial
      | panic6 => trivial
      | diverge4 => trivial
      | diverge6 => trivial
  exact key _ _ _ _ (sim_start st F fuel x) (ticks_call _ _ _ _) (ticks_call _ _ _ _)

/-! ## Along a run -/

section
variable {σ ι : Type} [DecidableEq ι] {A : ι → Type} {G : σ → σ → Prop}

theorem Conf.always_step {c : Conf σ ι A} (h : ∀ i, (c.pool i).Always G) (hG : ∀ s, G s s) (i : ι) :
    G c.st (c.step i).st ∧ ∀ j, ((c.step i).pool j).Always G := by
  have hi := h i
  cases hp : c.pool i with
  | ret a => rw [Conf.step_ret hp]; exact ⟨hG _, h⟩
  | panic => rw [Conf.step_panic hp]; exact ⟨hG _, h⟩
  | diverge => rw [Conf.step_diverge hp]; exact ⟨hG _, h⟩
  | act f k =>
    rw [hp] at hi
    rw [Conf.step_act hp]
    refine ⟨hi.1 _, fun j => ?_⟩
    by_cases hj : j = i
    · subst hj; simp only [Function.update_self]; exact hi.2 _
    · simp only [Function.update_of_ne hj]; exact h j

theorem Conf.always_at {c : Conf σ ι A} (h : ∀ i, (c.pool i).Always G) (hG : ∀ s, G s s)
    (t : List ι) (n : ℕ) : G (c.at t n).st (c.at t (n + 1)).st := by
  have hall : ∀ (t : List ι) (c : Conf σ ι A), (∀ i, (c.pool i).Always G) →
      ∀ i, ((c.exec t).pool i).Always G := by
    intro t
    induction t with
    | nil => exact fun _ h => h
    | cons j t ih => exact fun c h => ih _ (Conf.always_step h hG j).2
  by_cases hn : n < t.length
  · rw [Conf.at_succ _ _ hn]
    exact (Conf.always_step (hall _ c h) hG _).1
  · have : c.at t (n + 1) = c.at t n := by
      unfold Conf.at
      rw [List.take_of_length_le (by omega), List.take_of_length_le (by omega)]
    rw [this]; exact hG _

end

/-! ## Sums of counters read one by one -/

/-- A counter that grows by at most one at a time takes every value in between. -/
theorem exists_between {f : ℕ → ℕ} (h : ∀ j, Up (f j) (f (j + 1))) {a b v : ℕ} (hab : a ≤ b)
    (ha : f a ≤ v) (hb : v ≤ f b) : ∃ j, a ≤ j ∧ j ≤ b ∧ f j = v := by
  induction b, hab using Nat.le_induction with
  | base => exact ⟨a, Nat.le_refl _, Nat.le_refl _, by omega⟩
  | succ b hb' ih =>
    by_cases hv : v ≤ f b
    · obtain ⟨j, h1, h2, h3⟩ := ih hv
      exact ⟨j, h1, by omega, h3⟩
    · have := (h b).2
      exact ⟨b + 1, by omega, Nat.le_refl _, by omega⟩

theorem up_mono {f : ℕ → ℕ} (h : ∀ j, f j ≤ f (j + 1)) {a b : ℕ} (hab : a ≤ b) : f a ≤ f b :=
  monotone_nat_of_le_succ h hab

theorem reads_sumCounters {S : ℕ → Rib M W} {get : Rib M W → Nat → Nat}
    (hS : ∀ j l, get (S j) l ≤ get (S (j + 1)) l) : ∀ (ls : List Nat) {k n a : ℕ},
    Reads S (sumCounters get ls) k a n →
    (ls.map (get (S k))).sum ≤ a ∧ a ≤ (ls.map (get (S n))).sum := by
  have hm : ∀ {a b : ℕ}, a ≤ b → ∀ l, get (S a) l ≤ get (S b) l := fun hab l =>
    up_mono (f := fun j => get (S j) l) (fun j => hS j l) hab
  intro ls
  induction ls with
  | nil =>
    rintro k n a ⟨h, -⟩
    subst h
    exact ⟨Nat.le_refl _, Nat.le_refl _⟩
  | cons l ls ih =>
    intro k n a h
    unfold sumCounters at h
    obtain ⟨x, k1, h1, h2⟩ := reads_bind.1 h
    obtain ⟨y, k2, h3, h4⟩ := reads_bind.1 h2
    obtain ⟨j, hj, hk, hx⟩ := reads_read.1 h1
    obtain ⟨hy, hn⟩ := reads_pure.1 h4
    obtain ⟨i1, i2⟩ := ih h3
    have hle := h3.le
    have e1 := hm hj l
    have e2 := hm (show j ≤ n by omega) l
    have e3 := sum_le_map (hm (show k ≤ k1 by omega)) ls
    have e4 := sum_le_map (hm hn) ls
    simp only [List.map_cons, List.sum_cons]
    omega

end Rotonda
