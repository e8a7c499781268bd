import Verif.Props.Demo
import Verif.Props.Families
import Verif.Proofs.Setup

/-!
# Creation, statistics, flushing: C65, C66, C67
-/

namespace Rotonda.Props

open Prog Spec

variable {M : Type} [Meta M] {W : Nat}

/-! ## C65: creating a store -/

/-- C65: the path of the configurations of the crate can be set if they have one. -/
theorem configs_settable :
    Settable MemoryOnlyConfig ∧ Settable PersistOnlyConfig ∧ Settable WriteAheadConfig ∧
      Settable PersistHistoryConfig :=
  ⟨fun _ _ _ h => (by cases h), fun _ _ _ _ => ⟨_, rfl, rfl, rfl⟩,
    fun _ _ _ _ => ⟨_, rfl, rfl, rfl⟩, fun _ _ _ _ => ⟨_, rfl, rfl, rfl⟩⟩

/-- C65: the configurations have the strategies they are named after; all but that for
memory have a path. -/
theorem configs_strategy :
    (∀ c : MemoryOnlyConfig, Config.strategy c = .memoryOnly) ∧
    (∀ c : PersistOnlyConfig, Config.strategy c = .persistOnly ∧ ∃ p, Config.path c = some p) ∧
    (∀ c : WriteAheadConfig, Config.strategy c = .writeAhead ∧ ∃ p, Config.path c = some p) ∧
    (∀ c : PersistHistoryConfig, Config.strategy c = .persistHistory ∧
      ∃ p, Config.path c = some p) :=
  ⟨fun _ => rfl, fun _ => ⟨rfl, _, rfl⟩, fun _ => ⟨rfl, _, rfl⟩, fun _ => ⟨rfl, _, rfl⟩⟩

/-- C65: creating a store that keeps its records in memory succeeds, and opens nothing on
disk; the store is the empty store, with the configuration it was given. -/
theorem new_memory_only {C : Type} [Config C] (hC : Settable C) (F : Nat) (u : Path) (fs : Fs)
    {c : C} (hc : Config.strategy c = .memoryOnly) :
    ∃ s : Store M C, (newWithConfig F u c).run fs = .ok (.ok s) fs ∧
      starExec .memoryOnly F [] = .ok () s.star ∧ s.config = c ∧ s.strategy = .memoryOnly ∧
      s.v4.persisted = false ∧ s.v6.persisted = false ∧
      Config.strategy s.v4.config = .memoryOnly ∧ Config.strategy s.v6.config = .memoryOnly := by
  have key : ∀ c4 c6 : C, (∀ fs, (familyConfig u "ipv4".toList c).run fs = .ok c4 fs) →
      (∀ fs, (familyConfig u "ipv6".toList c).run fs = .ok c6 fs) →
      Config.strategy c4 = .memoryOnly → Config.strategy c6 = .memoryOnly →
      (newWithConfig F u c : Prog Fs (Except SetupError (Store M C))).run fs =
        .ok (.ok ⟨freshAf M 32 c4 none, freshAf M 128 c6 none, c⟩) fs := by
    intro c4 c6 h4 h6 k4 k6
    unfold newWithConfig
    rw [run_bind, h4]
    simp only [Outcome.andThen]
    rw [run_bind, h6]
    simp only [Outcome.andThen]
    rw [run_bind, run_afInit_memory F fs k4]
    simp only [Outcome.andThen]
    rw [run_bind, run_afInit_memory F fs k6]
    rfl
  cases hp : Config.path c with
  | none =>
    refine ⟨_, key c c (fun fs => run_familyConfig_none _ _ fs hp)
      (fun fs => run_familyConfig_none _ _ fs hp) hc hc, ?_, rfl, hc, rfl, rfl, hc, hc⟩
    rw [starExec_nil]; rfl
  | some p =>
    obtain ⟨c4, s4, -, e4⟩ := hC c p (familyPath p u "ipv4".toList) hp
    obtain ⟨c6, s6, -, e6⟩ := hC c p (familyPath p u "ipv6".toList) hp
    refine ⟨_, key c4 c6 (fun fs => run_familyConfig_some _ _ fs hp s4)
      (fun fs => run_familyConfig_some _ _ fs hp s6) (e4.trans hc) (e6.trans hc), ?_, rfl, hc,
      rfl, rfl, e4.trans hc, e6.trans hc⟩
    rw [starExec_nil]; rfl

/-- C65: creating a store that persists records opens the directory of IPv4 and then that
of IPv6, nothing else, and succeeds just when both can be opened.  The store then holds what
is in the directories, nothing in memory, and the configuration it was given; each family
has the strategy of the configuration and the path of its directory. -/
theorem new_persisting {C : Type} [Config C] (hC : Settable C) (F : Nat) (u : Path) (fs : Fs)
    {c : C} {p : Path} (hc : Config.strategy c ≠ .memoryOnly) (hp : Config.path c = some p) :
    (∀ t4 t6, fs.tree (dir4 p u) = some t4 → fs.tree (dir6 p u) = some t6 →
      ∃ s : Store M C, (newWithConfig F u c).run fs =
          .ok (.ok s) { fs with tried := fs.tried ++ [dir4 p u, dir6 p u] } ∧
        s.star.v4.lsm = t4 ∧ s.star.v6.lsm = t6 ∧
        starExec (Config.strategy c) F [] =
          .ok () ⟨{ s.star.v4 with lsm := [] }, { s.star.v6 with lsm := [] }⟩ ∧
        s.config = c ∧ s.strategy = Config.strategy c ∧
        s.v4.persisted = true ∧ s.v6.persisted = true ∧
        Config.strategy s.v4.config = Config.strategy c ∧
        Config.strategy s.v6.config = Config.strategy c ∧
        Config.path s.v4.config = some (dir4 p u) ∧ Config.path s.v6.config = some (dir6 p u)) ∧
    (fs.tree (dir4 p u) = none →
      (newWithConfig F u c : Prog Fs (Except SetupError (Store M C))).run fs =
        .ok (.error .cannotCreate) { fs with tried := fs.tried ++ [dir4 p u] }) ∧
    (∀ t4, fs.tree (dir4 p u) = some t4 → fs.tree (dir6 p u) = none →
      (newWithConfig F u c : Prog Fs (Except SetupError (Store M C))).run fs =
        .ok (.error .cannotCreate)
          { fs with tried := fs.tried ++ [dir4 p u, dir6 p u] }) := by
  obtain ⟨c4, s4, p4, e4⟩ := hC c p (familyPath p u "ipv4".toList) hp
  obtain ⟨c6, s6, p6, e6⟩ := hC c p (familyPath p u "ipv6".toList) hp
  have f4 := fun fs => run_familyConfig_some u "ipv4".toList fs hp s4
  have f6 := fun fs => run_familyConfig_some u "ipv6".toList fs hp s6
  rw [familyPath4] at p4
  rw [familyPath6] at p6
  have n4 : Config.strategy c4 ≠ .memoryOnly := by rw [e4]; exact hc
  have n6 : Config.strategy c6 ≠ .memoryOnly := by rw [e6]; exact hc
  refine ⟨fun t4 t6 h4 h6 => ⟨⟨freshAf M 32 c4 (some t4), freshAf M 128 c6 (some t6), c⟩, ?_,
    rfl, rfl, ?_, rfl, rfl, rfl, rfl, e4, e6, p4, p6⟩, fun h4 => ?_, fun t4 h4 h6 => ?_⟩
  · unfold newWithConfig
    rw [run_bind, f4]
    simp only [Outcome.andThen]
    rw [run_bind, f6]
    simp only [Outcome.andThen]
    rw [run_bind, run_afInit_persist F fs n4 p4, h4]
    simp only [Outcome.andThen]
    rw [run_bind, run_afInit_persist F _ n6 p6]
    simp only [h6, List.append_assoc]
    rfl
  · rw [starExec_nil]; rfl
  · unfold newWithConfig
    rw [run_bind, f4]
    simp only [Outcome.andThen]
    rw [run_bind, f6]
    simp only [Outcome.andThen]
    rw [run_bind, run_afInit_persist F fs n4 p4, h4]
    rfl
  · unfold newWithConfig
    rw [run_bind, f4]
    simp only [Outcome.andThen]
    rw [run_bind, f6]
    simp only [Outcome.andThen]
    rw [run_bind, run_afInit_persist F fs n4 p4, h4]
    simp only [Outcome.andThen]
    rw [run_bind, run_afInit_persist F _ n6 p6]
    simp only [h6, List.append_assoc]
    rfl

/-- C65: a store that persists records into new directories is the empty store: all that is
shown of histories is shown of the calls on it. -/
theorem new_persisting_empty {C : Type} [Config C] (hC : Settable C) (F : Nat) (u : Path)
    (fs : Fs) {c : C} {p : Path} (hc : Config.strategy c ≠ .memoryOnly)
    (hp : Config.path c = some p) (h4 : fs.tree (dir4 p u) = some [])
    (h6 : fs.tree (dir6 p u) = some []) :
    ∃ s : Store M C, (newWithConfig F u c).run fs =
        .ok (.ok s) { fs with tried := fs.tried ++ [dir4 p u, dir6 p u] } ∧
      starExec (Config.strategy c) F [] = .ok () s.star := by
  obtain ⟨s, hr, e4, e6, he, -⟩ := (new_persisting (M := M) hC F u fs hc hp).1 _ _ h4 h6
  refine ⟨s, hr, ?_⟩
  rw [he]
  have h4' : ({ s.star.v4 with lsm := [] } : Rib M 32) = s.star.v4 := by rw [← e4]
  have h6' : ({ s.star.v6 with lsm := [] } : Rib M 128) = s.star.v6 := by rw [← e6]
  rw [h4', h6']

/-- C65: a configuration that persists records and has no path is refused. -/
theorem new_missing_path {C : Type} [Config C] (F : Nat) (u : Path) (fs : Fs) {c : C}
    (hc : Config.strategy c ≠ .memoryOnly) (hp : Config.path c = none) :
    (newWithConfig F u c : Prog Fs (Except SetupError (Store M C))).run fs =
      .ok (.error .missingPath) fs := by
  unfold newWithConfig
  rw [run_bind, run_familyConfig_none _ _ fs hp]
  simp only [Outcome.andThen]
  rw [run_bind, run_familyConfig_none _ _ fs hp]
  simp only [Outcome.andThen]
  rw [run_bind, run_afInit_missing F fs hc hp]
  rfl

/-- C65: creation panics with no configuration whose path can be set, and ends. -/
theorem new_returns {C : Type} [Config C] (hC : Settable C) (F : Nat) (u : Path) (fs : Fs)
    (c : C) :
    ∃ r fs', (newWithConfig F u c : Prog Fs (Except SetupError (Store M C))).run fs = .ok r fs' := by
  by_cases hc : Config.strategy c = .memoryOnly
  · obtain ⟨s, h, -⟩ := new_memory_only (M := M) hC F u fs hc
    exact ⟨_, _, h⟩
  · cases hp : Config.path c with
    | none => exact ⟨_, _, new_missing_path F u fs hc hp⟩
    | some p =>
      obtain ⟨k1, k2, k3⟩ := new_persisting (M := M) hC F u fs hc hp
      cases h4 : fs.tree (dir4 p u) with
      | none => exact ⟨_, _, k2 h4⟩
      | some t4 =>
        cases h6 : fs.tree (dir6 p u) with
        | none => exact ⟨_, _, k3 t4 h4 h6⟩
        | some t6 =>
          obtain ⟨s, h, -⟩ := k1 t4 t6 h4 h6
          exact ⟨_, _, h⟩

/-- C65: the directories of a store are in the path it was given, and those of the families,
and of stores for which different names were drawn, are apart: none is in another. -/
theorem new_directories_apart {p u v : Path} (hu : Drawn u) (hv : Drawn v) :
    (Within (dir4 p u) p ∧ Within (dir6 p u) p) ∧
    (¬ Within (dir4 p u) (dir6 p v) ∧ ¬ Within (dir6 p u) (dir4 p v)) ∧
    (u ≠ v → ¬ Within (dir4 p u) (dir4 p v) ∧ ¬ Within (dir6 p u) (dir6 p v)) := by
  simp only [Within, components_dir4 hu, components_dir6 hu, components_dir4 hv,
    components_dir6 hv]
  refine ⟨⟨List.prefix_append _ _, List.prefix_append _ _⟩, ⟨?_, ?_⟩, fun h => ⟨?_, ?_⟩⟩ <;>
  · rw [List.prefix_append_right_inj]
    simp [Ne.symm, eq_comm]
    try tauto

/-- C65: with the default configuration for memory, creation never fails. -/
theorem try_default_memory_only (F : Nat) (u : Path) (fs : Fs) :
    ∃ s : Store M MemoryOnlyConfig, (tryDefault F u).run fs = .ok (.ok s) fs ∧
      starExec .memoryOnly F [] = .ok () s.star := by
  obtain ⟨s, h, he, -⟩ := new_memory_only (M := M) configs_settable.1 F u fs
    (c := (Config.default : MemoryOnlyConfig)) rfl
  refine ⟨s, ?_, he⟩
  unfold tryDefault
  rw [run_bind, h]
  rfl

/-- C65: `try_default` succeeds just when `new_with_config` does with the default
configuration, and then gives the same store. -/
theorem try_default_new {C : Type} [Config C] (hC : Settable C) (F : Nat) (u : Path) (fs : Fs) :
    ∃ r fs', (newWithConfig F u (Config.default : C)).run fs = .ok r fs' ∧
      (tryDefault F u : Prog Fs (Except StoreError (Store M C))).run fs =
        .ok (r.mapError fun _ => .storeNotReady) fs' := by
  obtain ⟨r, fs', h⟩ := new_returns (M := M) hC F u fs (Config.default : C)
  refine ⟨r, fs', h, ?_⟩
  unfold tryDefault
  rw [run_bind, h]
  cases r <;> rfl

/-- C65, what does not hold: `try_default` is documented to be infallible, but with the
other configurations it fails when a directory below `/tmp/rotonda` cannot be opened. -/
theorem try_default_can_fail (F : Nat) (u : Path) :
    ∃ fs, (tryDefault F u : Prog Fs (Except StoreError (Store M PersistOnlyConfig))).run fs =
      .ok (.error .storeNotReady) ⟨fs.tree, [dir4 "/tmp/rotonda/".toList u]⟩ := by
  refine ⟨⟨fun _ => none, []⟩, ?_⟩
  have h := (new_persisting (M := M) configs_settable.2.1 F u ⟨fun _ => none, []⟩
    (c := (Config.default : PersistOnlyConfig)) (p := "/tmp/rotonda/".toList)
    (fun h => by cases h) rfl).2.1 rfl
  unfold tryDefault
  rw [run_bind, h]
  rfl

/-- C65, what does not hold: the directories are not always below the path taken as the file
system takes it: an empty path is the current directory, but the directories then are below
the root. -/
theorem new_empty_path {u : Path} : (dir4 [] u).head? = some '/' ∧ (dir6 [] u).head? = some '/' :=
  ⟨by simp [dir4], by simp [dir6]⟩

example : Drawn "a1B2c3D4e5F6".toList := ⟨by decide, by decide⟩

example : dir4 "/var/lib/rib".toList "a1B2c3D4e5F6".toList =
    "/var/lib/rib/a1B2c3D4e5F6/ipv4/".toList := by decide

example : components (dir6 "/var//lib/./rib/".toList "a1B2c3D4e5F6".toList) =
    ["var", "lib", "rib", "a1B2c3D4e5F6", "ipv6"].map String.toList := by decide

/-- A disk with nothing on it, on which one directory cannot be opened. -/
example : ∃ fs, (newWithConfig 0 "a1B2c3D4e5F6".toList (⟨"/v".toList⟩ : WriteAheadConfig) :
      Prog Fs (Except SetupError (Store Demo.Md WriteAheadConfig))).run
      ⟨fun p => if p = "/v/a1B2c3D4e5F6/ipv6/".toList then none else some [], []⟩ =
        .ok (.error .cannotCreate) fs ∧ fs.tried =
        ["/v/a1B2c3D4e5F6/ipv4/".toList, "/v/a1B2c3D4e5F6/ipv6/".toList] :=
  ⟨_, (new_persisting configs_settable.2.2.1 0 "a1B2c3D4e5F6".toList
    ⟨fun p => if p = "/v/a1B2c3D4e5F6/ipv6/".toList then none else some [], []⟩
    (c := (⟨"/v".toList⟩ : WriteAheadConfig)) (p := "/v".toList) (fun h => by cases h) rfl).2.2 []
    (by decide) (by decide), by decide⟩

/-! ## C66: statistics -/

/-- C66: the statistics of a family list, by ascending length, each length of which a prefix
was inserted, once, with the number of inserted prefixes of that length; no other. -/
theorem prefix_stats [hW : Fam W] {st : Strategy} {F : Nat} {h : History M W} {s : Rib M W}
    (hs : exec st F h = .ok () s) :
    ∃ l : List (Nat × Nat), (prefixStats (List.range 129)).run s = .ok l s ∧
      (l.map Prod.fst).Pairwise (· < ·) ∧
      (∀ n k, (n, k) ∈ l ↔ k = Set.ncard {p : Prefix W | Present h p ∧ p.len = n} ∧
        ∃ p : Prefix W, Present h p ∧ p.len = n) := by
  have hi := exec_ok_inv hs
  have hw : W ≤ 128 := by have := hW.width; omega
  have hfin : ∀ n, {p : Prefix W | Present h p ∧ p.len = n}.Finite := fun n =>
    (present_finite h).subset fun p hp => hp.1
  refine ⟨_, run_prefixStats _ s, ?_, ?_⟩
  · rw [List.map_map]
    simp only [Function.comp_def, List.map_id']
    exact List.pairwise_lt_range.filter _
  · intro n k
    simp only [List.mem_map, List.mem_filter, List.mem_range, Prod.mk.injEq]
    constructor
    · rintro ⟨a, ⟨-, ha⟩, rfl, rfl⟩
      refine ⟨hi.prefixes a, ?_⟩
      have h0 : s.prefixes a ≠ 0 := by simpa using ha
      rw [hi.prefixes a] at h0
      obtain ⟨p, hp⟩ := Set.nonempty_of_ncard_ne_zero h0
      exact ⟨p, hp⟩
    · rintro ⟨rfl, p, hp, rfl⟩
      have h0 : s.prefixes p.len ≠ 0 := by
        rw [hi.prefixes]
        exact (Set.ncard_pos (hfin _)).2 ⟨p, hp, rfl⟩ |>.ne'
      refine ⟨p.len, ⟨by have := p.le; omega, by simpa using h0⟩, rfl, hi.prefixes _⟩

/-- C66: the statistics of the store, for both families. -/
theorem star_stats {st : Strategy} {F : Nat} {h : List (StarOp M)} {s : Star M}
    (hs : starExec st F h = .ok () s) :
    ∃ l4 l6 : List (Nat × Nat), Star.stats.run s = .ok (l4, l6) s ∧
      (l4.map Prod.fst).Pairwise (· < ·) ∧ (l6.map Prod.fst).Pairwise (· < ·) ∧
      (∀ n k, (n, k) ∈ l4 ↔
        k = Set.ncard {p : Prefix 32 | (∃ r t, StarOp.insert (.v4 p) r t ∈ h) ∧ p.len = n} ∧
        ∃ p : Prefix 32, (∃ r t, StarOp.insert (.v4 p) r t ∈ h) ∧ p.len = n) ∧
      (∀ n k, (n, k) ∈ l6 ↔
        k = Set.ncard {p : Prefix 128 | (∃ r t, StarOp.insert (.v6 p) r t ∈ h) ∧ p.len = n} ∧
        ∃ p : Prefix 128, (∃ r t, StarOp.insert (.v6 p) r t ∈ h) ∧ p.len = n) := by
  obtain ⟨h4, h6⟩ := starExec_ok hs
  obtain ⟨a, ha, oa, ka⟩ := prefix_stats h4
  obtain ⟨b, hb, ob, kb⟩ := prefix_stats h6
  refine ⟨a, b, ?_, oa, ob, ?_, ?_⟩
  · exact run_starStats ha hb
  · intro n k
    rw [ka]
    simp only [present_hist4]
  · intro n k
    rw [kb]
    simp only [present_hist6]

/-- C66: the counts that the statistics list add up to the total prefix count. -/
theorem stats_sum [hW : Fam W] {st : Strategy} {F : Nat} {h : History M W} {s : Rib M W}
    (hs : exec st F h = .ok () s) :
    ∃ (l : List (Nat × Nat)) (c : UpsertCounters),
      (prefixStats (List.range 129)).run s = .ok l s ∧ ribPrefixesCount.run s = .ok c s ∧
      (l.map Prod.snd).sum = c.total ∧ c.total = Set.ncard {p : Prefix W | Present h p} := by
  obtain ⟨c, hc, ht, -⟩ := prefixes_count_total hs
  refine ⟨_, c, run_prefixStats _ s, hc, ?_, ht⟩
  have e : c.total = ((List.range 129).map s.prefixes).sum := by
    rw [run_ribPrefixesCount] at hc
    simp only [Outcome.ok.injEq, and_true] at hc
    rw [← hc]
  rw [e]
  clear e ht hc
  generalize List.range 129 = ls
  induction ls with
  | nil => rfl
  | cons l ls ih =>
    by_cases h0 : s.prefixes l = 0
    · simpa [h0] using ih
    · simpa [h0] using ih

/-- Three lengths; a prefix that is inserted twice counts once. -/
example : (match exec .memoryOnly 4 Demo.hist with
    | .ok _ s => (match (prefixStats (List.range 129)).run s with
      | .ok l _ => some l
      | _ => none)
    | _ => none) = some [(8, 1), (16, 2), (32, 1)] := by decide +kernel

/-! ## C67: flushing -/

/-- C67: flushing a store without trees on disk reports a failure. -/
theorem flush_memory_only : starFlush none none = (([], []), .error .persistFailed) := rfl

/-- C67: when flushing a store reports success, every tree was written to if it had anything
to write, unless that failed; and a failure that is reported did occur. -/
theorem flush_report (b4 b6 : Backend) :
    ((starFlush (some b4) (some b6)).2 = .ok () ↔
      ∀ b ∈ [b4, b6], b.write = .ok true → b.register = .ok () ∧ b.compact = .ok ()) ∧
    (∀ e, (starFlush (some b4) (some b6)).2 = .error e → e = .persistFailed) := by
  obtain ⟨w4, r4, k4, _, _⟩ := b4
  obtain ⟨w6, r6, k6, _, _⟩ := b6
  rcases w4 with ⟨⟩ | (_ | _) <;> rcases w6 with ⟨⟩ | (_ | _) <;> rcases r4 with ⟨⟩ | ⟨⟩ <;>
    rcases r6 with ⟨⟩ | ⟨⟩ <;> rcases k4 with ⟨⟩ | ⟨⟩ <;> rcases k6 with ⟨⟩ | ⟨⟩ <;>
    simp [starFlush, afFlush, lsmFlush, eq_comm]

/-- C67, the part that holds: if no memory table fails to be written, a success means that
all content reached its segments. -/
theorem flush_success_partial {b4 b6 : Backend} (h4 : b4.write ≠ .error ())
    (h6 : b6.write ≠ .error ()) (h : (starFlush (some b4) (some b6)).2 = .ok ()) :
    Reached b4 ∧ Reached b6 := by
  have hh := (flush_report b4 b6).1.1 h
  have k : ∀ b : Backend, b.write ≠ .error () →
      (b.write = .ok true → b.register = .ok () ∧ b.compact = .ok ()) → Reached b := by
    intro b hb hr
    cases hw : b.write with
    | error e => exact absurd hw hb
    | ok w =>
      cases w with
      | false => exact .inl hw
      | true => exact .inr ⟨hw, (hr hw).1⟩
  exact ⟨k b4 h4 (hh b4 (by simp)), k b6 h6 (hh b6 (by simp))⟩

/-- C67, what does not hold: a success does not mean that anything reached the disk.  When
writing the memory table fails, the error is dropped. -/
theorem flush_success_fails :
    ∃ b4 b6 : Backend, (starFlush (some b4) (some b6)).2 = .ok () ∧ ¬ Reached b4 ∧
      ¬ Reached b6 :=
  ⟨⟨.error (), .ok (), .ok (), 0, 0⟩, ⟨.error (), .ok (), .ok (), 0, 0⟩, rfl,
    by simp [Reached], by simp [Reached]⟩

/-- C67: a tree is flushed in order, up to the first step that fails. -/
theorem flush_steps (b : Backend) :
    (afFlush (some b)).1 = .write ::
      (if b.write = .ok true then
        .register :: (if b.register = .ok () then [.compact] else [])
      else []) := by
  obtain ⟨w, r, k, _, _⟩ := b
  rcases w with ⟨⟩ | (_ | _) <;> rcases r with ⟨⟩ | ⟨⟩ <;> rcases k with ⟨⟩ | ⟨⟩ <;> rfl

/-- C67: IPv4 is always flushed, IPv6 just when that reported success: a failure of the
one leaves the records of the other in memory only. -/
theorem flush_families (t4 t6 : Option Backend) :
    (starFlush t4 t6).1.1 = (afFlush t4).1 ∧
    ((afFlush t4).2 = .ok () → (starFlush t4 t6).1.2 = (afFlush t6).1) ∧
    ((afFlush t4).2 ≠ .ok () → (starFlush t4 t6).1.2 = []) := by
  unfold starFlush
  rcases h4 : afFlush t4 with ⟨l4, e4⟩
  rcases h6 : afFlush t6 with ⟨l6, e6⟩
  cases e4 <;> cases e6 <;> simp

/-- C67: the reported items and space are those of the trees; none without trees. -/
theorem disk_reports (b4 b6 : Backend) :
    starItems (some b4) (some b6) = (b4.items, b6.items) ∧
    starSpace (some b4) (some b6) = b4.space + b6.space ∧
    starItems none none = (0, 0) ∧ starSpace none none = 0 := ⟨rfl, rfl, rfl, rfl⟩

end Rotonda.Props
