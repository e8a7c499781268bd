import Verif.Spec.Setup
import Verif.Proofs.StarSeq

/-!
# Creation and statistics
-/

namespace Rotonda

open Prog Spec

variable {M : Type} [Meta M] {W : Nat}

theorem splitSlash_ne (p : Path) : splitSlash p ≠ [] := by
  cases p with
  | nil => simp [splitSlash]
  | cons c s =>
    unfold splitSlash
    split
    · simp
    · split <;> simp

theorem splitSlash_append (a b : Path) :
    splitSlash (a ++ '/' :: b) = splitSlash a ++ splitSlash b := by
  induction a with
  | nil => simp [splitSlash]
  | cons c s ih =>
    by_cases h : c = '/'
    · simp [splitSlash, h, ih]
    · simp only [List.cons_append, splitSlash, h, if_false, ih]
      cases hs : splitSlash s with
      | nil => exact absurd hs (splitSlash_ne s)
      | cons x xs => rfl

theorem splitSlash_none {p : Path} (h : '/' ∉ p) : splitSlash p = [p] := by
  induction p with
  | nil => rfl
  | cons c s ih =>
    have h1 : c ≠ '/' := fun e => h (by simp [e])
    have h2 : '/' ∉ s := fun e => h (by simp [e])
    simp [splitSlash, h1, ih h2]

theorem components_append (a b : Path) :
    components (a ++ '/' :: b) = components a ++ components b := by
  simp [components, splitSlash_append]

theorem components_one {p : Path} (h : '/' ∉ p) (h1 : p ≠ []) (h2 : p ≠ ['.']) :
    components p = [p] := by
  simp [components, splitSlash_none h, h1, h2]

theorem Spec.Drawn.comp {u : Path} (h : Drawn u) : components u = [u] := by
  apply components_one
  · intro hm
    exact absurd (h.2 _ hm) (by decide)
  · rintro rfl
    exact absurd h.1 (by decide)
  · rintro rfl
    exact absurd h.1 (by decide)

theorem components_dir4 {p u : Path} (h : Drawn u) :
    components (dir4 p u) = components p ++ [u, "ipv4".toList] := by
  have e : dir4 p u = p ++ '/' :: (u ++ '/' :: ("ipv4".toList ++ '/' :: [])) := by
    simp [dir4]
  rw [e, components_append, components_append, components_append, h.comp,
    components_one (p := "ipv4".toList) (by decide) (by decide) (by decide)]
  simp [components, splitSlash]

theorem components_dir6 {p u : Path} (h : Drawn u) :
    components (dir6 p u) = components p ++ [u, "ipv6".toList] := by
  have e : dir6 p u = p ++ '/' :: (u ++ '/' :: ("ipv6".toList ++ '/' :: [])) := by
    simp [dir6]
  rw [e, components_append, components_append, components_append, h.comp,
    components_one (p := "ipv6".toList) (by decide) (by decide) (by decide)]
  simp [components, splitSlash]

theorem familyPath4 (p u : Path) : familyPath p u "ipv4".toList = dir4 p u := by
  simp [familyPath, dir4]

theorem familyPath6 (p u : Path) : familyPath p u "ipv6".toList = dir6 p u := by
  simp [familyPath, dir6]

theorem run_lsmNew (p : Path) (fs : Fs) :
    (lsmNew p).run fs = .ok (match fs.tree p with
      | some t => .ok t
      | none => .error ()) { fs with tried := fs.tried ++ [p] } := rfl

theorem run_ribNew [Fam W] (F : Nat) (t : Lsm) :
    (ribNew F).run { (Rib.empty : Rib M W) with lsm := t } =
      .ok true { (Rib.empty : Rib M W) with lsm := t, tree := Tree.initial W } := by
  unfold ribNew
  rw [run_tree]
  change (((treeNew F).run Tree.empty).mapState _) = _
  rw [treeNew_run]
  rfl

/-- The store of a family that was just created. -/
def freshAf (M : Type) (W : Nat) {C : Type} (c : C) (t : Option Lsm) : AfStore M W C :=
  ⟨{ (Rib.empty : Rib M W) with lsm := t.getD [], tree := Tree.initial W }, c, t.isSome⟩

theorem run_afInit [Fam W] (F : Nat) {C : Type} [Config C] (c : C) (fs : Fs) :
    (afInit F c : Prog Fs (Except SetupError (AfStore M W C))).run fs =
      ((afOpen c).run fs).andThen fun r fs' =>
        .ok (match r with
          | .error e => .error e
          | .ok t => .ok (freshAf M W c t)) fs' := by
  unfold afInit
  rw [run_bind]
  congr 1
  funext r fs'
  cases r with
  | error e => rfl
  | ok t => simp only [run_ribNew]; rfl

theorem run_afInit_memory [Fam W] (F : Nat) {C : Type} [Config C] {c : C} (fs : Fs)
    (hc : Config.strategy c = .memoryOnly) :
    (afInit F c : Prog Fs (Except SetupError (AfStore M W C))).run fs =
      .ok (.ok (freshAf M W c none)) fs := by
  rw [run_afInit]
  unfold afOpen
  rw [hc]
  rfl

theorem run_afInit_persist [Fam W] (F : Nat) {C : Type} [Config C] {c : C} {p : Path} (fs : Fs)
    (hc : Config.strategy c ≠ .memoryOnly) (hp : Config.path c = some p) :
    (afInit F c : Prog Fs (Except SetupError (AfStore M W C))).run fs =
      .ok (match fs.tree p with
        | some t => .ok (freshAf M W c (some t))
        | none => .error .cannotCreate) { fs with tried := fs.tried ++ [p] } := by
  rw [run_afInit]
  unfold afOpen
  cases hs : Config.strategy c with
  | memoryOnly => exact absurd hs hc
  | _ =>
    simp only [hp, run_bind, run_lsmNew]
    cases fs.tree p <;> rfl

theorem run_afInit_missing [Fam W] (F : Nat) {C : Type} [Config C] {c : C} (fs : Fs)
    (hc : Config.strategy c ≠ .memoryOnly) (hp : Config.path c = none) :
    (afInit F c : Prog Fs (Except SetupError (AfStore M W C))).run fs =
      .ok (.error .missingPath) fs := by
  rw [run_afInit]
  unfold afOpen
  cases hs : Config.strategy c with
  | memoryOnly => exact absurd hs hc
  | _ =>
    simp only [hp]
    rfl

theorem starExec_nil (st : Strategy) (F : Nat) :
    starExec (M := M) st F [] =
      .ok () ⟨{ Rib.empty with tree := Tree.initial 32 },
        { Rib.empty with tree := Tree.initial 128 }⟩ := by
  have h4 := run_ribNew (M := M) (W := 32) F []
  have h6 := run_ribNew (M := M) (W := 128) F []
  unfold starExec Star.new
  rw [run_bind, run_v4]
  change ((Outcome.mapState _ ((ribNew F).run { (Rib.empty : Rib M 32) with lsm := [] })).andThen _) = _
  rw [h4]
  simp only [Outcome.mapState, Outcome.andThen]
  rw [run_bind, run_v6]
  change ((Outcome.mapState _ ((ribNew F).run { (Rib.empty : Rib M 128) with lsm := [] })).andThen _) = _
  rw [h6]
  rfl

theorem run_familyConfig_none {C : Type} [Config C] {c : C} (u f : Path) (fs : Fs)
    (h : Config.path c = none) : (familyConfig u f c).run fs = .ok c fs := by
  unfold familyConfig
  rw [h]
  rfl

theorem run_familyConfig_some {C : Type} [Config C] {c c' : C} {p : Path} (u f : Path) (fs : Fs)
    (h : Config.path c = some p) (hs : Config.setPath c (familyPath p u f) = some c') :
    (familyConfig u f c).run fs = .ok c' fs := by
  unfold familyConfig
  rw [h]
  simp only [hs]
  rfl

/-! ## Statistics -/

theorem run_prefixStats (ls : List Nat) (s : Rib M W) :
    (prefixStats ls).run s =
      .ok ((ls.filter fun l => s.prefixes l ≠ 0).map fun l => (l, s.prefixes l)) s := by
  induction ls with
  | nil => rfl
  | cons l ls ih =>
    unfold prefixStats
    rw [run_bind]
    simp only [Prog.read, run, Outcome.andThen]
    rw [run_bind, ih]
    simp only [Outcome.andThen, pure_def, run]
    by_cases h : s.prefixes l = 0 <;> simp [h]

theorem run_stats_on {s : Star M} {ls : List Nat} {a b : List (Nat × Nat)}
    (ha : (prefixStats ls).run s.v4 = .ok a s.v4) (hb : (prefixStats ls).run s.v6 = .ok b s.v6) :
    (do
      let a ← (prefixStats ls : Prog (Rib M 32) _).zoom Star.v4L
      let b ← (prefixStats ls : Prog (Rib M 128) _).zoom Star.v6L
      return (a, b) : Prog (Star M) _).run s = .ok (a, b) s := by
  rw [run_bind, run_v4, ha]
  simp only [Outcome.mapState, Outcome.andThen]
  rw [run_bind, run_v6, hb]
  rfl

theorem run_starStats {s : Star M} {a b : List (Nat × Nat)}
    (ha : (prefixStats (List.range 129)).run s.v4 = .ok a s.v4)
    (hb : (prefixStats (List.range 129)).run s.v6 = .ok b s.v6) :
    Star.stats.run s = .ok (a, b) s := by
  unfold Star.stats
  exact run_stats_on ha hb

end Rotonda
