import Verif.Model.StarCast

/-!
# Creating a store, its statistics, and flushing it to disk

`src/rib/config.rs`, `new_with_config` and `try_default` (`src/rib/starcast.rs` 64-109),
`init` (`src/rib/starcast_af.rs` 78-112), `stats`, `flush_to_disk`,
`approx_persisted_items` and `disk_space` (`src/rib/starcast.rs` 903-908, 950-977).
What the `lsm_tree` crate answers is given from outside.
-/

namespace Rotonda

variable {M : Type} {W : Nat}

/-- The characters of a `String` that is used as a path. -/
abbrev Path := List Char

/-! ## Configurations -/

/-- `src/rib/config.rs` 38-46, `Config`, with its supertrait `Default`.  `setPath` gives
`none` when it panics. -/
class Config (C : Type) where
  strategy : C → Strategy
  path : C → Option Path
  setPath : C → Path → Option C
  default : C

/-- `src/rib/config.rs` 54-55, `MemoryOnlyConfig`. -/
structure MemoryOnlyConfig where
  deriving DecidableEq

/-- `src/rib/config.rs` 57-75. -/
instance : Config MemoryOnlyConfig where
  strategy _ := .memoryOnly
  path _ := none
  setPath _ _ := none
  default := ⟨⟩

/-- `"/tmp/rotonda/"` (`src/rib/config.rs` 105, 139, 172). -/
def defaultPath : Path := "/tmp/rotonda/".toList

/-- `src/rib/config.rs` 83-86, `PersistOnlyConfig`. -/
structure PersistOnlyConfig where
  persistPath : Path
  deriving DecidableEq

/-- `src/rib/config.rs` 88-108. -/
instance : Config PersistOnlyConfig where
  strategy _ := .persistOnly
  path c := some c.persistPath
  setPath _ p := some ⟨p⟩
  default := ⟨defaultPath⟩

/-- `src/rib/config.rs` 117-120, `WriteAheadConfig`. -/
structure WriteAheadConfig where
  persistPath : Path
  deriving DecidableEq

/-- `src/rib/config.rs` 122-142. -/
instance : Config WriteAheadConfig where
  strategy _ := .writeAhead
  path c := some c.persistPath
  setPath _ p := some ⟨p⟩
  default := ⟨defaultPath⟩

/-- `src/rib/config.rs` 150-153, `PersistHistoryConfig`. -/
structure PersistHistoryConfig where
  persistPath : Path
  deriving DecidableEq

/-- `src/rib/config.rs` 155-175. -/
instance : Config PersistHistoryConfig where
  strategy _ := .persistHistory
  path c := some c.persistPath
  setPath _ p := some ⟨p⟩
  default := ⟨defaultPath⟩

/-! ## Creation -/

/-- The file system, as far as a store sees it: what a tree that is opened at a path holds,
`none` if it cannot be opened there; and the paths where opening was tried, in order. -/
structure Fs where
  tree : Path → Option Lsm
  tried : List Path

/-- `src/lsm_tree/mod.rs` 130-141, `LsmTree::new`. -/
def lsmNew (p : Path) : Prog Fs (FatalResult Lsm) :=
  .act (fun fs => ((match fs.tree p with
    | some t => .ok t
    | none => .error ()), { fs with tried := fs.tried ++ [p] })) .ret

/-- The errors of creating a store (`src/rib/starcast_af.rs` 85-101,
`src/tree_bitmap/mod.rs` 283). -/
inductive SetupError
  | missingPath
  | cannotCreate
  | cannotCreateRoot
  deriving DecidableEq, Repr

/-- `src/rib/starcast_af.rs` 42-55, `StarCastAfRib`: `persisted` is whether there is a
`persist_tree`, whose content is in `rib`. -/
structure AfStore (M : Type) (W : Nat) (C : Type) where
  rib : Rib M W
  config : C
  persisted : Bool

/-- `src/rib/starcast_af.rs` 81-101: the tree of `persist_tree`, `none` if there is
none. -/
def afOpen {C : Type} [Config C] (c : C) : Prog Fs (Except SetupError (Option Lsm)) :=
  match Config.strategy c with
  | .memoryOnly => return .ok none
  | _ =>
    match Config.path c with
    | none => return .error .missingPath
    | some p => do
      match ← lsmNew p with
      | .ok t => return .ok (some t)
      | .error _ => return .error .cannotCreate

/-- `src/rib/starcast_af.rs` 78-112, `init`: the root node is stored in memory that no one
else sees. -/
def afInit (F : Nat) {C : Type} [Config C] (c : C) :
    Prog Fs (Except SetupError (AfStore M W C)) := do
  match ← afOpen c with
  | .error e => return .error e
  | .ok t =>
    match (ribNew F).run { (Rib.empty : Rib M W) with lsm := t.getD [] } with
    | .ok true s => return .ok ⟨s, c, t.isSome⟩
    | .ok false _ => return .error .cannotCreateRoot
    | .panic => Prog.panic
    | .diverge => Prog.diverge

/-- `format!("{}/{}/ipv4/", path, uuid)` (`src/rib/starcast.rs` 96-97), and the same for
IPv6 (102). -/
def familyPath (path uuid family : Path) : Path :=
  path ++ '/' :: (uuid ++ '/' :: (family ++ ['/']))

/-- `src/rib/starcast.rs` 58-62, `StarCastRib`. -/
structure Store (M : Type) (C : Type) where
  v4 : AfStore M 32 C
  v6 : AfStore M 128 C
  config : C

def Store.star {C : Type} (s : Store M C) : Star M := ⟨s.v4.rib, s.v6.rib⟩

/-- `src/rib/starcast.rs` 95-99, 101-103: the configuration of one family. -/
def familyConfig {C : Type} [Config C] (uuid family : Path) (c : C) : Prog Fs C :=
  match Config.path c with
  | none => return c
  | some p => Prog.ofOption (Config.setPath c (familyPath p uuid family))

/-- `src/rib/starcast.rs` 83-109, `new_with_config`, where `uuid` was drawn. -/
def newWithConfig (F : Nat) {C : Type} [Config C] (uuid : Path) (c : C) :
    Prog Fs (Except SetupError (Store M C)) := do
  let c4 ← familyConfig uuid "ipv4".toList c
  let c6 ← familyConfig uuid "ipv6".toList c
  match ← afInit F c4 with
  | .error e => return .error e
  | .ok v4 =>
    match ← afInit F c6 with
    | .error e => return .error e
    | .ok v6 => return .ok ⟨v4, v6, c⟩

/-- `src/rib/starcast.rs` 71-75, `try_default`. -/
def tryDefault (F : Nat) {C : Type} [Config C] (uuid : Path) :
    Prog Fs (Except StoreError (Store M C)) := do
  match ← newWithConfig F uuid (Config.default : C) with
  | .ok s => return .ok s
  | .error _ => return .error .storeNotReady

/-- `src/rib/starcast.rs` 914-916, `persist_strategy`. -/
def Store.strategy {C : Type} [Config C] (s : Store M C) : Strategy := Config.strategy s.config

/-! ## Statistics -/

/-- `src/types/stats.rs` 154-170, `prefix_stats`: one load for each of the lengths; a
`CreatedNodes` (6-9) is a pair. -/
def prefixStats : List Nat → Prog (Rib M W) (List (Nat × Nat))
  | [] => return []
  | l :: ls => do
    let n ← Prog.read fun r => r.prefixes l
    let rest ← prefixStats ls
    return if n ≠ 0 then (l, n) :: rest else rest

/-- `src/rib/starcast.rs` 903-908, `stats`. -/
def Star.stats : Prog (Star M) (List (Nat × Nat) × List (Nat × Nat)) := do
  let a ← (prefixStats (List.range 129) : Prog (Rib M 32) _).zoom v4L
  let b ← (prefixStats (List.range 129) : Prog (Rib M 128) _).zoom v6L
  return (a, b)

/-! ## Flushing -/

/-- What a tree of the `lsm_tree` crate answers when it is flushed: whether writing the
memory table to a segment works and whether there was anything to write
(`flush_active_memtable`), whether registering the segment works (`register_segments`),
whether compaction works (`compact`); and its `approximate_len` and `disk_space`. -/
structure Backend where
  write : Except Unit Bool
  register : Except Unit Unit
  compact : Except Unit Unit
  items : Nat
  space : Nat

/-- The steps that were taken. -/
inductive FlushStep
  | write
  | register
  | compact
  deriving DecidableEq, Repr

/-- `src/lsm_tree/mod.rs` 396-408, `flush_to_disk`. -/
def lsmFlush (b : Backend) : List FlushStep × Except Unit Unit :=
  match b.write with
  | .ok true =>
    match b.register with
    | .error e => ([.write, .register], .error e)
    | .ok _ =>
      match b.compact with
      | .error e => ([.write, .register, .compact], .error e)
      | .ok _ => ([.write, .register, .compact], .ok ())
  | _ => ([.write], .ok ())

/-- `src/rib/starcast_af.rs` 508-515, `flush_to_disk`; `none` is a store without a
`persist_tree`. -/
def afFlush (t : Option Backend) : List FlushStep × Except StoreError Unit :=
  match t with
  | some b =>
    match lsmFlush b with
    | (l, .ok _) => (l, .ok ())
    | (l, .error _) => (l, .error .persistFailed)
  | none => ([], .error .persistFailed)

/-- `src/rib/starcast.rs` 956-961, `flush_to_disk`. -/
def starFlush (t4 t6 : Option Backend) :
    (List FlushStep × List FlushStep) × Except StoreError Unit :=
  match afFlush t4 with
  | (l4, .error e) => ((l4, []), .error e)
  | (l4, .ok _) =>
    match afFlush t6 with
    | (l6, .error e) => ((l4, l6), .error e)
    | (l6, .ok _) => ((l4, l6), .ok ())

/-- `src/rib/starcast_af.rs` 517-523, `approx_persisted_items`. -/
def afItems (t : Option Backend) : Nat :=
  match t with
  | some b => b.items
  | none => 0

/-- `src/rib/starcast.rs` 965-970, `approx_persisted_items`. -/
def starItems (t4 t6 : Option Backend) : Nat × Nat := (afItems t4, afItems t6)

/-- `src/rib/starcast_af.rs` 525-531, `disk_space`. -/
def afSpace (t : Option Backend) : Nat :=
  match t with
  | some b => b.space
  | none => 0

/-- `src/rib/starcast.rs` 974-976, `disk_space`.  Simplification: the sum of two `u64` is
taken not to overflow. -/
def starSpace (t4 t6 : Option Backend) : Nat := afSpace t4 + afSpace t6

end Rotonda
