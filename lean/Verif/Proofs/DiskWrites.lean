import Verif.Proofs.DiskQuery

/-!
# Status changes and the iteration over all entries, with a faulty disk
-/

namespace Rotonda

open Prog Spec

variable {M : Type} [Meta M] {W : Nat}

/-! ## Status changes -/

/-- The entry is one of the prefix and the mui. -/
def IsOf (W : Nat) (it : DiskItem) (x : PrefixId W × Mui) : Prop :=
  ∃ kv z, it = .ok kv ∧ decodeRecord W (kv.1 ++ kv.2) = some z ∧ x = (z.pfx, z.mui)

/-- Write the header with a short key. -/
def putHeader (ltime : LTime) (rs : RouteStatus) (t : Lsm) (x : PrefixId W × Mui) : Lsm :=
  t.insert (shortKeyBytes x.1 x.2) (headerBytes ltime rs)

/-- The bytes handed on for an item. -/
def itemBytes : DiskItem → FatalResult Bytes
  | .ok kv => .ok (kv.1 ++ kv.2)
  | .error e => .error e

theorem run_diskRewriteAll (ltime : LTime) (rs : RouteStatus) (items : List DiskItem) :
    ∀ s : Rib M W, ∃ (a b : List DiskItem) (done : List (PrefixId W × Mui)) (ok : Bool),
      items = a ++ b ∧ List.Forall₂ (IsOf W) a done ∧
      (ok = true ↔ b = []) ∧
      (∀ x b', b = x :: b' → ∀ kv, x = .ok kv → decodeRecord W (kv.1 ++ kv.2) = none) ∧
      (diskRewriteAll W ltime rs (items.map itemBytes)).run s =
        .ok ok { s with lsm := done.foldl (putHeader ltime rs) s.lsm } := by
  induction items with
  | nil =>
    intro s
    exact ⟨[], [], [], true, rfl, .nil, ⟨fun _ => rfl, fun _ => rfl⟩, fun x b' h => (by cases h), rfl⟩
  | cons it items ih =>
    intro s
    cases it with
    | error e =>
      refine ⟨[], .error e :: items, [], false, rfl, .nil, ⟨fun h => (by cases h), fun h => (by cases h)⟩,
        fun x b' h kv hx => ?_, rfl⟩
      cases h; cases hx
    | ok kv =>
      cases hz : decodeRecord W (kv.1 ++ kv.2) with
      | none =>
        refine ⟨[], .ok kv :: items, [], false, rfl, .nil, ⟨fun h => (by cases h), fun h => (by cases h)⟩,
          fun x b' h kv' hx => ?_, ?_⟩
        · cases h; cases hx; exact hz
        · simp only [List.map_cons, itemBytes, diskRewriteAll, run_bind, Prog.atomic, run, rewriteHeader, hz,
            Option.map_none, Outcome.andThen]
          rfl
      | some z =>
        obtain ⟨a, b, done, ok, h1, h2, h3, h4, h5⟩ :=
          ih { s with lsm := putHeader ltime rs s.lsm (z.pfx, z.mui) }
        refine ⟨.ok kv :: a, b, (z.pfx, z.mui) :: done, ok, by rw [h1]; rfl,
          .cons ⟨kv, z, rfl, hz, rfl⟩ h2, h3, h4, ?_⟩
        simp only [List.map_cons, itemBytes, diskRewriteAll, run_bind, Prog.atomic, run, rewriteHeader, hz,
          Option.map_some, Outcome.andThen]
        exact h5

theorem diskRecordsWithKeys_eq (D : Disk) (p : PrefixId W) (m : Mui) :
    diskRecordsWithKeys D p m = (D (shortKeyBytes p m)).map itemBytes := by
  unfold diskRecordsWithKeys
  congr 1

theorem decodeHeader_record {b : Bytes} {z : ZRec W} (h : decodeHeader W b = some z) :
    decodeRecord W b = some z := by
  unfold decodeHeader at h
  split at h
  · exact h
  · cases h

theorem foldl_mostRecent (items : List DiskItem) :
    ∀ (res : Option Bytes) (out : Option Bytes),
      (∀ b, res = some b → ∃ z, decodeRecord W b = some z) →
      items.foldlM (fun res (it : DiskItem) => match it with
        | .ok kv => mostRecentStep W res kv
        | .error _ => none) res = some out →
      (.error () ∉ items) ∧ ∀ b, out = some b → ∃ z, decodeRecord W b = some z := by
  induction items with
  | nil =>
    intro res out hres h
    cases h
    exact ⟨fun h => (by cases h), hres⟩
  | cons it items ih =>
    intro res out hres h
    rw [List.foldlM_cons] at h
    cases it with
    | error e => cases h
    | ok kv =>
      dsimp only at h
      cases hm : mostRecentStep W res kv with
      | none => rw [hm] at h; cases h
      | some res' =>
        rw [hm] at h
        have hres' : ∀ b, res' = some b → ∃ z, decodeRecord W b = some z := by
          intro b hb
          unfold mostRecentStep at hm
          dsimp only at hm
          split at hm
          · cases hm
          · rename_i z hz
            subst hb
            split at hm
            · cases hm; exact ⟨z, decodeHeader_record hz⟩
            · split at hm
              · split at hm
                · cases hm; exact ⟨z, decodeHeader_record hz⟩
                · injection hm with hm; exact hres _ hm
              · injection hm with hm; exact hres _ hm
        obtain ⟨h1, h2⟩ := ih res' out hres' h
        refine ⟨fun hin => ?_, h2⟩
        rcases List.mem_cons.1 hin with hin | hin
        · cases hin
        · exact h1 hin

theorem run_diskMarkActive (D : Disk) (p : PrefixId W) (m : Mui) (ltime : LTime) (s : Rib M W) :
    ∃ s', (diskMarkActive D p m ltime).run s = .ok (.ok ()) s' ∧
      (.error () ∈ D (shortKeyBytes p m) → s' = s) := by
  unfold diskMarkActive
  cases hb : diskMostRecent D p m with
  | none => exact ⟨s, rfl, fun _ => rfl⟩
  | some b =>
    unfold diskMostRecent at hb
    obtain ⟨out, h1, h2⟩ := Option.bind_eq_some_iff.1 hb
    obtain ⟨h3, h4⟩ := foldl_mostRecent _ none out (fun b h => (by cases h)) h1
    obtain ⟨z, hz⟩ := h4 b h2
    refine ⟨{ s with lsm := putHeader ltime .active s.lsm (z.pfx, z.mui) }, ?_, fun h => absurd h h3⟩
    simp only [rewriteAll, run_bind, Prog.atomic, run, rewriteHeader, hz, Option.map_some, Outcome.andThen]
    rfl

/-! ## The iteration -/

theorem diskGroup_from (outer : PrefixId W) (items : List DiskItem) :
    (∀ b, .ok b ∈ (diskGroup W outer items).1 → ∃ kv, .ok kv ∈ items ∧ b = kv.1 ++ kv.2) ∧
    (∀ b, (diskGroup W outer items).2.1 = some b → ∃ kv, .ok kv ∈ items ∧ b = kv.1 ++ kv.2) ∧
    (∀ it ∈ (diskGroup W outer items).2.2, it ∈ items) ∧
    (diskGroup W outer items).2.2.length + (if (diskGroup W outer items).2.1.isSome then 1 else 0) ≤
      items.length := by
  induction items with
  | nil => exact ⟨fun b h => (by cases h), fun b h => (by cases h), fun b h => (by cases h), Nat.le_refl _⟩
  | cons it items ih =>
    obtain ⟨h1, h2, h3, h4⟩ := ih
    have lift : ∀ {b : Bytes}, (∃ kv, (.ok kv : DiskItem) ∈ items ∧ b = kv.1 ++ kv.2) →
        ∃ kv, (.ok kv : DiskItem) ∈ it :: items ∧ b = kv.1 ++ kv.2 := by
      rintro b ⟨kv, h, e⟩; exact ⟨kv, List.mem_cons_of_mem _ h, e⟩
    cases it with
    | error e =>
      exact ⟨fun b h => lift (h1 b h), fun b h => lift (h2 b h),
        fun x h => List.mem_cons_of_mem _ (h3 x h), Nat.le_succ_of_le h4⟩
    | ok kv =>
      unfold diskGroup
      cases hd : decodeHeader W kv.1 with
      | none =>
        dsimp only
        refine ⟨fun b h => ?_, fun b h => lift (h2 b h), fun x h => List.mem_cons_of_mem _ (h3 x h),
          Nat.le_succ_of_le h4⟩
        rcases List.mem_cons.1 h with h | h
        · cases h
        · exact lift (h1 b h)
      | some z =>
        dsimp only
        split
        · refine ⟨fun b h => ?_, fun b h => lift (h2 b h), fun x h => List.mem_cons_of_mem _ (h3 x h),
            Nat.le_succ_of_le h4⟩
          rcases List.mem_cons.1 h with h | h
          · cases h; exact ⟨kv, List.mem_cons_self, rfl⟩
          · exact lift (h1 b h)
        · refine ⟨fun b h => (by cases h), fun b h => ?_, fun x h => List.mem_cons_of_mem _ h, ?_⟩
          · cases h; exact ⟨kv, List.mem_cons_self, rfl⟩
          · simp

/-- Every round returns bytes of the items and uses up an item. -/
theorem diskIterNext_from {all : List DiskItem} {cur : Option Bytes} {rest : List DiskItem}
    (hc : ∀ b, cur = some b → ∃ kv, (.ok kv : DiskItem) ∈ all ∧ b = kv.1 ++ kv.2)
    (hr : ∀ it ∈ rest, it ∈ all) {g : List (FatalResult Bytes)} {cur' : Option Bytes}
    {rest' : List DiskItem} (h : diskIterNext W cur rest = some (g, cur', rest')) :
    (∀ b, .ok b ∈ g → ∃ kv, (.ok kv : DiskItem) ∈ all ∧ b = kv.1 ++ kv.2) ∧
    (∀ b, cur' = some b → ∃ kv, (.ok kv : DiskItem) ∈ all ∧ b = kv.1 ++ kv.2) ∧
    (∀ it ∈ rest', it ∈ all) ∧
    rest'.length + (if cur'.isSome then 1 else 0) < rest.length + (if cur.isSome then 1 else 0) := by
  have main : ∀ b rest0, (∃ kv, (.ok kv : DiskItem) ∈ all ∧ b = kv.1 ++ kv.2) →
      (∀ it ∈ rest0, it ∈ all) →
      (match decodeHeader W b with
        | none => ([.error ()], none, rest0)
        | some h => ((.ok b : FatalResult Bytes) :: (diskGroup W h.pfx rest0).1,
            (diskGroup W h.pfx rest0).2)) = (g, cur', rest') →
      (∀ b, .ok b ∈ g → ∃ kv, (.ok kv : DiskItem) ∈ all ∧ b = kv.1 ++ kv.2) ∧
      (∀ b, cur' = some b → ∃ kv, (.ok kv : DiskItem) ∈ all ∧ b = kv.1 ++ kv.2) ∧
      (∀ it ∈ rest', it ∈ all) ∧
      rest'.length + (if cur'.isSome then 1 else 0) ≤ rest0.length := by
    intro b rest0 hb hr0 he
    cases hd : decodeHeader W b with
    | none =>
      rw [hd] at he
      cases he
      refine ⟨fun b h => ?_, fun b h => (by cases h), hr0, by simp⟩
      rcases List.mem_cons.1 h with h | h <;> cases h
    | some z =>
      rw [hd] at he
      dsimp only at he
      obtain ⟨h1, h2, h3, h4⟩ := diskGroup_from z.pfx rest0
      generalize diskGroup W z.pfx rest0 = G at *
      obtain ⟨G1, G2, G3⟩ := G
      cases he
      refine ⟨fun b' h => ?_, fun b h => ?_, fun it h => hr0 it (h3 it h), h4⟩
      · rcases List.mem_cons.1 h with h | h
        · cases h; exact hb
        · obtain ⟨kv, hk, e⟩ := h1 b' h
          exact ⟨kv, hr0 _ hk, e⟩
      · obtain ⟨kv, hk, e⟩ := h2 b h
        exact ⟨kv, hr0 _ hk, e⟩
  unfold diskIterNext at h
  cases cur with
  | some b =>
    simp only [Option.map_some, Option.some.injEq] at h
    obtain ⟨h1, h2, h3, h4⟩ := main b rest (hc b rfl) hr h
    exact ⟨h1, h2, h3, by simp only [Option.isSome_some, if_true]; omega⟩
  | none =>
    cases rest with
    | nil => cases h
    | cons it rest =>
      cases it with
      | error e => cases h
      | ok kv =>
        simp only [Option.map_some, Option.some.injEq] at h
        obtain ⟨h1, h2, h3, h4⟩ := main (kv.1 ++ kv.2) rest
          ⟨kv, hr _ List.mem_cons_self, rfl⟩ (fun it h => hr it (List.mem_cons_of_mem _ h)) h
        exact ⟨h1, h2, h3, by simp only [List.length_cons]; omega⟩

theorem diskIterCollect_total {all : List DiskItem} (fuel : Nat) :
    ∀ (cur : Option Bytes) (rest : List DiskItem),
      (∀ b, cur = some b → ∃ kv, (.ok kv : DiskItem) ∈ all ∧ b = kv.1 ++ kv.2) →
      (∀ it ∈ rest, it ∈ all) →
      rest.length + (if cur.isSome then 1 else 0) < fuel →
      ∃ gs, diskIterCollect W fuel cur rest = some gs ∧
        ∀ g ∈ gs, ∀ b, .ok b ∈ g → ∃ kv, (.ok kv : DiskItem) ∈ all ∧ b = kv.1 ++ kv.2 := by
  induction fuel with
  | zero => intro cur rest _ _ h; omega
  | succ fuel ih =>
    intro cur rest hc hr hl
    unfold diskIterCollect
    cases hn : diskIterNext W cur rest with
    | none => exact ⟨[], rfl, fun g h => (by cases h)⟩
    | some x =>
      obtain ⟨g, cur', rest'⟩ := x
      obtain ⟨h1, h2, h3, h4⟩ := diskIterNext_from hc hr hn
      obtain ⟨gs, hg, hg'⟩ := ih cur' rest' h2 h3 (by omega)
      refine ⟨g :: gs, by dsimp only; rw [hg]; rfl, fun g' hm => ?_⟩
      rcases List.mem_cons.1 hm with rfl | hm
      · exact h1
      · exact hg' g' hm

theorem id_of_toPrefix {p : PrefixId W} {q : Prefix W} (h : p.toPrefix = some q) : q.id = p := by
  unfold PrefixId.toPrefix at h
  split at h
  · cases h; rfl
  · cases h

theorem groupsToPrefix_mem {gs : List (FatalResult (PrefixId W × List (Record M)))}
    {l : List (FatalResult (PrefixRecord M W))} (h : groupsToPrefix gs = some l) {q : Prefix W}
    {rs : List (Record M)} (hm : .ok (q, rs) ∈ l) : ∃ p, .ok (p, rs) ∈ gs ∧ p.toPrefix = some q := by
  induction gs generalizing l with
  | nil => cases h; cases hm
  | cons g gs ih =>
    cases g with
    | error e =>
      simp only [groupsToPrefix] at h
      obtain ⟨l', hl', rfl⟩ := Option.map_eq_some_iff.1 h
      rcases List.mem_cons.1 hm with hm | hm
      · cases hm
      · obtain ⟨p, hp, e⟩ := ih hl' hm
        exact ⟨p, List.mem_cons_of_mem _ hp, e⟩
    | ok x =>
      obtain ⟨p, rs'⟩ := x
      simp only [groupsToPrefix] at h
      obtain ⟨q', hq', h⟩ := Option.bind_eq_some_iff.1 h
      obtain ⟨l', hl', rfl⟩ := Option.map_eq_some_iff.1 h
      rcases List.mem_cons.1 hm with hm | hm
      · cases hm; exact ⟨p, List.mem_cons_self, hq'⟩
      · obtain ⟨p, hp, e⟩ := ih hl' hm
        exact ⟨p, List.mem_cons_of_mem _ hp, e⟩

theorem persistGroupRecord_ok {g : List (FatalResult Bytes)} {p : PrefixId W} {rs : List (Record M)}
    (h : persistGroupRecord W g = .ok (p, rs)) :
    (∃ b z, .ok b ∈ g ∧ decodeRecord W b = some z ∧ z.pfx = p) ∧
    ∀ r ∈ rs, ∃ b z, .ok b ∈ g ∧ decodeRecord W b = some z ∧ r = z.toRecord := by
  unfold persistGroupRecord at h
  split at h
  · rename_i first rest
    split at h
    · cases h
    · rename_i z hz
      split at h
      · cases h
      · simp only [Except.ok.injEq, Prod.mk.injEq] at h
        obtain ⟨rfl, rfl⟩ := h
        refine ⟨⟨first, z, List.mem_cons_self, hz, rfl⟩, fun r hr => ?_⟩
        obtain ⟨x, hx, he⟩ := List.mem_filterMap.1 hr
        cases x with
        | error e => cases he
        | ok b =>
          obtain ⟨z', hz', rfl⟩ := Option.map_eq_some_iff.1 he
          exact ⟨b, z', hx, hz', rfl⟩
  · cases h

theorem diskIterCollect_mono {n : Nat} : ∀ {cur : Option Bytes} {rest : List DiskItem}
    {gs : List (List (FatalResult Bytes))}, diskIterCollect W n cur rest = some gs →
    ∀ {m : Nat}, n ≤ m → diskIterCollect W m cur rest = some gs := by
  induction n with
  | zero => intro cur rest gs h; cases h
  | succ n ih =>
    intro cur rest gs h m hm
    obtain ⟨m, rfl⟩ : ∃ k, m = k + 1 := ⟨m - 1, by omega⟩
    unfold diskIterCollect at h ⊢
    cases hn : diskIterNext W cur rest with
    | none => rw [hn] at h; exact h
    | some x =>
      obtain ⟨g, c, r⟩ := x
      rw [hn] at h
      dsimp only at h ⊢
      obtain ⟨gs', h1, h2⟩ := Option.map_eq_some_iff.1 h
      rw [ih h1 (m := m) (by omega), ← h2]
      rfl

/-! ## Without faults -/

theorem diskGroup_healthy (outer : PrefixId W) (t : Lsm) :
    diskGroup W outer (t.map .ok) =
      ((persistGroup W outer t).1, (persistGroup W outer t).2.1, (persistGroup W outer t).2.2.map .ok) := by
  induction t with
  | nil => rfl
  | cons kv t ih =>
    simp only [List.map_cons, diskGroup, persistGroup]
    cases decodeHeader W kv.1 with
    | none => simp only [ih]
    | some z =>
      dsimp only
      split
      · simp only [ih]
      · rfl

theorem diskIterCollect_healthy (fuel : Nat) : ∀ (cur : Option Bytes) (t : Lsm),
    diskIterCollect W fuel cur (t.map .ok) = persistIterCollect W fuel cur t := by
  induction fuel with
  | zero => intro cur t; rfl
  | succ fuel ih =>
    intro cur t
    have hn : diskIterNext W cur (t.map .ok) =
        (persistIterNext W cur t).map fun x => (x.1, x.2.1, x.2.2.map .ok) := by
      unfold diskIterNext persistIterNext
      cases cur with
      | some b =>
        simp only [Option.map_some]
        cases decodeHeader W b with
        | none => rfl
        | some z => simp only [diskGroup_healthy]
      | none =>
        cases t with
        | nil => rfl
        | cons kv t =>
          simp only [List.map_cons, Option.map_some]
          cases decodeHeader W (kv.1 ++ kv.2) with
          | none => rfl
          | some z => simp only [diskGroup_healthy]
    unfold diskIterCollect persistIterCollect
    rw [hn]
    cases persistIterNext W cur t with
    | none => rfl
    | some x => obtain ⟨g, c, r⟩ := x; simp only [Option.map_some, ih]

end Rotonda
