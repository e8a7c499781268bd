import Verif.Spec.Scan
import Verif.Proofs.ReadsQueries
import Verif.Proofs.LinUse

/-!
# What is read of the persisted records one after another
-/

namespace Rotonda

open Prog Spec

variable {M : Type} {W : Nat}

/-! ## One step -/

/-- The key lies behind the position. -/
def above (last : Option Bytes) (key : Bytes) : Bool :=
  match last with
  | none => true
  | some k => bytesLt k key

theorem Lsm.next_eq (t : Lsm) (pre : Bytes) (last : Option Bytes) :
    t.next pre last = t.find? fun kv => pre.isPrefixOf kv.1 && above last kv.1 := rfl

theorem Lsm.next_some {t : Lsm} {pre : Bytes} {last : Option Bytes} {kv : Bytes × Bytes}
    (h : t.next pre last = some kv) :
    kv ∈ t ∧ pre.isPrefixOf kv.1 = true ∧ above last kv.1 = true := by
  rw [Lsm.next_eq] at h
  have := List.find?_some h
  simp only [Bool.and_eq_true] at this
  exact ⟨List.mem_of_find?_eq_some h, this⟩

/-- It is the least one. -/
theorem Lsm.next_least {t : Lsm} (ht : t.Sorted) {pre : Bytes} {last : Option Bytes}
    {kv x : Bytes × Bytes} (h : t.next pre last = some kv) (hx : x ∈ t)
    (hp : pre.isPrefixOf x.1 = true) (ha : above last x.1 = true) :
    x = kv ∨ bytesLt kv.1 x.1 = true := by
  rw [Lsm.next_eq, List.find?_eq_some_iff_append] at h
  obtain ⟨_, as, bs, rfl, has⟩ := h
  rcases List.mem_append.1 hx with hx | hx
  · have := has x hx
    simp [hp, ha] at this
  · rcases List.mem_cons.1 hx with rfl | hx
    · exact .inl rfl
    · exact .inr ((List.pairwise_cons.1 (List.pairwise_append.1 ht).2.1).1 x hx)

theorem Lsm.next_none {t : Lsm} {pre : Bytes} {last : Option Bytes} (h : t.next pre last = none)
    {x : Bytes × Bytes} (hx : x ∈ t) (hp : pre.isPrefixOf x.1 = true) : above last x.1 = false := by
  rw [Lsm.next_eq, List.find?_eq_none] at h
  simpa [hp] using h x hx

/-! ## All steps -/

/-- The entries read from step `k` on, behind the position; `fin` when the end was seen. -/
inductive ScanRun (S : ℕ → Lsm) (pre : Bytes) : Option Bytes → ℕ → Lsm → Bool → ℕ → Prop
  | stop {last k m} : k ≤ m → ScanRun S pre last k [] false m
  | done {last k j m} : k ≤ j → j ≤ m → (S j).next pre last = none → ScanRun S pre last k [] true m
  | step {last k j kv es fin m} : k ≤ j → (S j).next pre last = some kv →
      ScanRun S pre (some kv.1) j es fin m → ScanRun S pre last k (kv :: es) fin m

/-- A sorted tree that only gets new keys. -/
structure Grown (S : ℕ → Lsm) (k m : ℕ) : Prop where
  sorted : ∀ j, k ≤ j → j ≤ m → (S j).Sorted
  keys : ∀ i j, k ≤ i → i ≤ j → j ≤ m → ∀ x, x ∈ (S i).map Prod.fst → x ∈ (S j).map Prod.fst

theorem Grown.sub {S : ℕ → Lsm} {k m k' m' : ℕ} (h : Grown S k m) (hk : k ≤ k') (hm : m' ≤ m) :
    Grown S k' m' :=
  ⟨fun j h1 h2 => h.sorted j (hk.trans h1) (h2.trans hm),
    fun i j h1 h2 h3 => h.keys i j (hk.trans h1) h2 (h3.trans hm)⟩

section
variable {S : ℕ → Lsm} {pre : Bytes}

theorem ScanRun.le {last : Option Bytes} {k m : ℕ} {es : Lsm} {fin : Bool}
    (h : ScanRun S pre last k es fin m) : k ≤ m := by
  induction h with
  | stop h => exact h
  | done h h' _ => exact h.trans h'
  | step h _ _ ih => exact h.trans ih

theorem ScanRun.mono {last : Option Bytes} {k k' m m' : ℕ} {es : Lsm} {fin : Bool}
    (h : ScanRun S pre last k es fin m) (hk : k' ≤ k) (hm : m ≤ m') :
    ScanRun S pre last k' es fin m' := by
  induction h generalizing k' with
  | stop h => exact .stop (hk.trans (h.trans hm))
  | done h h' e => exact .done (hk.trans h) (h'.trans hm) e
  | step h e _ ih => exact .step (hk.trans h) e (ih (Nat.le_refl _) hm)

/-- What was read is sorted, each entry was there when it was read, and what was there
before is not missed. -/
theorem ScanRun.spec {last : Option Bytes} {k m : ℕ} {es : Lsm} {fin : Bool}
    (h : ScanRun S pre last k es fin m) (hg : Grown S k m) :
    es.Sorted ∧
    (∀ x ∈ es, pre.isPrefixOf x.1 = true ∧ above last x.1 = true ∧ ∃ j, k ≤ j ∧ j ≤ m ∧ x ∈ S j) ∧
    (fin = true → ∀ key ∈ (S k).map Prod.fst, pre.isPrefixOf key = true → above last key = true →
      key ∈ es.map Prod.fst) := by
  induction h with
  | stop h => exact ⟨List.Pairwise.nil, by simp, by simp⟩
  | @done last k j m h h' e =>
    refine ⟨List.Pairwise.nil, by simp, fun _ key hk hp ha => ?_⟩
    obtain ⟨x, hx, rfl⟩ := List.mem_map.1 (hg.keys k j (Nat.le_refl k) h h' _ hk)
    rw [Lsm.next_none e hx hp] at ha
    cases ha
  | @step last k j kv es fin m h e hr ih =>
    obtain ⟨h1, h2, h3⟩ := ih (hg.sub h (Nat.le_refl m))
    obtain ⟨e1, e2, e3⟩ := Lsm.next_some e
    have hjm := hr.le
    refine ⟨List.pairwise_cons.2 ⟨fun x hx => (h2 x hx).2.1, h1⟩, fun x hx => ?_, fun hfin key hk hp ha => ?_⟩
    · rcases List.mem_cons.1 hx with rfl | hx
      · exact ⟨e2, e3, j, h, hjm, e1⟩
      · obtain ⟨a1, a2, j', a3, a4, a5⟩ := h2 x hx
        refine ⟨a1, ?_, j', h.trans a3, a4, a5⟩
        cases last with
        | none => rfl
        | some l => exact bytesLt_trans e3 a2
    · have hk' := hg.keys k j (Nat.le_refl k) h hjm _ hk
      obtain ⟨x, hx, rfl⟩ := List.mem_map.1 hk'
      rcases Lsm.next_least (hg.sorted j h hjm) e hx hp ha with rfl | hlt
      · simp
      · exact List.mem_cons_of_mem _ (h3 hfin _ hk' hp hlt)

theorem filter_above {t : Lsm} (ht : t.Sorted) {last : Option Bytes} {x : Bytes × Bytes} {r : Lsm}
    (h : t.filter (fun kv => pre.isPrefixOf kv.1 && above last kv.1) = x :: r) :
    t.filter (fun kv => pre.isPrefixOf kv.1 && above (some x.1) kv.1) = r := by
  have hs : Lsm.Sorted (x :: r) := h ▸ List.Pairwise.filter _ ht
  have hx : above last x.1 = true := by
    have : x ∈ t.filter (fun kv => pre.isPrefixOf kv.1 && above last kv.1) := by rw [h]; simp
    rw [List.mem_filter] at this
    simp only [Bool.and_eq_true] at this
    exact this.2.2
  have : t.filter (fun kv => pre.isPrefixOf kv.1 && above (some x.1) kv.1) =
      (t.filter (fun kv => pre.isPrefixOf kv.1 && above last kv.1)).filter
        (fun kv => above (some x.1) kv.1) := by
    rw [List.filter_filter]
    apply List.filter_congr
    intro y _
    have himp : above (some x.1) y.1 = true → above last y.1 = true := by
      intro hy
      cases last with
      | none => rfl
      | some l => exact bytesLt_trans hx hy
    revert himp
    cases above (some x.1) y.1 <;> cases above last y.1 <;> cases pre.isPrefixOf y.1 <;> simp
  rw [this, h, List.filter_cons_of_neg (by simp [above, bytesLt_irrefl]), List.filter_eq_self]
  exact (List.pairwise_cons.1 hs).1

/-- The remaining entries at one moment. -/
theorem scanRun_at {m : ℕ} (hs : (S m).Sorted) (last : Option Bytes) :
    ScanRun S pre last m ((S m).filter fun kv => pre.isPrefixOf kv.1 && above last kv.1) true m := by
  generalize hr : (S m).filter (fun kv => pre.isPrefixOf kv.1 && above last kv.1) = r
  induction r generalizing last with
  | nil =>
    refine .done (Nat.le_refl m) (Nat.le_refl m) ?_
    rw [Lsm.next_eq, List.find?_eq_none]
    exact List.filter_eq_nil_iff.1 hr
  | cons x r ih =>
    refine .step (Nat.le_refl m) ?_ (ih (some x.1) (filter_above hs hr))
    rw [Lsm.next_eq, ← List.head?_filter, hr]
    rfl

/-- A scan that was stopped could have gone on. -/
theorem ScanRun.finish {last : Option Bytes} {k m : ℕ} {es : Lsm} {fin : Bool}
    (h : ScanRun S pre last k es fin m) (hs : (S m).Sorted) :
    ∃ es', ScanRun S pre last k (es ++ es') true m := by
  induction h with
  | stop h => exact ⟨_, (scanRun_at hs _).mono h (Nat.le_refl _)⟩
  | done h h' e => exact ⟨[], .done h h' e⟩
  | step h e _ ih =>
    obtain ⟨es', h'⟩ := ih hs
    exact ⟨es', .step h e h'⟩

/-- What a complete scan has gathered: every key with what was there at one moment. -/
structure Gathered (S : ℕ → Lsm) (pre : Bytes) (k n : ℕ) (es : Lsm) : Prop where
  sorted : es.Sorted
  range : ∀ x ∈ es, pre.isPrefixOf x.1 = true
  each : ∀ key, pre.isPrefixOf key = true → ∃ j, k ≤ j ∧ j ≤ n ∧
    ∀ b, (key, b) ∈ es ↔ (key, b) ∈ S j

theorem ScanRun.gathered {k m : ℕ} {es : Lsm} (h : ScanRun S pre none k es true m)
    (hg : Grown S k m) : Gathered S pre k m es := by
  obtain ⟨h1, h2, h3⟩ := h.spec hg
  refine ⟨h1, fun x hx => (h2 x hx).1, fun key hp => ?_⟩
  by_cases hk : key ∈ es.map Prod.fst
  · obtain ⟨x, hx, rfl⟩ := List.mem_map.1 hk
    obtain ⟨_, _, j, hj, hj', hm⟩ := h2 x hx
    refine ⟨j, hj, hj', fun b => ⟨fun hb => ?_, fun hb => ?_⟩⟩
    · rw [h1.unique hb hx]; exact hm
    · rw [(hg.sorted j hj hj').unique hb hm]; exact hx
  · refine ⟨k, Nat.le_refl k, h.le, fun b => ⟨fun hb => ?_, fun hb => ?_⟩⟩
    · exact absurd (List.mem_map_of_mem hb) hk
    · exact absurd (h3 rfl key (List.mem_map_of_mem hb) hp rfl) hk

end

/-! ## The programs -/

section
variable {S : ℕ → Rib M W}

/-- The persisted entries along a run. -/
abbrev lsms (S : ℕ → Rib M W) : ℕ → Lsm := fun j => (S j).lsm

theorem reads_scanSteps {pre : Bytes} {fuel : Nat} {last : Option Bytes} {k m : ℕ} {es : Lsm}
    (h : Reads S (scanSteps pre fuel last) k es m) : ScanRun (lsms S) pre last k es true m := by
  induction fuel generalizing last k es m with
  | zero => exact h.elim
  | succ fuel ih =>
    unfold scanSteps at h
    obtain ⟨o, l, h1, h2⟩ := reads_bind.1 h
    obtain ⟨j, hj, hl, e⟩ := reads_read.1 h1
    cases o with
    | none =>
      obtain ⟨rfl, hm⟩ := h2
      exact .done hj (hl.trans hm) e
    | some kv =>
      obtain ⟨rest, l', h3, h4⟩ := reads_bind.1 h2
      obtain ⟨rfl, hm⟩ := h4
      exact .step hj e ((ih h3).mono hl hm)

/-- From the position `pos` at step `k` to the position `pos'` at step `m`, reading `ds`. -/
def Consumes (S : ℕ → Rib M W) (pos : LsmPos) (k : ℕ) (ds : Lsm) (pos' : LsmPos) (m : ℕ) : Prop :=
  k ≤ m ∧ match pos, pos' with
  | none, none => ds = []
  | none, some _ => False
  | some last, none => ScanRun (lsms S) [] last k ds true m
  | some last, some last' => ∀ es fin l, ScanRun (lsms S) [] last' m es fin l →
      ScanRun (lsms S) [] last k (ds ++ es) fin l

theorem Consumes.refl (pos : LsmPos) {k m : ℕ} (h : k ≤ m) : Consumes S pos k [] pos m := by
  refine ⟨h, ?_⟩
  cases pos with
  | none => rfl
  | some last => exact fun es fin l hr => hr.mono h (Nat.le_refl l)

theorem Consumes.trans {p1 p2 p3 : LsmPos} {k l m : ℕ} {ds es : Lsm} (h1 : Consumes S p1 k ds p2 l)
    (h2 : Consumes S p2 l es p3 m) : Consumes S p1 k (ds ++ es) p3 m := by
  refine ⟨h1.1.trans h2.1, ?_⟩
  obtain ⟨hk, h1⟩ := h1
  obtain ⟨hl, h2⟩ := h2
  cases p1 with
  | none =>
    cases p2 with
    | none =>
      cases p3 with
      | none => dsimp only at h1 h2 ⊢; rw [h1, h2]; rfl
      | some c => exact h2.elim
    | some b => exact h1.elim
  | some a =>
    cases p2 with
    | none =>
      cases p3 with
      | none =>
        dsimp only at h1 h2 ⊢
        rw [h2, List.append_nil]
        exact h1.mono (Nat.le_refl k) hl
      | some c => exact h2.elim
    | some b =>
      cases p3 with
      | none => exact h1 _ _ _ h2
      | some c =>
        dsimp only at h1 h2 ⊢
        intro xs fin n hr
        rw [List.append_assoc]
        exact h1 _ _ _ (h2 _ _ _ hr)

theorem Consumes.mono {p1 p2 : LsmPos} {k l m : ℕ} {ds : Lsm} (h : Consumes S p1 k ds p2 l)
    (hm : l ≤ m) : Consumes S p1 k ds p2 m := by
  have := h.trans (Consumes.refl p2 hm)
  rwa [List.append_nil] at this

/-- The entries behind a position. -/
def LsmPos.Left (pos : LsmPos) (es : Lsm) : Prop := pos = none → es = []

theorem reads_treeNext {pos pos' : LsmPos} {o : Option (Bytes × Bytes)} {k m : ℕ}
    (h : Reads S (treeNext pos) k (o, pos') m) :
    (o = none → pos' = none) ∧ Consumes S pos k o.toList pos' m := by
  cases pos with
  | none =>
    obtain ⟨e, hm⟩ := h
    cases e
    exact ⟨fun _ => rfl, hm, rfl⟩
  | some last =>
    unfold treeNext at h
    obtain ⟨r, l, h1, h2⟩ := reads_bind.1 h
    obtain ⟨j, hj, hl, e⟩ := reads_read.1 h1
    cases r with
    | none =>
      obtain ⟨e', hm⟩ := h2
      cases e'
      exact ⟨fun _ => rfl, hj.trans (hl.trans hm), .done hj (hl.trans hm) e⟩
    | some kv =>
      obtain ⟨e', hm⟩ := h2
      cases e'
      refine ⟨fun c => (by cases c), hj.trans (hl.trans hm), fun es fin n hr => ?_⟩
      exact .step hj e (hr.mono (hl.trans hm) (Nat.le_refl n))

theorem reads_groupSteps {outer : PrefixId W} {fuel : Nat} {pos : LsmPos} {k m : ℕ}
    {r : List (FatalResult Bytes) × Option Bytes × LsmPos}
    (h : Reads S (groupSteps outer fuel pos) k r m) :
    ∃ ds, Consumes S pos k ds r.2.2 m ∧
      ∀ es, r.2.2.Left es → persistGroup W outer (ds ++ es) = (r.1, r.2.1, es) := by
  induction fuel generalizing pos k r m with
  | zero => exact h.elim
  | succ fuel ih =>
    unfold groupSteps at h
    obtain ⟨⟨o, p⟩, l, h1, h2⟩ := reads_bind.1 h
    obtain ⟨hp, hc⟩ := reads_treeNext h1
    cases o with
    | none =>
      obtain ⟨rfl, hm⟩ := h2
      refine ⟨[], hc.mono hm, fun es he => ?_⟩
      rw [he (hp rfl)]
      rfl
    | some kv =>
      dsimp only at h2
      cases hd : decodeHeader W kv.1 with
      | none =>
        rw [hd] at h2
        obtain ⟨r', l', h3, h4⟩ := reads_bind.1 h2
        obtain ⟨rfl, hm⟩ := h4
        obtain ⟨ds, h5, h6⟩ := ih h3
        refine ⟨kv :: ds, hc.trans (h5.mono hm), fun es he => ?_⟩
        rw [List.cons_append, persistGroup, hd]
        dsimp only
        rw [h6 es he]
      | some z =>
        rw [hd] at h2
        dsimp only at h2
        by_cases hz : z.pfx = outer
        · rw [if_pos hz] at h2
          obtain ⟨r', l', h3, h4⟩ := reads_bind.1 h2
          obtain ⟨rfl, hm⟩ := h4
          obtain ⟨ds, h5, h6⟩ := ih h3
          refine ⟨kv :: ds, hc.trans (h5.mono hm), fun es he => ?_⟩
          rw [List.cons_append, persistGroup, hd]
          dsimp only
          rw [if_pos hz, h6 es he]
        · rw [if_neg hz] at h2
          obtain ⟨rfl, hm⟩ := h2
          refine ⟨[kv], hc.mono hm, fun es he => ?_⟩
          rw [List.singleton_append, persistGroup, hd]
          dsimp only
          rw [if_neg hz]

/-- The group that begins with `b`, from a list. -/
def groupOf (W : Nat) (b : Bytes) (rest : Lsm) : List (FatalResult Bytes) × Option Bytes × Lsm :=
  match decodeHeader W b with
  | none => ([.error ()], none, rest)
  | some h =>
    let r := persistGroup W h.pfx rest
    (.ok b :: r.1, r.2)

theorem reads_groupFrom {fuel : Nat} {b : Bytes} {pos : LsmPos} {k m : ℕ}
    {r : List (FatalResult Bytes) × Option Bytes × LsmPos}
    (h : Reads S (groupFrom fuel b pos) k r m) :
    ∃ ds, Consumes S pos k ds r.2.2 m ∧
      ∀ es, r.2.2.Left es → groupOf W b (ds ++ es) = (r.1, r.2.1, es) := by
  unfold groupFrom at h
  unfold groupOf
  cases hd : decodeHeader W b with
  | none =>
    rw [hd] at h
    obtain ⟨rfl, hm⟩ := h
    exact ⟨[], .refl _ hm, fun _ _ => rfl⟩
  | some z =>
    rw [hd] at h
    obtain ⟨r', l, h1, h2⟩ := reads_bind.1 h
    obtain ⟨rfl, hm⟩ := h2
    obtain ⟨ds, h3, h4⟩ := reads_groupSteps h1
    refine ⟨ds, h3.mono hm, fun es he => ?_⟩
    dsimp only
    rw [h4 es he]

theorem reads_persistNext {fuel : Nat} {cur : Option Bytes} {pos : LsmPos} {k m : ℕ}
    {r : Option (List (FatalResult Bytes) × Option Bytes × LsmPos)}
    (h : Reads S (persistNextSteps fuel cur pos) k r m) :
    match (generalizing := false) r with
    | none => Consumes S pos k [] none m ∧ cur = none
    | some (g, cur', pos') => ∃ ds, Consumes S pos k ds pos' m ∧
        ∀ es, pos'.Left es → persistIterNext W cur (ds ++ es) = some (g, cur', es) := by
  unfold persistNextSteps at h
  cases cur with
  | some b =>
    obtain ⟨r', l, h1, h2⟩ := reads_bind.1 h
    obtain ⟨rfl, hm⟩ := h2
    obtain ⟨ds, h3, h4⟩ := reads_groupFrom h1
    exact ⟨ds, h3.mono hm, fun es he => congrArg some (h4 es he)⟩
  | none =>
    obtain ⟨⟨o, p⟩, l, h1, h2⟩ := reads_bind.1 h
    obtain ⟨hp, hc⟩ := reads_treeNext h1
    cases o with
    | none =>
      obtain ⟨rfl, hm⟩ := h2
      obtain rfl := hp rfl
      exact ⟨hc.mono hm, rfl⟩
    | some kv =>
      obtain ⟨r', l', h3, h4⟩ := reads_bind.1 h2
      obtain ⟨rfl, hm⟩ := h4
      obtain ⟨ds, h5, h6⟩ := reads_groupFrom h3
      refine ⟨kv :: ds, hc.trans (h5.mono hm), fun es he => congrArg some (h6 es he)⟩

theorem upTo_nil {α : Type} (n : Option Nat) : upTo n ([] : List α) = [] := by
  cases n <;> simp [upTo]

theorem upTo_cons {α : Type} {n : Option Nat} (hn : n ≠ some 0) (a : α) (l : List α) :
    upTo n (a :: l) = a :: upTo (n.map (· - 1)) l := by
  cases n with
  | none => rfl
  | some n =>
    cases n with
    | zero => exact absurd rfl hn
    | succ n => rfl

variable [Meta M]

theorem reads_persistItem {g : List (FatalResult Bytes)} {k m : ℕ}
    {x : FatalResult (PrefixRecord M W)} (h : Reads S (persistItem g) k x m) :
    k ≤ m ∧ ∀ gs rest, groupsToPrefix (gs.map (persistGroupRecord (M := M) W)) = some rest →
      groupsToPrefix ((g :: gs).map (persistGroupRecord (M := M) W)) = some (x :: rest) := by
  unfold persistItem at h
  cases hg : persistGroupRecord (M := M) W g with
  | error e =>
    rw [hg] at h
    obtain ⟨rfl, hm⟩ := h
    exact ⟨hm, fun gs rest hr => by simp [groupsToPrefix, hg, hr]⟩
  | ok y =>
    obtain ⟨p, rs⟩ := y
    rw [hg] at h
    obtain ⟨q, l, h1, h2⟩ := reads_bind.1 h
    obtain ⟨h1, hl⟩ := reads_ofOption.1 h1
    obtain ⟨rfl, hm⟩ := h2
    exact ⟨hl.trans hm, fun gs rest hr => by simp [groupsToPrefix, hg, hr, h1]⟩

theorem persistItems_succ (f0 fuel : Nat) {n : Option Nat} (hn : n ≠ some 0) (cur : Option Bytes)
    (pos : LsmPos) : persistItems (M := M) (W := W) f0 (fuel + 1) n cur pos = (do
      match ← persistNextSteps f0 cur pos with
      | none => return []
      | some (g, cur', pos') =>
        let x ← persistItem g
        let rest ← persistItems f0 fuel (n.map (· - 1)) cur' pos'
        return x :: rest) := by
  cases n with
  | none => rfl
  | some n =>
    cases n with
    | zero => exact absurd rfl hn
    | succ n => rfl

theorem reads_persistItems {f0 fuel : Nat} {n : Option Nat} {cur : Option Bytes} {pos : LsmPos}
    {k m : ℕ} {xs : List (FatalResult (PrefixRecord M W))}
    (h : Reads S (persistItems f0 fuel n cur pos) k xs m) :
    ∃ ds pos', Consumes S pos k ds pos' m ∧ ∀ es, pos'.Left es → ∀ big gs,
      persistIterCollect W big cur (ds ++ es) = some gs →
      groupsToPrefix ((upTo n gs).map (persistGroupRecord (M := M) W)) = some xs := by
  induction fuel generalizing n cur pos k xs m with
  | zero =>
    by_cases hn : n = some 0
    · subst hn
      obtain ⟨rfl, hm⟩ := h
      exact ⟨[], pos, .refl _ hm, fun _ _ _ _ _ => rfl⟩
    · have : persistItems (M := M) (W := W) f0 0 n cur pos = .diverge := by
        cases n with
        | none => rfl
        | some n =>
          cases n with
          | zero => exact absurd rfl hn
          | succ n => rfl
      rw [this] at h
      exact h.elim
  | succ fuel ih =>
    by_cases hn : n = some 0
    · subst hn
      obtain ⟨rfl, hm⟩ := h
      exact ⟨[], pos, .refl _ hm, fun _ _ _ _ _ => rfl⟩
    rw [persistItems_succ _ _ hn] at h
    obtain ⟨o, l, h1, h2⟩ := reads_bind.1 h
    have hN := reads_persistNext h1
    clear h1
    cases o with
    | none =>
      obtain ⟨rfl, hm⟩ := h2
      obtain ⟨hN, rfl⟩ := hN
      refine ⟨[], none, hN.mono hm, fun es he big gs hc => ?_⟩
      rw [he rfl] at hc
      cases big with
      | zero => cases hc
      | succ big =>
        cases hc
        rw [upTo_nil]
        rfl
    | some y =>
      obtain ⟨g, cur', pos'⟩ := y
      obtain ⟨ds, h3, h4⟩ := hN
      obtain ⟨x, l2, h5, h6⟩ := reads_bind.1 h2
      obtain ⟨rest, l3, h7, h8⟩ := reads_bind.1 h6
      obtain ⟨rfl, hm⟩ := h8
      obtain ⟨h5, h5'⟩ := reads_persistItem h5
      obtain ⟨ds', pos'', h9, h10⟩ := ih h7
      refine ⟨ds ++ ds', pos'', (h3.mono h5).trans (h9.mono hm), fun es he big gs hc => ?_⟩
      have hleft : pos'.Left (ds' ++ es) := by
        rintro rfl
        cases pos'' with
        | none => rw [he rfl]; rw [show ds' = [] from h9.2]; rfl
        | some b => exact h9.2.elim
      rw [List.append_assoc] at hc
      cases big with
      | zero => cases hc
      | succ big =>
        unfold persistIterCollect at hc
        rw [h4 _ hleft] at hc
        obtain ⟨gs', hc', rfl⟩ := Option.map_eq_some_iff.1 hc
        rw [upTo_cons hn]
        exact h5' _ _ (h10 es he big gs' hc')

omit [Meta M] in
theorem groupsToPrefix_upTo {l : List (FatalResult (PrefixId W × List (Record M)))}
    {r : List (FatalResult (PrefixRecord M W))} (h : groupsToPrefix l = some r) (n : Option Nat) :
    groupsToPrefix (upTo n l) = some (upTo n r) := by
  induction l generalizing r n with
  | nil => cases h; rw [upTo_nil, upTo_nil]; rfl
  | cons a l ih =>
    by_cases hn : n = some 0
    · subst hn; rfl
    cases a with
    | error e =>
      obtain ⟨r', hr, rfl⟩ := Option.map_eq_some_iff.1 h
      rw [upTo_cons hn, upTo_cons hn, groupsToPrefix, ih hr]
      rfl
    | ok y =>
      obtain ⟨p, rs⟩ := y
      obtain ⟨q, hq, h⟩ := Option.bind_eq_some_iff.1 h
      obtain ⟨r', hr, rfl⟩ := Option.map_eq_some_iff.1 h
      rw [upTo_cons hn, upTo_cons hn, groupsToPrefix, hq, Option.bind_some, ih hr]
      rfl

/-- What the iteration gives: the first items of those it gives alone on a tree that holds
the entries that were read. -/
theorem reads_persistIter [Fam W] {st : Strategy} (hst : st ≠ .memoryOnly) {fuel : Nat}
    {n : Option Nat} {k m : ℕ} {xs : List (FatalResult (PrefixRecord M W))}
    (hg : Grown (lsms S) k m) (hrec : ∀ j, k ≤ j → j ≤ m → Records W (S j).lsm)
    (h : Reads S (ribPersistIterSteps st fuel n) k xs m) :
    ∃ T l, Gathered (lsms S) [] k m T ∧ xs = upTo n l ∧
      ∀ s : Rib M W, s.lsm = T → (ribPersistPrefixesIter (M := M) st).run s = .ok l s := by
  have h : Reads S (persistItems fuel fuel n none (some none)) k xs m := by
    cases st <;> first | exact h | exact absurd rfl hst
  obtain ⟨ds, pos', h1, h2⟩ := reads_persistItems h
  have hm := h1.1
  obtain ⟨es, he, hr⟩ : ∃ es, pos'.Left es ∧ ScanRun (lsms S) [] none k (ds ++ es) true m := by
    cases pos' with
    | none => exact ⟨[], fun _ => rfl, by rw [List.append_nil]; exact h1.2⟩
    | some last =>
      exact ⟨_, fun c => (by cases c), h1.2 _ _ _ (scanRun_at (hg.sorted m hm (Nat.le_refl m)) last)⟩
  have hG := hr.gathered hg
  have hR : Records W (ds ++ es) := by
    intro x hx
    obtain ⟨j, h3, h4, h5⟩ := hG.each x.1 (by simp)
    exact hrec j h3 h4 x ((h5 x.2).1 hx)
  obtain ⟨gs, hgs, l, hl⟩ := persistIter_some (M := M) hR
  refine ⟨_, l, hG, ?_, fun s hs => run_persistIter hst (by rw [hs]; exact hgs) hl⟩
  have h3 := h2 es he _ gs hgs
  have h4 := groupsToPrefix_upTo hl n
  have h5 : upTo n (gs.map (persistGroupRecord (M := M) W)) =
      (upTo n gs).map (persistGroupRecord (M := M) W) := by
    cases n with
    | none => rfl
    | some n => exact List.map_take.symm
  rw [h5, h3] at h4
  exact Option.some.inj h4

end

/-! ## Records of a prefix -/

theorem scan_self {es : Lsm} {pre : Bytes} (h : ∀ x ∈ es, pre.isPrefixOf x.1 = true) :
    es.scan pre = es := List.filter_eq_self.2 h

theorem recordsOf_eq {es : Lsm} {p : PrefixId W} {mui : Option Mui}
    (h : ∀ x ∈ es, (scanKey p mui).isPrefixOf x.1 = true) (iw : Bool) (bmin : Mui → Bool) :
    recordsOf W es iw bmin = recordsForPrefix es p mui iw bmin := by
  rw [recordsForPrefix_key, scan_self h]
  cases iw <;> rfl

variable [Meta M]

/-- The records shown from persisted entries. -/
theorem PoRep.answers [Fam W] {f : Prefix W → Mui → Option Kept} {t : Lsm} (h : PoRep f t)
    (bmin : Mui → Bool) (p : Prefix W) (mui : Option Mui) (iw : Bool) :
    ∃ o : Option (List (PoEntry W)),
      recordsForPrefix t p.id mui iw bmin =
        some (o.map fun l => l.map fun e => .ok (e.enc.1 ++ e.enc.2)) ∧
      Answers (o.map fun l => l.map fun e => e.kept.toRecord (M := M) e.mui) fun r =>
        ∃ x, f p r.mui = some x ∧ (∀ m, mui = some m → r.mui = m) ∧
          match (generalizing := false) iw with
          | true => r = shownAs (bmin r.mui) (x.toRecord r.mui)
          | false => r = x.toRecord r.mui ∧ x.status ≠ .withdrawn ∧ bmin r.mui = false := by
  obtain ⟨o, hrec, hne, hpw, hmem⟩ := h.recordsFor bmin p mui iw
  have hgd : (o.map fun l => l.map fun e => e.kept.toRecord (M := M) e.mui).getD [] =
      (o.getD []).map fun e => e.kept.toRecord (M := M) e.mui := by cases o <;> rfl
  refine ⟨o, hrec, ⟨?_, fun r => ?_⟩, ?_⟩
  · rw [hgd, List.pairwise_map]
    exact hpw
  · rw [hgd, List.mem_map]
    simp only [hmem]
    cases iw with
    | true =>
      simp only
      constructor
      · rintro ⟨_, ⟨e0, h1, h2, h3, rfl⟩, rfl⟩
        have hmu : ((e0.shown bmin).kept.toRecord (M := M) (e0.shown bmin).mui).mui = e0.mui := by
          unfold PoEntry.shown; split <;> rfl
        rw [hmu]
        refine ⟨_, h2, h3, ?_⟩
        unfold PoEntry.shown shownAs
        simp only [Kept.toRecord]
        by_cases c : bmin e0.mui = true <;> simp [c]
      · rintro ⟨x, hx, h3, h4⟩
        refine ⟨_, ⟨⟨p, r.mui, x⟩, rfl, hx, h3, rfl⟩, ?_⟩
        rw [h4]
        unfold PoEntry.shown shownAs
        simp only [Kept.toRecord]
        by_cases c : bmin r.mui = true <;> simp [c]
    | false =>
      simp only
      constructor
      · rintro ⟨_, ⟨e0, h1, h2, h3, rfl, h4, h5⟩, rfl⟩
        exact ⟨_, h2, h3, rfl, h4, h5⟩
      · rintro ⟨x, hx, h3, h4, h5, h6⟩
        exact ⟨_, ⟨⟨p, r.mui, x⟩, rfl, hx, h3, rfl, h5, h6⟩, h4.symm⟩
  · cases o with
    | none => simp
    | some l =>
      cases l with
      | nil => exact absurd rfl hne
      | cons a l => simp

theorem shown_kept {H1 H : History M W} {mui : Option Mui} {iw : Bool} {p : Prefix W} {r : Record M} :
    Shown .persistOnly (under H1 H) mui iw p r ↔
      ∃ x, keptOf H p r.mui = some x ∧ (∀ m, mui = some m → r.mui = m) ∧
        match iw with
        | true => r = shownAs (globWd H1 r.mui) (x.toRecord r.mui)
        | false => r = x.toRecord r.mui ∧ x.status ≠ .withdrawn ∧ globWd H1 r.mui = false := by
  unfold Shown
  rw [storedRec_under]
  simp only [storedRec, Option.map_eq_some_iff]
  constructor
  · rintro ⟨_, ⟨x, hx, rfl⟩, h2, h3⟩
    refine ⟨x, hx, h2, ?_⟩
    cases iw with
    | true =>
      simp only [effective, globWd_under] at h3 ⊢
      exact h3
    | false =>
      simp only [passes, globWd_under, Strategy.inMemory, Bool.false_eq_true, false_and, or_false] at h3 ⊢
      exact h3
  · rintro ⟨x, hx, h2, h3⟩
    refine ⟨_, ⟨x, hx, rfl⟩, h2, ?_⟩
    cases iw with
    | true =>
      simp only [effective, globWd_under] at h3 ⊢
      exact h3
    | false =>
      simp only [passes, globWd_under, Strategy.inMemory, Bool.false_eq_true, false_and, or_false] at h3 ⊢
      exact h3

theorem kept_inj {x y : Kept} (h : headerBytes x.ltime x.status ++ x.bytes =
    headerBytes y.ltime y.status ++ y.bytes) : x = y := by
  unfold headerBytes at h
  obtain ⟨h1, h2⟩ := List.append_inj h (by simp)
  obtain ⟨h3, h4⟩ := List.append_inj h1 (by simp)
  have h5 : x.status = y.status := status_toByte_inj (by simpa using h4)
  cases x; cases y
  simp only at h2 h3 h5
  rw [ltime_inj h3, h5, h2]

/-- The records of one prefix, read one after another. -/
theorem reads_getValueSteps [Fam W] {ι : Type} {po : Prop} {T : PrefixId W → Mui → Prop}
    {h : History M W} {calls : ι → Call M W} {S : ℕ → Rib M W} {log : ℕ → List ι} {k n : ℕ} (hpo : po)
    (hi : ∀ j, k ≤ j → j ≤ n → LinInv .persistOnly po T h calls (S j, log j))
    (hg : ∀ i j, k ≤ i → i ≤ j → j ≤ n → Grow T (S i) (S j)) {fuel : Nat}
    {p : Prefix W} {mui : Option Mui} {iw : Bool} {r : FatalResult (Option (List (Record M)))}
    (hr : Reads S (ribGetValueSteps fuel p.id mui iw) k r n) :
    ∃ v, r = .ok v ∧ ReadEach .persistOnly h calls log k n mui iw p v := by
  unfold ribGetValueSteps at hr
  obtain ⟨b, l, h1, h2⟩ := reads_bind.1 hr
  obtain ⟨n1, hk1, hb, hl1⟩ := h1
  have hb' : b = globWd (histAfter h calls (log n1)) := by
    rw [← hb, ← (hi n1 hk1 (hl1.trans h2.le)).wd]; rfl
  subst hb'
  have hle := h2.le
  obtain ⟨es, l2, h3, h4⟩ := reads_bind.1 h2
  have e3 := h3.le
  have e4 := h4.le
  have hrep : ∀ j, k ≤ j → j ≤ n → PoRep (keptOf (histAfter h calls (log j))) (S j).lsm := by
    intro j c1 c2
    have := (hi j c1 c2).lsm hpo
    rw [show (S j).lsm = _ from this]
    exact poRep_lsmOf _
  have hG : Gathered (lsms S) (scanKey p.id mui) l l2 es :=
    (reads_scanSteps (show Reads S (scanSteps (scanKey p.id mui) fuel none) l es l2 from by
      cases mui <;> exact h3)).gathered
    ⟨fun j c1 c2 => (hrep j (by omega) (by omega)).sorted,
      fun i j c1 c2 c3 => (hg i j (by omega) c2 (by omega)).keys⟩
  -- the moment at which each id was read
  have hat : ∀ m, ∃ j, l ≤ j ∧ j ≤ l2 ∧ ((∀ m', mui = some m' → m = m') →
      ∀ x, ((PoEntry.mk p m x).enc ∈ es ↔ (PoEntry.mk p m x).enc ∈ (S j).lsm)) := by
    intro m
    by_cases hm : ∀ m', mui = some m' → m = m'
    · have hpre := (scanKey_prefix p mui ⟨p, m, ⟨0, .active, []⟩⟩).2 ⟨rfl, hm⟩
      obtain ⟨j, c1, c2, c3⟩ := hG.each _ hpre
      exact ⟨j, c1, c2, fun _ x => c3 _⟩
    · exact ⟨l, Nat.le_refl l, e3, fun c => absurd c hm⟩
  choose at_ ha1 ha2 ha3 using hat
  have hP : PoRep (fun q m => if q = p ∧ ∀ m', mui = some m' → m = m' then
      keptOf (histAfter h calls (log (at_ m))) q m else none) es := by
    classical
    refine ⟨hG.sorted, fun x => ⟨fun hx => ?_, ?_⟩⟩
    · have hpre := hG.range x hx
      obtain ⟨j, c1, c2, c3⟩ := hG.each x.1 hpre
      obtain ⟨e, _, rfl⟩ := ((hrep j (by omega) (by omega)).mem x).1 ((c3 x.2).1 hx)
      obtain ⟨rfl, hm⟩ := (scanKey_prefix p mui e).1 hpre
      refine ⟨e, ?_, rfl⟩
      rw [if_pos ⟨rfl, hm⟩]
      have := (ha3 e.mui hm e.kept).1 hx
      obtain ⟨e', he', heq⟩ := ((hrep (at_ e.mui) (by have := ha1 e.mui; omega)
        (by have := ha2 e.mui; omega)).mem _).1 this
      have hkey := PoEntry.key_inj (congrArg Prod.fst heq)
      have hval : e.kept = e'.kept := by
        have := congrArg Prod.snd heq
        exact kept_inj this
      simp only at hkey
      rw [hkey.1, hkey.2, hval]
      have h2 := hkey.2
      rw [← h2] at he' ⊢
      exact he'
    · rintro ⟨e, he, rfl⟩
      split at he
      · rename_i c
        obtain ⟨rfl, hm⟩ := c
        refine (ha3 e.mui hm e.kept).2 ?_
        exact ((hrep (at_ e.mui) (by have := ha1 e.mui; omega)
          (by have := ha2 e.mui; omega)).mem _).2 ⟨e, he, rfl⟩
      · cases he
  obtain ⟨o, ho, hA⟩ := hP.answers (M := M) (globWd (histAfter h calls (log n1))) p mui iw
  rw [recordsOf_eq hG.range, ho] at h4
  obtain ⟨o', l3, h5, h6⟩ := reads_bind.1 h4
  obtain ⟨h5, _⟩ := reads_ofOption.1 h5
  cases h5
  refine ⟨o.map fun l => l.map fun e => e.kept.toRecord (M := M) e.mui, ?_, n1, hk1, at_,
    fun m => ⟨hl1.trans (ha1 m), (ha2 m).trans (by omega)⟩, ?_⟩
  · cases o with
    | none => exact h6.1.symm
    | some l =>
      simp only [Option.map_some] at h6 ⊢
      rw [decode_entries] at h6
      exact h6.1.symm
  · refine ⟨⟨hA.1.1, fun r => ?_⟩, hA.2⟩
    refine (hA.1.2 r).trans (Iff.trans ?_ shown_kept.symm)
    dsimp only
    constructor
    · rintro ⟨x, h1, h2, h3⟩
      rw [if_pos ⟨rfl, h2⟩] at h1
      exact ⟨x, h1, h2, h3⟩
    · rintro ⟨x, h1, h2, h3⟩
      exact ⟨x, by rw [if_pos ⟨rfl, h2⟩]; exact h1, h2, h3⟩

end Rotonda
