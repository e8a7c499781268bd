import Verif.Props.Scan

/-!
# Queries over several prefixes that read persisted records one after another: C74

As in `Props/Scan.lean` any set of queries runs together with any set of calls.  With
`PersistOnly` the queries over several prefixes (matches and iterations) also read the
records of each prefix from the persistence tree one after another, so that other calls
can change the store between two records of a prefix.  `Facts.Explain` says what the
answer of a query is, by what it came across; `scanReports` lists the prefixes in the
answer with the records given for them.
-/

namespace Rotonda.Props

open Prog Spec

variable {M : Type} [Meta M] {W : Nat} {ι κ : Type} [DecidableEq ι] [DecidableEq κ]
  {calls : ι → Call M W} {scans : κ → ScanCall W}

/-- What a query reports was read while it ran; a prefix inserted before it began and due is
among those it read. -/
theorem Explain.reports [Fam W] {f : Facts M W} {x : ScanCall W} {a : x.Ans M} (h : f.Explain x a)
    {mui : Option Mui} {iw : Bool} (hx : scanAsks x = some (mui, iw)) :
    (∀ q rs, (q, rs) ∈ scanReports x a → ∃ v, rs = v.getD [] ∧ f.read mui iw q v) ∧
    ∀ q, f.done q → f.Due x q → (∃ m, mui = some m ∧ iw = false ∧ f.gone m) ∨
      ∃ v, f.read mui iw q v ∧ ∀ rs, v = some rs → (q, rs) ∈ scanReports x a := by
  have hW : 0 < W := by rcases (inferInstance : Fam W).width with h | h <;> omega
  have hcov : ∀ r q : Prefix W, r.len = 0 → Covers r q := fun r q hr =>
    ⟨by omega, fun i hi => absurd hi (by omega)⟩
  have hvis : ∀ {vis : List (Prefix W × Option (List (Record M)))} {mui iw}, f.Came mui iw vis →
      ∀ q rs, (q, rs) ∈ withRecords vis → ∃ v, rs = v.getD [] ∧ f.read mui iw q v :=
    fun hV q rs hq => ⟨some rs, rfl, hV.read _ (mem_withRecords.1 hq)⟩
  cases x with
  | records p mui' iw' =>
    cases hx
    obtain ⟨v, rfl, hr⟩ := h
    have hrep : scanReports (.records p mui iw) (.ok v) = v.toList.map fun rs => (p, rs) := rfl
    rw [hrep]
    refine ⟨fun q rs hq => ?_, ?_⟩
    · obtain ⟨rs', h1, h2⟩ := List.mem_map.1 hq
      cases h2
      rw [Option.mem_toList] at h1
      exact ⟨v, by rw [h1]; rfl, hr⟩
    · rintro q - rfl
      exact .inr ⟨v, hr, fun rs e => by simp [e]⟩
  | less p mui' iw' =>
    cases hx
    obtain ⟨vis, rfl, h1, _, h3⟩ := h
    have hrep : scanReports (.less p mui iw) ((withRecords vis).map .ok) = withRecords vis := oks_ok _
    rw [hrep]
    refine ⟨hvis h1, fun q hc hd => .inr ?_⟩
    obtain ⟨v, hv⟩ := h3 q hc hd.1 hd.2
    exact ⟨v, h1.read _ hv, fun rs e => mem_withRecords.2 (e ▸ hv)⟩
  | more p mui' iw' =>
    cases hx
    rcases h with ⟨m, e1, e2, e3, rfl⟩ | ⟨vis, rfl, h1, _, h3⟩
    · exact ⟨fun q rs hq => (by cases hq), fun _ _ _ => .inl ⟨m, e1, e2, e3⟩⟩
    have hrep : scanReports (.more p mui iw) ((withRecords vis).map .ok) = withRecords vis := oks_ok _
    rw [hrep]
    refine ⟨hvis h1, fun q hc hd => .inr ?_⟩
    obtain ⟨v, hv⟩ := h3 hd.2.2 hd.2.1 q hc hd.1
    exact ⟨v, h1.read _ hv, fun rs e => mem_withRecords.2 (e ▸ hv)⟩
  | all =>
    cases hx
    obtain ⟨vis, rfl, h1⟩ := h
    have hrep : scanReports (M := M) (W := W) .all (vis.map fun x => .ok (x.1, x.2.getD [])) =
        vis.map fun x => (x.1, x.2.getD []) := by
      rw [← oks_ok (vis.map fun x => (x.1, x.2.getD [])), List.map_map]; rfl
    rw [hrep]
    obtain ⟨h2, -, -⟩ := h1 (Prefix.root W) rfl
    refine ⟨fun q rs hq => ?_, fun q hc hd => .inr ?_⟩
    · obtain ⟨y, hy, he⟩ := List.mem_map.1 hq
      cases he
      exact ⟨y.2, rfl, h2.read _ hy⟩
    · obtain ⟨r, hr0, hd⟩ := hd
      obtain ⟨-, -, h3⟩ := h1 r hr0
      obtain ⟨v, hv⟩ := h3 hd (by rw [hr0]; exact hW) q hc (hcov r q hr0)
      exact ⟨v, h2.read _ hv, fun rs e => List.mem_map.2 ⟨_, hv, by rw [e]; rfl⟩⟩
  | forMui m0 iw' =>
    cases hx
    rcases h with ⟨e1, e2, rfl⟩ | ⟨vis, rfl, h1⟩
    · exact ⟨fun q rs hq => (by cases hq), fun _ _ _ => .inl ⟨m0, rfl, e1, e2⟩⟩
    have hrep : scanReports (.forMui m0 iw) ((withRecords vis).map .ok) = withRecords vis := oks_ok _
    rw [hrep]
    obtain ⟨h2, -, -⟩ := h1 (Prefix.root W) rfl
    refine ⟨hvis h2, fun q hc hd => .inr ?_⟩
    obtain ⟨r, hr0, hd⟩ := hd
    obtain ⟨-, -, h3⟩ := h1 r hr0
    obtain ⟨v, hv⟩ := h3 hd (by rw [hr0]; exact hW) q hc (hcov r q hr0)
    exact ⟨v, h2.read _ hv, fun rs e => mem_withRecords.2 (e ▸ hv)⟩
  | matching p o =>
    cases hx
    obtain ⟨x, rfl, ⟨y, ⟨f3, f4⟩, f1, f2⟩, hless, hmore⟩ := h
    have hrep : scanReports (.matching p o) (.ok x) = x.prefix_.toList.map (fun q => (q, x.records)) ++
        x.lessSpecifics.getD [] ++ x.moreSpecifics.getD [] := rfl
    rw [hrep]
    constructor
    · intro q rs hq
      rcases List.mem_append.1 hq with hq | hq
      · rcases List.mem_append.1 hq with hq | hq
        · obtain ⟨q', hq', he⟩ := List.mem_map.1 hq
          cases he
          rw [Option.mem_toList, f1] at hq'
          obtain ⟨y, hy, hyq⟩ := Option.bind_eq_some_iff.1 hq'
          obtain ⟨rs, hrs, rfl⟩ := Option.map_eq_some_iff.1 hyq
          exact ⟨y.2, by rw [f2, hy]; rfl, (f3 y hy).2.2.2⟩
        · rcases hless with ⟨_, hl⟩ | ⟨vis, hl, h1, _⟩
          · rw [hl] at hq; cases hq
          · rw [hl] at hq; exact hvis h1 q rs hq
      · rcases hmore with ⟨_, hl⟩ | ⟨vis, hl, h1, _⟩
        · rw [hl] at hq; cases hq
        · rw [hl] at hq; exact hvis h1 q rs hq
    · intro q hc hd
      refine .inr ?_
      rcases hd with rfl | ⟨ho, hcov, hne⟩ | ⟨ho, hcov, hne, hW, hq⟩
      · obtain ⟨z, hy, hlen⟩ := f4 q hc ⟨Nat.le_refl _, fun _ _ => rfl⟩ (fun _ => rfl)
        obtain ⟨hcov, _, _, hread⟩ := f3 z hy
        obtain rfl : z.1 = q := by
          obtain ⟨c1, c2⟩ := covers_trunc.1 hcov
          have he : z.1.len = q.len := by omega
          exact Prefix.id_inj (by rw [← c2, he]; exact truncate_self q.clean)
        refine ⟨z.2, hread, fun rs e => ?_⟩
        have e1 : x.prefix_ = some z.1 := by rw [f1, hy]; simp [e]
        have e2 : x.records = rs := by rw [f2, hy]; simp [e]
        rw [e1, e2]
        simp
      · rcases hless with ⟨hl, _⟩ | ⟨vis, hl, h1, _, h3⟩
        · rw [ho] at hl; cases hl
        · obtain ⟨v, hv⟩ := h3 q hc hcov hne
          refine ⟨v, h1.read _ hv, fun rs e => ?_⟩
          rw [hl]
          exact List.mem_append_left _ (List.mem_append_right _ (mem_withRecords.2 (e ▸ hv)))
      · rcases hmore with ⟨hl, _⟩ | ⟨vis, hl, h1, _, h3⟩
        · rw [ho] at hl; cases hl
        · obtain ⟨v, hv⟩ := h3 hq hW q hc hcov hne
          refine ⟨v, h1.read _ hv, fun rs e => ?_⟩
          rw [hl]
          exact List.mem_append_right _ (mem_withRecords.2 (e ▸ hv))
  | _ => cases hx

section
variable [Fam W] {st : Strategy} {F0 F fuel fuel' : Nat} (hF : 32 ≤ F) (hf : iterFuel W ≤ fuel)
  {h : History M W} {s : Rib M W} (hs : exec st F0 h = .ok () s)
include hF hf hs

/-- C74: an order of effects of the calls, as in C39, also explains the queries: each came
across certain prefixes, each once, and among them, for iterations over more specifics
while no insert makes a node below, all that were inserted before it began; it reports for
each of them the records of this prefix, for every id as at a moment during the query.
Missing: `PersistOnly` together with calls that mark single routes active. -/
theorem scan_walks_partial (ht : Tracked st calls) (t : List (ι ⊕ κ)) :
    ∃ log, Explains st h (start st F fuel s calls) (others t) log ∧
      ∀ n, n ≤ t.length → ∀ q x (a : x.Ans M),
        ScanReturned ((scanStart st F fuel fuel' s calls scans).exec (t.take n)) q x a →
        ∀ k, k ≤ n → .inr q ∉ t.take k →
          (scanFacts st h (start st F fuel s calls) t log k n).Explain x a := by
  obtain ⟨log, hE, hi⟩ := scan_explained (calls := calls) (scans := scans) (fuel' := fuel') hF hf hs t
  refine ⟨log, hE, fun n hn q x a hr k hk hq => ?_⟩
  obtain ⟨hx, hR⟩ := returned_reads hn hk hr hq
  have hR : Reads (fun j => ((scanStart st F fuel fuel' s calls scans).at t j).st)
      (x.prog st fuel fuel') k a n := by
    change Reads _ ((scans q).prog st fuel fuel') k _ n at hR
    revert hR
    generalize scans q = y at hx
    subst hx
    exact id
  exact explain_of_trips hf
    (fun mui iw => scan_trip (calls := calls) (scans := scans) hF hf hs ht t hi hk hn mui iw) x hR

/-- A whole run `t ++ u` with a query that begins after `t`. -/
private theorem walk_of (ht : Tracked st calls) (t u : List (ι ⊕ κ)) :
    ∃ log, Explains st h (start st F fuel s calls) (others (t ++ u)) log ∧
      ∀ q x (a : x.Ans M), .inr q ∉ t →
        ScanReturned ((scanStart st F fuel fuel' s calls scans).exec (t ++ u)) q x a →
        (scanFacts st h (start st F fuel s calls) (t ++ u) log t.length (t ++ u).length).Explain x a ∧
        ∀ mui iw p v, (scanFacts st h (start st F fuel s calls) (t ++ u) log t.length
            (t ++ u).length).read mui iw p v →
          ∃ n1, (others t).length ≤ n1 ∧ ∃ at_ : Mui → ℕ,
            (∀ m, n1 ≤ at_ m ∧ at_ m ≤ (others (t ++ u)).length) ∧
            Answers v fun r => Shown st
              (under (histAfter h calls (log n1)) (histAfter h calls (log (at_ r.mui)))) mui iw p r := by
  obtain ⟨log, hE, hX⟩ := scan_walks_partial (calls := calls) (scans := scans) (fuel' := fuel') hF hf hs
    ht (t ++ u)
  refine ⟨log, hE, fun q x a hq hr => ⟨hX _ (Nat.le_refl _) q x a (by rw [List.take_length]; exact hr)
    t.length (by simp) (by simpa using hq), fun mui iw p v hv => ?_⟩⟩
  obtain ⟨⟨n1, h1, at_, h2, h3⟩, -⟩ := hv
  refine ⟨(others ((t ++ u).take n1)).length, ?_, fun m => (others ((t ++ u).take (at_ m))).length,
    fun m => ⟨others_mono _ (h2 m).1, others_take_le _ _⟩, h3⟩
  have := others_mono (t ++ u) h1
  rwa [List.take_left'] at this
  rfl

/-- C74: every record that a query reports belongs to a pair that an insert was called for. -/
theorem scan_walk_genuine {t : List (ι ⊕ κ)} (ht : Tracked st calls) {q : κ} {x : ScanCall W}
    {a : x.Ans M} (hr : ScanReturned ((scanStart st F fuel fuel' s calls scans).exec t) q x a)
    {mui : Option Mui} {iw : Bool} (hx : scanAsks x = some (mui, iw)) {p : Prefix W}
    {rs : List (Record M)} (hp : (p, rs) ∈ scanReports x a) {r : Record M} (hm : r ∈ rs) :
    Begun h calls (others t) p r.mui := by
  obtain ⟨log, hE, hX⟩ := walk_of (calls := calls) (scans := scans) (fuel' := fuel') hF hf hs ht [] t
  obtain ⟨h0, h1⟩ := hX q x a (by simp) hr
  obtain ⟨v, rfl, hv⟩ := (Explain.reports h0 hx).1 p rs hp
  obtain ⟨n1, -, at_, h2, hA, -⟩ := h1 mui iw p v hv
  obtain ⟨r0, h3, -⟩ := (hA.2 r).1 hm
  rw [storedRec_under] at h3
  obtain ⟨r1, tbi, h4, h5⟩ := inserted_of_storedRec h3
  rcases insert_mem_histAfter h4 with h6 | ⟨j, hj, h6⟩
  · exact .inl ⟨r1, tbi, h6, h5⟩
  · exact .inr ⟨j, List.mem_of_mem_take (hE.order.mem (h2 r.mui).2 hj), r1, tbi, h6, h5⟩

/-- What a query that begins after an insert for `(p, m)` has returned reads for `p`. -/
private theorem read_upsert {t u : List (ι ⊕ κ)} {i : ι} {p : Prefix W} {r : Record M}
    {tbi : Option (Meta.TBI M)} {a : Except StoreError UpsertReport}
    (hm : NoMarksFor calls p r.mui)
    (hr : Returned ((start st F fuel s calls).exec (others t)) i (.insert p r tbi) a)
    {log : ℕ → List ι} (hE : Explains st h (start st F fuel s calls) (others (t ++ u)) log)
    {mui : Option Mui} (hmui : ∀ m, mui = some m → m = r.mui) {v : Option (List (Record M))} {n1 : ℕ}
    (h1 : (others t).length ≤ n1) {at_ : Mui → ℕ}
    (h2 : ∀ m, n1 ≤ at_ m ∧ at_ m ≤ (others (t ++ u)).length)
    (hA : Answers v fun r => Shown st
      (under (histAfter h calls (log n1)) (histAfter h calls (log (at_ r.mui)))) mui true p r) :
    ∃ j ∈ others (t ++ u), ∃ r' tbi' w, calls j = .insert p r' tbi' ∧ r'.mui = r.mui ∧
      NotBefore (start st F fuel s calls) (others (t ++ u)) j i ∧
      shownAs w (asStored st r') ∈ v.getD [] ∧
      ∀ y ∈ v.getD [], y.mui = r.mui → y = shownAs w (asStored st r') := by
  obtain ⟨⟨hpw, hmem⟩, hne⟩ := hA
  obtain ⟨h2, h3⟩ := h2 r.mui
  have hle : (others t).length ≤ (others (t ++ u)).length := by rw [others_append]; simp
  have hi : i ∈ log (others t).length := by
    refine hE.inserts _ hle i p r tbi a ?_
    rw [others_append, List.take_left']
    · exact hr
    · rfl
  have hlast : i ∈ log (at_ r.mui) := (hE.order.suffix (by omega) h3).subset hi
  obtain ⟨l1, j, l2, r', tbi', hl, hj, hmr, hst, hor⟩ := last_insert st h hr.1 hm _ hlast
  have hmui' : ∀ w, (shownAs w (asStored st r')).mui = r.mui := by
    intro w; unfold shownAs; split
    · exact (asStored_mui st r').trans hmr
    · exact (asStored_mui st r').trans hmr
  have hshow : shownAs (globWd (histAfter h calls (log n1)) r.mui) (asStored st r') ∈ v.getD [] := by
    rw [hmem]
    refine ⟨asStored st r', by rw [hmui', storedRec_under]; exact hst,
      fun m hm => by rw [hmui']; exact (hmui m hm).symm, ?_⟩
    simp only [effective, shownAs, globWd_under, asStored_mui, hmr]
  refine ⟨j, ?_, r', tbi', globWd (histAfter h calls (log n1)) r.mui, hj, hmr, ?_, hshow, fun y hy hym => ?_⟩
  · exact List.mem_of_mem_take (hE.order.mem h3 (i := j) (by rw [hl]; simp))
  · rcases hor with rfl | hor
    · exact not_before_self hr.1 _
    · exact hE.notBefore h3 hl hor (.inl ⟨p, r', tbi', hj⟩)
  · by_contra hne
    haveI : Std.Symm (fun a b : Record M => a.mui ≠ b.mui) := ⟨fun _ _ h => h.symm⟩
    exact hpw.forall hy hshow hne (by rw [hym, hmui'])

/-- C74: a query that begins after an insert for `(p, m)` has returned and asks for withdrawn
routes too, when it reports `p`, gives for `m` the record of this insert, or of another one
for `(p, m)` that had not returned before this one started. -/
theorem scan_walk_upsert {t u : List (ι ⊕ κ)} {i : ι} {q : κ} {p : Prefix W} {r : Record M}
    {tbi : Option (Meta.TBI M)} {a : Except StoreError UpsertReport} (ht : Tracked st calls)
    (hm : NoMarksFor calls p r.mui)
    (hr : Returned ((start st F fuel s calls).exec (others t)) i (.insert p r tbi) a) (hq : .inr q ∉ t)
    {x : ScanCall W} {b : x.Ans M}
    (hb : ScanReturned ((scanStart st F fuel fuel' s calls scans).exec (t ++ u)) q x b)
    {mui : Option Mui} (hx : scanAsks x = some (mui, true)) (hmui : ∀ m, mui = some m → m = r.mui)
    {rs : List (Record M)} (hp : (p, rs) ∈ scanReports x b) :
    ∃ j ∈ others (t ++ u), ∃ r' tbi' w, calls j = .insert p r' tbi' ∧ r'.mui = r.mui ∧
      NotBefore (start st F fuel s calls) (others (t ++ u)) j i ∧
      shownAs w (asStored st r') ∈ rs ∧ ∀ y ∈ rs, y.mui = r.mui → y = shownAs w (asStored st r') := by
  obtain ⟨log, hE, hX⟩ := walk_of (calls := calls) (scans := scans) (fuel' := fuel') hF hf hs ht t u
  obtain ⟨h0, h1⟩ := hX q x b hq hb
  obtain ⟨v, rfl, hv⟩ := (Explain.reports h0 hx).1 p rs hp
  obtain ⟨n1, h1, at_, h2, hA⟩ := h1 mui true p v hv
  exact read_upsert hF hf hs hm hr hE hmui h1 h2 hA

/-- C74: a query that begins after an insert for `(p, m)` has returned, asks for withdrawn
routes too and is due to report `p` does so, with a record for `m` that is inserted by this
insert or by another one for `(p, m)` that had not returned before this one started.
Missing: iterations over more specifics while inserts make tree nodes below the searched
prefix. -/
theorem scan_walk_shows_partial {t u : List (ι ⊕ κ)} {i : ι} {q : κ} {p : Prefix W} {r : Record M}
    {tbi : Option (Meta.TBI M)} {a : Except StoreError UpsertReport} (ht : Tracked st calls)
    (hm : NoMarksFor calls p r.mui)
    (hr : Returned ((start st F fuel s calls).exec (others t)) i (.insert p r tbi) a)
    (h0 : 0 < p.len) (hq : .inr q ∉ t) {x : ScanCall W} {b : x.Ans M}
    (hb : ScanReturned ((scanStart st F fuel fuel' s calls scans).exec (t ++ u)) q x b)
    {mui : Option Mui} (hx : scanAsks x = some (mui, true)) (hmui : ∀ m, mui = some m → m = r.mui)
    (hd : ∀ log, (scanFacts st h (start st F fuel s calls) (t ++ u) log t.length
      (t ++ u).length).Due x p) :
    ∃ rs, (p, rs) ∈ scanReports x b ∧
      ∃ j ∈ others (t ++ u), ∃ r' tbi' w, calls j = .insert p r' tbi' ∧ r'.mui = r.mui ∧
        NotBefore (start st F fuel s calls) (others (t ++ u)) j i ∧ shownAs w (asStored st r') ∈ rs := by
  obtain ⟨log, hE, hX⟩ := walk_of (calls := calls) (scans := scans) (fuel' := fuel') hF hf hs ht t u
  obtain ⟨h3, h1⟩ := hX q x b hq hb
  have hdone : (scanFacts st h (start st F fuel s calls) (t ++ u) log t.length (t ++ u).length).done p := by
    refine ⟨h0, r.mui, .inr ⟨i, r, tbi, a, ?_, rfl⟩⟩
    rw [List.take_left' rfl]
    exact hr
  rcases (Explain.reports h3 hx).2 p hdone (hd log) with ⟨_, _, c, _⟩ | ⟨v, hv, hrep⟩
  · cases c
  obtain ⟨n1, h1, at_, h2, hA⟩ := h1 mui true p v hv
  obtain ⟨j, hj, r', tbi', w, e1, e2, e3, e4, -⟩ := read_upsert hF hf hs hm hr hE hmui h1 h2 hA
  cases v with
  | none => cases e4
  | some rs => exact ⟨rs, hrep rs rfl, j, hj, r', tbi', w, e1, e2, e3, e4⟩

/-- C74: a route that was visible before the calls started and that none of them touches is
reported, as it was, by every query that is due to report it.
Missing: iterations over more specifics while inserts make tree nodes below the searched
prefix. -/
theorem scan_walk_steady_partial {t u : List (ι ⊕ κ)} {q : κ} (ht : Tracked st calls) {p : Prefix W}
    (h0 : 0 < p.len) {r : Record M} {mui : Option Mui} {iw : Bool} (hv : Visible st h mui iw p r)
    (hT : ∀ i ∈ others (t ++ u), ¬ Touches (calls i) p r.mui) (hq : .inr q ∉ t) {x : ScanCall W}
    {b : x.Ans M} (hb : ScanReturned ((scanStart st F fuel fuel' s calls scans).exec (t ++ u)) q x b)
    (hx : scanAsks x = some (mui, iw))
    (hd : ∀ log, (scanFacts st h (start st F fuel s calls) (t ++ u) log t.length
      (t ++ u).length).Due x p) :
    ∃ rs, (p, rs) ∈ scanReports x b ∧ r ∈ rs := by
  obtain ⟨log, hE, hX⟩ := walk_of (calls := calls) (scans := scans) (fuel' := fuel') hF hf hs ht t u
  obtain ⟨h3, h1⟩ := hX q x b hq hb
  have hlog : ∀ n, n ≤ (others (t ++ u)).length → ∀ i ∈ log n, ¬ Touches (calls i) p r.mui := fun n hn i hi =>
    hT i (List.mem_of_mem_take (hE.order.mem hn hi))
  obtain ⟨r0, hr0, hmui, hiw⟩ := hv
  have hins : Inserted h p r.mui := inserted_of_storedRec hr0
  rcases (Explain.reports h3 hx).2 p ⟨h0, r.mui, .inl hins⟩ (hd log) with
    ⟨m', rfl, rfl, j, -, -, e3⟩ | ⟨v, hv, hrep⟩
  · rw [← hmui m' rfl, globWd_untouched h (hlog _ (others_take_le _ _)), hiw.2.2] at e3
    cases e3
  obtain ⟨n1, h1, at_, h2, ⟨-, hmem⟩, -⟩ := h1 mui iw p v hv
  obtain ⟨h2, h4⟩ := h2 r.mui
  have hrec := storedRec_untouched (st := st) h (hlog (at_ r.mui) h4)
  have hg := globWd_untouched h (hlog n1 (h2.trans h4))
  have hr : r ∈ v.getD [] := by
    rw [hmem]
    refine ⟨r0, by rw [storedRec_under, hrec]; exact hr0, hmui, ?_⟩
    cases iw with
    | true =>
      have hm0 : r0.mui = r.mui := storedRec_mui hr0
      simp only [effective, globWd_under, hm0, hg] at hiw ⊢
      exact hiw
    | false => exact ⟨hiw.1, hiw.2.1, .inl (by rw [globWd_under, hg]; exact hiw.2.2)⟩
  cases v with
  | none => cases hr
  | some rs => exact ⟨rs, hrep rs rfl, hr⟩

end

/-- C74: alone, a query that reads the persisted records one after another gives the answer
of the same query with the records of each prefix read at once. -/
theorem scan_walk_alone [Fam W] {st : Strategy} {F : Nat} {h : History M W} {s : Rib M W}
    (hs : exec st F h = .ok () s) {fuel fuel' : Nat} (hf : s.lsm.length < fuel') (x : ScanCall W) :
    (x.prog (M := M) st fuel fuel').run s = (atOnce st fuel x).run s :=
  run_scan (by rw [(exec_ok_inv hs).lsm]; exact sorted_lsmOf st h)
    (by rw [(exec_ok_inv hs).lsm]; exact records_lsmOf st h) hf x

/-! ## Examples -/

section
open Demo

/-- A second insert for the route of 10.0.0.0/8 and an insert of another one. -/
private def wCalls : Bool → Call Md 32 := fun i =>
  if i then .insert ten8 (rec1 1 2 8) none else .insert ten8 (rec1 9 1 9) none

/-- Iterations over less specifics of 10.0.0.0/16 and over what 10.0.0.0/8 covers. -/
private def wScans : Fin 2 → ScanCall 32 := fun q =>
  if q = 0 then .less ten16 none true else .more ten8 none true

private def wStart (s : Rib Md 32) := scanStart .persistOnly 32 (iterFuel 32) 100 s wCalls wScans

/-- The iteration reads the record of the first route, then both inserts run, then it carries
on. -/
private def wTurns : List (Bool ⊕ Fin 2) :=
  List.replicate 5 (.inr 1) ++ List.replicate 24 (.inl true) ++ List.replicate 24 (.inl false) ++
    List.replicate 40 (.inr 1)

private def ids (l : List (Record Md)) : List (Mui × Bytes) := l.map fun r => (r.mui, r.md.bytes)

private def now (o : Outcome (FatalResult (Option (List (Record Md)))) (Rib Md 32)) : List (Mui × Bytes) :=
  match o with
  | .ok (.ok (some l)) _ => ids l
  | _ => []

private theorem tracked (st : Strategy) : Tracked st wCalls := by
  intro _ i p m t
  cases i <;> exact fun h => (by cases h)

private theorem no_marks (p : Prefix 32) (m : Mui) : NoMarksFor wCalls p m := by
  intro i t
  cases i <;> exact ⟨fun h => (by cases h), fun h => (by cases h)⟩

private theorem torn : ∃ s, ∃ l : List (FatalResult (PrefixRecord Md 32)), ∃ rs,
    exec .persistOnly 32 one = .ok () s ∧
    ScanReturned ((wStart s).exec wTurns) 1 (.more ten8 none true) l ∧ (ten8, rs) ∈ oks l ∧
    ids rs = [(1#32, [7#8]), (9#32, [9#8])] ∧
    ∀ j, now ((ribGetValue .persistOnly ten8.id none true).run
      ((wStart s).exec (wTurns.take j)).st) ≠ ids rs := by
  obtain ⟨s, hs, hc⟩ := after_ok (o := exec .persistOnly 32 one) (chk := fun s =>
    ansIs (fun l : List (FatalResult (PrefixRecord Md 32)) =>
      (oks l).any fun x => x.1 == ten8 && ids x.2 == [(1#32, [7#8]), (9#32, [9#8])])
      (((wStart s).exec wTurns).pool (.inr 1)) &&
    decide (∀ j ∈ List.range 94, now ((ribGetValue .persistOnly ten8.id none true).run
      ((wStart s).exec (wTurns.take j)).st) ≠ [(1#32, [7#8]), (9#32, [9#8])]))
    (by decide +kernel)
  rw [Bool.and_eq_true, decide_eq_true_iff] at hc
  obtain ⟨a, ha, h1⟩ := ansIs_iff.1 hc.1
  obtain ⟨⟨q, rs⟩, hq, h2⟩ := List.any_eq_true.1 h1
  rw [Bool.and_eq_true, beq_iff_eq, beq_iff_eq] at h2
  obtain ⟨h2, h3⟩ := h2
  dsimp only at h2 h3
  subst h2
  refine ⟨s, a, rs, hs, ⟨rfl, ha⟩, hq, h3, fun j => ?_⟩
  rw [h3]
  by_cases hj : j < 94
  · exact hc.2 j (List.mem_range.2 hj)
  · have : wTurns.take j = wTurns.take 93 := by
      rw [List.take_of_length_le, List.take_of_length_le]
      · decide
      · have : wTurns.length = 93 := by decide
        omega
    rw [this]
    exact hc.2 93 (List.mem_range.2 (by decide))

/-- C74: the records that an iteration with `PersistOnly` gives for a single prefix need not
be those of any single moment. -/
theorem scan_walk_torn : ∃ (s : Rib Md 32) (t : List (Bool ⊕ Fin 2)),
    ∃ l : List (FatalResult (PrefixRecord Md 32)), ∃ rs, exec .persistOnly 32 one = .ok () s ∧
    ScanReturned ((wStart s).exec t) 1 (.more ten8 none true) l ∧ (ten8, rs) ∈ oks l ∧
    ∀ j s', (ribGetValue .persistOnly ten8.id none true).run
      ((wStart s).exec (t.take j)).st ≠ .ok (.ok (some rs)) s' := by
  obtain ⟨s, l, rs, hs, hl, hr, -, hn⟩ := torn
  refine ⟨s, wTurns, l, rs, hs, hl, hr, fun j s' he => hn j ?_⟩
  rw [he]
  rfl

/-- The items are still explained, and the records belong to inserts. -/
example : ∃ s, ∃ l : List (FatalResult (PrefixRecord Md 32)), ∃ log rs, exec .persistOnly 32 one = .ok () s ∧
    ScanReturned ((wStart s).exec wTurns) 1 (.more ten8 none true) l ∧ (ten8, rs) ∈ oks l ∧
    (scanFacts .persistOnly one (start .persistOnly 32 (iterFuel 32) s wCalls) wTurns log 0 93).Explain
      (.more ten8 none true) l ∧
    ∀ r ∈ rs, Begun one wCalls (others wTurns) ten8 r.mui := by
  obtain ⟨s, l, rs, hs, hl, hr, -, -⟩ := torn
  obtain ⟨log, -, hX⟩ := scan_walks_partial (F := 32) (fuel := iterFuel 32) (fuel' := 100)
    (calls := wCalls) (scans := wScans) (Nat.le_refl _) (Nat.le_refl _) hs (tracked _) wTurns
  refine ⟨s, l, log, rs, hs, hl, hr, hX 93 (by decide) 1 (.more ten8 none true) l
    (by rw [show wTurns.take 93 = wTurns by decide]; exact hl) 0 (by decide) (by simp), fun r hm => ?_⟩
  exact scan_walk_genuine (F := 32) (Nat.le_refl _) (Nat.le_refl _) hs (tracked _) hl (mui := none) rfl hr hm

/-- The second route is inserted, then the iteration runs while the first one is replaced. -/
private def xTurns : List (Bool ⊕ Fin 2) := List.replicate 24 (.inl false)

private def xMore : List (Bool ⊕ Fin 2) :=
  List.replicate 5 (.inr 1) ++ List.replicate 24 (.inl true) ++ List.replicate 40 (.inr 1)

private theorem calm {s : Rib Md 32} (t : List (Bool ⊕ Fin 2)) (k n : ℕ) (log : ℕ → List Bool) :
    (scanFacts .persistOnly one (start .persistOnly 32 (iterFuel 32) s wCalls) t log k n).calm ten8 := by
  intro i _ q r tbi hc _ _
  cases i <;> cases hc <;>
    exact ⟨ten8, 1#32, .inl ⟨rec1 1 1 7, none, by simp [one], rfl⟩, by decide, fun _ _ => rfl⟩

/-- The route whose insert returned before the iteration began is among its items. -/
example : ∃ s, ∃ l : List (FatalResult (PrefixRecord Md 32)), exec .persistOnly 32 one = .ok () s ∧
    ScanReturned ((wStart s).exec (xTurns ++ xMore)) 1 (.more ten8 none true) l ∧
    ∃ rs w, (ten8, rs) ∈ oks l ∧ shownAs w (rec1 9 1 9) ∈ rs ∧
      ∀ y ∈ rs, y.mui = 9#32 → ∃ w, y = shownAs w (rec1 9 1 9) := by
  obtain ⟨s, hs, hc⟩ := after_ok (o := exec .persistOnly 32 one) (chk := fun s =>
    ansIs (fun _ => true) (((start .persistOnly 32 (iterFuel 32) s wCalls).exec (others xTurns)).pool false) &&
    ansIs (fun _ => true) (((wStart s).exec (xTurns ++ xMore)).pool (.inr 1)))
    (by decide +kernel)
  rw [Bool.and_eq_true] at hc
  obtain ⟨a, ha, -⟩ := ansIs_iff.1 hc.1
  obtain ⟨l, hl, -⟩ := ansIs_iff.1 hc.2
  have hl : ScanReturned ((wStart s).exec (xTurns ++ xMore)) 1 (.more ten8 none true) l := ⟨rfl, hl⟩
  have ha : Returned ((start .persistOnly 32 (iterFuel 32) s wCalls).exec (others xTurns)) false
      (.insert ten8 (rec1 9 1 9) none) a := ⟨rfl, ha⟩
  have hq : (.inr 1 : Bool ⊕ Fin 2) ∉ xTurns := by simp [xTurns]
  have hid : ∀ j r' tbi', wCalls j = .insert ten8 r' tbi' → r'.mui = 9#32 → r' = rec1 9 1 9 := by
    intro j r' tbi' hj hm
    cases j <;> cases hj
    · rfl
    · exact absurd hm (by decide)
  obtain ⟨rs, h1, j, -, r', tbi', w, h2, h3, -, h4⟩ := scan_walk_shows_partial (F := 32) (Nat.le_refl _)
    (Nat.le_refl _) hs (tracked _) (no_marks _ _) ha (by decide) hq hl (mui := none) rfl
    (fun m c => by cases c) (fun log => ⟨⟨Nat.le_refl _, fun _ _ => rfl⟩, by decide, calm _ _ _ _⟩)
  obtain ⟨j2, -, r2, tbi2, w2, h5, h6, -, -, h7⟩ := scan_walk_upsert (F := 32) (Nat.le_refl _)
    (Nat.le_refl _) hs (tracked _) (no_marks _ _) ha hq hl (mui := none) rfl (fun m c => by cases c) h1
  refine ⟨s, l, hs, hl, rs, w, h1, hid j r' tbi' h2 h3 ▸ h4, fun y hy hm => ⟨w2, ?_⟩⟩
  rw [h7 y hy hm, hid j2 r2 tbi2 h5 h6]
  rfl

/-- The first route is not touched by the insert of the second one and reported. -/
example : ∃ s, ∃ l : List (FatalResult (PrefixRecord Md 32)), exec .persistOnly 32 one = .ok () s ∧
    ScanReturned ((wStart s).exec ([] ++ (List.replicate 4 (.inr 1) ++ List.replicate 24 (.inl false) ++
      List.replicate 40 (.inr 1)))) 1 (.more ten8 none true) l ∧
    ∃ rs, (ten8, rs) ∈ oks l ∧ rec1 1 1 7 ∈ rs := by
  obtain ⟨s, hs, hc⟩ := after_ok (o := exec .persistOnly 32 one) (chk := fun s =>
    ansIs (fun _ => true) (((wStart s).exec ([] ++ (List.replicate 4 (.inr 1) ++
      List.replicate 24 (.inl false) ++ List.replicate 40 (.inr 1)))).pool (.inr 1)))
    (by decide +kernel)
  obtain ⟨l, hl, -⟩ := ansIs_iff.1 hc
  have hl : ScanReturned ((wStart s).exec ([] ++ (List.replicate 4 (.inr 1) ++ List.replicate 24 (.inl false) ++
      List.replicate 40 (.inr 1)))) 1 (.more ten8 none true) l := ⟨rfl, hl⟩
  refine ⟨s, l, hs, hl, scan_walk_steady_partial (F := 32) (Nat.le_refl _) (Nat.le_refl _) hs (tracked _)
    (p := ten8) (by decide) (r := rec1 1 1 7) (mui := none) (iw := true)
    ⟨rec1 1 1 7, rfl, fun m c => (by cases c), rfl⟩ (fun i hi => ?_) (by simp) hl rfl
    (fun log => ⟨⟨Nat.le_refl _, fun _ _ => rfl⟩, by decide, calm _ _ _ _⟩)⟩
  have : i = false := by
    revert hi
    cases i
    · exact fun _ => rfl
    · intro c; exact absurd c (by decide)
  subst this
  rintro (⟨r, tbi, h1, h2⟩ | ⟨tm, rs, ⟨h1, -⟩ | ⟨h1, -⟩⟩ | h1 | h1)
  · cases h1
    exact absurd h2 (by decide)
  all_goals cases h1

/-- Alone, on two prefixes. -/
example : ∃ s, exec .persistOnly 32 pair = .ok () s ∧
    (∃ l : List (FatalResult (PrefixRecord Md 32)),
      (atOnce .persistOnly (iterFuel 32) (.more ten8 none true)).run s = .ok l s ∧ 2 ≤ (oks l).length) ∧
    ((ScanCall.more ten8 none true).prog (M := Md) .persistOnly (iterFuel 32) 100).run s =
      (atOnce .persistOnly (iterFuel 32) (.more ten8 none true)).run s := by
  obtain ⟨s, hs, hc⟩ := after_ok (o := exec .persistOnly 32 pair) (chk := fun s =>
    decide (s.lsm.length < 100) &&
    match (ribMoreSpecificsIter (M := Md) .persistOnly (iterFuel 32) ten8.id none true).run s with
    | .ok l _ => decide (2 ≤ (oks l).length)
    | _ => false) (by decide +kernel)
  rw [Bool.and_eq_true, decide_eq_true_iff] at hc
  refine ⟨s, hs, ?_, scan_walk_alone hs hc.1 _⟩
  have h2 := hc.2
  split at h2
  · rename_i l s' hr
    obtain rfl := (readOnly_ribMoreSpecificsIter _ _ _ _ _).run_eq hr
    exact ⟨l, hr, of_decide_eq_true h2⟩
  · cases h2

end

end Rotonda.Props
