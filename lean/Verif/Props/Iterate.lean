import Verif.Props.Lookup

/-!
# Iteration: C07, C43
-/

namespace Rotonda.Props

open Prog Spec

variable {M : Type} [Meta M] {W : Nat}

/-! ## C07 -/

/-- C07 except that the default route is never yielded (`default_route_invisible`):
`prefixes_iter` ends, and yields every other inserted prefix once, with all its
records, their status as it is effective. -/
theorem prefixes_iter_partial [Fam W] {st : Strategy} {F : Nat} {h : History M W} {s : Rib M W}
    (hs : exec st F h = .ok () s) :
    ∃ (N : Nat) (l : List (PrefixRecord M W)),
      (∀ fuel, N ≤ fuel → (ribPrefixesIter st fuel).run s = .ok (l.map .ok) s) ∧
      (l.map Prod.fst).Nodup ∧
      (∀ q, q ∈ l.map Prod.fst ↔ Present h q ∧ 0 < q.len) ∧
      ∀ q rs, (q, rs) ∈ l → Lists rs fun r => ∃ r0, storedRec st h q r.mui = some r0 ∧
        r = effective h r0 := by
  obtain ⟨l, N, hrun, hnd, hm⟩ := run_prefixesIter (exec_ok_inv hs).toQ
  have hmap : (l.map fun q => (q, (valueOf st h q none true).getD [])).map Prod.fst = l := by
    rw [List.map_map]; exact List.map_id _
  refine ⟨N, l.map fun q => (q, (valueOf st h q none true).getD []), fun fuel hf => ?_, ?_, ?_, ?_⟩
  · rw [hrun fuel hf, List.map_map]; rfl
  · rw [hmap]; exact hnd
  · intro q; rw [hmap]; exact hm q
  · intro q rs hx
    obtain ⟨q', hq', he⟩ := List.mem_map.1 hx
    cases he
    obtain ⟨h1, h2⟩ := (valueOf_answers st h q none true).1
    refine ⟨h1, fun r => ?_⟩
    rw [h2]
    unfold Shown
    constructor
    · rintro ⟨r0, ha, _, hb⟩; exact ⟨r0, ha, hb⟩
    · rintro ⟨r0, ha, hb⟩; exact ⟨r0, ha, fun m hx => (by cases hx), hb⟩

example : ∃ s, exec .persistOnly 0 Demo.hist = .ok () s ∧
    ∃ (N : Nat) (l : List (PrefixRecord Demo.Md 32)),
    (∀ fuel, N ≤ fuel → (ribPrefixesIter .persistOnly fuel).run s = .ok (l.map .ok) s) ∧
    Demo.host ∈ l.map Prod.fst ∧ Demo.ten8 ∈ l.map Prod.fst ∧ Demo.ten23 ∉ l.map Prod.fst := by
  obtain ⟨s, hs, _⟩ := exec_inv .persistOnly 0 Demo.hist
  obtain ⟨N, l, hrun, _, hm, _⟩ := prefixes_iter_partial hs
  exact ⟨s, hs, N, l, hrun, (hm _).2 (by decide), (hm _).2 (by decide),
    fun hx => absurd ((hm _).1 hx).1 (by decide)⟩

/-! ## C43 -/

/-- C43 except for the default route: `iter_records_for_mui_v4/v6`. -/
theorem records_for_mui_partial [hW : Fam W] {st : Strategy} {F : Nat} {h : History M W}
    {s : Rib M W} (hs : exec st F h = .ok () s) (m : Mui) (iw : Bool) :
    ∃ (N : Nat) (l : List (PrefixRecord M W)),
      (∀ fuel, N ≤ fuel → (ribIterRecordsForMui st fuel m iw).run s = .ok (l.map .ok) s) ∧
      (globWd h m = true ∧ iw = false → l = []) ∧
      Listing (fun q => Present h q ∧ 0 < q.len) (Visible st h (some m) iw) l ∧
      ∀ q rs, (q, rs) ∈ l → ∃ r, rs = [r] ∧ r.mui = m := by
  have hi := exec_ok_inv hs
  have hone : ∀ l : List (PrefixRecord M W), Listing (fun q => Present h q ∧ 0 < q.len)
      (Visible st h (some m) iw) l → ∀ q rs, (q, rs) ∈ l → ∃ r, rs = [r] ∧ r.mui = m := by
    intro l hl q rs hq
    obtain ⟨h1, h2⟩ := hl.recs q rs hq
    obtain ⟨_, r0, hr0⟩ := (hl.mem q).1 ⟨rs, hq⟩
    have hmui : ∀ r ∈ rs, r.mui = m := by
      intro r hr
      obtain ⟨x, _, h4, _⟩ := (h2 r).1 hr
      exact h4 m rfl
    cases rs with
    | nil => exact absurd ((h2 r0).2 hr0) (by simp)
    | cons a rs =>
      cases rs with
      | nil => exact ⟨a, rfl, hmui a (by simp)⟩
      | cons b rs =>
        have := (List.pairwise_cons.1 h1).1 b (by simp)
        exact absurd ((hmui a (by simp)).trans (hmui b (by simp)).symm) this
  have hz : (⟨0#W, 0⟩ : PrefixId W) = (Prefix.root W).id := rfl
  by_cases hw : globWd h m = true ∧ iw = false
  · refine ⟨0, [], fun fuel _ => ?_, fun _ => rfl, ⟨by simp, fun q => ?_, by simp⟩, by simp⟩
    · unfold ribIterRecordsForMui
      rw [run_bind, run_muiIsWithdrawn hi.toQ]
      simp only [Outcome.andThen, hw, and_self, if_true]
      rfl
    · constructor
      · rintro ⟨rs, hx⟩; cases hx
      · rintro ⟨_, r, r0, _, hm, hv⟩
        rw [hw.2] at hv
        have h5 := hv.2.2
        rw [hm m rfl, hw.1] at h5; cases h5
  · obtain ⟨N, l, hrun, hl⟩ := more_specifics_iter_partial hs (Prefix.root W) (some m) iw (by
      intro m' hm hiw
      cases hm
      cases hx : globWd h m with
      | false => rfl
      | true => exact absurd ⟨hx, hiw⟩ hw)
    have hl' : Listing (fun q => Present h q ∧ 0 < q.len) (Visible st h (some m) iw) l := by
      have : (Prefix.root W).len < W := by
        have := hW.width; simp only [Prefix.root]; omega
      simpa only [this, true_and, covers_root, and_true] using hl
    refine ⟨N, l, fun fuel hf => ?_, fun hx => absurd hx hw, hl', hone l hl'⟩
    unfold ribIterRecordsForMui
    rw [run_bind, run_muiIsWithdrawn hi.toQ]
    simp only [Outcome.andThen, hw, if_false]
    rw [hz]
    exact hrun fuel hf

example : ∃ s, exec .memoryOnly 0 Demo.hist = .ok () s ∧
    ∃ (N : Nat) (l : List (PrefixRecord Demo.Md 32)),
    (∀ fuel, N ≤ fuel → (ribIterRecordsForMui .memoryOnly fuel 3#32 false).run s =
      .ok (l.map .ok) s) ∧ ∃ rs, (Demo.ten8, rs) ∈ l := by
  obtain ⟨s, hs, _⟩ := exec_inv .memoryOnly 0 Demo.hist
  obtain ⟨N, l, hrun, _, hl, _⟩ := records_for_mui_partial hs 3#32 false
  exact ⟨s, hs, N, l, hrun, (hl.mem _).2 ⟨by decide, Demo.rec1 3 2 8, Demo.rec1 3 2 8, by decide,
    fun m hm => (by cases hm; decide), rfl, rfl, by decide⟩⟩

end Rotonda.Props
