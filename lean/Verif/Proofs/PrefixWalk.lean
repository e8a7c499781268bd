import Verif.Model.Rib
import Verif.Proofs.Chain
import Verif.Proofs.TreeSeq
import Mathlib.Logic.Function.Basic

/-!
# Walks of the prefix table
-/

namespace Rotonda

open Prog

variable {M : Type} {W : Nat}

/-- Layout of the prefix table: one root bucket per length. -/
def pfxLayout (W : Nat) : Layout W where
  rootIx := fun l => l
  ok := fun p => p.Clean
  clean := fun _ h => h
  sameLen := fun _ _ _ _ h => h

theorem prefixRoot_eq {p : PrefixId W} (hp : p.Clean) :
    prefixRoot W p.len = some (bucketAt (pfxLayout W) p 0 16) := by
  have := hp.1
  simp only [prefixRoot, prefixRoots, Nat.div_one, bucketAt, pfxLayout, slotsForP2, hPath]
  rw [if_pos (by omega)]
  rfl

/-- A fresh entry. -/
abbrev newSP (M : Type) {W : Nat} (p : PrefixId W) (n : Nat) : StoredPrefix M W :=
  StoredPrefix.new p (lvlBits p.len (n + 1))

variable {R G : PSlots M W → PSlots M W → Prop} {D : Prop}

theorem wp_retrievePrefixMutLoop [Fam W] (hR : RelyOK (pfxLayout W) R) (hGr : ∀ s, G s s)
    {p : PrefixId W}
    (hGi : ∀ s n, s (slotAt (pfxLayout W) p n) = none →
      ChainInv (pfxLayout W) (s.set (slotAt (pfxLayout W) p n) (newSP M p n)) →
      G s (s.set (slotAt (pfxLayout W) p n) (newSP M p n)))
    {J : PSlots M W → Prop} (hJ : ∀ s s', R s s' → J s → J s') :
    ∀ (fuel n : Nat) (size : Nat) (s : PSlots M W), 64 ≤ fuel + n →
      WalkAt (pfxLayout W) s p n size → J s →
      wp R G D (retrievePrefixMutLoop p fuel n (bucketAt (pfxLayout W) p n size))
        (fun r s' => ChainInv (pfxLayout W) s' ∧
          (∃ e, s' r.1.addr = some e ∧ e.id = p ∧ r.1 = refOf r.1.addr e) ∧
          (r.2 = false → ¬ Has s p) ∧
          (J s' ∨ (r.2 = false ∧ ∃ s1 k, J s1 ∧ s1 r.1.addr = none ∧
            s' = s1.set r.1.addr (newSP M p k)))) s := by
  intro fuel
  induction fuel with
  | zero => intro n size s hf hw; have := hw.bound; omega
  | succ fuel ih =>
    intro n size s hf hw hj
    unfold retrievePrefixMutLoop
    rw [wp_bind]
    apply wp_ofOption hw.hash
    rw [wp_bind]
    refine wp_sliceGet hR hw hGr ?_ ?_
    · intro s1 hr1 hw1 hnone
      have habs : ¬ Has s p := fun h =>
        absent_of_empty hw1.inv hw1.above hnone (h.ext (hR _ _ hr1).1)
      have hj1 := hJ _ _ hr1 hj
      simp only
      rw [wp_bind]
      apply wp_ofOption hw1.nsz
      rw [wp_bind]
      refine wp_sliceGetOrInit (e := newSP M p n) hR hw1 hGr ?_ ?_
      · intro s2 s3 hr2 hr3 hw3 hfree
        have hinv := chainInv_init (e := newSP M p n) hw3.inv hw3.ok hw3.valid hw3.above hfree rfl
        refine ⟨hGi _ _ hfree hinv, ?_⟩
        simp only [pure_bind']
        rw [if_pos (show p = (refOf (slotAt (pfxLayout W) (Entry.id (newSP M p n)) n) (newSP M p n)).id
          from rfl)]
        exact ⟨hinv, ⟨_, Slots.set_same _ _ _, rfl, rfl⟩, fun _ => habs,
          .inr ⟨rfl, s3, n, hJ _ _ hr3 (hJ _ _ hr2 hj1), hfree, rfl⟩⟩
      · intro s2 s3 e' hr3 hr2 hw3 he'
        have hj3 : J s3 := by
          rcases hr3 with rfl | hr3
          · exact hJ _ _ hr2 hj1
          · exact hJ _ _ hr3 (hJ _ _ hr2 hj1)
        simp only [pure_bind']
        split
        · rename_i hid
          exact ⟨hw3.inv, ⟨e', he', hid.symm, rfl⟩, fun _ => habs, .inl hj3⟩
        · rename_i hid
          obtain ⟨hpos, hdown⟩ := hw3.down he' (fun h => hid h.symm)
          change wp R G D (retrievePrefixMutLoop p fuel (n + 1)
            ((bucketAt (pfxLayout W) p n size).child (hIdx p n) _)) _ _
          rw [bucketAt_child]
          refine wp_conseq _ (ih (n + 1) _ s3 (by omega) hdown hj3) ?_
          rintro r s' ⟨h1, h2, h3, h4⟩
          exact ⟨h1, h2, fun _ => habs, h4⟩
    · intro s1 e hr1 hw1 he
      simp only [pure_bind']
      have hj1 := hJ _ _ hr1 hj
      split
      · rename_i hid
        exact ⟨hw1.inv, ⟨e, he, hid.symm, rfl⟩, fun h => (by cases h), .inl hj1⟩
      · rename_i hid
        obtain ⟨hpos, hdown⟩ := hw1.down he (fun h => hid h.symm)
        rw [bucketAt_child]
        refine wp_conseq _ (ih (n + 1) _ s1 (by omega) hdown hj1) ?_
        rintro r s' ⟨h1, h2, h3, h4⟩
        exact ⟨h1, h2, fun h hh => h3 h (hh.ext (hR _ _ hr1).1), h4⟩

theorem wp_retrievePrefixMut [Fam W] (hR : RelyOK (pfxLayout W) R) (hGr : ∀ s, G s s)
    {p : PrefixId W} (hp : p.Clean)
    (hGi : ∀ s n, s (slotAt (pfxLayout W) p n) = none →
      ChainInv (pfxLayout W) (s.set (slotAt (pfxLayout W) p n) (newSP M p n)) →
      G s (s.set (slotAt (pfxLayout W) p n) (newSP M p n)))
    {J : PSlots M W → Prop} (hJ : ∀ s s', R s s' → J s → J s') {s : PSlots M W}
    (hi : ChainInv (pfxLayout W) s) (hj : J s) :
    wp R G D (retrievePrefixMut p)
        (fun r s' => ChainInv (pfxLayout W) s' ∧
          (∃ e, s' r.1.addr = some e ∧ e.id = p ∧ r.1 = refOf r.1.addr e) ∧
          (r.2 = false → ¬ Has s p) ∧
          (J s' ∨ (r.2 = false ∧ ∃ s1 k, J s1 ∧ s1 r.1.addr = none ∧
            s' = s1.set r.1.addr (newSP M p k)))) s := by
  unfold retrievePrefixMut
  rw [wp_bind]
  apply wp_ofOption (prefixRoot_eq hp)
  exact wp_retrievePrefixMutLoop hR hGr hGi hJ _ _ _ _ (by simp [maxLevels])
    (WalkAt.start hi hp) hj

theorem wp_findPrefixLoop [Fam W] (hR : RelyOK (pfxLayout W) R) (hGr : ∀ s, G s s)
    {p : PrefixId W} {lim : Nat} (hlim : 32 ≤ lim) :
    ∀ (fuel n : Nat) (size : Nat) (s : PSlots M W), 64 ≤ fuel + n →
      WalkAt (pfxLayout W) s p n size →
      wp R G D (findPrefixLoop p lim fuel n (bucketAt (pfxLayout W) p n size))
        (fun r s' => ChainInv (pfxLayout W) s' ∧
          match r with
          | none => ¬ Has s' p
          | some ref => ∃ e, s' ref.addr = some e ∧ e.id = p) s := by
  intro fuel
  induction fuel with
  | zero => intro n size s hf hw; have := hw.bound; omega
  | succ fuel ih =>
    intro n size s hf hw
    unfold findPrefixLoop
    rw [wp_bind]
    apply wp_ofOption hw.hash
    rw [wp_bind]
    refine wp_sliceGet hR hw hGr ?_ ?_
    · intro s1 hr1 hw1 hnone
      have := hw1.bound
      simp only
      rw [if_pos (by omega)]
      exact ⟨hw1.inv, absent_of_empty hw1.inv hw1.above hnone⟩
    · intro s1 e hr1 hw1 he
      have := hw1.bound
      simp only
      split
      · rename_i hid
        rw [if_pos (by omega)]
        exact ⟨hw1.inv, e, he, hid.symm⟩
      · rename_i hid
        obtain ⟨hpos, hdown⟩ := hw1.down he (fun h => hid h.symm)
        rw [bucketAt_child]
        exact ih (n + 1) _ s1 (by omega) hdown

theorem wp_retrievePrefix [Fam W] (hR : RelyOK (pfxLayout W) R) (hGr : ∀ s, G s s)
    {p : PrefixId W} (hp : p.Clean) {s : PSlots M W} (hi : ChainInv (pfxLayout W) s) :
    wp R G D (retrievePrefix p)
        (fun r s' => ChainInv (pfxLayout W) s' ∧
          match r with
          | none => ¬ Has s' p
          | some ref => ∃ e, s' ref.addr = some e ∧ e.id = p) s := by
  unfold retrievePrefix
  rw [wp_bind]
  apply wp_ofOption (prefixRoot_eq hp)
  exact wp_findPrefixLoop hR hGr (by omega) _ _ _ _ (by simp [maxLevels]) (WalkAt.start hi hp)

/-! ## Sequential runs -/

theorem relyOK_eq (C : Layout W) : RelyOK C (Eq : PSlots M W → PSlots M W → Prop) := by
  rintro s _ rfl
  exact ⟨ExtId.rfl' s, fun h => h⟩

theorem run_retrievePrefix [Fam W] {p : PrefixId W} (hp : p.Clean) {s : PSlots M W}
    (hi : ChainInv (pfxLayout W) s) :
    ((retrievePrefix p).run s = .ok none s ∧ ¬ Has s p) ∨
    ∃ ref e, (retrievePrefix p).run s = .ok (some ref) s ∧ s ref.addr = some e ∧ e.id = p := by
  obtain ⟨r, hr, hi', h⟩ := run_of_wp_ro _
    (wp_retrievePrefix (R := Eq) (G := fun a b => b = a) (D := False) (relyOK_eq _)
      (fun _ => rfl) hp hi)
  cases r with
  | none => exact .inl ⟨hr, h⟩
  | some ref =>
    obtain ⟨e, he, hid⟩ := h
    exact .inr ⟨ref, e, hr, he, hid⟩

theorem run_readAt' {ρ : Type} {s : PSlots M W} {a : Addr} {e : StoredPrefix M W} (h : s a = some e)
    (f : StoredPrefix M W → ρ) : (readAt a f).run s = .ok (f e) s := by
  simp [readAt, Prog.read, Prog.run, h, ofOption]

theorem run_accessAt {ρ : Type} {s : PSlots M W} {a : Addr} {e : StoredPrefix M W} (h : s a = some e)
    (f : StoredPrefix M W → ρ × StoredPrefix M W) :
    (accessAt a f).run s = .ok (f e).1 (s.set a (f e).2) := by
  simp [accessAt, atomic, Prog.run, h, ofOption]

theorem run_getRecordsForPrefix [Fam W] {p : PrefixId W} (hp : p.Clean) {s : PSlots M W}
    (hi : ChainInv (pfxLayout W) s) (mui : Option Mui) (iw : Bool) (bmin : Mui → Bool) :
    ((getRecordsForPrefix p mui iw bmin).run s = .ok none s ∧ ¬ Has s p) ∨
    ∃ a e, (getRecordsForPrefix p mui iw bmin).run s =
        .ok (getFilteredRecords e.recs mui iw bmin) s ∧ s a = some e ∧ e.id = p := by
  have hw := wp_findPrefixLoop (R := Eq) (G := fun a b => b = a) (D := False) (relyOK_eq (M := M) _)
    (fun _ => rfl) (p := p) (lim := maxLevels) (by simp [maxLevels]) maxLevels 0 16 s
    (by simp [maxLevels]) (WalkAt.start hi hp)
  obtain ⟨r, hr, hi', h⟩ := run_of_wp_ro _ hw
  unfold getRecordsForPrefix
  rw [prefixRoot_eq hp]
  simp only [ofOption, ret_bind, run_bind, hr, Outcome.andThen]
  cases r with
  | none => exact .inl ⟨rfl, h⟩
  | some ref =>
    obtain ⟨e, he, hid⟩ := h
    exact .inr ⟨ref.addr, e, run_readAt' he _, he, hid⟩

theorem run_retrievePrefixMut [Fam W] {p : PrefixId W} (hp : p.Clean) {s : PSlots M W}
    (hi : ChainInv (pfxLayout W) s) :
    (∃ ref e, (retrievePrefixMut p).run s = .ok (ref, true) s ∧ s ref.addr = some e ∧ e.id = p ∧
      ref.id = p) ∨
    (¬ Has s p ∧ ∃ ref k, (retrievePrefixMut p).run s =
        .ok (ref, false) (s.set ref.addr (newSP M p k)) ∧ s ref.addr = none ∧ ref.id = p ∧
        ChainInv (pfxLayout W) (s.set ref.addr (newSP M p k))) := by
  have hw := wp_retrievePrefixMut (M := M) (R := Eq) (G := fun _ _ => True) (D := False)
    (relyOK_eq _) (fun _ => trivial) hp (fun _ _ _ _ => trivial)
    (J := fun s1 => s1 = s) (fun s s' h hj => h ▸ hj) hi rfl
  obtain ⟨⟨ref, found⟩, s', hr, ⟨hi', ⟨e, he, hid, href⟩, hf, hj⟩, _⟩ := run_of_wp _ hw
  have hrid : ref.id = p := by
    have : ref = refOf ref.addr e := href
    rw [this]; exact hid
  cases found with
  | true =>
    rcases hj with rfl | ⟨h, _⟩
    · exact .inl ⟨ref, e, hr, he, hid, hrid⟩
    · cases h
  | false =>
    have hn := hf rfl
    rcases hj with rfl | ⟨_, s1, k, rfl, hfree, rfl⟩
    · exact absurd ⟨_, e, he, hid⟩ hn
    · exact .inr ⟨hn, ref, k, hr, hfree, hrid, hi'⟩

/-! ## The abstract table -/

/-- Content of the prefix table: records and path selection per prefix. -/
abbrev Tab (M : Type) (W : Nat) := PrefixId W → Option (Recs M × PsCell)

/-- The table memory holds exactly `f`. -/
structure PRep (f : Tab M W) (s : PSlots M W) : Prop where
  inv : ChainInv (pfxLayout W) s
  iff : ∀ p x, f p = some x ↔ ∃ a e, s a = some e ∧ e.id = p ∧ (e.recs, e.ps) = x

theorem PRep.at {f : Tab M W} {s : PSlots M W} (h : PRep f s) {a : Addr} {e : StoredPrefix M W}
    (he : s a = some e) : f e.id = some (e.recs, e.ps) :=
  (h.iff _ _).2 ⟨a, e, he, rfl, rfl⟩

theorem PRep.none_iff {f : Tab M W} {s : PSlots M W} (h : PRep f s) (p : PrefixId W) :
    f p = none ↔ ¬ Has s p := by
  constructor
  · rintro hn ⟨a, e, he, hid⟩
    have := h.at he
    rw [show e.id = p from hid, hn] at this
    cases this
  · intro hn
    cases hf : f p with
    | none => rfl
    | some x =>
      obtain ⟨a, e, he, hid, _⟩ := (h.iff _ _).1 hf
      exact absurd ⟨a, e, he, hid⟩ hn

theorem PRep.clean {f : Tab M W} {s : PSlots M W} (h : PRep f s) {p : PrefixId W} {x}
    (hf : f p = some x) : p.Clean := by
  obtain ⟨a, e, he, hid, _⟩ := (h.iff _ _).1 hf
  have := (h.inv _ _ he).1
  rw [← hid]; exact this

theorem PRep.update {f : Tab M W} {s : PSlots M W} (h : PRep f s) {a : Addr}
    {e e' : StoredPrefix M W} (he : s a = some e) (hid : e'.id = e.id) (hnx : e'.next = e.next) :
    PRep (Function.update f e.id (some (e'.recs, e'.ps))) (s.set a e') := by
  refine ⟨chainInv_update h.inv he hid hnx, fun p x => ?_⟩
  by_cases hp : p = e.id
  · subst hp
    rw [Function.update_self]
    constructor
    · intro hx; cases hx
      exact ⟨a, e', Slots.set_same _ _ _, hid, rfl⟩
    · rintro ⟨b, e2, hb, hid2, rfl⟩
      by_cases hba : b = a
      · subst hba; rw [Slots.set_same] at hb; cases hb; rfl
      · rw [Slots.set_other _ _ hba] at hb
        exact absurd (h.inv.unique hb he hid2) hba
  · rw [Function.update_of_ne hp, h.iff]
    constructor
    · rintro ⟨b, e2, hb, hid2, hx⟩
      refine ⟨b, e2, ?_, hid2, hx⟩
      rw [Slots.set_other]
      · exact hb
      · rintro rfl; rw [he] at hb; cases hb; exact hp hid2.symm
    · rintro ⟨b, e2, hb, hid2, hx⟩
      refine ⟨b, e2, ?_, hid2, hx⟩
      by_cases hba : b = a
      · subst hba; rw [Slots.set_same] at hb; cases hb; exact absurd (hid2.symm.trans hid) hp
      · rwa [Slots.set_other _ _ hba] at hb

theorem PRep.create {f : Tab M W} {s : PSlots M W} (h : PRep f s) {a : Addr}
    {e : StoredPrefix M W} (hf : f e.id = none) (ha : s a = none)
    (hi : ChainInv (pfxLayout W) (s.set a e)) :
    PRep (Function.update f e.id (some (e.recs, e.ps))) (s.set a e) := by
  refine ⟨hi, fun p x => ?_⟩
  by_cases hp : p = e.id
  · subst hp
    rw [Function.update_self]
    constructor
    · intro hx; cases hx
      exact ⟨a, e, Slots.set_same _ _ _, rfl, rfl⟩
    · rintro ⟨b, e2, hb, hid2, rfl⟩
      by_cases hba : b = a
      · subst hba; rw [Slots.set_same] at hb; cases hb; rfl
      · rw [Slots.set_other _ _ hba] at hb
        have := h.at hb
        rw [hid2, hf] at this
        cases this
  · rw [Function.update_of_ne hp, h.iff]
    constructor
    · rintro ⟨b, e2, hb, hid2, hx⟩
      refine ⟨b, e2, ?_, hid2, hx⟩
      rw [Slots.set_other]
      · exact hb
      · rintro rfl; rw [ha] at hb; cases hb
    · rintro ⟨b, e2, hb, hid2, hx⟩
      refine ⟨b, e2, ?_, hid2, hx⟩
      by_cases hba : b = a
      · subst hba; rw [Slots.set_same] at hb; cases hb; exact absurd hid2.symm hp
      · rwa [Slots.set_other _ _ hba] at hb

theorem prep_empty : PRep (fun _ => none) (fun _ => none : PSlots M W) :=
  by
  refine ⟨chainInv_empty _, fun p x => ⟨fun h => (by cases h), ?_⟩⟩
  rintro ⟨_, _, h, _⟩
  cases h

end Rotonda
