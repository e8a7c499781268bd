import Verif.Model.Slots
import Verif.Proofs.Bits
import Verif.Proofs.Wp

/-!
# Invariant of a chained hash table

Every entry sits on the hash path of its own id, below entries with other ids.
-/

namespace Rotonda

/-- How a table is laid out: the root bucket per length and the ids it holds. -/
structure Layout (W : Nat) where
  rootIx : Nat → Nat
  ok : PrefixId W → Prop
  clean : ∀ p, ok p → p.Clean
  sameLen : ∀ p q, ok p → ok q → rootIx p.len = rootIx q.len → p.len = q.len

variable {W : Nat} {E : Type} [Entry E W]

/-- Hash path of the first `n` levels. -/
def hPath (id : PrefixId W) (n : Nat) : List Nat := (List.range n).map (hIdx id)

/-- The slot for an id at level `n`. -/
def slotAt (C : Layout W) (id : PrefixId W) (n : Nat) : Addr := ⟨C.rootIx id.len, hPath id (n + 1)⟩

/-- The bucket for an id at level `n`. -/
def bucketAt (C : Layout W) (id : PrefixId W) (n size : Nat) : Bucket :=
  ⟨C.rootIx id.len, hPath id n, size⟩

theorem hPath_succ (id : PrefixId W) (n : Nat) : hPath id (n + 1) = hPath id n ++ [hIdx id n] := by
  simp [hPath, List.range_succ]

@[simp] theorem bucketAt_slot (C : Layout W) (id : PrefixId W) (n size : Nat) :
    (bucketAt C id n size).slot (hIdx id n) = slotAt C id n := by
  simp [bucketAt, Bucket.slot, slotAt, hPath_succ]

@[simp] theorem bucketAt_child (C : Layout W) (id : PrefixId W) (n size size' : Nat) :
    (bucketAt C id n size).child (hIdx id n) size' = bucketAt C id (n + 1) size' := by
  simp [bucketAt, Bucket.child, hPath_succ]

/-- The path above level `n` is taken by other ids. -/
def Above (C : Layout W) (s : Slots E) (id : PrefixId W) (n : Nat) : Prop :=
  ∀ k < n, ∃ e, s (slotAt C id k) = some e ∧ Entry.id e ≠ id

/-- The table invariant. -/
def ChainInv (C : Layout W) (s : Slots E) : Prop :=
  ∀ a e, s a = some e → C.ok (Entry.id e) ∧ ∃ n, ValidLevel (Entry.id e : PrefixId W).len n ∧
    a = slotAt C (Entry.id e) n ∧
    Entry.next e = slotsForP2 (lvlBits (Entry.id e : PrefixId W).len (n + 1)) ∧
    Above C s (Entry.id e) n

/-- Some entry for the id exists. -/
def Has (s : Slots E) (id : PrefixId W) : Prop := ∃ a e, s a = some e ∧ Entry.id e = id

/-- Slots only get filled and the immutable fields never change. -/
def ExtId (s s' : Slots E) : Prop :=
  ∀ a e, s a = some e → ∃ e', s' a = some e' ∧ (Entry.id e' : PrefixId W) = Entry.id e ∧
    Entry.next e' = Entry.next e

theorem ExtId.rfl' (s : Slots E) : ExtId s s := fun _ e h => ⟨e, h, rfl, rfl⟩

theorem ExtId.trans {s t u : Slots E} (h : ExtId s t) (h' : ExtId t u) : ExtId s u := by
  intro a e he
  obtain ⟨e1, h1, i1, n1⟩ := h a e he
  obtain ⟨e2, h2, i2, n2⟩ := h' a e1 h1
  exact ⟨e2, h2, i2.trans i1, n2.trans n1⟩

theorem Above.ext {C : Layout W} {s s' : Slots E} {id : PrefixId W} {n : Nat}
    (h : Above C s id n) (hx : ExtId s s') : Above C s' id n := by
  intro k hk
  obtain ⟨e, he, hne⟩ := h k hk
  obtain ⟨e', he', hid, _⟩ := hx _ _ he
  exact ⟨e', he', by rw [hid]; exact hne⟩

theorem Has.ext {s s' : Slots E} {id : PrefixId W} (h : Has s id) (hx : ExtId s s') : Has s' id := by
  obtain ⟨a, e, he, hid⟩ := h
  obtain ⟨e', he', hid', _⟩ := hx _ _ he
  exact ⟨a, e', he', hid'.trans hid⟩

theorem slotAt_inj {C : Layout W} {p q : PrefixId W} (hp : C.ok p) (hq : C.ok q) {m n : Nat}
    (h : slotAt C p m = slotAt C q n) :
    p.len = q.len ∧ m = n ∧ ∀ k ≤ n, hIdx p k = hIdx q k := by
  unfold slotAt at h
  injection h with h1 h2
  have hl := C.sameLen p q hp hq h1
  have hmn : m = n := by
    have := congrArg List.length h2
    simp [hPath] at this; exact this
  subst hmn
  refine ⟨hl, rfl, fun k hk => ?_⟩
  unfold hPath at h2
  have := congrArg (fun l => l[k]?) h2
  simpa [List.getElem?_map, List.getElem?_range (by omega : k < m + 1)] using this

theorem slotAt_congr {C : Layout W} {p q : PrefixId W} {n : Nat} (hl : p.len = q.len)
    (h : ∀ k ≤ n, hIdx p k = hIdx q k) : slotAt C p n = slotAt C q n := by
  unfold slotAt hPath
  rw [hl]
  congr 1
  apply List.map_congr_left
  intro k hk
  exact h k (by simpa [Nat.lt_succ_iff] using hk)

/-- A slot of `id`'s path that is taken by another id: there is a next level. -/
theorem nextLevel [Fam W] {C : Layout W} {s : Slots E} (hs : ChainInv C s) {id : PrefixId W}
    (hid : C.ok id) {n : Nat} (_hv : ValidLevel id.len n) {e : E}
    (he : s (slotAt C id n) = some e) (hne : (Entry.id e : PrefixId W) ≠ id) :
    ValidLevel id.len (n + 1) ∧ Entry.next e = slotsForP2 (lvlBits id.len (n + 1)) := by
  obtain ⟨hok, n', hv', ha, hnx, _⟩ := hs _ _ he
  obtain ⟨hl, hnn, hh⟩ := slotAt_inj hid hok ha
  subst hnn
  refine ⟨?_, by rw [hnx, hl]⟩
  by_contra hnv
  apply hne
  symm
  apply eq_of_hIdx (C.clean _ hid) (C.clean _ hok) hl
  intro k hk
  apply hh
  unfold ValidLevel at hnv hk
  omega

/-- An empty slot reached on the path of `id` shows that `id` is absent. -/
theorem absent_of_empty [Fam W] {C : Layout W} {s : Slots E} (hs : ChainInv C s) {id : PrefixId W}
    {n : Nat} (hab : Above C s id n) (he : s (slotAt C id n) = none) :
    ¬ Has s id := by
  rintro ⟨a, e, ha, rfl⟩
  obtain ⟨_, n', _, rfl, _, hab'⟩ := hs _ _ ha
  rcases Nat.lt_trichotomy n' n with h | h | h
  · obtain ⟨e', he', hne⟩ := hab _ h
    rw [ha] at he'; cases he'; exact hne rfl
  · subst h; rw [ha] at he; cases he
  · obtain ⟨e', he', _⟩ := hab' _ h
    rw [he] at he'; cases he'

/-- An id is stored at most once. -/
theorem ChainInv.unique {C : Layout W} {s : Slots E} (hs : ChainInv C s) {a b : Addr} {e e' : E}
    (ha : s a = some e) (hb : s b = some e') (hid : (Entry.id e : PrefixId W) = Entry.id e') :
    a = b := by
  obtain ⟨_, n, _, rfl, _, hab⟩ := hs _ _ ha
  obtain ⟨_, n', _, rfl, _, hab'⟩ := hs _ _ hb
  rcases Nat.lt_trichotomy n n' with h | h | h
  · obtain ⟨e'', he'', hne⟩ := hab' _ h
    rw [← hid, ha] at he''; cases he''; exact (hne hid).elim
  · subst h; rw [hid]
  · obtain ⟨e'', he'', hne⟩ := hab _ h
    rw [hid, hb] at he''; cases he''; exact (hne hid.symm).elim

theorem Slots.set_same (s : Slots E) (a : Addr) (e : E) : s.set a e a = some e := by
  simp [Slots.set]

theorem Slots.set_other (s : Slots E) {a b : Addr} (e : E) (h : b ≠ a) : s.set a e b = s b := by
  simp [Slots.set, h]

theorem extId_init {s : Slots E} {a : Addr} {e : E} (h : s a = none) : ExtId s (s.set a e) := by
  intro b f hf
  by_cases c : b = a
  · subst c; rw [h] at hf; cases hf
  · exact ⟨f, by rw [Slots.set_other _ _ c]; exact hf, rfl, rfl⟩

theorem extId_update {s : Slots E} {a : Addr} {e e' : E} (h : s a = some e)
    (hid : (Entry.id e' : PrefixId W) = Entry.id e) (hnx : Entry.next e' = Entry.next e) :
    ExtId s (s.set a e') := by
  intro b f hf
  by_cases c : b = a
  · subst c; rw [h] at hf; cases hf; exact ⟨e', Slots.set_same _ _ _, hid, hnx⟩
  · exact ⟨f, by rw [Slots.set_other _ _ c]; exact hf, rfl, rfl⟩

/-- Filling the free slot on the path keeps the invariant. -/
theorem chainInv_init [Fam W] {C : Layout W} {s : Slots E} (hs : ChainInv C s) {n : Nat} {e : E}
    (hok : C.ok (Entry.id e)) (hv : ValidLevel (Entry.id e : PrefixId W).len n)
    (hab : Above C s (Entry.id e) n) (hfree : s (slotAt C (Entry.id e) n) = none)
    (hnx : Entry.next e = slotsForP2 (lvlBits (Entry.id e : PrefixId W).len (n + 1))) :
    ChainInv C (s.set (slotAt C (Entry.id e) n) e) := by
  have hx := extId_init (e := e) hfree
  intro b f hf
  by_cases c : b = slotAt C (Entry.id e) n
  · subst c
    rw [Slots.set_same] at hf; cases hf
    exact ⟨hok, n, hv, rfl, hnx, hab.ext hx⟩
  · rw [Slots.set_other _ _ c] at hf
    obtain ⟨h1, k, h2, h3, h4, h5⟩ := hs _ _ hf
    exact ⟨h1, k, h2, h3, h4, h5.ext hx⟩

theorem chainInv_update {C : Layout W} {s : Slots E} (hs : ChainInv C s) {a : Addr} {e e' : E}
    (h : s a = some e) (hid : (Entry.id e' : PrefixId W) = Entry.id e)
    (hnx : Entry.next e' = Entry.next e) : ChainInv C (s.set a e') := by
  have hx := extId_update h hid hnx
  intro b f hf
  by_cases c : b = a
  · subst c
    rw [Slots.set_same] at hf; cases hf
    obtain ⟨h1, k, h2, h3, h4, h5⟩ := hs _ _ h
    rw [hid, hnx]
    exact ⟨h1, k, h2, h3, h4, h5.ext hx⟩
  · rw [Slots.set_other _ _ c] at hf
    obtain ⟨h1, k, h2, h3, h4, h5⟩ := hs _ _ hf
    exact ⟨h1, k, h2, h3, h4, h5.ext hx⟩

theorem chainInv_empty (C : Layout W) : ChainInv C (fun _ => none : Slots E) := by
  intro a e h; cases h

/-! ## Walking -/

/-- What other threads may do to a table. -/
def RelyOK (C : Layout W) (R : Slots E → Slots E → Prop) : Prop :=
  ∀ s s', R s s' → ExtId s s' ∧ (ChainInv C s → ChainInv C s')

/-- State of a walk for `id` that is about to look at level `n`. -/
structure WalkAt (C : Layout W) (s : Slots E) (id : PrefixId W) (n size : Nat) : Prop where
  inv : ChainInv C s
  ok : C.ok id
  valid : ValidLevel id.len n
  above : Above C s id n
  size : hIdx id n < size

theorem WalkAt.rely {C : Layout W} {R : Slots E → Slots E → Prop} (hR : RelyOK C R)
    {s s' : Slots E} {id : PrefixId W} {n size : Nat} (h : WalkAt C s id n size) (hr : R s s') :
    WalkAt C s' id n size :=
  ⟨(hR _ _ hr).2 h.inv, h.ok, h.valid, h.above.ext (hR _ _ hr).1, h.size⟩

theorem WalkAt.ext {C : Layout W} {s s' : Slots E} {id : PrefixId W} {n size : Nat}
    (h : WalkAt C s id n size) (hx : ExtId s s') (hi : ChainInv C s') : WalkAt C s' id n size :=
  ⟨hi, h.ok, h.valid, h.above.ext hx, h.size⟩

theorem WalkAt.bound [hW : Fam W] {C : Layout W} {s : Slots E} {id : PrefixId W} {n size : Nat}
    (h : WalkAt C s id n size) : n < 32 := by
  have h1 := (C.clean _ h.ok).1
  have h2 := hW.width
  have h3 := h.valid
  unfold ValidLevel at h3
  omega

theorem WalkAt.hash [Fam W] {C : Layout W} {s : Slots E} {id : PrefixId W} {n size : Nat}
    (h : WalkAt C s id n size) : hashId id n = some (hIdx id n) :=
  hashId_eq (C.clean _ h.ok) h.valid

theorem WalkAt.nsz [Fam W] {C : Layout W} {s : Slots E} {id : PrefixId W} {n size : Nat}
    (h : WalkAt C s id n size) : nodesetSize id.len (n + 1) = some (lvlBits id.len (n + 1)) := by
  have := h.bound
  rw [nodesetSize_eq (by omega)]
  congr 1
  unfold lvlBits; omega

theorem WalkAt.start [Fam W] {C : Layout W} {s : Slots E} {id : PrefixId W}
    (hs : ChainInv C s) (hok : C.ok id) : WalkAt C s id 0 16 := by
  refine ⟨hs, hok, .inl rfl, fun k hk => by omega, ?_⟩
  have := hIdx_lt (C.clean _ hok) (Or.inl rfl : ValidLevel id.len 0)
  have h2 : 2 ^ lvlBits id.len 0 ≤ 2 ^ 4 := Nat.pow_le_pow_right (by omega) (by unfold lvlBits; omega)
  omega

/-- Going down one level past another id's entry. -/
theorem WalkAt.down [Fam W] {C : Layout W} {s : Slots E} {id : PrefixId W} {n size : Nat}
    (h : WalkAt C s id n size) {e : E} (he : s (slotAt C id n) = some e)
    (hne : (Entry.id e : PrefixId W) ≠ id) :
    0 < lvlBits id.len (n + 1) ∧ WalkAt C s id (n + 1) (Entry.next e) := by
  obtain ⟨hv, hnx⟩ := nextLevel h.inv h.ok h.valid he hne
  have hp : 0 < lvlBits id.len (n + 1) := by
    unfold ValidLevel at hv; unfold lvlBits; omega
  refine ⟨hp, h.inv, h.ok, hv, ?_, ?_⟩
  · intro k hk
    rcases Nat.lt_succ_iff_lt_or_eq.1 hk with hk | rfl
    · exact h.above k hk
    · exact ⟨e, he, hne⟩
  · rw [hnx, slotsForP2, if_neg (by omega)]
    exact hIdx_lt (C.clean _ h.ok) hv

variable {R G : Slots E → Slots E → Prop} {D : Prop}

open Prog in
theorem wp_sliceGet {C : Layout W} (hR : RelyOK C R) {s : Slots E} {id : PrefixId W}
    {n size : Nat} (h : WalkAt C s id n size) {Q : Option (Ref W) → Slots E → Prop}
    (hG : ∀ s, G s s)
    (hnone : ∀ s', R s s' → WalkAt C s' id n size → s' (slotAt C id n) = none → Q none s')
    (hsome : ∀ s' e, R s s' → WalkAt C s' id n size → s' (slotAt C id n) = some e →
      Q (some (refOf (slotAt C id n) e)) s') :
    wp R G D (sliceGet (bucketAt C id n size) (hIdx id n)) Q s := by
  unfold sliceGet
  rw [if_pos (show hIdx id n < (bucketAt C id n size).size from h.size)]
  apply wp_read
  intro s' hr
  refine ⟨hG _, ?_⟩
  rw [bucketAt_slot]
  cases he : s' (slotAt C id n) with
  | none => exact hnone s' hr (h.rely hR hr) he
  | some e => exact hsome s' e hr (h.rely hR hr) he

open Prog in
theorem wp_sliceGetOrInit {C : Layout W} (hR : RelyOK C R) {s : Slots E}
    {n size : Nat} {e : E} (h : WalkAt C s (Entry.id e) n size)
    {Q : Ref W × Bool → Slots E → Prop}
    (hGr : ∀ s, G s s)
    (hours : ∀ s1 s', R s s1 → R s1 s' → WalkAt C s' (Entry.id e) n size →
      s' (slotAt C (Entry.id e) n) = none →
      G s' (s'.set (slotAt C (Entry.id e) n) e) ∧
      Q (refOf (slotAt C (Entry.id e) n) e, true) (s'.set (slotAt C (Entry.id e) n) e))
    (hother : ∀ s1 s' e', s1 = s' ∨ R s1 s' → R s s1 → WalkAt C s' (Entry.id e) n size →
      s' (slotAt C (Entry.id e) n) = some e' →
      Q (refOf (slotAt C (Entry.id e) n) e', false) s') :
    wp R G D (sliceGetOrInit (bucketAt C (Entry.id e) n size) (hIdx (Entry.id e) n) e) Q s := by
  unfold sliceGetOrInit
  rw [if_pos (show hIdx (Entry.id e) n < (bucketAt C (Entry.id e) n size).size from h.size)]
  rw [wp_bind]
  apply wp_read
  intro s1 hr1
  refine ⟨hGr _, ?_⟩
  have h1 := h.rely hR hr1
  rw [bucketAt_slot]
  cases he : s1 (slotAt C (Entry.id e) n) with
  | some e' => exact hother s1 s1 e' (.inl rfl) hr1 h1 he
  | none =>
    simp only [Option.map_none]
    unfold casInit
    apply wp_atomic
    intro s2 hr2
    have h2 := h1.rely hR hr2
    cases he2 : s2 (slotAt C (Entry.id e) n) with
    | some e' => exact ⟨hGr _, hother s1 s2 e' (.inr hr2) hr1 h2 he2⟩
    | none => exact hours s1 s2 hr1 hr2 h2 he2

open Prog in
theorem wp_accessAt {ρ : Type} {a : Addr} {f : E → ρ × E} {s : Slots E} {Q : ρ → Slots E → Prop}
    (hne : ∀ s', R s s' → ∃ e, s' a = some e)
    (h : ∀ s' e, R s s' → s' a = some e →
      G s' (s'.set a (f e).2) ∧ Q (f e).1 (s'.set a (f e).2)) :
    wp R G D (accessAt a f) Q s := by
  unfold accessAt
  rw [wp_bind]
  apply wp_atomic
  intro s' hr
  obtain ⟨e, he⟩ := hne s' hr
  obtain ⟨hg, hq⟩ := h s' e hr he
  simp only [he]
  exact ⟨hg, hq⟩

open Prog in
theorem wp_readAt {ρ : Type} {a : Addr} {f : E → ρ} {s : Slots E} {Q : ρ → Slots E → Prop}
    (hG : ∀ s, G s s)
    (hne : ∀ s', R s s' → ∃ e, s' a = some e)
    (h : ∀ s' e, R s s' → s' a = some e → Q (f e) s') :
    wp R G D (readAt a f) Q s := by
  unfold readAt
  rw [wp_bind]
  apply wp_read
  intro s' hr
  obtain ⟨e, he⟩ := hne s' hr
  simp only [he, Option.map_some]
  exact ⟨hG _, h s' e hr he⟩

end Rotonda
