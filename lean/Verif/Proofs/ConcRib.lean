import Verif.Proofs.ConcSound
import Verif.Proofs.Persist
import Verif.Proofs.TreeMui
import Verif.Proofs.ReadOnly

/-!
# Calls running concurrently: what every call leaves intact
-/

namespace Rotonda

open Prog Spec

variable {M : Type} {W : Nat}

/-- Every mui with a record keeps one. -/
def Recs.Keeps (rs rs' : Recs M) : Prop := ∀ m, m ∈ rs.map Prod.fst → m ∈ rs'.map Prod.fst

/-- Own steps on the prefix table: entries stay, and keep a record for every mui
that had one. -/
structure GRecs (s s' : PSlots M W) : Prop where
  ext : ExtId s s'
  chain : ChainInv (pfxLayout W) s → ChainInv (pfxLayout W) s'
  keep : ∀ a e, s a = some e → ∃ e', s' a = some e' ∧ e.recs.Keeps e'.recs

theorem GRecs.rfl' (s : PSlots M W) : GRecs s s :=
  ⟨ExtId.rfl' s, fun h => h, fun _ e he => ⟨e, he, fun _ h => h⟩⟩

theorem GRecs.trans {a b c : PSlots M W} (h : GRecs a b) (h' : GRecs b c) : GRecs a c := by
  refine ⟨h.ext.trans h'.ext, fun x => h'.chain (h.chain x), fun x e he => ?_⟩
  obtain ⟨e', he', hk⟩ := h.keep x e he
  obtain ⟨e'', he'', hk'⟩ := h'.keep x e' he'
  exact ⟨e'', he'', fun m hm => hk' m (hk m hm)⟩

theorem relyOK_recs {R : PSlots M W → PSlots M W → Prop} (hR : ∀ s s', R s s' → GRecs s s') :
    RelyOK (pfxLayout W) R := fun s s' h => ⟨(hR s s' h).ext, (hR s s' h).chain⟩

/-- The changes that calls running at the same time make to each other's state:
the tables only grow, no record of a pair disappears, everything in the tree is
accounted for by a pair in `T`, and every persisted entry is a record. -/
structure Grow (T : PrefixId W → Mui → Prop) (s s' : Rib M W) : Prop where
  nodes : NR s.tree.slots s'.tree.slots
  just : Just T s.tree.slots → Just T s'.tree.slots
  dflt : s.tree.defaultExists = true → s'.tree.defaultExists = true
  recs : GRecs s.cht.slots s'.cht.slots
  lsm : Records W s.lsm → Records W s'.lsm
  keys : ∀ k, k ∈ s.lsm.map Prod.fst → k ∈ s'.lsm.map Prod.fst

theorem Grow.isRely (T : PrefixId W → Mui → Prop) : IsRely (Grow (M := M) T) where
  refl _ := ⟨NR.rfl' _, fun h => h, fun h => h, GRecs.rfl' _, fun h => h, fun _ h => h⟩
  trans h h' := ⟨h.nodes.trans h'.nodes, fun x => h'.just (h.just x), fun x => h'.dflt (h.dflt x),
    h.recs.trans h'.recs, fun x => h'.lsm (h.lsm x), fun k x => h'.keys k (h.keys k x)⟩

theorem Grow.rfl' {T : PrefixId W → Mui → Prop} (s : Rib M W) : Grow T s s := (Grow.isRely T).refl s

theorem Grow.trans {T : PrefixId W → Mui → Prop} {a b c : Rib M W} (h : Grow T a b)
    (h' : Grow T b c) : Grow T a c := (Grow.isRely T).trans h h'

/-- A state every call can run in. -/
structure Sane (T : PrefixId W → Mui → Prop) (s : Rib M W) : Prop where
  nodes : ChainInv (nodeLayout W) s.tree.slots
  just : Just T s.tree.slots
  clean : ∀ p m, T p m → p.Clean
  recs : ChainInv (pfxLayout W) s.cht.slots
  lsm : Records W s.lsm

theorem Sane.grow {T : PrefixId W → Mui → Prop} {s s' : Rib M W} (h : Sane T s) (hg : Grow T s s') :
    Sane T s' :=
  ⟨hg.nodes.2 h.nodes, hg.just h.just, h.clean, hg.recs.chain h.recs, hg.lsm h.lsm⟩

theorem Sane.of_inv [Meta M] [Fam W] {st : Strategy} {h : History M W} {s : Rib M W}
    (hi : HInv st h s) : Sane (pairsOf h) s :=
  ⟨hi.tree.inv, hi.tree.just, hi.tree.clean, hi.tab.inv, by rw [hi.lsm]; exact records_lsmOf st h⟩

theorem Sane.mono {T T' : PrefixId W → Mui → Prop} {s : Rib M W} (h : Sane T s)
    (hT : ∀ p m, T p m → T' p m) (hc : ∀ p m, T' p m → p.Clean) : Sane T' s :=
  ⟨h.nodes, h.just.mono hT, hc, h.recs, h.lsm⟩

/-- A relation seen through a component of the state. -/
def proj {σ τ : Type} (f : σ → τ) (R : σ → σ → Prop) (a b : τ) : Prop :=
  ∃ s s', R s s' ∧ f s = a ∧ f s' = b

variable {T : PrefixId W → Mui → Prop} {R : Rib M W → Rib M W → Prop} {D : Prop}

/-! ## Lifting programs on components -/

theorem proj_tree (hR : ∀ s s', R s s' → Grow T s s') :
    ∀ t t', proj Rib.tree R t t' → NR t.slots t'.slots := by
  rintro _ _ ⟨s, s', h, rfl, rfl⟩; exact (hR _ _ h).nodes

theorem proj_nodes (hR : ∀ s s', R s s' → Grow T s s') :
    ∀ t t', proj (fun s : Rib M W => s.tree.slots) R t t' → NR t t' := by
  rintro _ _ ⟨s, s', h, rfl, rfl⟩; exact (hR _ _ h).nodes

theorem proj_recs (hR : ∀ s s', R s s' → Grow T s s') :
    ∀ t t', proj (fun s : Rib M W => s.cht.slots) R t t' → GRecs t t' := by
  rintro _ _ ⟨s, s', h, rfl, rfl⟩; exact (hR _ _ h).recs

/-- Inserting into the tree. -/
theorem wp_onTree {α : Type} {p : PrefixId W} {m : Mui} (hT : T p m)
    (hR : ∀ s s', R s s' → Grow T s s') {prog : Prog (Tree W) α} {Q : α → Tree W → Prop}
    {s : Rib M W} (h : wp (proj Rib.tree R) (GTree p m) D prog Q s.tree) :
    wp R (Grow T) D (prog.zoom Rib.treeL) (fun a s' => Grow T s s' ∧ Q a s'.tree) s := by
  have hg : ∀ (s : Rib M W) t, GTree p m s.tree t → Grow T s (Rib.treeL.set s t) := fun s t hg =>
    ⟨hg.slots.1, hg.slots.2 T hT, hg.dfltMono, GRecs.rfl' _, fun h => h, fun _ h => h⟩
  refine wp_conseq _ (wp_zoom Rib.treeL_lawful prog (R := R) (G := Grow T)
    (R' := proj Rib.tree R) (G' := GTree p m) (P := fun s' => Grow T s s') ?_ hg ?_ ?_
    (Grow.rfl' s) h) (fun _ _ h => h)
  · exact fun s s' h => ⟨s, s', h, rfl, rfl⟩
  · exact fun a b h hp => hp.trans (hR _ _ h)
  · exact fun a t hp h => hp.trans (hg a t h)

/-- Reading the node table. -/
theorem wp_onNodes {α : Type} {prog : Prog (NSlots W) α} {Q : α → NSlots W → Prop}
    {s : Rib M W} (h : wp (proj (fun s : Rib M W => s.tree.slots) R) RO D prog Q s.tree.slots) :
    wp R RO D (onNodes prog) (fun a s' => Q a s'.tree.slots) s := by
  refine wp_conseq _ (wp_zoom Rib.treeL_lawful (prog.zoom Tree.slotsL) (R := R) (G := RO)
    (R' := proj Rib.tree R) (G' := RO) (P := fun _ => True)
    (Q := fun a t => True ∧ Q a t.slots) ?_ ?_ (fun _ _ _ _ => trivial)
    (fun _ _ _ _ => trivial) trivial
    (wp_zoom Tree.slotsL_lawful prog (R := proj Rib.tree R) (G := RO)
      (R' := proj (fun s : Rib M W => s.tree.slots) R) (G' := RO) (P := fun _ => True) ?_ ?_
      (fun _ _ _ _ => trivial) (fun _ _ _ _ => trivial) trivial h)) (fun _ _ h => h.2.2)
  · exact fun s s' h => ⟨s, s', h, rfl, rfl⟩
  · rintro s _ rfl; rfl
  · rintro _ _ ⟨s, s', h, rfl, rfl⟩; exact ⟨s, s', h, rfl, rfl⟩
  · rintro s _ rfl; rfl

theorem grow_recs {s : Rib M W} {t : PSlots M W} (h : GRecs s.cht.slots t) :
    Grow T s { s with cht := { s.cht with slots := t } } :=
  ⟨NR.rfl' _, fun h => h, fun h => h, h, fun h => h, fun _ h => h⟩

/-- Programs on the prefix table, with any guarantee that implies `GRecs`. -/
theorem wp_onRecs {α : Type} (hR : ∀ s s', R s s' → Grow T s s') {prog : Prog (PSlots M W) α}
    {Q : α → PSlots M W → Prop} {s : Rib M W}
    (h : wp (proj (fun s : Rib M W => s.cht.slots) R) GRecs D prog Q s.cht.slots) :
    wp R (Grow T) D (onRecs prog) (fun a s' => Grow T s s' ∧ Q a s'.cht.slots) s := by
  have hg : ∀ (s : Rib M W) t, GRecs s.cht.slots t.slots → s.cht.prefixes = t.prefixes →
      Grow T s (Rib.chtL.set s t) := fun s t hg _ =>
    ⟨NR.rfl' _, fun h => h, fun h => h, hg, fun h => h, fun _ h => h⟩
  refine wp_conseq _ (wp_zoom Rib.chtL_lawful (prog.zoom PCht.slotsL) (R := R) (G := Grow T)
    (R' := proj Rib.cht R) (G' := fun a b => GRecs a.slots b.slots ∧ a.prefixes = b.prefixes)
    (P := fun s' => Grow T s s') (Q := fun a t => True ∧ Q a t.slots) ?_
    (fun s t h => hg s t h.1 h.2) ?_ (fun a t hp h => hp.trans (hg a t h.1 h.2)) (Grow.rfl' s)
    (wp_zoom PCht.slotsL_lawful prog (R := proj Rib.cht R)
      (G := fun a b => GRecs a.slots b.slots ∧ a.prefixes = b.prefixes)
      (R' := proj (fun s : Rib M W => s.cht.slots) R) (G' := GRecs) (P := fun _ => True) ?_ ?_
      (fun _ _ _ _ => trivial) (fun _ _ _ _ => trivial) trivial h)) (fun _ _ h => ⟨h.1, h.2.2⟩)
  · exact fun s s' h => ⟨s, s', h, rfl, rfl⟩
  · exact fun a b h hp => hp.trans (hR _ _ h)
  · rintro _ _ ⟨s, s', h, rfl, rfl⟩; exact ⟨s, s', h, rfl, rfl⟩
  · exact fun s t h => ⟨h, rfl⟩

/-- Reading the prefix table. -/
theorem wp_onRecsRO {α : Type} {prog : Prog (PSlots M W) α}
    {Q : α → PSlots M W → Prop} {s : Rib M W}
    (h : wp (proj (fun s : Rib M W => s.cht.slots) R) RO D prog Q s.cht.slots) :
    wp R RO D (onRecs prog) (fun a s' => Q a s'.cht.slots) s := by
  refine wp_conseq _ (wp_zoom Rib.chtL_lawful (prog.zoom PCht.slotsL) (R := R) (G := RO)
    (R' := proj Rib.cht R) (G' := RO) (P := fun _ => True)
    (Q := fun a t => True ∧ Q a t.slots) ?_ ?_ (fun _ _ _ _ => trivial)
    (fun _ _ _ _ => trivial) trivial
    (wp_zoom PCht.slotsL_lawful prog (R := proj Rib.cht R) (G := RO)
      (R' := proj (fun s : Rib M W => s.cht.slots) R) (G' := RO) (P := fun _ => True) ?_ ?_
      (fun _ _ _ _ => trivial) (fun _ _ _ _ => trivial) trivial h)) (fun _ _ h => h.2.2)
  · exact fun s s' h => ⟨s, s', h, rfl, rfl⟩
  · rintro s _ rfl; rfl
  · rintro _ _ ⟨s, s', h, rfl, rfl⟩; exact ⟨s, s', h, rfl, rfl⟩
  · rintro s _ rfl; rfl

/-- A reader leaves everything to the others. -/
theorem wp_reader {α : Type} (hR : ∀ s s', R s s' → Grow T s s') {prog : Prog (Rib M W) α}
    {Q : α → Rib M W → Prop} {s : Rib M W} (h : wp R RO D prog Q s) :
    wp R RO D prog (fun a s' => Grow T s s' ∧ Q a s') s :=
  wp_carry (P := fun s' => Grow T s s') (fun _ _ h hp => hp.trans (hR _ _ h))
    (fun _ _ h hp => by cases h; exact hp) _ (Grow.rfl' s) h

theorem wp_ro_grow {α : Type} {prog : Prog (Rib M W) α}
    {Q : α → Rib M W → Prop} {s : Rib M W} (h : wp R RO D prog Q s) :
    wp R (Grow T) D prog Q s :=
  wp_mono _ (fun _ _ h => h) (fun _ _ h => by cases h; exact Grow.rfl' _) (fun h => h)
    (fun _ _ h => h) h

/-- One update of the persistence tree. -/
theorem wp_onLsm (hR : ∀ s s', R s s' → Grow T s s') {f : Lsm → Lsm}
    (hf : ∀ t, Records W t → Records W (f t))
    (hk : ∀ t k, k ∈ t.map Prod.fst → k ∈ (f t).map Prod.fst) (s : Rib M W) :
    wp R (Grow T) D (onLsm f) (fun _ s' => Grow T s s' ∧ ∃ t, s'.lsm = f t) s := by
  apply wp_atomic
  intro s1 hr
  have : Grow T s1 { s1 with lsm := f s1.lsm } :=
    ⟨NR.rfl' _, fun h => h, fun h => h, GRecs.rfl' _, hf _, hk _⟩
  exact ⟨this, (hR _ _ hr).trans this, _, rfl⟩

/-- Inserting keeps the keys. -/
theorem Lsm.mem_keys_insert {t : Lsm} {k v : Bytes} {x : Bytes} :
    x ∈ (t.insert k v).map Prod.fst ↔ x = k ∨ x ∈ t.map Prod.fst := by
  induction t with
  | nil => simp [Lsm.insert]
  | cons y t ih =>
    obtain ⟨k', v'⟩ := y
    simp only [Lsm.insert]
    split
    · rename_i c; subst c; simp
    · split
      · simp
      · simp only [List.map_cons, List.mem_cons, ih]
        tauto

theorem records_insert {t : Lsm} (h : Records W t) {k v : Bytes} (g : Tag W) (b : Bytes)
    (hk : k ++ v = g.key ++ b) : Records W (t.insert k v) := by
  intro x hx
  rcases Lsm.mem_insert_sub hx with rfl | hx
  · exact ⟨g, b, hk⟩
  · exact h x hx

/-! ## The prefix table -/

/-- Own steps on the prefix table with its counters. -/
def GCht (t t' : PCht M W) : Prop := GRecs t.slots t'.slots

theorem wp_slots {α : Type} {R : PCht M W → PCht M W → Prop} {prog : Prog (PSlots M W) α}
    {Q : α → PSlots M W → Prop} {t : PCht M W} (h : wp (proj PCht.slots R) GRecs D prog Q t.slots) :
    wp R GCht D (prog.zoom PCht.slotsL) (fun a t' => Q a t'.slots) t := by
  refine wp_conseq _ (wp_zoom PCht.slotsL_lawful prog (R := R) (G := GCht)
    (R' := proj PCht.slots R) (G' := GRecs) (P := fun _ => True) ?_ ?_
    (fun _ _ _ _ => trivial) (fun _ _ _ _ => trivial) trivial h) (fun _ _ h => h.2)
  · exact fun s s' h => ⟨s, s', h, rfl, rfl⟩
  · exact fun s t h => h

/-- There is an entry for `p` at `a`. -/
def EntryAt (s : PSlots M W) (a : Addr) (p : PrefixId W) : Prop := ∃ e, s a = some e ∧ e.id = p

theorem EntryAt.ext {s s' : PSlots M W} {a : Addr} {p : PrefixId W} (h : EntryAt s a p)
    (hx : ExtId s s') : EntryAt s' a p := by
  obtain ⟨e, he, hid⟩ := h
  obtain ⟨e', he', hid', _⟩ := hx a e he
  exact ⟨e', he', hid'.trans hid⟩

theorem gRecs_set {s : PSlots M W} {a : Addr} {e e' : StoredPrefix M W} (h : s a = some e)
    (hid : e'.id = e.id) (hn : e'.next = e.next) (hk : e.recs.Keeps e'.recs) :
    GRecs s (s.set a e') := by
  refine ⟨?_, fun hi => chainInv_update hi h hid hn, ?_⟩
  · intro b f hf
    by_cases hba : b = a
    · subst hba
      rw [h] at hf; cases hf
      exact ⟨e', Slots.set_same _ _ _, hid, hn⟩
    · exact ⟨f, by rwa [Slots.set_other _ _ hba], rfl, rfl⟩
  · intro b f hf
    by_cases hba : b = a
    · subst hba
      rw [h] at hf; cases hf
      exact ⟨e', Slots.set_same _ _ _, hk⟩
    · exact ⟨f, by rwa [Slots.set_other _ _ hba], fun _ h => h⟩

/-- There is an entry for `p` at `a` with a record for `m`. -/
def RecAt (s : PSlots M W) (a : Addr) (p : PrefixId W) (m : Mui) : Prop :=
  ∃ e, s a = some e ∧ e.id = p ∧ m ∈ e.recs.map Prod.fst

theorem RecAt.grow {s s' : PSlots M W} {a : Addr} {p : PrefixId W} {m : Mui} (h : RecAt s a p m)
    (hg : GRecs s s') : RecAt s' a p m := by
  obtain ⟨e, he, hid, hm⟩ := h
  obtain ⟨e', he', hid', _⟩ := hg.ext a e he
  obtain ⟨e'', he'', hk⟩ := hg.keep a e he
  rw [he'] at he''; cases he''
  exact ⟨e', he', hid'.trans hid, hk m hm⟩

theorem keeps_insert (rs : Recs M) (m : Mui) (v : MMV M) : rs.Keeps (rs.insert m v) :=
  fun _ h => mem_insert_keys.2 (.inr h)

theorem keeps_modify (rs : Recs M) (m : Mui) (f : MMV M → MMV M) : rs.Keeps (rs.modify m f) :=
  fun k h => by rw [keys_modify]; exact h

theorem keeps_mark (rs : Recs M) (m : Mui) (l : LTime) (st : RouteStatus) :
    rs.Keeps (markStatus rs m l st) := keeps_modify rs m _

variable {RP : PSlots M W → PSlots M W → Prop}

/-- One access to an existing entry. -/
theorem wp_access {ρ : Type} (hR : ∀ s s', RP s s' → GRecs s s') {a : Addr} {p : PrefixId W}
    {f : StoredPrefix M W → ρ × StoredPrefix M W} (hf : ∀ e, (f e).2.id = e.id ∧ (f e).2.next = e.next)
    (hk : ∀ e : StoredPrefix M W, e.recs.Keeps (f e).2.recs)
    {s : PSlots M W} (hi : ChainInv (pfxLayout W) s) (he : EntryAt s a p) :
    wp RP GRecs D (accessAt a f)
      (fun r s' => ChainInv (pfxLayout W) s' ∧ EntryAt s' a p ∧
        ∃ e, e.id = p ∧ r = (f e).1 ∧ s' a = some (f e).2) s := by
  apply wp_accessAt
  · intro s' hr
    obtain ⟨e, he, _⟩ := he.ext (hR _ _ hr).1
    exact ⟨e, he⟩
  · intro s' e hr h
    have hg := gRecs_set h (hf e).1 (hf e).2 (hk e)
    obtain ⟨e', he', hid'⟩ := he.ext (hR _ _ hr).1
    rw [h] at he'; cases he'
    exact ⟨hg, hg.2 ((hR _ _ hr).2 hi), EntryAt.ext ⟨e, h, hid'⟩ hg.1, e, hid', rfl,
      Slots.set_same _ _ _⟩

theorem wp_readEntry {ρ : Type} (hR : ∀ s s', RP s s' → GRecs s s') {a : Addr} {p : PrefixId W}
    {f : StoredPrefix M W → ρ} {s : PSlots M W} (hi : ChainInv (pfxLayout W) s) (he : EntryAt s a p) :
    wp RP RO D (readAt a f)
      (fun r s' => ChainInv (pfxLayout W) s' ∧ EntryAt s' a p ∧
        ∃ e, s' a = some e ∧ e.id = p ∧ r = f e) s := by
  apply wp_readAt RO.rfl'
  · intro s' hr
    obtain ⟨e, he, _⟩ := he.ext (hR _ _ hr).1
    exact ⟨e, he⟩
  · intro s' e hr h
    have h2 := he.ext (hR _ _ hr).1
    obtain ⟨e', he', hid⟩ := h2
    rw [h] at he'; cases he'
    exact ⟨(hR _ _ hr).2 hi, ⟨e, h, hid⟩, e, h, hid, rfl⟩

theorem wp_ro_recs {α : Type} {prog : Prog (PSlots M W) α} {Q : α → PSlots M W → Prop}
    {s : PSlots M W} (h : wp RP RO D prog Q s) : wp RP GRecs D prog Q s :=
  wp_mono _ (fun _ _ h => h) (fun _ _ h => by cases h; exact GRecs.rfl' _) (fun h => h)
    (fun _ _ h => h) h

theorem wp_setPathSelections (hR : ∀ s s', RP s s' → GRecs s s') {a : Addr} {p : PrefixId W}
    (v : Option Mui × Option Mui)
    {s : PSlots M W} (hi : ChainInv (pfxLayout W) s) (he : EntryAt s a p) :
    wp RP GRecs D (setPathSelections a v)
      (fun r s' => ChainInv (pfxLayout W) s' ∧ EntryAt s' a p ∧
        (r = .ok () ∨ r = .error .pathSelectionOutdated)) s := by
  unfold setPathSelections
  rw [wp_bind]
  refine wp_conseq _ (wp_ro_recs (wp_readEntry hR hi he)) ?_
  rintro cur s1 ⟨hi1, he1, _⟩
  split
  · exact ⟨hi1, he1, .inl rfl⟩
  · apply wp_accessAt
    · intro s' hr
      obtain ⟨e, he, _⟩ := he1.ext (hR _ _ hr).1
      exact ⟨e, he⟩
    · intro s' e hr h
      split
      · have hg := gRecs_set (e' := { e with ps := ⟨e.ps.ver + 1, false, v⟩ }) h rfl rfl (fun _ h => h)
        exact ⟨hg, hg.2 ((hR _ _ hr).2 hi1), (he1.ext (hR _ _ hr).1).ext hg.1, .inl rfl⟩
      · have hg := gRecs_set (e' := e) h rfl rfl (fun _ h => h)
        exact ⟨hg, hg.2 ((hR _ _ hr).2 hi1), (he1.ext (hR _ _ hr).1).ext hg.1, .inr rfl⟩

theorem wp_calculateAndStore [Meta M] (hR : ∀ s s', RP s s' → GRecs s s') {a : Addr} {p : PrefixId W}
    (tbi : Meta.TBI M) {s : PSlots M W} (hi : ChainInv (pfxLayout W) s) (he : EntryAt s a p) :
    wp RP GRecs D (calculateAndStore a tbi)
      (fun r s' => ChainInv (pfxLayout W) s' ∧ EntryAt s' a p ∧
        ((∃ v, r = .ok v) ∨ r = .error .pathSelectionOutdated)) s := by
  unfold calculateAndStore
  rw [wp_bind]
  refine wp_conseq _ (wp_ro_recs (wp_readEntry hR hi he)) ?_
  rintro v s1 ⟨hi1, he1, _⟩
  rw [wp_bind]
  refine wp_conseq _ (wp_setPathSelections hR v hi1 he1) ?_
  rintro r s2 ⟨hi2, he2, rfl | rfl⟩
  · exact ⟨hi2, he2, .inl ⟨v, rfl⟩⟩
  · exact ⟨hi2, he2, .inr rfl⟩

theorem wp_retrieveMut [Fam W] (hR : ∀ s s', RP s s' → GRecs s s') {p : PrefixId W} (hp : p.Clean)
    {s : PSlots M W} (hi : ChainInv (pfxLayout W) s) :
    wp RP GRecs D (retrievePrefixMut p) (fun r s' => ChainInv (pfxLayout W) s' ∧
      EntryAt s' r.1.addr p ∧ r.1.id = p ∧ (r.2 = false → ¬ Has s p)) s := by
  refine wp_conseq _ (wp_retrievePrefixMut (relyOK_recs hR) GRecs.rfl' hp ?_ (J := fun _ => True)
    (fun _ _ _ _ => trivial) hi trivial) ?_
  · intro s n hn hc
    have hold : ∀ b f, s b = some f → s.set (slotAt (pfxLayout W) p n) (newSP M p n) b = some f := by
      intro b f hf
      by_cases hba : b = slotAt (pfxLayout W) p n
      · subst hba; rw [hn] at hf; cases hf
      · rwa [Slots.set_other _ _ hba]
    exact ⟨fun b f hf => ⟨f, hold b f hf, rfl, rfl⟩, fun _ => hc,
      fun b f hf => ⟨f, hold b f hf, fun _ h => h⟩⟩
  · rintro r s' ⟨h1, ⟨e, he, hid, href⟩, h3, _⟩
    refine ⟨h1, ⟨e, he, hid⟩, ?_, h3⟩
    rw [href]; exact hid

/-- The prefix table has a record for the pair. -/
def HasRec (s : PSlots M W) (p : PrefixId W) (m : Mui) : Prop := ∃ a, RecAt s a p m

theorem HasRec.grow {s s' : PSlots M W} {p : PrefixId W} {m : Mui} (h : HasRec s p m)
    (hg : GRecs s s') : HasRec s' p m := by
  obtain ⟨a, h⟩ := h
  exact ⟨a, h.grow hg⟩

/-- `upsert_prefix` of the prefix table: it never fails, except that a path
selection may turn out to be outdated. -/
theorem wp_pchtUpsert [Fam W] [Meta M] {RC : PCht M W → PCht M W → Prop}
    (hR : ∀ s s', proj PCht.slots RC s s' → GRecs s s') {p : PrefixId W} (hp : p.Clean)
    (r : Record M) (upd : Option (Meta.TBI M)) {t : PCht M W}
    (hi : ChainInv (pfxLayout W) t.slots) :
    wp RC GCht D (pchtUpsert p r upd) (fun res t' => HasRec t'.slots p r.mui ∧
      ((∃ x, res = .ok x) ∨ (upd ≠ none ∧ res = .error .pathSelectionOutdated))) t := by
  have hinc : ∀ (f : PCht M W → PCht M W) (hf : ∀ t, (f t).slots = t.slots) (a : Addr) (t : PCht M W),
      ChainInv (pfxLayout W) t.slots → EntryAt t.slots a p →
      wp RC GCht D (Prog.atomic fun t => ((), f t))
        (fun _ t' => ChainInv (pfxLayout W) t'.slots ∧ EntryAt t'.slots a p) t := by
    intro f hf a t hi he
    apply wp_atomic
    intro t1 hr1
    have h := hR _ _ ⟨t, t1, hr1, rfl, rfl⟩
    change GRecs t1.slots (f t1).slots ∧ ChainInv (pfxLayout W) (f t1).slots ∧
      EntryAt (f t1).slots a p
    rw [hf]
    exact ⟨GRecs.rfl' _, h.2 hi, he.ext h.1⟩
  -- once the record is there, it stays
  have hcarry : ∀ {α : Type} {prog : Prog (PCht M W) α} {Q : α → Prop} {t : PCht M W},
      HasRec t.slots p r.mui → wp RC GCht D prog (fun res _ => Q res) t →
      wp RC GCht D prog (fun res t' => HasRec t'.slots p r.mui ∧ Q res) t := by
    intro α prog Q t hh h
    exact wp_carry (P := fun t : PCht M W => HasRec t.slots p r.mui)
      (fun t t' h hh => hh.grow (hR _ _ ⟨t, t', h, rfl, rfl⟩)) (fun t t' h hh => hh.grow h) _ hh h
  have hup : ∀ {t : PCht M W} {a : Addr}, (∃ e : StoredPrefix M W, e.id = p ∧
      t.slots a = some { e with recs := (upsertRecord e.recs r).2 }) → HasRec t.slots p r.mui := by
    rintro t a ⟨e, hid, he⟩
    exact ⟨a, _, he, hid, mem_insert_keys.2 (.inl rfl)⟩
  unfold pchtUpsert
  rw [wp_bind]
  refine wp_conseq _ (wp_slots (wp_retrieveMut hR hp hi)) ?_
  rintro ⟨sp, found⟩ t1 ⟨hi1, he1, hid1, _⟩
  simp only
  split
  · rw [wp_bind]
    refine wp_conseq _ (wp_slots (wp_access hR (p := p) (fun _ => ⟨rfl, rfl⟩)
      (fun e => keeps_insert _ _ _) hi1 he1)) ?_
    rintro old t2 ⟨hi2, he2, e, hid, _, hnew⟩
    refine hcarry (hup ⟨e, hid, hnew⟩) ?_
    cases old with
    | some x => exact .inl ⟨_, rfl⟩
    | none =>
      simp only
      rw [wp_bind]
      refine wp_conseq _ (hinc (fun t => { t with routes := t.routes + 1 }) (fun _ => rfl) _ _ hi2 he2) ?_
      rintro _ t3 ⟨hi3, he3⟩
      rw [wp_bind]
      refine wp_conseq _ (hinc (fun t => { t with prefixes := fun l =>
        if l = sp.id.len ∧ sp.id.len ≤ 128 then t.prefixes l + 1 else t.prefixes l })
        (fun _ => rfl) _ _ hi3 he3) ?_
      rintro _ t4 ⟨hi4, he4⟩
      exact .inl ⟨_, rfl⟩
  · rw [wp_bind]
    refine wp_conseq _ (wp_slots (wp_access hR (p := p) (fun _ => ⟨rfl, rfl⟩)
      (fun _ _ h => h) hi1 he1)) ?_
    rintro _ t2 ⟨hi2, he2, _⟩
    rw [wp_bind]
    refine wp_conseq _ (wp_slots (wp_access hR (p := p) (fun _ => ⟨rfl, rfl⟩)
      (fun e => keeps_insert _ _ _) hi2 he2)) ?_
    rintro old t3 ⟨hi3, he3, e, hid, _, hnew⟩
    refine hcarry (hup ⟨e, hid, hnew⟩) ?_
    have hend : ∀ t4 : PCht M W, ChainInv (pfxLayout W) t4.slots → EntryAt t4.slots sp.addr p →
        wp RC GCht D (do
          let sel ← match upd with
            | some tbi => (calculateAndStore sp.addr tbi).zoom PCht.slotsL
            | none => pure (.ok (none, none))
          match sel with
          | .error e => return .error e
          | .ok _ => return .ok (UpsertReport.mk false true ((old.map Prod.snd).getD 1),
              old.map Prod.fst))
        (fun res _ =>
          (∃ x, res = Except.ok x) ∨ (upd ≠ none ∧ res = .error .pathSelectionOutdated)) t4 := by
      intro t4 hi4 he4
      cases upd with
      | none => exact .inl ⟨_, rfl⟩
      | some tbi =>
        simp only
        rw [wp_bind]
        refine wp_conseq _ (wp_slots (wp_calculateAndStore hR tbi hi4 he4)) ?_
        rintro sel t5 ⟨hi5, he5, ⟨v, rfl⟩ | rfl⟩
        · exact .inl ⟨_, rfl⟩
        · exact .inr ⟨by simp, rfl⟩
    cases old with
    | none =>
      simp only
      rw [wp_bind]
      refine wp_conseq _ (hinc (fun t => { t with routes := t.routes + 1 }) (fun _ => rfl) _ _ hi3 he3) ?_
      rintro _ t4 ⟨hi4, he4⟩
      exact hend t4 hi4 he4
    | some x => exact hend t3 hi3 he3

theorem wp_onCht {α : Type} (hR : ∀ s s', R s s' → Grow T s s') {prog : Prog (PCht M W) α}
    {Q : α → PCht M W → Prop} {s : Rib M W} (h : wp (proj Rib.cht R) GCht D prog Q s.cht) :
    wp R (Grow T) D (prog.zoom Rib.chtL) (fun a s' => Grow T s s' ∧ Q a s'.cht) s := by
  have hg : ∀ (s : Rib M W) t, GCht s.cht t → Grow T s (Rib.chtL.set s t) := fun s t hg =>
    ⟨NR.rfl' _, fun h => h, fun h => h, hg, fun h => h, fun _ h => h⟩
  refine wp_conseq _ (wp_zoom Rib.chtL_lawful prog (R := R) (G := Grow T)
    (R' := proj Rib.cht R) (G' := GCht) (P := fun s' => Grow T s s') ?_ hg ?_ ?_
    (Grow.rfl' s) h) (fun _ _ h => h)
  · exact fun s s' h => ⟨s, s', h, rfl, rfl⟩
  · exact fun a b h hp => hp.trans (hR _ _ h)
  · exact fun a t hp h => hp.trans (hg a t h)

theorem proj_cht (hR : ∀ s s', R s s' → Grow T s s') :
    ∀ t t', proj PCht.slots (proj Rib.cht R) t t' → GRecs t t' := by
  rintro _ _ ⟨_, _, ⟨s, s', h, rfl, rfl⟩, rfl, rfl⟩
  exact (hR _ _ h).recs

end Rotonda
