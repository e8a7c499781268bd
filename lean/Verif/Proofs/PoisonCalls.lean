import Verif.Proofs.Poison

/-!
# The calls that come to the lock of a stored prefix
-/

namespace Rotonda
open Prog

variable {M : Type} {W : Nat}

theorem IsSect.of_eq {σ A : Type} {T : A → Type} {P : Guarded σ A T} {ρ : Type} {a : A}
    {g : T a → ρ × T a} {f : σ → Option ρ × σ} (h : ∀ s, f s = P.sect a g s) : IsSect P f a := by
  have : f = P.sect a g := funext h
  rw [this]
  exact .mk a g

theorem IsRead.of_eq {σ A : Type} {T : A → Type} {P : Guarded σ A T} {ρ : Type} {a : A}
    {g : T a → ρ} {f : σ → Option ρ × σ} (h : ∀ s, f s = P.sect a (fun v => (g v, v)) s) :
    IsRead P f a := by
  have : f = P.sect a fun v => (g v, v) := funext h
  rw [this]
  exact .mk a g

variable {N : (ρ : Type) → (Rib M W → ρ × Rib M W) → Prop} {G : Rib M W → Rib M W → Prop} {x : Addr}

theorem passes_access {ρ α : Type} (g : Recs M → ρ × Recs M) (k : ρ → Prog (Rib M W) α)
    (s : Rib M W) : Passes (sects (ribLocks M W) (.inl x)) G (onRecs (accessAt x fun e : StoredPrefix M W =>
      ((g e.recs).1, { e with recs := (g e.recs).2 })) >>= k) s :=
  fun _ _ => .inl (IsSect.of_eq (P := ribLocks M W) (a := .inl x) (g := g) fun r => by
    simp only [Guarded.sect, Rib.chtL, PCht.slotsL, ribLocks, recMaps, entryLocks]
    cases r.cht.slots x <;> rfl)

theorem passes_read {ρ α : Type} (g : Recs M → ρ) (k : ρ → Prog (Rib M W) α) (s : Rib M W) :
    Passes (reads (ribLocks M W) (.inl x)) G (onRecs (readAt x fun e : StoredPrefix M W => g e.recs) >>= k) s :=
  fun _ _ => .inl (IsRead.of_eq (P := ribLocks M W) (a := .inl x) (g := g) fun r => by
    simp only [Guarded.sect, Rib.chtL, PCht.slotsL, ribLocks, recMaps, entryLocks]
    cases h : r.cht.slots x with
    | none => rfl
    | some e =>
      have e2 : r.cht.slots.set x e = r.cht.slots := by
        funext b
        by_cases hb : b = x
        · subst hb; rw [Slots.set_same, h]
        · rw [Slots.set_other _ _ hb]
      simp only [Option.map_some]
      rw [show ({ e with recs := e.recs } : StoredPrefix M W) = e from rfl, e2])

/-- The store has `p`, at `x`. -/
structure At (T : PrefixId W → Mui → Prop) (x : Addr) (p : PrefixId W) (s : Rib M W) : Prop where
  sane : Sane T s
  entry : EntryAt s.cht.slots x p

variable {T : PrefixId W → Mui → Prop} {p : PrefixId W}

theorem At.grow {s s' : Rib M W} (h : At T x p s) (hg : Grow T s s') : At T x p s' :=
  ⟨h.sane.grow hg, h.entry.ext hg.recs.ext⟩

theorem At.same {s : Rib M W} (h : At T x p s) {y : Addr} (hy : EntryAt s.cht.slots y p) : y = x := by
  obtain ⟨e, he, hid⟩ := h.entry
  obtain ⟨e', he', hid'⟩ := hy
  exact h.sane.recs.unique he' he (hid'.trans hid.symm)

theorem At.has {s : Rib M W} (h : At T x p s) : Has s.cht.slots p := by
  obtain ⟨e, he, hid⟩ := h.entry
  exact ⟨x, e, he, hid⟩

theorem passes_retrieve [Fam W] (hR : ∀ s s', G s s' → Grow T s s') (hp : p.Clean) {α : Type}
    {k : Option (Ref W) → Prog (Rib M W) α} {s : Rib M W} (h : At T x p s)
    (hk : ∀ sp s', sp.addr = x → At T x p s' → Passes N G (k (some sp)) s') :
    Passes N G (onRecs (retrievePrefix (M := M) p) >>= k) s := by
  refine Passes.bind (D := False) (wp_onRecs hR
    (wp_ro_recs (wp_retrieve (proj_recs hR) hp h.sane.recs))) ?_
  rintro r s1 ⟨hg1, hi1, hr⟩
  have h1 := h.grow hg1
  cases r with
  | none => exact absurd h1.has hr
  | some sp => exact hk sp s1 (h1.same hr) h1

theorem passes_retrieveMut [Fam W] (hR : ∀ s s', G s s' → Grow T s s') (hp : p.Clean) {α : Type}
    {k : Ref W × Bool → Prog (Rib M W) α} {s : Rib M W} (h : At T x p s)
    (hk : ∀ r s', r.1.addr = x → r.2 = true → At T x p s' →
      Passes N G (k r) s') :
    Passes N G (onRecs (retrievePrefixMut (M := M) p) >>= k) s := by
  refine Passes.bind (D := False) (wp_onRecs hR (wp_retrieveMut (proj_recs hR) hp h.sane.recs)) ?_
  rintro r s1 ⟨hg1, hi1, hr, hid, hf⟩
  have h1 := h.grow hg1
  refine hk r s1 (h1.same hr) ?_ h1
  cases hb : r.2 with
  | true => rfl
  | false => exact absurd h.has (hf hb)

section
variable [Meta M]

theorem passes_pchtUpsert [Fam W] (hR : ∀ s s', G s s' → Grow T s s') (hp : p.Clean) (r : Record M)
    (upd : Option (Meta.TBI M)) {α : Type} {k : _ → Prog (Rib M W) α} {s : Rib M W}
    (h : At T x p s) :
    Passes (sects (ribLocks M W) (.inl x)) G ((pchtUpsert p r upd).zoom Rib.chtL >>= k) s := by
  unfold pchtUpsert
  rw [zoom_bind, bind_assoc']
  refine passes_retrieveMut hR hp h ?_
  rintro ⟨sp, found⟩ s1 rfl hb h1
  cases hb
  dsimp only
  rw [if_neg (by simp), zoom_bind, bind_assoc']
  have e : ∀ (q : Prog (PSlots M W) Unit), (q.zoom PCht.slotsL).zoom Rib.chtL = onRecs q :=
    fun _ => rfl
  rw [e]
  refine Passes.bind (D := False) (wp_onRecs hR (wp_access (proj_recs hR) (p := p)
    (f := fun e : StoredPrefix M W => ((), { e with ps := { e.ps with tag := true } }))
    (fun _ => ⟨rfl, rfl⟩) (fun _ _ h => h) h1.sane.recs h1.entry)) ?_
  rintro _ s2 -
  rw [zoom_bind, bind_assoc']
  exact passes_access (fun v => upsertRecord v r) _ _

theorem passes_insert [Fam W] (hR : ∀ s s', G s s' → Grow T s s') {st : Strategy} {F : Nat}
    (hF : 32 ≤ F) (hst : st ≠ .persistOnly) (p : Prefix W) (r : Record M)
    (upd : Option (Meta.TBI M)) (hT : T p.id r.mui) {s : Rib M W} (h : At T x p.id s) :
    Passes (sects (ribLocks M W) (.inl x)) G (ribInsert st F p.id r upd) s := by
  unfold ribInsert
  refine Passes.bind (D := False) (wp_treeInsert hR p.clean hT (.inr hF) h.sane) ?_
  rintro ex s1 ⟨hg1, -, hex⟩
  obtain ⟨b, rfl⟩ : ∃ b, ex = .ok b := by
    rcases hex with ⟨rfl, _⟩ | rfl <;> exact ⟨_, rfl⟩
  have h1 := h.grow hg1
  dsimp only
  cases st with
  | persistOnly => exact absurd rfl hst
  | writeAhead =>
    unfold ribUpsert
    rw [bind_assoc']
    refine Passes.bind (D := False) (wp_onLsm hR (fun t h => records_long h p r)
      (keys_insert _ _) s1) ?_
    rintro _ s2 ⟨hg2, -⟩
    rw [bind_assoc']
    exact passes_pchtUpsert hR p.clean r upd (h1.grow hg2)
  | persistHistory =>
    unfold ribUpsert
    rw [bind_assoc']
    exact passes_pchtUpsert hR p.clean r upd h1
  | memoryOnly =>
    unfold ribUpsert
    rw [bind_assoc']
    exact passes_pchtUpsert hR p.clean r upd h1

omit [Meta M] in
theorem passes_markMem [Fam W] (hR : ∀ s s', G s s' → Grow T s s') (hp : p.Clean) (m : Mui)
    (l : LTime) (rs : RouteStatus) {α : Type} {k : _ → Prog (Rib M W) α} {s : Rib M W}
    (h : At T x p s) :
    Passes (sects (ribLocks M W) (.inl x)) G (ribMarkMem p m l rs >>= k) s := by
  unfold ribMarkMem
  rw [bind_assoc']
  refine passes_retrieveMut hR hp h ?_
  rintro ⟨sp, found⟩ s1 rfl hb h1
  cases hb
  dsimp only
  rw [if_neg (by simp), bind_assoc']
  exact passes_access (fun v => ((), markStatus v m l rs)) _ _

theorem passes_calcBest [Fam W] (hR : ∀ s s', G s s' → Grow T s s') (hp : p.Clean)
    (tbi : Meta.TBI M) {s : Rib M W} (h : At T x p s) :
    Passes (reads (ribLocks M W) (.inl x)) G (ribCalcBest p tbi) s := by
  unfold ribCalcBest
  refine passes_retrieve hR hp h ?_
  rintro sp s1 rfl h1
  dsimp only
  unfold calculateAndStore onRecs
  rw [zoom_bind, zoom_bind]
  exact passes_read (fun v => bestBackup v tbi) _ _

theorem passes_getValue [Fam W] (hR : ∀ s s', G s s' → Grow T s s') {st : Strategy}
    (hst : st ≠ .persistOnly) (hp : p.Clean) (mui : Option Mui) (iw : Bool) {s : Rib M W}
    (h : At T x p s) : Passes (reads (ribLocks M W) (.inl x)) G (ribGetValue st p mui iw) s := by
  have mem : ∀ (bmin : Mui → Bool) (s1 : Rib M W), At T x p s1 →
      Passes (reads (ribLocks M W) (.inl x)) G (do
        let rs ← onRecs (getRecordsForPrefix p mui iw bmin)
        return (.ok rs : FatalResult (Option (List (Record M))))) s1 := by
    intro bmin s1 h1
    unfold getRecordsForPrefix
    rw [prefixRoot_eq hp]
    simp only [ofOption, ret_bind]
    unfold onRecs
    rw [zoom_bind, zoom_bind, bind_assoc']
    refine Passes.bind (D := False) (wp_onRecs hR (wp_ro_recs (wp_findPrefixLoop
      (relyOK_recs (proj_recs hR)) RO.rfl' (p := p) (lim := maxLevels) (by simp [maxLevels])
      maxLevels 0 16 s1.cht.slots (by simp [maxLevels]) (WalkAt.start h1.sane.recs hp)))) ?_
    rintro r s2 ⟨hg2, hi2, hr⟩
    have h2 := h1.grow hg2
    cases r with
    | none => exact absurd h2.has hr
    | some sp =>
      have := h2.same hr
      subst this
      exact passes_read (fun v => getFilteredRecords v mui iw bmin) _ _
  unfold ribGetValue
  have rd : wp G RO False (withdrawnMuis.zoom Rib.treeL : Prog (Rib M W) _)
      (fun _ s' => Grow T s s') s := wp_readWd hR s
  refine Passes.bind rd ?_
  intro bmin s1 hg1
  cases st with
  | persistOnly => exact absurd rfl hst
  | _ => exact mem bmin s1 (h.grow hg1)

/-- The calls that take the lock of the record map of a prefix that is stored. -/
def Call.TakesRecords (st : Strategy) (p : Prefix W) : Call M W → Prop
  | .insert q _ _ => q = p ∧ st ≠ .persistOnly
  | .withdrawFor q _ _ => q = p ∧ st ≠ .persistOnly
  | .activateFor q _ _ => q = p ∧ st ≠ .persistOnly
  | .getRecords q _ _ => q = p ∧ st ≠ .persistOnly
  | .calcBest q _ => q = p
  | _ => False

theorem passes_call [Fam W] (hR : ∀ s s', G s s' → Grow T s s') {st : Strategy} {F fuel : Nat}
    (hF : 32 ≤ F) {p : Prefix W} {c : Call M W} (hc : c.TakesRecords st p) (hT : c.In T)
    {s : Rib M W} (h : At T x p.id s) :
    Passes (sects (ribLocks M W) (.inl x)) G (c.prog st F fuel) s := by
  cases c with
  | insert q r tbi => obtain ⟨rfl, hst⟩ := hc; exact passes_insert hR hF hst q r tbi hT h
  | withdrawFor q m t =>
    obtain ⟨rfl, hst⟩ := hc
    cases st with
    | persistOnly => exact absurd rfl hst
    | _ => exact passes_markMem hR q.clean _ _ _ h
  | activateFor q m t =>
    obtain ⟨rfl, hst⟩ := hc
    cases st with
    | persistOnly => exact absurd rfl hst
    | _ => exact passes_markMem hR q.clean _ _ _ h
  | getRecords q mui iw => obtain ⟨rfl, hst⟩ := hc; exact (passes_getValue hR hst q.clean _ _ h).mono reads_sects
  | calcBest q tbi => cases hc; exact (passes_calcBest hR p.clean _ h).mono reads_sects
  | _ => exact hc.elim

end
end Rotonda
