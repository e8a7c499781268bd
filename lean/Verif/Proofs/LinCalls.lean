import Verif.Proofs.Lin

/-!
# When each call takes effect
-/

namespace Rotonda

open Prog Spec

variable {M : Type} [Meta M] {W : Nat} {ι : Type}
variable {st : Strategy} {po : Prop} {T : PrefixId W → Mui → Prop} {h : History M W}
  {calls : ι → Call M W} {D : Prop} {i : ι} {l : List ι}

/-- The specification of what call `i` does to the store and the log. -/
abbrev lwp {α : Type} (st : Strategy) (po : Prop) (T : PrefixId W → Mui → Prop) (h : History M W)
    (calls : ι → Call M W) (D : Prop) (i : ι) (p : Prog (Rib M W) α)
    (Q : α → Rib M W × List ι → Prop) (x : Rib M W × List ι) : Prop :=
  gwp (LinR st po T h calls i) (LinG st po T h calls i) D p Q x

theorem recsAt_other {st : Strategy} (hm : st.inMemory = false) (H : History M W) (p : Prefix W) :
    recsAt st H p = [] := by
  have : tabOf st H = fun _ => none := by
    induction H with
    | nil => rfl
    | cons op H ih => cases op <;> simp [tabOf, hm, ih]
  unfold recsAt
  rw [this]; rfl

section
variable {done : Prop} {x : Rib M W × List ι}

/-- What is persisted stays so. -/
theorem lwp_keep {α : Type} {C : Prop} {k : Tag W} {p : Prog (Rib M W) α}
    {Q : α → Rib M W × List ι → Prop} (hk : C → Persisted x.1.lsm k)
    (hw : lwp st po T h calls D i p Q x) :
    lwp st po T h calls D i p (fun a y => Q a y ∧ (C → Persisted y.1.lsm k)) x :=
  gwp_frame p (fun _ _ hr hp c => persisted_grow hr.grow (hp c))
    (fun _ _ hr hp c => persisted_grow hr.grow (hp c)) hk hw

/-- One update of the counters of the prefix table. -/
theorem lwp_chtCounter {f : PCht M W → PCht M W} (hf : ∀ t, (f t).slots = t.slots)
    (hx : Since st po T h calls i l done x) :
    lwp st po T h calls D i ((Prog.atomic fun t => ((), f t)).zoom Rib.chtL)
      (fun _ y => Since st po T h calls i l done y) x := by
  refine gwp_conseq _ (gwp_silent (Q := fun _ _ => True) ?_ (silent_counters hf) hx)
    (fun _ _ h => h.2)
  intro s _
  refine ⟨⟨NR.rfl' _, fun h => h, fun h => h, ?_, fun h => h, fun _ h => h⟩, trivial⟩
  change GRecs s.cht.slots (f s.cht).slots
  rw [hf]; exact GRecs.rfl' _

/-- One update of the counters of the store. -/
theorem lwp_count {f : Rib M W → Rib M W} (hf : ∀ s, Grow T s (f s) ∧ Silent (po ∨ st = .persistHistory) s (f s))
    (hx : Since st po T h calls i l done x) :
    lwp st po T h calls D i (Prog.atomic fun s => ((), f s))
      (fun _ y => Since st po T h calls i l done y) x :=
  gwp_conseq _ (gwp_silent (wp_count (fun _ _ h => h) (fun s => (hf s).1) x.1)
    (always_atomic fun s => (hf s).2) hx) (fun _ _ h => h.2)

theorem lwp_onRecs [Fam W] {α : Type} {p : Prog (PSlots M W) α} {Q : α → PSlots M W → Prop}
    (hw : wp (proj (fun s : Rib M W => s.cht.slots) (Grow T)) GRecs D p Q x.1.cht.slots)
    (hs : p.Always SameRecs) (hx : Since st po T h calls i l done x) :
    lwp st po T h calls D i (onRecs p)
      (fun a y => Q a y.1.cht.slots ∧ Since st po T h calls i l done y) x :=
  gwp_conseq _ (gwp_silent (wp_onRecs (fun _ _ h => h) hw) (silent_onRecs hs) hx)
    (fun _ _ h => ⟨h.1.2, h.2⟩)

/-! ## Inserts -/

theorem lwp_treeInsert [Fam W] (p : Prefix W) (m : Mui) (hT : T p.id m) {F : Nat} (hF : D ∨ 32 ≤ F)
    (hx : Since st po T h calls i l done x) :
    lwp st po T h calls D i ((setPrefixExists F p.id m).zoom Rib.treeL)
      (fun r y => (∃ b, r = .ok b) ∧ Since st po T h calls i l done y) x := by
  refine gwp_conseq _ (gwp_silent (wp_treeInsert (fun _ _ h => h) p.clean hT hF hx.inv.sane)
    (silent_onTree (wd_setPrefixExists _ _ _)) hx) ?_
  rintro r y ⟨⟨_, _, ⟨rfl, _⟩ | rfl⟩, hy⟩ <;> exact ⟨⟨_, rfl⟩, hy⟩

/-- The record an insert replaced, given the log before it took effect. -/
def replacedBy (h : History M W) (calls : ι → Call M W) (l : List ι) (p : Prefix W) (m : Mui) :
    Option (MMV M) := (recOf (histAfter h calls l) p m).map Record.toMMV

theorem lwp_upsertAt {p : Prefix W} {r : Record M} {tbi : Option (Meta.TBI M)}
    (hop : calls i = .insert p r tbi) (hm : st.inMemory = true) (hpo : ¬ po) {a : Addr}
    (he : EntryAt x.1.cht.slots a p.id)
    (hA : st = .writeAhead → Persisted x.1.lsm (tagOf p r))
    (hx : Since st po T h calls i l False x) :
    lwp st po T h calls D i (onRecs (upsertRecordAt a r))
      (fun o y => EntryAt y.1.cht.slots a p.id ∧ ∃ l2, l <:+ l2 ∧
        o.map Prod.fst = replacedBy h calls l2 p r.mui ∧
        Since st po T h calls i (i :: l2) True y) x := by
  refine gwp_conseq _ (gwp_effect (op := .insert p r tbi) (by rw [hop]; rfl) hpo (p := p)
    (u := fun rs => rs.insert r.mui r.toMMV) (fun e => ⟨rfl, rfl, rfl⟩)
    (fun rs => keeps_insert _ _ _) (fun H q => recsAt_insert hm) (fun _ => ⟨rfl, rfl⟩) he
    (fun c p' r' tbi' hc => by rw [hop] at hc; cases hc; exact hA c) hx) ?_
  rintro o ⟨s, y⟩ ⟨⟨e, h1, h2, rfl⟩, he', hS, hl⟩
  cases y with
  | nil => cases h2
  | cons j l2 =>
    obtain rfl : j = i := Option.some.inj h2
    refine ⟨he', l2, hl, ?_, hS.inv, List.suffix_refl _, hS.done⟩
    change ((e.recs.get r.mui).map _).map Prod.fst = _
    rw [Option.map_map, h1]
    change ((recsAt st (histAfter h calls l2) p).get r.mui).map (fun v => v) = _
    rw [get_recsAt hm, Option.map_id']
    rfl

/-- The answer is an error. -/
def IsError {α : Type} (res : Except StoreError α) : Prop := ∃ e, res = .error e

theorem lwp_pchtUpsert [Fam W] {p : Prefix W} {r : Record M} {tbi : Option (Meta.TBI M)}
    (hop : calls i = .insert p r tbi) (hm : st.inMemory = true) (hpo : ¬ po)
    (hA : st = .writeAhead → Persisted x.1.lsm (tagOf p r))
    (hx : Since st po T h calls i l False x) :
    lwp st po T h calls D i ((pchtUpsert p.id r tbi).zoom Rib.chtL)
      (fun res y => ∃ l2, l <:+ l2 ∧ Since st po T h calls i (i :: l2) True y ∧
        (∀ rep o, res = .ok (rep, o) → o = replacedBy h calls l2 p r.mui ∧
          (rep.muiNew = false → o ≠ none)) ∧ (IsError res → tbi ≠ none)) x := by
  unfold pchtUpsert
  simp only [zoom_bind, gwp_bind]
  refine gwp_conseq _ (lwp_keep hA (lwp_onRecs (wp_retrieveMut (proj_recs (fun _ _ h => h)) p.clean
    hx.inv.sane.recs) (sameRecs_retrievePrefixMut _) hx)) ?_
  rintro ⟨sp, found⟩ x1 ⟨⟨⟨_, he1, _, _⟩, hx1⟩, hA1⟩
  dsimp only
  split
  · simp only [zoom_bind, gwp_bind]
    refine gwp_conseq _ (lwp_upsertAt hop hm hpo he1 hA1 hx1) ?_
    rintro old x2 ⟨_, l2, hl, ho, hx2⟩
    cases old with
    | some v =>
      exact ⟨l2, hl, hx2, (fun rep o h => by cases h; exact ⟨ho, fun _ h => by cases h⟩), (fun ⟨_, h⟩ => by cases h)⟩
    | none =>
      simp only [zoom_bind, gwp_bind]
      refine gwp_conseq _ (lwp_chtCounter (fun _ => rfl) hx2) ?_
      intro _ x3 hx3
      refine gwp_conseq _ (lwp_chtCounter (fun _ => rfl) hx3) ?_
      intro _ x4 hx4
      exact ⟨l2, hl, hx4, (fun rep o h => by cases h; exact ⟨ho, fun h => by cases h⟩), (fun ⟨_, h⟩ => by cases h)⟩
  · simp only [zoom_bind, gwp_bind]
    refine gwp_conseq _ (lwp_keep hA1 (lwp_onRecs (wp_access (proj_recs (fun _ _ h => h)) (p := p.id)
      (fun _ => ⟨rfl, rfl⟩) (fun _ _ h => h) hx1.inv.sane.recs he1) (sameRecs_setPsOutdated _) hx1)) ?_
    rintro _ x2 ⟨⟨⟨_, he2, _⟩, hx2⟩, hA2⟩
    refine gwp_conseq _ (lwp_upsertAt hop hm hpo he2 hA2 hx2) ?_
    rintro old x3 ⟨he3, l2, hl, ho, hx3⟩
    have hend : ∀ x4 : Rib M W × List ι, EntryAt x4.1.cht.slots sp.addr p.id →
        Since st po T h calls i (i :: l2) True x4 →
        lwp st po T h calls D i ((do
          let sel ← match tbi with
            | some tbi => (calculateAndStore sp.addr tbi).zoom PCht.slotsL
            | none => pure (.ok (none, none))
          match sel with
          | .error e => return .error e
          | .ok _ => return .ok (⟨false, true, (old.map Prod.snd).getD 1⟩, old.map Prod.fst) :
            Prog (PCht M W) (Except StoreError (UpsertReport × Option (MMV M)))).zoom Rib.chtL)
        (fun res y => ∃ l2, l <:+ l2 ∧ Since st po T h calls i (i :: l2) True y ∧
          (∀ rep o, res = .ok (rep, o) → o = replacedBy h calls l2 p r.mui ∧
          (rep.muiNew = false → o ≠ none)) ∧ (IsError res → tbi ≠ none)) x4 := by
      intro x4 he4 hx4
      cases tbi with
      | none =>
        exact ⟨l2, hl, hx4, (fun rep o h => by cases h; exact ⟨ho, fun h => by cases h⟩), (fun ⟨_, h⟩ => by cases h)⟩
      | some tbi =>
        simp only [zoom_bind]
        rw [lwp, gwp_bind]
        refine gwp_conseq _ (lwp_onRecs (wp_calculateAndStore (proj_recs (fun _ _ h => h)) tbi
          hx4.inv.sane.recs he4) (sameRecs_calculateAndStore _ _) hx4) ?_
        rintro sel x5 ⟨_, hx5⟩
        cases sel with
        | error e => exact ⟨l2, hl, hx5, (fun rep o h => by cases h), fun _ h => by cases h⟩
        | ok v =>
          exact ⟨l2, hl, hx5, (fun rep o h => by cases h; exact ⟨ho, fun h => by cases h⟩), (fun ⟨_, h⟩ => by cases h)⟩
    cases old with
    | none =>
      simp only [zoom_bind, gwp_bind]
      refine gwp_conseq _ (gwp_conseq _ (gwp_silent (Q := fun _ s => EntryAt s.cht.slots sp.addr p.id)
        ?_ (silent_counters (fun _ => rfl)) hx3) (fun _ _ h => h)) ?_
      · intro s hs
        exact ⟨⟨NR.rfl' _, fun h => h, fun h => h, GRecs.rfl' _, fun h => h, fun _ h => h⟩,
          he3.ext hs.recs.ext⟩
      rintro _ x4 ⟨he4, hx4⟩
      have := hend x4 he4 hx4
      simp only [zoom_bind, lwp, gwp_bind] at this
      exact this
    | some v =>
      have := hend x3 he3 hx3
      simp only [zoom_bind, lwp, gwp_bind] at this
      exact this

/-- `PersistOnly`: the insert takes effect when the record is persisted. -/
theorem lwp_persistShort [Fam W] {p : Prefix W} {r : Record M} {tbi : Option (Meta.TBI M)}
    (hop : calls i = .insert p r tbi) (hst : st = .persistOnly)
    (hx : Since st po T h calls i l False x) :
    lwp st po T h calls D i (onLsm fun t => persistShort t p.id r)
      (fun _ y => ∃ l2, l <:+ l2 ∧ Since st po T h calls i (i :: l2) True y) x := by
  refine gwp_atomic fun y hy => ?_
  have hy' := hx.rely hy
  have hg : Grow T y.1 { y.1 with lsm := persistShort y.1.lsm p.id r } :=
    ⟨NR.rfl' _, fun h => h, fun h => h, GRecs.rfl' _, fun h => records_short h p r,
      keys_insert _ _ _⟩
  have hc : ∀ l, histAfter h calls (i :: l) = .insert p r tbi :: histAfter h calls l := fun l =>
    histAfter_cons (by rw [hop]; rfl) l
  have hinv : LinInv st po T h calls y → LinInv st po T h calls
      ({ y.1 with lsm := persistShort y.1.lsm p.id r }, i :: y.2) := by
    intro hI
    subst hst
    refine ⟨hI.sane.grow hg, ?_, ?_, fun c => ?_, (fun c => by cases c),
      (fun c => by cases c)⟩
    · rw [hc]
      exact hI.mem.congr fun q => by rw [recsAt_other rfl, recsAt_other rfl]
    · rw [hc]; exact hI.wds
    · rw [hc]
      change persistShort y.1.lsm p.id r = _
      rw [hI.lsm c]; rfl
  exact ⟨i :: y.2, ⟨hg, .rfl' _, hinv, .inr ⟨rfl, fun hm => hy'.done.1 hm⟩⟩, y.2, hy'.log,
    hinv hy'.inv, List.suffix_refl _, by simp⟩

theorem lwp_onLsm [Fam W] {f : Lsm → Lsm} (hpo : ¬ (po ∨ st = .persistHistory)) (hf : ∀ t, Records W t → Records W (f t))
    (hk : ∀ t k, k ∈ t.map Prod.fst → k ∈ (f t).map Prod.fst)
    (hx : Since st po T h calls i l done x) :
    lwp st po T h calls D i (onLsm f) (fun _ y => Since st po T h calls i l done y) x :=
  gwp_conseq _ (gwp_silent (wp_onLsm (fun _ _ h => h) hf hk x.1)
    (always_atomic fun _ => ⟨SameRecs.rfl' _, rfl, fun c => absurd c hpo⟩) hx) (fun _ _ h => h.2)

theorem persisted_long (t : Lsm) (p : Prefix W) (r : Record M) :
    Persisted (persistLong t p.id r) (tagOf p r) := ⟨_, Lsm.self_mem_insert _ _ _⟩

omit [Meta M] in
theorem persisted_marker (t : Lsm) (p : Prefix W) (m : Mui) (tm : LTime) :
    Persisted (insertEmptyRecord t p.id m tm) ⟨p, m, tm, .withdrawn⟩ := ⟨_, Lsm.self_mem_insert _ _ _⟩

/-- `PersistHistory` persists what it may. -/
theorem lwp_history [Fam W] {k : Tag W} {b : Bytes} {f : Lsm → Lsm} (hst : st = .persistHistory)
    (hpo : ¬ po) (hf : ∀ t, f t = t.insert k.key b) (hr : ∀ t, Records W t → Records W (f t))
    (hl : HistoryEntry h calls l k b)
    (hx : Since st po T h calls i l done x) :
    lwp st po T h calls D i (onLsm f)
      (fun _ y => Since st po T h calls i l done y ∧ Persisted y.1.lsm k) x := by
  refine gwp_atomic fun y hy => ?_
  have hy' := hx.rely hy
  have hg : Grow T y.1 { y.1 with lsm := f y.1.lsm } :=
    ⟨NR.rfl' _, fun h => h, fun h => h, GRecs.rfl' _, hr _, by
      simp only [hf]; exact keys_insert _ _ _⟩
  have hinv : LinInv st po T h calls y → LinInv st po T h calls ({ y.1 with lsm := f y.1.lsm }, y.2) := by
    intro hI
    refine ⟨hI.sane.grow hg, hI.mem, hI.wds, fun c => absurd c hpo, fun c => ?_, fun c key b' hb => ?_⟩
    · rw [hst] at c; cases c
    · change (key, b') ∈ f y.1.lsm at hb
      rw [hf] at hb
      rcases Lsm.mem_insert_sub hb with hb | hb
      · cases hb
        exact .inr ⟨k, rfl, hl.later hy'.log⟩
      · exact hI.src c key b' hb
  refine ⟨y.2, ⟨hg, .rfl' _, hinv, .inl rfl⟩, ⟨hinv hy'.inv, hy'.log, hy'.done⟩, b, ?_⟩
  change _ ∈ f y.1.lsm
  rw [hf]
  exact Lsm.self_mem_insert _ _ _

/-- What an insert leaves behind. -/
def InsertPost (st : Strategy) (po : Prop) (T : PrefixId W → Mui → Prop) (h : History M W)
    (calls : ι → Call M W) (i : ι) (l : List ι) (p : Prefix W) (m : Mui) (ok had bad : Prop)
    (y : Rib M W × List ι) : Prop :=
  ∃ l2, l <:+ l2 ∧ Since st po T h calls i (i :: l2) True y ∧
    (st = .persistHistory → ok → ∀ old, recOf (histAfter h calls l2) p m = some old →
      Persisted y.1.lsm (tagOf p old)) ∧
    (had → recOf (histAfter h calls l2) p m ≠ none) ∧ (bad → ∀ p r, calls i ≠ .insert p r none)

/-- The report says that there was a record for the mui. -/
def HadMui (res : Except StoreError UpsertReport) : Prop := ∃ rep, res = .ok rep ∧ rep.muiNew = false

theorem had_of_replaced {p : Prefix W} {m : Mui} {rep : UpsertReport} {o : Option (MMV M)}
    (ho : o = replacedBy h calls l p m ∧ (rep.muiNew = false → o ≠ none))
    (hh : HadMui (.ok rep)) : recOf (histAfter h calls l) p m ≠ none := by
  obtain ⟨_, c, hm⟩ := hh
  cases c
  intro hn
  refine ho.2 hm ?_
  rw [ho.1, replacedBy, hn]
  rfl

theorem lwp_ribUpsert [Fam W] {p : Prefix W} {r : Record M} {tbi : Option (Meta.TBI M)}
    (hop : calls i = .insert p r tbi) (hpo : po → st = .persistOnly) (hT : T p.id r.mui) {F : Nat}
    (hF : D ∨ 32 ≤ F) (hx : Since st po T h calls i l False x) :
    lwp st po T h calls D i (ribUpsert st F p.id r tbi)
      (fun res y => InsertPost st po T h calls i l p r.mui (∃ rep, res = .ok rep)
        (HadMui res) (IsError res) y) x := by
  have hbad : tbi ≠ none → ∀ p r, calls i ≠ .insert p r none := by
    rintro ht p' r' hc
    rw [hop] at hc
    cases hc
    exact ht rfl
  cases st with
  | writeAhead =>
    have hn : ¬ po := fun c => by cases hpo c
    unfold ribUpsert
    simp only [lwp, gwp_bind]
    refine gwp_atomic fun y hy => ?_
    have hy' := hx.rely hy
    have hg : Grow T y.1 { y.1 with lsm := persistLong y.1.lsm p.id r } :=
      ⟨NR.rfl' _, fun h => h, fun h => h, GRecs.rfl' _, fun h => records_long h p r, keys_insert _ _ _⟩
    have hs : Silent (po ∨ Strategy.writeAhead = .persistHistory) y.1
        { y.1 with lsm := persistLong y.1.lsm p.id r } :=
      ⟨SameRecs.rfl' _, rfl, fun c => c.elim (fun c => absurd c hn) (fun c => by cases c)⟩
    refine ⟨y.2, ⟨hg, .rfl' _, fun hI => hI.silent hg hs, .inl rfl⟩, ?_⟩
    refine gwp_conseq _ (lwp_pchtUpsert hop rfl hn (fun _ => persisted_long _ _ _)
      ⟨hy'.inv.silent hg hs, hy'.log, hy'.done⟩) ?_
    rintro (_ | ⟨rep, o⟩) x2 ⟨l2, hl, hx2, ho⟩
    · exact ⟨l2, hl, hx2, fun c => (by cases c), fun ⟨_, c, _⟩ => (by cases c), fun _ => hbad (ho.2 ⟨_, rfl⟩)⟩
    · exact ⟨l2, hl, hx2, fun c => (by cases c), fun c => had_of_replaced (ho.1 _ _ rfl) c,
        fun ⟨_, c⟩ => by cases c⟩
  | memoryOnly =>
    have hn : ¬ po := fun c => by cases hpo c
    unfold ribUpsert
    simp only [lwp, gwp_bind]
    refine gwp_conseq _ (lwp_pchtUpsert hop rfl hn (fun c => by cases c) hx) ?_
    rintro (_ | ⟨rep, o⟩) x2 ⟨l2, hl, hx2, ho⟩
    · exact ⟨l2, hl, hx2, fun c => (by cases c), fun ⟨_, c, _⟩ => (by cases c), fun _ => hbad (ho.2 ⟨_, rfl⟩)⟩
    · exact ⟨l2, hl, hx2, fun c => (by cases c), fun c => had_of_replaced (ho.1 _ _ rfl) c,
        fun ⟨_, c⟩ => by cases c⟩
  | persistHistory =>
    have hn : ¬ po := fun c => by cases hpo c
    unfold ribUpsert
    simp only [lwp, gwp_bind]
    refine gwp_conseq _ (lwp_pchtUpsert hop rfl hn (fun c => by cases c) hx) ?_
    rintro (_ | ⟨rep, _ | v⟩) x2 ⟨l2, hl, hx2, ho⟩
    · exact ⟨l2, hl, hx2, fun _ ⟨_, c⟩ => (by cases c), fun ⟨_, c, _⟩ => (by cases c),
        fun _ => hbad (ho.2 ⟨_, rfl⟩)⟩
    · refine ⟨l2, hl, hx2, fun _ _ old hold => ?_, fun c => had_of_replaced (ho.1 _ _ rfl) c,
        fun ⟨_, c⟩ => by cases c⟩
      have := (ho.1 _ _ rfl).1
      rw [replacedBy, hold] at this
      cases this
    · simp only [gwp_bind]
      have hv := (ho.1 _ _ rfl).1
      unfold replacedBy at hv
      cases hold : recOf (histAfter h calls l2) p r.mui with
      | none => rw [hold] at hv; cases hv
      | some old =>
        rw [hold] at hv
        cases hv
        have hm := recOf_mui hold
        rw [toRecord_toMMV hm]
        refine gwp_conseq _ (lwp_history (k := tagOf p old) (b := Meta.toBytes old.md) rfl hn
          (fun _ => rfl) (fun t h => records_long h p old)
          (.inl ⟨i, l2, p, r, tbi, old, List.suffix_refl _, hop, hold, rfl, rfl⟩) hx2) ?_
        rintro _ y ⟨hy, hk⟩
        refine ⟨l2, hl, hy, fun _ _ old' hold' => ?_, (fun _ c => by rw [hold] at c; cases c),
          fun ⟨_, c⟩ => by cases c⟩
        rw [hold] at hold'
        cases hold'
        exact hk
  | persistOnly =>
    unfold ribUpsert
    simp only [lwp, gwp_bind]
    refine gwp_conseq _ (lwp_treeInsert p r.mui hT hF hx) ?_
    rintro _ x1 ⟨⟨b, rfl⟩, hx1⟩
    simp only [gwp_bind]
    refine gwp_conseq _ (lwp_persistShort hop rfl hx1) ?_
    exact fun _ _ ⟨l2, hl, h⟩ => ⟨l2, hl, h, fun c => (by cases c), (fun ⟨_, c, c'⟩ => by cases c; cases c'),
      fun ⟨_, c⟩ => by cases c⟩

omit [Meta M] in
theorem silent_incRoutes (s : Rib M W) : Silent po s { s with routes := s.routes + 1 } :=
  ⟨SameRecs.rfl' _, rfl, fun _ => rfl⟩

omit [Meta M] in
theorem silent_incPrefixes (n : Nat) (s : Rib M W) :
    Silent po s { s with
      prefixes := fun l => if l = n ∧ n ≤ 128 then s.prefixes l + 1 else s.prefixes l } :=
  ⟨SameRecs.rfl' _, rfl, fun _ => rfl⟩

theorem InsertPost.since {p : Prefix W} {m : Mui} {ok had bad : Prop}
    (hx : InsertPost st po T h calls i l p m ok had bad x) : Since st po T h calls i l True x := by
  obtain ⟨l2, hl, hx, _⟩ := hx
  exact ⟨hx.inv, hl.trans ((List.suffix_cons _ _).trans hx.log), hx.done⟩

theorem lwp_countPost {p : Prefix W} {m : Mui} {ok ok' had had' bad bad' : Prop} (hok : ok' → ok)
    (hhad : had' → had) (hbad : bad' → bad)
    {f : Rib M W → Rib M W} (hf : ∀ s, Grow T s (f s) ∧ Silent (po ∨ st = .persistHistory) s (f s))
    (hx : InsertPost st po T h calls i l p m ok had bad x) :
    lwp st po T h calls D i (Prog.atomic fun s => ((), f s))
      (fun _ y => InsertPost st po T h calls i l p m ok' had' bad' y) x := by
  obtain ⟨l2, hl, hx, hk, hh, hb⟩ := hx
  refine gwp_conseq _ (gwp_frame _ (P := fun y => st = .persistHistory → ok → ∀ old,
    recOf (histAfter h calls l2) p m = some old → Persisted y.1.lsm (tagOf p old))
    (fun _ _ hr hp c c' old hold => persisted_grow hr.grow (hp c c' old hold))
    (fun _ _ hr hp c c' old hold => persisted_grow hr.grow (hp c c' old hold)) hk (lwp_count hf hx)) ?_
  rintro _ y ⟨hy, hk⟩
  exact ⟨l2, hl, hy, fun c c' => hk c (hok c'), fun c => hh (hhad c), fun c => hb (hbad c)⟩

/-- `insert` takes effect. -/
theorem lwp_ribInsert [Fam W] {p : Prefix W} {r : Record M} {tbi : Option (Meta.TBI M)}
    (hop : calls i = .insert p r tbi) (hpo : po → st = .persistOnly) (hT : T p.id r.mui) {F : Nat}
    (hF : D ∨ 32 ≤ F) (hx : Since st po T h calls i l False x) :
    lwp st po T h calls D i (ribInsert st F p.id r tbi)
      (fun res y => InsertPost st po T h calls i l p r.mui (∃ rep, res = .ok rep)
        (HadMui res) (IsError res) y) x := by
  unfold ribInsert
  simp only [lwp, gwp_bind]
  refine gwp_conseq _ (lwp_treeInsert p r.mui hT hF hx) ?_
  rintro _ x1 ⟨⟨b, rfl⟩, hx1⟩
  simp only [gwp_bind]
  refine gwp_conseq _ (lwp_ribUpsert hop hpo hT hF hx1) ?_
  rintro (e | rep) x2 hx2
  · exact hx2
  have hend : ∀ x3 : Rib M W × List ι, InsertPost st po T h calls i l p r.mui True (rep.muiNew = false) False x3 →
      lwp st po T h calls D i (if b = false then do
          Rib.incPrefixes p.id.len
          return .ok { rep with prefixNew := true }
        else return .ok rep)
      (fun (res : Except StoreError UpsertReport) y =>
        InsertPost st po T h calls i l p r.mui (∃ rep, res = .ok rep)
        (HadMui res) (IsError res) y) x3 := by
    intro x3 hx3
    split
    · simp only [lwp, gwp_bind]
      exact gwp_conseq _ (lwp_countPost (had' := HadMui (.ok { rep with prefixNew := true }))
        (bad' := IsError (Except.ok ({ rep with prefixNew := true } : UpsertReport)))
        (fun _ => trivial) (fun ⟨_, c, hm⟩ => by cases c; exact hm) (fun ⟨_, c⟩ => by cases c)
        (fun s => ⟨grow_incPrefixes _ s, silent_incPrefixes _ s⟩) hx3) (fun _ _ h => h)
    · obtain ⟨l2, hl, h1, h2, h3, _⟩ := hx3
      exact ⟨l2, hl, h1, fun c _ => h2 c trivial, (fun ⟨_, c, hm⟩ => by cases c; exact h3 hm),
        fun ⟨_, c⟩ => by cases c⟩
  dsimp only
  split
  · rw [gwp_bind]
    refine gwp_conseq _ (lwp_countPost (ok' := True) (fun _ => ⟨rep, rfl⟩) (fun c => ⟨rep, rfl, c⟩)
      (bad' := False) (fun c => c.elim)
      (fun s => ⟨grow_incRoutes s, silent_incRoutes s⟩) hx2) ?_
    intro _ x3 hx3
    exact hend x3 hx3
  · obtain ⟨l2, hl, h1, h2, h3, _⟩ := hx2
    exact hend x2 ⟨l2, hl, h1, fun c _ => h2 c ⟨rep, rfl⟩, fun c => h3 ⟨rep, rfl, c⟩, fun c => c.elim⟩

/-! ## Marking routes -/

theorem lwp_ribMarkMem [Fam W] {op : Op M W} (hop : changeOf (calls i) = some op) (hpo : ¬ po)
    {p : Prefix W} {m : Mui} {t : LTime} {rs : RouteStatus} (hni : ∀ p r tbi, calls i ≠ .insert p r tbi)
    (hr : ∀ H q, recsAt st (op :: H) q =
      if q = p then markStatus (recsAt st H p) m t rs else recsAt st H q)
    (hwd : ∀ H, globWd (op :: H) = globWd H ∧ globCount (op :: H) = globCount H)
    (hx : Since st po T h calls i l False x) :
    lwp st po T h calls D i (ribMarkMem p.id m t rs)
      (fun r y => match r with
        | none => Since st po T h calls i l False y
        | some sp => EntryAt y.1.cht.slots sp.addr p.id ∧
          ∃ l2, l <:+ l2 ∧ Since st po T h calls i (i :: l2) True y) x := by
  unfold ribMarkMem
  rw [lwp, gwp_bind]
  refine gwp_conseq _ (lwp_onRecs (wp_retrieveMut (proj_recs (fun _ _ h => h)) p.clean
    hx.inv.sane.recs) (sameRecs_retrievePrefixMut _) hx) ?_
  rintro ⟨sp, found⟩ x1 ⟨⟨_, he1, _, _⟩, hx1⟩
  dsimp only
  split
  · exact hx1
  · rw [gwp_bind]
    refine gwp_conseq _ (gwp_effect hop hpo (p := p) (u := fun rs' => markStatus rs' m t rs)
      (fun e => ⟨rfl, rfl, rfl⟩) (fun rs' => keeps_mark _ _ _ _) hr hwd he1
      (fun _ p r tbi hc => absurd hc (hni p r tbi)) hx1) ?_
    rintro _ ⟨s, y⟩ ⟨⟨_, _, h2, _⟩, he2, hx2, hl⟩
    cases y with
    | nil => cases h2
    | cons j l2 =>
      obtain rfl : j = i := Option.some.inj h2
      exact ⟨he2, l2, hl, hx2.inv, List.suffix_refl _, hx2.done⟩

/-- What a status change of a route leaves behind. -/
def MarkPost (st : Strategy) (po : Prop) (T : PrefixId W → Mui → Prop) (h : History M W)
    (calls : ι → Call M W) (i : ι) (l : List ι) (p : Prefix W) (m : Mui) (t : LTime) (ok : Prop)
    (y : Rib M W × List ι) : Prop :=
  Since st po T h calls i l ok y ∧ (st = .persistHistory → ok → ∃ l2, i :: l2 <:+ y.2 ∧
    (recOf (histAfter h calls l2) p m ≠ none → Persisted y.1.lsm ⟨p, m, t, .withdrawn⟩))

theorem lwp_ribPersistMarker [Fam W] (hst : st = .persistHistory) (hpo : ¬ po) (sp : Ref W)
    {p : Prefix W} {m : Mui} {t : LTime} {rs : RouteStatus} (hop : MarksRoute (calls i) p m t rs)
    (he : EntryAt x.1.cht.slots sp.addr p.id) {l2 : List ι} (hl : l <:+ l2)
    (hx : Since st po T h calls i (i :: l2) True x) :
    lwp st po T h calls D i (ribPersistMarker sp p.id m t)
      (fun _ y => MarkPost st po T h calls i l p m t True y) x := by
  unfold ribPersistMarker
  rw [lwp, gwp_bind]
  refine gwp_conseq _ (gwp_silent (wp_ro_grow (wp_onRecsRO (wp_readEntry (proj_recs (fun _ _ h => h))
    hx.inv.sane.recs he))) (silent_readOnly (ReadOnly.onRecs (readOnly_readAt _ _))) hx) ?_
  rintro r y ⟨⟨_, _, e, he1, hid, rfl⟩, hy⟩
  have hrec : getRecordForMui e.recs m true = (recOf (histAfter h calls y.2) p m) := by
    rw [hy.inv.mem.recs _ e he1 p hid.symm, getRecordForMui, get_recsAt (by rw [hst]; rfl)]
    cases hr : recOf (histAfter h calls y.2) p m with
    | none => rfl
    | some r =>
      simp only [Option.map_some, Option.bind_some, true_or, if_true]
      rw [toRecord_toMMV (recOf_mui hr)]
  have hS : ∀ z : Rib M W × List ι, Since st po T h calls i y.2 True z →
      Since st po T h calls i l True z ∧ i :: l2 <:+ z.2 := fun z hz =>
    ⟨⟨hz.inv, hl.trans ((List.suffix_cons _ _).trans (hy.log.trans hz.log)), hz.done⟩,
      hy.log.trans hz.log⟩
  have hy' : Since st po T h calls i y.2 True y := ⟨hy.inv, List.suffix_refl _, hy.done⟩
  rw [hrec]
  cases hr : recOf (histAfter h calls y.2) p m with
  | none =>
    refine ⟨(hS y hy').1, fun _ _ => ⟨l2, (hS y hy').2, fun hk => ?_⟩⟩
    exact absurd hr (recOf_some_later ((List.suffix_cons _ _).trans hy.log) hk)
  | some r =>
    refine gwp_conseq _ (lwp_history (l := y.2) (k := ⟨p, m, t, .withdrawn⟩) (b := []) hst hpo
      (fun _ => rfl) (fun t' h => records_marker h p m t) (.inr ⟨i, hy.log.subset (by simp), p, m, t, rs, hop,
        by rw [hr]; simp, rfl, rfl⟩) hy') ?_
    rintro _ z ⟨hz, hk⟩
    exact ⟨(hS z hz).1, fun _ _ => ⟨l2, (hS z hz).2, fun _ => hk⟩⟩

theorem markPost_none {p : Prefix W} {m : Mui} {t : LTime} {ok : Prop} (hok : ¬ ok)
    (hx : Since st po T h calls i l False x) : MarkPost st po T h calls i l p m t ok x :=
  ⟨⟨hx.inv, hx.log, by simpa [hok] using hx.done⟩, fun _ c => absurd c hok⟩

theorem markPost_some {p : Prefix W} {m : Mui} {t : LTime} {ok : Prop} (hok : ok)
    (hst : st ≠ .persistHistory) (hx : ∃ l2, l <:+ l2 ∧ Since st po T h calls i (i :: l2) True x) :
    MarkPost st po T h calls i l p m t ok x := by
  obtain ⟨l2, hl, hx⟩ := hx
  exact ⟨⟨hx.inv, hl.trans ((List.suffix_cons _ _).trans hx.log), by simpa [hok] using hx.done⟩,
    fun c => absurd c hst⟩

/-- `mark_mui_as_withdrawn_for_prefix` takes effect when it returns `Ok`. -/
theorem lwp_withdrawFor [Fam W] {p : Prefix W} {m : Mui} {t : LTime}
    (hop : calls i = .withdrawFor p m t) (hm : st.inMemory = true) (hpo : ¬ po)
    (hx : Since st po T h calls i l False x) :
    lwp st po T h calls D i (ribMarkWithdrawnForPrefix st p.id m t)
      (fun r y => MarkPost st po T h calls i l p m t (r = .ok ()) y) x := by
  have hmem := lwp_ribMarkMem (D := D) (op := .withdrawFor p m t) (by rw [hop]; rfl) hpo
    (fun _ _ _ hc => by rw [hop] at hc; cases hc)
    (fun H q => recsAt_withdrawFor hm) (fun _ => ⟨rfl, rfl⟩) hx
  cases st with
  | persistOnly => cases hm
  | writeAhead | memoryOnly =>
    unfold ribMarkWithdrawnForPrefix
    simp only [lwp, gwp_bind]
    refine gwp_conseq _ hmem ?_
    rintro (_ | sp) y hy
    · exact markPost_none (by simp) hy
    · exact markPost_some rfl (by simp) hy.2
  | persistHistory =>
    unfold ribMarkWithdrawnForPrefix
    simp only [lwp, gwp_bind]
    refine gwp_conseq _ hmem ?_
    rintro (_ | sp) y hy
    · exact markPost_none (by simp) hy
    · obtain ⟨he, l2, hl, hy⟩ := hy
      simp only [gwp_bind]
      refine gwp_conseq _ (lwp_ribPersistMarker rfl hpo sp (.inl ⟨hop, rfl⟩) he hl hy) ?_
      intro _ z hz
      exact ⟨⟨hz.1.inv, hz.1.log, by simpa using hz.1.done⟩, fun c _ => hz.2 c trivial⟩

/-- `mark_mui_as_active_for_prefix` takes effect when it returns `Ok`. -/
theorem lwp_activateFor [Fam W] {p : Prefix W} {m : Mui} {t : LTime}
    (hop : calls i = .activateFor p m t) (hm : st.inMemory = true) (hpo : ¬ po)
    (hx : Since st po T h calls i l False x) :
    lwp st po T h calls D i (ribMarkActiveForPrefix st p.id m t)
      (fun r y => MarkPost st po T h calls i l p m t (r = .ok ()) y) x := by
  have hmem := lwp_ribMarkMem (D := D) (op := .activateFor p m t) (by rw [hop]; rfl) hpo
    (fun _ _ _ hc => by rw [hop] at hc; cases hc)
    (fun H q => recsAt_activateFor hm) (fun _ => ⟨rfl, rfl⟩) hx
  cases st with
  | persistOnly => cases hm
  | writeAhead | memoryOnly =>
    unfold ribMarkActiveForPrefix
    simp only [lwp, gwp_bind]
    refine gwp_conseq _ hmem ?_
    rintro (_ | sp) y hy
    · exact markPost_none (by simp) hy
    · exact markPost_some rfl (by simp) hy.2
  | persistHistory =>
    unfold ribMarkActiveForPrefix
    simp only [lwp, gwp_bind]
    refine gwp_conseq _ hmem ?_
    rintro (_ | sp) y hy
    · exact markPost_none (by simp) hy
    · obtain ⟨he, l2, hl, hy⟩ := hy
      simp only [gwp_bind]
      refine gwp_conseq _ (lwp_ribPersistMarker rfl hpo sp (.inr ⟨hop, rfl⟩) he hl hy) ?_
      intro _ z hz
      exact ⟨⟨hz.1.inv, hz.1.log, by simpa using hz.1.done⟩, fun c _ => hz.2 c trivial⟩

/-! ## Marking routes withdrawn with `PersistOnly` -/

theorem keptOf_some_cons {op : Op M W} {H : History M W} {p : Prefix W} {m : Mui} {k : Kept}
    (hk : keptOf H p m = some k) : ∃ k', keptOf (op :: H) p m = some k' := by
  cases op <;> simp only [keptOf] <;> (try split) <;> simp [hk]

theorem keptOf_some_append {L H : History M W} {p : Prefix W} {m : Mui} {k : Kept}
    (hk : keptOf H p m = some k) : ∃ k', keptOf (L ++ H) p m = some k' := by
  induction L with
  | nil => exact ⟨k, hk⟩
  | cons op L ih =>
    obtain ⟨k', hk'⟩ := ih
    exact keptOf_some_cons hk'

theorem keptOf_some_later {l l' : List ι} (hl : l <:+ l') {p : Prefix W} {m : Mui} {k : Kept}
    (hk : keptOf (histAfter h calls l) p m = some k) :
    ∃ k', keptOf (histAfter h calls l') p m = some k' := by
  obtain ⟨d, rfl⟩ := hl
  unfold histAfter at *
  rw [List.filterMap_append, List.append_assoc]
  exact keptOf_some_append hk

theorem lsmOf_withdrawFor [Fam W] (H : History M W) (p : Prefix W) (m : Mui) (t : LTime) :
    lsmOf .persistOnly (.withdrawFor p m t :: H) =
      if (keptOf H p m).isSome then
        (lsmOf .persistOnly H).insert (shortKeyBytes p.id m) (headerBytes t .withdrawn)
      else lsmOf .persistOnly H := by
  simp only [lsmOf, recordsWithKeys, (poRep_lsmOf H).scan_pair]
  cases keptOf H p m with
  | none => rfl
  | some x =>
    simp only [List.map_cons, List.map_nil, rewriteFold, rewriteHeader, PoEntry.enc_bytes,
      decodeRecord_encode p.len_lt, Option.map_some, Option.isSome, if_true]

/-- With `PersistOnly` a withdrawal takes effect when it reads, if there is no record, and
otherwise when it writes. -/
theorem lwp_poWithdrawFor [Fam W] {p : Prefix W} {m : Mui} {t : LTime}
    (hop : calls i = .withdrawFor p m t) (hpo : po) (hst : st = .persistOnly)
    (hx : Since st po T h calls i l False x) :
    lwp st po T h calls D i (ribMarkWithdrawnForPrefix .persistOnly p.id m t)
      (fun r y => Since st po T h calls i l (r = .ok ()) y) x := by
  subst hst
  have hc : ∀ l, histAfter h calls (i :: l) = .withdrawFor p m t :: histAfter h calls l := fun l =>
    histAfter_cons (by rw [hop]; rfl) l
  have hmem : ∀ {H H' : History M W} {s}, MemRep .persistOnly H s → MemRep .persistOnly H' s :=
    fun hM => hM.congr fun q => by rw [recsAt_other rfl, recsAt_other rfl]
  unfold ribMarkWithdrawnForPrefix
  rw [lwp, gwp_bind]
  refine gwp_atomic fun y hy => ?_
  have hy' := hx.rely hy
  have hscan : recordsWithKeys y.1.lsm p.id m = match keptOf (histAfter h calls y.2) p m with
      | none => []
      | some k => [longKeyBytes p.id m k.ltime k.status ++ k.bytes] := by
    unfold recordsWithKeys
    rw [hy'.inv.lsm hpo, (poRep_lsmOf _).scan_pair]
    cases keptOf (histAfter h calls y.2) p m with
    | none => rfl
    | some k => simp only [List.map_cons, List.map_nil, PoEntry.enc_bytes]
  dsimp only
  rw [hscan]
  cases hk : keptOf (histAfter h calls y.2) p m with
  | none =>
    have hinv : LinInv .persistOnly po T h calls y →
        LinInv .persistOnly po T h calls (y.1, i :: y.2) := by
      intro hI
      refine ⟨hI.sane, hmem hI.mem, by rw [hc]; exact hI.wds, fun c => ?_, (fun c => by cases c),
        (fun c => by cases c)⟩
      rw [hc, lsmOf_withdrawFor, hk]
      exact hI.lsm c
    refine ⟨i :: y.2, ⟨Grow.rfl' _, .rfl' _, hinv, .inr ⟨rfl, fun hm => hy'.done.1 hm⟩⟩, ?_⟩
    exact ⟨hinv hy'.inv, hy'.log.trans (List.suffix_cons _ _), by simp⟩
  | some k =>
    refine ⟨y.2, ⟨Grow.rfl' _, .rfl' _, fun h => h, .inl rfl⟩, ?_⟩
    unfold rewriteAll
    simp only [gwp_bind]
    refine gwp_atomic fun z hz => ?_
    have hz' := hy'.rely hz
    obtain ⟨k', hk'⟩ := keptOf_some_later hz.log hk
    have hw : rewriteHeader W z.1.lsm t .withdrawn
        (longKeyBytes p.id m k.ltime k.status ++ k.bytes) =
        some (z.1.lsm.insert (shortKeyBytes p.id m) (headerBytes t .withdrawn)) := by
      simp only [rewriteHeader, decodeRecord_encode p.len_lt, Option.map_some]
    have hg : Grow T z.1 { z.1 with
        lsm := z.1.lsm.insert (shortKeyBytes p.id m) (headerBytes t .withdrawn) } :=
      ⟨NR.rfl' _, fun h => h, fun h => h, GRecs.rfl' _, fun h =>
        records_insert h ⟨p, m, t, .withdrawn⟩ [] (by simp [Tag.key, longKeyBytes]), keys_insert _ _ _⟩
    have hinv : LinInv .persistOnly po T h calls z → LinInv .persistOnly po T h calls ({ z.1 with
        lsm := z.1.lsm.insert (shortKeyBytes p.id m) (headerBytes t .withdrawn) }, i :: z.2) := by
      intro hI
      refine ⟨hI.sane.grow hg, hmem hI.mem, by rw [hc]; exact hI.wds, fun c => ?_,
        (fun c => by cases c), (fun c => by cases c)⟩
      rw [hc, lsmOf_withdrawFor, hk', ← hI.lsm c]
      rfl
    refine ⟨i :: z.2, ?_, ?_⟩
    · rw [hw]
      exact ⟨hg, .rfl' _, hinv, .inr ⟨rfl, fun hm => hz'.done.1 hm⟩⟩
    · rw [hw]
      exact ⟨hinv hz'.inv, hz'.log.trans (List.suffix_cons _ _), by simp⟩

/-! ## Global statuses -/

omit [Meta M] in
/-- One action on the tree. -/
theorem gwp_tree {γ ρ : Type} {R G : Rib M W × γ → Rib M W × γ → Prop}
    {f : Tree W → ρ × Tree W} {Q : ρ → Rib M W × γ → Prop} {x : Rib M W × γ}
    (hx : ∀ y, R x y → ∃ r t, f y.1.tree = (r, t) ∧ ∃ g,
      G y ({ y.1 with tree := t }, g) ∧ Q r ({ y.1 with tree := t }, g)) :
    gwp R G D ((Prog.atomic f).zoom Rib.treeL) Q x := by
  intro y hr
  obtain ⟨r, t, hf, g, hG, hQ⟩ := hx y hr
  refine ⟨g, ?_, ?_⟩
  · simp only [Rib.treeL, hf]
    exact hG
  · simp only [Rib.treeL, hf]
    exact hQ

/-- After a lost race the loop never ends. -/
theorem lwp_updateLost {cur : Nat} : ∀ (fuel : Nat) (new : Mui → Bool) (x : Rib M W × List ι)
    (_ : Since st po T h calls i l False x) (_ : cur < x.1.tree.wd.ver)
    (Q : Unit → Rib M W × List ι → Prop),
    lwp st po T h calls True i ((updateWithdrawnLoop cur fuel new).zoom Rib.treeL) Q x := by
  intro fuel
  induction fuel with
  | zero => intro _ _ _ _ _; trivial
  | succ n ih =>
    intro new x hx hlt Q
    unfold updateWithdrawnLoop
    simp only [zoom_bind, lwp, gwp_bind]
    refine gwp_tree fun y hy => ?_
    have hle := hy.wd.1
    have hv : ¬ y.1.tree.wd.ver = cur := by omega
    have hy' := hx.rely hy
    refine ⟨_, _, if_neg hv, y.2, ⟨Grow.rfl' _, .rfl' _, fun h => h, .inl rfl⟩, ?_⟩
    exact ih _ _ hy' (by change _ < y.1.tree.wd.ver; omega) _

theorem lwp_update [Fam W] {op : Op M W} (hop : changeOf (calls i) = some op)
    (hni : ∀ p r tbi, calls i ≠ .insert p r tbi) {u : (Mui → Bool) → Mui → Bool}
    (hwd : ∀ H, globWd (op :: H) = u (globWd H) ∧ globCount (op :: H) = globCount H + 1)
    (hr : ∀ H q, recsAt st (op :: H) q = recsAt st H q)
    (hl : ∀ H, lsmOf st (op :: H) = lsmOf st H) (F : Nat)
    (hx : Since st po T h calls i l False x) :
    lwp st po T h calls True i ((do
      let cur ← Prog.read (fun t : Tree W => t.wd)
      updateWithdrawnLoop cur.ver (F + 1) (u cur.set) : Prog (Tree W) Unit).zoom Rib.treeL)
      (fun _ y => Since st po T h calls i l True y) x := by
  simp only [zoom_bind, lwp, gwp_bind]
  refine gwp_tree fun y hy => ⟨_, _, rfl, y.2, ⟨Grow.rfl' _, .rfl' _, fun h => h, .inl rfl⟩, ?_⟩
  have hy' := hx.rely hy
  unfold updateWithdrawnLoop
  simp only [zoom_bind, gwp_bind]
  refine gwp_tree fun z hz => ?_
  have hz' := hy'.rely hz
  by_cases hv : z.1.tree.wd.ver = y.1.tree.wd.ver
  · have hset : z.1.tree.wd = y.1.tree.wd := hz.wd.2 hv
    have hg : Grow T z.1 { z.1 with tree := { z.1.tree with
        wd := ⟨z.1.tree.wd.ver + 1, u y.1.tree.wd.set⟩ } } := grow_wd rfl
    have hc : histAfter h calls (i :: z.2) = op :: histAfter h calls z.2 := histAfter_cons hop _
    have hinv : LinInv st po T h calls z → LinInv st po T h calls ({ z.1 with tree := { z.1.tree with
        wd := ⟨z.1.tree.wd.ver + 1, u y.1.tree.wd.set⟩ } }, i :: z.2) := by
      intro hI
      refine ⟨hI.sane.grow hg, ?_, ?_, fun c => ?_, hI.ahead_cons fun _ p r tbi hc =>
        absurd hc (hni p r tbi), fun c key b hb => hI.src_cons c hb⟩
      · rw [hc]; exact hI.mem.congr (hr _)
      · rw [hc, (hwd _).1, (hwd _).2, ← hset]
        change (⟨z.1.tree.wd.ver + 1, u z.1.tree.wd.set⟩ : WdCell) = _
        rw [hI.wds]
      · rw [hc, hl]; exact hI.lsm c
    refine ⟨_, _, if_pos hv, i :: z.2, ⟨hg, ⟨Nat.le_succ _, fun hv => ?_⟩, hinv,
      .inr ⟨rfl, fun hm => hz'.done.1 hm⟩⟩, hinv hz'.inv, hz'.log.trans (List.suffix_cons _ _), by simp⟩
    exact absurd hv (Nat.succ_ne_self _)
  · have hle := hz.wd.1
    refine ⟨_, _, if_neg hv, z.2, ⟨Grow.rfl' _, .rfl' _, fun h => h, .inl rfl⟩, ?_⟩
    exact lwp_updateLost _ _ _ hz' (by
      change y.1.tree.wd.ver ≤ z.1.tree.wd.ver at hle
      change _ < z.1.tree.wd.ver
      omega) _

/-! ## Reads -/

/-- The records for a prefix and the set of withdrawn muis are read one after the
other. -/
def ReadAt (st : Strategy) (h : History M W) (calls : ι → Call M W) (l : List ι)
    (p : Prefix W) (mui : Option Mui) (iw : Bool) (v : Option (List (Record M)))
    (y : Rib M W × List ι) : Prop :=
  ∃ l1 l2, l <:+ l1 ∧ l1 <:+ l2 ∧ l2 <:+ y.2 ∧
    v = valueOf st (under (histAfter h calls l1) (histAfter h calls l2)) p mui iw

theorem lwp_readWd (hx : Since st po T h calls i l done x) :
    lwp st po T h calls D i (withdrawnMuis.zoom Rib.treeL : Prog (Rib M W) (Mui → Bool))
      (fun b y => b = globWd (histAfter h calls y.2) ∧ Since st po T h calls i l done y) x := by
  intro y hy
  have hy' := hx.rely hy
  exact ⟨y.2, ⟨Grow.rfl' _, .rfl' _, fun h => h, .inl rfl⟩, hy'.inv.wd, hy'⟩

omit [Meta M] in
theorem filtered_nil (mui : Option Mui) (iw : Bool) (bmin : Mui → Bool) :
    getFilteredRecords ([] : Recs M) mui iw bmin = none := by
  cases mui <;> cases iw <;> rfl

theorem decode_entries [Fam W] (l : List (PoEntry W)) :
    (l.map fun e => (.ok (e.enc.1 ++ e.enc.2) : FatalResult Bytes)).mapM
      (decodeEntry (M := M) W) = .ok (l.map fun e => e.kept.toRecord e.mui) := by
  rw [mapM_ok (g := fun b => match decodeEntry (M := M) W b with
    | .ok x => x | .error _ => ⟨0, 0, .active, Meta.ofBytes []⟩)]
  · rw [List.map_map]
    congr 1
    apply List.map_congr_left
    intro e _
    simp only [Function.comp, decodeEntry_enc]
  · intro b hb
    obtain ⟨e, _, rfl⟩ := List.mem_map.1 hb
    rw [decodeEntry_enc]

/-- `get_records`. -/
theorem lwp_ribGetValue [Fam W] (hst : st.inMemory = true ∨ (po ∧ st = .persistOnly))
    (p : Prefix W) (mui : Option Mui) (iw : Bool) (hx : Since st po T h calls i l done x) :
    lwp st po T h calls D i (ribGetValue st p.id mui iw)
      (fun r y => (∃ v, r = .ok v ∧ ReadAt st h calls l p mui iw v y) ∧
        Since st po T h calls i l done y) x := by
  have hmem : ∀ (x1 : Rib M W × List ι), Since st po T h calls i l done x1 →
      (∀ H1 H : History M W, valueOf st (under H1 H) p mui iw =
        getFilteredRecords (recsAt st H p) mui iw (globWd H1)) →
      lwp st po T h calls D i (do
        let rs ← onRecs (getRecordsForPrefix p.id mui iw (globWd (histAfter h calls x1.2)))
        return (.ok rs : FatalResult (Option (List (Record M)))))
      (fun r y => (∃ v, r = .ok v ∧ ReadAt st h calls l p mui iw v y) ∧
        Since st po T h calls i l done y) x1 := by
    intro x1 hx1 hval
    have hx1' : Since st po T h calls i x1.2 done x1 := ⟨hx1.inv, List.suffix_refl _, hx1.done⟩
    rw [lwp, gwp_bind]
    refine gwp_conseq _ (gwp_silent (wp_ro_grow (wp_onRecsRO (wp_getRecords (proj_recs (fun _ _ h => h))
      p.clean mui iw _ hx1.inv.sane.recs)))
      (silent_readOnly (ReadOnly.onRecs (readOnly_getRecordsForPrefix _ _ _ _))) hx1') ?_
    rintro r y ⟨⟨_, hr, _⟩, hy⟩
    refine ⟨⟨r, rfl, x1.2, y.2, hx1.log, hy.log, List.suffix_refl _, ?_⟩,
      hy.inv, hx1.log.trans hy.log, hy.done⟩
    rw [hval]
    rcases hr with ⟨rfl, hn⟩ | ⟨a, e, he, hid, rfl⟩
    · have : recsAt st (histAfter h calls y.2) p = [] := by
        by_contra hne
        exact hn (hy.inv.mem.has p hne)
      rw [this, filtered_nil]
    · rw [hy.inv.mem.recs a e he p hid.symm]
  unfold ribGetValue
  rw [lwp, gwp_bind]
  refine gwp_conseq _ (lwp_readWd hx) ?_
  rintro b x1 ⟨rfl, hx1⟩
  cases st with
  | writeAhead | persistHistory | memoryOnly =>
    refine hmem x1 hx1 fun H1 H => ?_
    unfold valueOf
    simp only [recsAt_under, globWd_under]
  | persistOnly =>
    have hpo : po := by
      rcases hst with h | h
      · cases h
      · exact h.1
    simp only [gwp_bind]
    intro y hy
    have hy' := hx1.rely hy
    refine ⟨y.2, ⟨Grow.rfl' _, .rfl' _, fun h => h, .inl rfl⟩, ?_⟩
    have hP : ∀ v, v = valueOf .persistOnly (under (histAfter h calls x1.2) (histAfter h calls y.2)) p
        mui iw → ReadAt .persistOnly h calls l p mui iw v y := fun v hv =>
      ⟨x1.2, y.2, hx1.log, hy.log, List.suffix_refl _, hv⟩
    obtain ⟨o, ho, _⟩ := po_records (under (histAfter h calls x1.2) (histAfter h calls y.2)) p mui iw
    have hval : valueOf .persistOnly (under (histAfter h calls x1.2) (histAfter h calls y.2)) p mui iw =
        o.map fun l => l.map fun e => e.kept.toRecord (M := M) e.mui := by
      unfold valueOf
      simp only [ho]
      cases o with
      | none => rfl
      | some l => simp only [Option.map_some, decode_entries]
    rw [lsmOf_under, globWd_under, ← hy'.inv.lsm hpo] at ho
    simp only [gwp]
    rw [ho]
    cases o with
    | none => exact ⟨⟨none, rfl, hP _ (by rw [hval]; rfl)⟩, hy'⟩
    | some l =>
      dsimp only [Option.map_some, Prog.ofOption, gwp]
      rw [decode_entries]
      exact ⟨⟨_, rfl, hP _ (by rw [hval]; rfl)⟩, hy'⟩

end

end Rotonda
