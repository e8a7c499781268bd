import Verif.Proofs.Silent
import Verif.Proofs.LsmSpec

/-!
# The order in which concurrent changes take effect

The ghost value is the list of the calls that have taken effect, the most recent
first.
-/

namespace Rotonda

open Prog Spec

variable {M : Type} [Meta M] {W : Nat}

/-! ## Records of one history under the statuses of another -/

theorem globWd_filter (h : History M W) :
    globWd (h.filter fun op => !isGlobal op) = fun _ => false := by
  induction h with
  | nil => rfl
  | cons op h ih =>
    cases op
    all_goals
      first
        | (rw [List.filter_cons_of_pos (by rfl)]; exact ih)
        | (rw [List.filter_cons_of_neg (by simp [isGlobal])]; exact ih)

/-- A function of histories that global status changes do not affect. -/
theorem under_eq {β : Type} (f : History M W → β)
    (h1 : ∀ m h, f (.withdraw m :: h) = f h) (h2 : ∀ m h, f (.activate m :: h) = f h)
    (h3 : ∀ op h h', f h = f h' → isGlobal op = false → f (op :: h) = f (op :: h'))
    (g h : History M W) : f (under g h) = f h := by
  have h4 : f (h.filter fun op => !isGlobal op) = f h := by
    induction h with
    | nil => rfl
    | cons op h ih =>
      cases hg : isGlobal op with
      | false =>
        rw [List.filter_cons_of_pos (by simp [hg])]
        exact h3 _ _ _ ih hg
      | true =>
        rw [List.filter_cons_of_neg (by simp [hg]), ih]
        cases op <;> first | (cases hg; done) | rw [h1] | rw [h2]
  unfold under
  induction g with
  | nil => exact h4
  | cons op g ih =>
    cases hg : isGlobal op with
    | false => rw [List.filter_cons_of_neg (by simp [hg])]; exact ih
    | true =>
      rw [List.filter_cons_of_pos (by simp [hg]), List.cons_append]
      cases op <;> first | (cases hg; done) | (rw [h1]; exact ih) | (rw [h2]; exact ih)

theorem globWd_under (h1 h : History M W) : globWd (under h1 h) = globWd h1 := by
  unfold under
  induction h1 with
  | nil => exact globWd_filter h
  | cons op h1 ih =>
    cases hg : isGlobal op with
    | false =>
      rw [List.filter_cons_of_neg (by simp [hg]), ih]
      cases op <;> first | (cases hg; done) | rfl
    | true =>
      rw [List.filter_cons_of_pos (by simp [hg]), List.cons_append]
      cases op <;> first | (cases hg; done) | (funext k; simp only [globWd]; rw [ih])

theorem tabOf_under (st : Strategy) (h1 h : History M W) : tabOf st (under h1 h) = tabOf st h := by
  refine under_eq (tabOf st) (fun _ _ => rfl) (fun _ _ => rfl) (fun op h h' hh hg => ?_) h1 h
  cases op <;> simp only [tabOf, hh]

theorem recsAt_under (st : Strategy) (h1 h : History M W) (p : Prefix W) :
    recsAt st (under h1 h) p = recsAt st h p := by
  unfold recsAt; rw [tabOf_under]

theorem lsmOf_under (st : Strategy) (h1 h : History M W) : lsmOf st (under h1 h) = lsmOf st h := by
  have := under_eq (fun h => (lsmOf st h, tabOf st h)) (fun _ _ => rfl) (fun _ _ => rfl)
    (fun op h h' hh hg => by
      obtain ⟨h1, h2⟩ := Prod.mk.inj hh
      cases op <;> simp only [lsmOf, tabOf, h1, h2]) h1 h
  exact (Prod.mk.inj this).1

/-! ## The invariant -/

/-- The records in memory are those of the history. -/
structure MemRep (st : Strategy) (H : History M W) (s : PSlots M W) : Prop where
  recs : ∀ a e, s a = some e → ∀ p : Prefix W, p.id = e.id → e.recs = recsAt st H p
  has : ∀ p : Prefix W, recsAt st H p ≠ [] → Has s p.id

theorem MemRep.of_prep {st : Strategy} {H : History M W} {s : PSlots M W} (h : PRep (tabOf st H) s) :
    MemRep st H s := by
  refine ⟨fun a e he p hp => ?_, fun p hp => ?_⟩
  · have := h.at he
    unfold recsAt
    rw [hp, this]; rfl
  · by_contra hn
    have := (h.none_iff p.id).2 hn
    apply hp
    unfold recsAt
    rw [this]; rfl

theorem MemRep.congr {st : Strategy} {H H' : History M W} {s : PSlots M W} (h : MemRep st H s)
    (hr : ∀ p, recsAt st H' p = recsAt st H p) : MemRep st H' s :=
  ⟨fun a e he p hp => by rw [hr]; exact h.recs a e he p hp, fun p hp => h.has p (by rwa [hr] at hp)⟩

theorem MemRep.same {st : Strategy} {H : History M W} {s s' : PSlots M W} (h : MemRep st H s)
    (hs : SameRecs s s') (hi : ChainInv (pfxLayout W) s') : MemRep st H s' := by
  have hhas : ∀ p : Prefix W, recsAt st H p ≠ [] →
      ∃ a e e', s a = some e ∧ s' a = some e' ∧ e'.id = p.id := by
    intro p hp
    obtain ⟨a, e, he, hid⟩ := h.has p hp
    obtain ⟨e', he', hid', _⟩ := hs.1 a e he
    exact ⟨a, e, e', he, he', hid'.trans hid⟩
  refine ⟨fun a e he p hp => ?_, fun p hp => ?_⟩
  · cases hsa : s a with
    | none =>
      rw [hs.2 a e hsa he]
      by_contra hne
      obtain ⟨b, e1, e2, h1, h2, h3⟩ := hhas p (fun hx => hne hx.symm)
      have hab := hi.unique h2 he (h3.trans hp)
      subst hab
      rw [hsa] at h1; cases h1
    | some e0 =>
      obtain ⟨e', he', hid', hr⟩ := hs.1 a e0 hsa
      rw [he] at he'; cases he'
      rw [hr]
      exact h.recs a e0 hsa p (hp.trans hid')
  · obtain ⟨a, _, e', _, h2, h3⟩ := hhas p hp
    exact ⟨a, e', h2, h3⟩

/-- Replacing the records of one entry. -/
theorem MemRep.update {st : Strategy} {H H' : History M W} {s : PSlots M W} (h : MemRep st H s)
    (hi : ChainInv (pfxLayout W) s) {p : Prefix W} {a : Addr} {e e' : StoredPrefix M W}
    (he : s a = some e) (hid : e.id = p.id) (hid' : e'.id = e.id) {u : Recs M → Recs M}
    (hu : e'.recs = u e.recs)
    (hr : ∀ q, recsAt st H' q = if q = p then u (recsAt st H p) else recsAt st H q) :
    MemRep st H' (s.set a e') := by
  refine ⟨fun b f hf q hq => ?_, fun q hq => ?_⟩
  · rw [hr]
    by_cases hb : b = a
    · subst hb
      rw [Slots.set_same] at hf; cases hf
      obtain rfl : q = p := Prefix.id_inj (hq.trans (hid'.trans hid))
      rw [if_pos rfl, hu, h.recs _ e he q (hq.trans hid')]
    · rw [Slots.set_other _ _ hb] at hf
      have hqp : q ≠ p := by
        rintro rfl
        exact hb (hi.unique hf he (hq.symm.trans hid.symm))
      rw [if_neg hqp]
      exact h.recs b f hf q hq
  · rw [hr] at hq
    by_cases hqp : q = p
    · subst hqp
      exact ⟨a, e', Slots.set_same _ _ _, hid'.trans hid⟩
    · rw [if_neg hqp] at hq
      obtain ⟨b, f, hf, hfid⟩ := h.has q hq
      have hb : b ≠ a := by
        rintro rfl
        rw [he] at hf; cases hf
        exact hqp (Prefix.id_inj (hfid.symm.trans hid))
      exact ⟨b, f, by rw [Slots.set_other _ _ hb]; exact hf, hfid⟩

variable {ι : Type} [DecidableEq ι]

omit [Meta M] in
theorem persisted_grow {T : PrefixId W → Mui → Prop} {s s' : Rib M W} (hg : Grow T s s')
    {k : Tag W} (hk : Persisted s.lsm k) : Persisted s'.lsm k := by
  obtain ⟨b, hb⟩ := hk
  obtain ⟨x, hx, h1⟩ := List.mem_map.1 (hg.keys _ (List.mem_map_of_mem hb))
  exact ⟨x.2, by rw [← show x.1 = k.key from h1]; exact hx⟩

theorem recOf_some_append {L H : History M W} {p : Prefix W} {m : Mui} (hk : recOf H p m ≠ none) :
    recOf (L ++ H) p m ≠ none := by
  induction L with
  | nil => exact hk
  | cons op L ih =>
    rw [List.cons_append]
    cases op <;> simp only [recOf] <;> (try split) <;> simp_all

omit [DecidableEq ι] in
theorem recOf_some_later {h : History M W} {calls : ι → Call M W} {l l' : List ι} (hl : l <:+ l')
    {p : Prefix W} {m : Mui} (hk : recOf (histAfter h calls l) p m ≠ none) :
    recOf (histAfter h calls l') p m ≠ none := by
  obtain ⟨d, rfl⟩ := hl
  unfold histAfter at *
  rw [List.filterMap_append, List.append_assoc]
  exact recOf_some_append hk

omit [DecidableEq ι] in
theorem Spec.HistoryEntry.later {h : History M W} {calls : ι → Call M W} {l l' : List ι}
    (hl : l <:+ l') {k : Tag W} {b : Bytes} (hk : HistoryEntry h calls l k b) :
    HistoryEntry h calls l' k b := by
  rcases hk with ⟨i, l2, p, r, tbi, old, h1, h2⟩ | ⟨i, hi, p, m, tm, rs, h1, h2, h3⟩
  · exact .inl ⟨i, l2, p, r, tbi, old, h1.trans hl, h2⟩
  · exact .inr ⟨i, hl.subset hi, p, m, tm, rs, h1, recOf_some_later hl h2, h3⟩

/-- The store holds the records and the global statuses of the calls that took
effect; under the condition `po` also the persisted records.  With `WriteAhead` an insert
that took effect is persisted; with `PersistHistory` only replaced records and markers
are. -/
structure LinInv (st : Strategy) (po : Prop) (T : PrefixId W → Mui → Prop) (h : History M W)
    (calls : ι → Call M W) (x : Rib M W × List ι) : Prop where
  sane : Sane T x.1
  mem : MemRep st (histAfter h calls x.2) x.1.cht.slots
  wds : x.1.tree.wd = ⟨globCount (histAfter h calls x.2), globWd (histAfter h calls x.2)⟩
  lsm : po → x.1.lsm = lsmOf st (histAfter h calls x.2)
  ahead : st = .writeAhead → ∀ j ∈ x.2, ∀ p r tbi, calls j = .insert p r tbi →
    Persisted x.1.lsm (tagOf p r)
  src : st = .persistHistory → ∀ key b, (key, b) ∈ x.1.lsm → (key, b) ∈ lsmOf st h ∨
    ∃ k, key = k.key ∧ HistoryEntry h calls x.2 k b

omit [DecidableEq ι] in
theorem LinInv.wd {st : Strategy} {po : Prop} {T : PrefixId W → Mui → Prop} {h : History M W}
    {calls : ι → Call M W} {x : Rib M W × List ι} (hi : LinInv st po T h calls x) :
    x.1.tree.wd.set = globWd (histAfter h calls x.2) := by rw [hi.wds]

/-- The set of withdrawn muis changes only with its version. -/
def WdStep (s s' : Rib M W) : Prop :=
  s.tree.wd.ver ≤ s'.tree.wd.ver ∧ (s'.tree.wd.ver = s.tree.wd.ver → s'.tree.wd = s.tree.wd)

omit [Meta M] in
theorem WdStep.rfl' (s : Rib M W) : WdStep s s := ⟨Nat.le_refl _, fun _ => rfl⟩

omit [Meta M] in
theorem WdStep.of_eq {s s' : Rib M W} (h : s'.tree.wd = s.tree.wd) : WdStep s s' :=
  ⟨by rw [h], fun _ => h⟩

omit [Meta M] in
theorem WdStep.trans {a b c : Rib M W} (h : WdStep a b) (h' : WdStep b c) : WdStep a c := by
  refine ⟨h.1.trans h'.1, fun hv => ?_⟩
  have h1 := h.1
  have h2 := h'.1
  rw [h'.2 (by omega), h.2 (by omega)]

section
variable (st : Strategy) (po : Prop) (T : PrefixId W → Mui → Prop) (h : History M W)
  (calls : ι → Call M W)

/-- What call `i` expects of the others. -/
structure LinR (i : ι) (x y : Rib M W × List ι) : Prop where
  grow : Grow T x.1 y.1
  wd : WdStep x.1 y.1
  inv : LinInv st po T h calls x → LinInv st po T h calls y
  log : x.2 <:+ y.2
  mine : i ∈ y.2 → i ∈ x.2

/-- The steps of call `i`: it takes effect at most once. -/
structure LinG (i : ι) (x y : Rib M W × List ι) : Prop where
  grow : Grow T x.1 y.1
  wd : WdStep x.1 y.1
  inv : LinInv st po T h calls x → LinInv st po T h calls y
  log : y.2 = x.2 ∨ (y.2 = i :: x.2 ∧ i ∉ x.2)
end

variable {st : Strategy} {po : Prop} {T : PrefixId W → Mui → Prop} {h : History M W}
  {calls : ι → Call M W}

omit [DecidableEq ι] in
theorem LinR.isRely (i : ι) : IsRely (LinR st po T h calls i) where
  refl x := ⟨Grow.rfl' _, WdStep.rfl' _, fun h => h, List.suffix_refl _, fun h => h⟩
  trans a b := ⟨a.grow.trans b.grow, a.wd.trans b.wd, fun x => b.inv (a.inv x), a.log.trans b.log,
    fun x => a.mine (b.mine x)⟩

omit [DecidableEq ι] in
theorem LinG.toR {i j : ι} (hij : i ≠ j) {x y : Rib M W × List ι} (hg : LinG st po T h calls j x y) :
    LinR st po T h calls i x y := by
  refine ⟨hg.grow, hg.wd, hg.inv, ?_, ?_⟩
  · rcases hg.log with h | ⟨h, _⟩ <;> rw [h]
    exact List.suffix_cons _ _
  · rcases hg.log with h | ⟨h, _⟩ <;> rw [h]
    · exact fun h => h
    · intro hm
      rcases List.mem_cons.1 hm with h | h
      · exact absurd h hij
      · exact h

omit [DecidableEq ι] in
/-- A silent step does not take effect. -/
theorem LinInv.silent {s s' : Rib M W} {l : List ι} (hi : LinInv st po T h calls (s, l))
    (hg : Grow T s s') (hs : Silent (po ∨ st = .persistHistory) s s') :
    LinInv st po T h calls (s', l) :=
  ⟨hi.sane.grow hg, hi.mem.same hs.recs (hi.sane.grow hg).recs, by
    change s'.tree.wd = _; rw [hs.wd]; exact hi.wds, fun c => (hs.lsm (.inl c)).trans (hi.lsm c),
    fun c j hj p r tbi hc => persisted_grow hg (hi.ahead c j hj p r tbi hc),
    fun c key b hb => hi.src c key b (by rw [← hs.lsm (.inr c)]; exact hb)⟩

omit [DecidableEq ι] in
/-- The log grows by a call that persists nothing. -/
theorem LinInv.src_cons {i : ι} {s : Rib M W} {l : List ι} (hi : LinInv st po T h calls (s, l))
    (c : st = .persistHistory) {key b : Bytes} (hb : (key, b) ∈ s.lsm) :
    (key, b) ∈ lsmOf st h ∨ ∃ k, key = k.key ∧ HistoryEntry h calls (i :: l) k b := by
  rcases hi.src c key b hb with h1 | ⟨k, h1, h2⟩
  · exact .inl h1
  · exact .inr ⟨k, h1, h2.later (List.suffix_cons _ _)⟩

omit [DecidableEq ι] in
theorem LinInv.ahead_cons {i : ι} {s : Rib M W} {l : List ι} (hi : LinInv st po T h calls (s, l))
    (hA : st = .writeAhead → ∀ p r tbi, calls i = .insert p r tbi → Persisted s.lsm (tagOf p r))
    (c : st = .writeAhead) : ∀ j ∈ i :: l, ∀ p r tbi, calls j = .insert p r tbi →
      Persisted s.lsm (tagOf p r) := by
  intro j hj p r tbi hc
  rcases List.mem_cons.1 hj with rfl | hj
  · exact hA c p r tbi hc
  · exact hi.ahead c j hj p r tbi hc

section
variable {α : Type} {D : Prop} {i : ι} {s : Rib M W} {l : List ι}

/-- The state of affairs before or after call `i` took effect, seen from the log `l`. -/
structure Since (st : Strategy) (po : Prop) (T : PrefixId W → Mui → Prop) (h : History M W)
    (calls : ι → Call M W) (i : ι) (l : List ι) (done : Prop) (x : Rib M W × List ι) : Prop where
  inv : LinInv st po T h calls x
  log : l <:+ x.2
  done : i ∈ x.2 ↔ done

omit [DecidableEq ι] in
theorem Since.rely {done : Prop} {x y : Rib M W × List ι} (hx : Since st po T h calls i l done x)
    (hr : LinR st po T h calls i x y) : Since st po T h calls i l done y :=
  ⟨hr.inv hx.inv, hx.log.trans hr.log, by
    rw [← hx.done]; exact ⟨hr.mine, fun hm => hr.log.subset hm⟩⟩

omit [DecidableEq ι] in
theorem gwp_silent {p : Prog (Rib M W) α} {Q : α → Rib M W → Prop} {done : Prop}
    {x : Rib M W × List ι}
    (hw : wp (Grow T) (Grow T) D p Q x.1) (hq : p.Always (Silent (po ∨ st = .persistHistory)))
    (hx : Since st po T h calls i l done x) :
    gwp (LinR st po T h calls i) (LinG st po T h calls i) D p
      (fun a y => Q a y.1 ∧ Since st po T h calls i l done y) x := by
  refine gwp_of_wp p (R' := Grow T) (G' := fun a b => Grow T a b ∧ Silent (po ∨ st = .persistHistory) a b)
    (P := Since st po T h calls i l done) (fun _ _ h => h.grow) ?_ (fun _ _ hr hp => hp.rely hr) hx
    (wp_always hw hq)
  intro s1 g s2 hp ⟨hg, hs⟩
  exact ⟨⟨hg, .of_eq hs.wd, fun hi => hi.silent hg hs, .inl rfl⟩,
    hp.inv.silent hg hs, hp.log, hp.done⟩

omit [Meta M] in
/-- One access to an entry of the prefix table. -/
theorem gwp_access {γ ρ : Type} {R G : Rib M W × γ → Rib M W × γ → Prop} {a : Addr}
    {f : StoredPrefix M W → ρ × StoredPrefix M W} {Q : ρ → Rib M W × γ → Prop} {x : Rib M W × γ}
    (hx : ∀ y, R x y → ∃ e, y.1.cht.slots a = some e ∧ ∃ g,
      G y ({ y.1 with cht := { y.1.cht with slots := y.1.cht.slots.set a (f e).2 } }, g) ∧
      Q (f e).1 ({ y.1 with cht := { y.1.cht with slots := y.1.cht.slots.set a (f e).2 } }, g)) :
    gwp R G D (onRecs (accessAt a f)) Q x := by
  intro y hr
  obtain ⟨e, he, g, hG, hQ⟩ := hx y hr
  refine ⟨g, ?_, ?_⟩
  · simp only [Rib.chtL, PCht.slotsL, he]
    exact hG
  · simp only [Rib.chtL, PCht.slotsL, he]
    exact hQ

omit [DecidableEq ι] in
theorem histAfter_cons {op : Op M W} (hop : changeOf (calls i) = some op) (l : List ι) :
    histAfter h calls (i :: l) = op :: histAfter h calls l := by
  simp [histAfter, hop]

omit [DecidableEq ι] in
/-- The call takes effect on the records of an entry. -/
theorem gwp_effect {ρ : Type} {op : Op M W} (hop : changeOf (calls i) = some op) (hpo : ¬ po)
    {p : Prefix W} {u : Recs M → Recs M} {a : Addr}
    {f : StoredPrefix M W → ρ × StoredPrefix M W}
    (hf : ∀ e, (f e).2.id = e.id ∧ (f e).2.next = e.next ∧ (f e).2.recs = u e.recs)
    (hk : ∀ rs : Recs M, rs.Keeps (u rs))
    (hr : ∀ H q, recsAt st (op :: H) q = if q = p then u (recsAt st H p) else recsAt st H q)
    (hwd : ∀ H, globWd (op :: H) = globWd H ∧ globCount (op :: H) = globCount H)
    {x : Rib M W × List ι} (he : EntryAt x.1.cht.slots a p.id)
    (hA : st = .writeAhead → ∀ p r tbi, calls i = .insert p r tbi → Persisted x.1.lsm (tagOf p r))
    (hx : Since st po T h calls i l False x) :
    gwp (LinR st po T h calls i) (LinG st po T h calls i) D (onRecs (accessAt a f))
      (fun r y => (∃ e : StoredPrefix M W, e.recs = recsAt st (histAfter h calls y.2.tail) p ∧
          y.2.head? = some i ∧ r = (f e).1) ∧
        EntryAt y.1.cht.slots a p.id ∧ Since st po T h calls i l True y ∧ l <:+ y.2.tail) x := by
  refine gwp_access fun y hy => ?_
  have hy' := hx.rely hy
  obtain ⟨e, he1, hid⟩ := he.ext hy.grow.recs.ext
  obtain ⟨hf1, hf2, hf3⟩ := hf e
  have hnot : i ∉ y.2 := fun hm => (hy'.done.1 hm)
  have hgr : GRecs y.1.cht.slots (y.1.cht.slots.set a (f e).2) :=
    gRecs_set he1 hf1 hf2 (by rw [hf3]; exact hk _)
  have hgrow : Grow T y.1 { y.1 with cht := { y.1.cht with slots := y.1.cht.slots.set a (f e).2 } } :=
    grow_recs hgr
  have hinv : ∀ (hI : LinInv st po T h calls y), LinInv st po T h calls
      ({ y.1 with cht := { y.1.cht with slots := y.1.cht.slots.set a (f e).2 } }, i :: y.2) := by
    intro hI
    refine ⟨hI.sane.grow hgrow, ?_, ?_, fun c => absurd c hpo, hI.ahead_cons fun c p r tbi hc =>
      persisted_grow hy.grow (hA c p r tbi hc), fun c key b hb => hI.src_cons c hb⟩
    · rw [histAfter_cons hop]
      exact hI.mem.update hI.sane.recs he1 hid hf1 hf3 (fun q => hr _ q)
    · rw [histAfter_cons hop, (hwd _).1, (hwd _).2]
      exact hI.wds
  refine ⟨e, he1, i :: y.2, ⟨hgrow, .rfl' _, hinv, .inr ⟨rfl, hnot⟩⟩,
    ⟨e, hy'.inv.mem.recs a e he1 p hid.symm, rfl, rfl⟩, EntryAt.ext ⟨e, he1, hid⟩ hgr.ext,
    ⟨hinv hy'.inv, hy'.log.trans (List.suffix_cons _ _), by simp⟩, hy'.log⟩

end

end Rotonda
