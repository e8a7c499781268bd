import Verif.Proofs.ConcRib
import Verif.Proofs.ConcIter
import Verif.Proofs.QuerySeq

/-!
# Every call, run concurrently with all others
-/

namespace Rotonda

open Prog Spec

variable {M : Type} {W : Nat}
variable {T : PrefixId W → Mui → Prop} {R : Rib M W → Rib M W → Prop} {D : Prop}

/-! ## Inserts -/

/-- The tree has the pair. -/
def Placed (p : PrefixId W) (m : Mui) (s : Rib M W) : Prop :=
  (0 < p.len → Full p m s.tree.slots) ∧
  (p.len = 0 → s.tree.defaultExists = true ∧ RbmSet s.tree.slots (rootNodeId W) m)

theorem Placed.grow {p : PrefixId W} {m : Mui} {s s' : Rib M W} (h : Placed p m s)
    (hg : Grow T s s') : Placed p m s' :=
  ⟨fun h0 => (h.1 h0).ext hg.nodes.1, fun h0 => ⟨hg.dflt (h.2 h0).1, (h.2 h0).2.ext hg.nodes.1⟩⟩

/-- The tree has the prefix. -/
def Known (p : PrefixId W) (s : Rib M W) : Prop :=
  (0 < p.len ∧ PfxSet s.tree.slots p) ∨ (p.len = 0 ∧ s.tree.defaultExists = true)

theorem Known.grow {p : PrefixId W} {s s' : Rib M W} (h : Known p s)
    (hg : Grow T s s') : Known p s' := by
  rcases h with ⟨h0, h⟩ | ⟨h0, h⟩
  · exact .inl ⟨h0, h.ext hg.nodes.1⟩
  · exact .inr ⟨h0, hg.dflt h⟩

theorem Placed.known {p : PrefixId W} {m : Mui} {s : Rib M W} (h : Placed p m s) : Known p s := by
  by_cases h0 : 0 < p.len
  · exact .inl ⟨h0, (h.1 h0).2⟩
  · exact .inr ⟨by omega, (h.2 (by omega)).1⟩

theorem wp_treeInsert [Fam W] (hR : ∀ s s', R s s' → Grow T s s') {p : PrefixId W} (hp : p.Clean)
    {m : Mui} (hT : T p m) {F : Nat} (hF : D ∨ 32 ≤ F) {s : Rib M W} (hs : Sane T s) :
    wp R (Grow T) D ((setPrefixExists F p m).zoom Rib.treeL)
      (fun r s' => Grow T s s' ∧ Placed p m s' ∧
        ((r = .ok false ∧ ¬ Known p s) ∨ r = .ok true)) s := by
  by_cases h0 : 0 < p.len
  · refine wp_conseq _ (wp_onTree hT hR (wp_setPrefixExists (proj_tree hR) (hF.imp id .inr) hp h0
      (J := fun _ => True) (K := True) (fun _ _ _ _ => trivial) (fun _ _ _ _ => trivial)
      (fun _ _ _ => trivial) hs.nodes trivial)) ?_
    rintro r s' ⟨hg, _, hfull, hres⟩
    refine ⟨hg, ⟨fun _ => hfull, fun h => by omega⟩, ?_⟩
    rcases hres with ⟨h, h'⟩ | ⟨h, _⟩
    · refine .inl ⟨h, ?_⟩
      rintro (⟨_, hk⟩ | ⟨hk, _⟩)
      · exact h' hk
      · omega
    · exact .inr h
  · have h0' : p.len = 0 := by omega
    refine wp_conseq _ (wp_onTree hT hR (wp_setDefaultExists (proj_tree hR) ?_ hp h0'
      (J := fun _ => True) (K := True) (fun _ _ _ _ => trivial)
      (fun _ _ _ => trivial) hs.nodes trivial)) ?_
    · rintro _ _ ⟨s, s', h, rfl, rfl⟩; exact (hR _ _ h).dflt
    rintro r s' ⟨hg, _, hd, hrbm, hres⟩
    refine ⟨hg, ⟨fun h => by omega, fun _ => ⟨hd, hrbm⟩⟩, ?_⟩
    rcases hres with ⟨h, h'⟩ | ⟨h, _⟩
    · refine .inl ⟨h, ?_⟩
      rintro (⟨hk, _⟩ | ⟨_, hk⟩)
      · omega
      · rw [h'] at hk; cases hk
    · exact .inr h

theorem wp_grow_post {α : Type} (hR : ∀ s s', R s s' → Grow T s s') {prog : Prog (Rib M W) α}
    {Q : α → Rib M W → Prop} {s : Rib M W} (h : wp R (Grow T) D prog Q s) :
    wp R (Grow T) D prog (fun a s' => Grow T s s' ∧ Q a s') s :=
  wp_carry (P := fun s' => Grow T s s') (fun _ _ h hp => hp.trans (hR _ _ h))
    (fun _ _ h hp => hp.trans h) _ (Grow.rfl' s) h

/-- One update of the counters of the store. -/
theorem wp_count (hR : ∀ s s', R s s' → Grow T s s') {f : Rib M W → Rib M W}
    (hf : ∀ s, Grow T s (f s)) (s : Rib M W) :
    wp R (Grow T) D (Prog.atomic fun s => ((), f s)) (fun _ s' => Grow T s s') s := by
  apply wp_atomic
  intro s1 hr
  exact ⟨hf _, (hR _ _ hr).trans (hf _)⟩

theorem grow_incRoutes (s : Rib M W) : Grow T s { s with routes := s.routes + 1 } :=
  ⟨NR.rfl' _, fun h => h, fun h => h, GRecs.rfl' _, fun h => h, fun _ h => h⟩

theorem grow_incPrefixes (n : Nat) (s : Rib M W) :
    Grow T s { s with
      prefixes := fun l => if l = n ∧ n ≤ 128 then s.prefixes l + 1 else s.prefixes l } :=
  ⟨NR.rfl' _, fun h => h, fun h => h, GRecs.rfl' _, fun h => h, fun _ h => h⟩

variable [Meta M]

theorem records_long {t : Lsm} (h : Records W t) (p : Prefix W) (r : Record M) :
    Records W (persistLong t p.id r) :=
  records_insert h ⟨p, r.mui, r.ltime, r.status⟩ (Meta.toBytes r.md) rfl

theorem records_short {t : Lsm} (h : Records W t) (p : Prefix W) (r : Record M) :
    Records W (persistShort t p.id r) :=
  records_insert h ⟨p, r.mui, r.ltime, r.status⟩ (Meta.toBytes r.md) (by
    simp [Tag.key, longKeyBytes])

omit [Meta M] in
theorem records_marker {t : Lsm} (h : Records W t) (p : Prefix W) (m : Mui) (l : LTime) :
    Records W (insertEmptyRecord t p.id m l) :=
  records_insert h ⟨p, m, l, .withdrawn⟩ [] rfl

omit [Meta M] in
theorem records_rewrite [Fam W] {t : Lsm} (h : Records W t) (l : LTime) (rs : RouteStatus)
    {b : Bytes} {k : Tag W} {c : Bytes} (hb : b = k.key ++ c) :
    ∃ t', rewriteHeader W t l rs b = some t' ∧ Records W t' ∧
      ∀ x, x ∈ t.map Prod.fst → x ∈ t'.map Prod.fst := by
  unfold rewriteHeader
  rw [hb, decode_tag]
  exact ⟨_, rfl, records_insert h ⟨k.pfx, k.mui, l, rs⟩ [] (by simp [Tag.key, longKeyBytes]),
    fun x hx => Lsm.mem_keys_insert.2 (.inr hx)⟩

omit [Meta M] in
theorem keys_insert (k v : Bytes) (t : Lsm) (x : Bytes) (h : x ∈ t.map Prod.fst) :
    x ∈ (t.insert k v).map Prod.fst := Lsm.mem_keys_insert.2 (.inr h)

/-- There is a record for the pair, in memory or persisted. -/
def Recorded (st : Strategy) (p : PrefixId W) (m : Mui) (s : Rib M W) : Prop :=
  match st with
  | .persistOnly => shortKeyBytes p m ∈ s.lsm.map Prod.fst
  | _ => HasRec s.cht.slots p m

omit [Meta M] in
theorem Recorded.grow {st : Strategy} {p : PrefixId W} {m : Mui} {s s' : Rib M W}
    (h : Recorded st p m s) (hg : Grow T s s') : Recorded st p m s' := by
  cases st with
  | persistOnly => exact hg.keys _ h
  | writeAhead | persistHistory | memoryOnly => exact HasRec.grow h hg.recs

/-- The answers an insert can give. -/
def InsOk (upd : Option (Meta.TBI M)) {α : Type} (res : Except StoreError α) : Prop :=
  (∃ x, res = .ok x) ∨ (upd ≠ none ∧ res = .error .pathSelectionOutdated)

theorem wp_ribUpsert [Fam W] (hR : ∀ s s', R s s' → Grow T s s') (st : Strategy) {F : Nat}
    (hF : D ∨ 32 ≤ F) (p : Prefix W) (r : Record M) (upd : Option (Meta.TBI M))
    (hT : T p.id r.mui) {s : Rib M W} (hs : Sane T s) :
    wp R (Grow T) D (ribUpsert st F p.id r upd)
      (fun res s' => Recorded st p.id r.mui s' ∧ InsOk upd res) s := by
  have hcht : ∀ s : Rib M W, Sane T s → wp R (Grow T) D ((pchtUpsert p.id r upd).zoom Rib.chtL)
      (fun res s' => Grow T s s' ∧ HasRec s'.cht.slots p.id r.mui ∧ InsOk upd res) s := fun s hs =>
    wp_onCht hR (wp_pchtUpsert (proj_cht hR) p.clean r upd hs.recs)
  cases st with
  | writeAhead =>
    unfold ribUpsert
    simp only [wp_bind]
    refine wp_conseq _ (wp_onLsm hR (fun t h => records_long h p r) (keys_insert _ _) s) ?_
    rintro _ s1 ⟨hg1, _⟩
    refine wp_conseq _ (hcht s1 (hs.grow hg1)) ?_
    rintro res s2 ⟨_, hh, ⟨x, rfl⟩ | ⟨h, rfl⟩⟩
    · exact ⟨hh, .inl ⟨_, rfl⟩⟩
    · exact ⟨hh, .inr ⟨h, rfl⟩⟩
  | persistHistory =>
    unfold ribUpsert
    simp only [wp_bind]
    refine wp_conseq _ (hcht s hs) ?_
    rintro res s2 ⟨_, hh, ⟨⟨rep, old⟩, rfl⟩ | ⟨h, rfl⟩⟩
    · cases old with
      | none => exact ⟨hh, .inl ⟨_, rfl⟩⟩
      | some old =>
        simp only [wp_bind]
        refine wp_conseq _ (wp_onLsm hR (fun t h => records_long h p (old.toRecord r.mui))
          (keys_insert _ _) s2) ?_
        rintro _ s3 ⟨hg3, _⟩
        exact ⟨hh.grow hg3.recs, .inl ⟨_, rfl⟩⟩
    · exact ⟨hh, .inr ⟨h, rfl⟩⟩
  | memoryOnly =>
    unfold ribUpsert
    simp only [wp_bind]
    refine wp_conseq _ (hcht s hs) ?_
    rintro res s2 ⟨_, hh, ⟨x, rfl⟩ | ⟨h, rfl⟩⟩
    · exact ⟨hh, .inl ⟨_, rfl⟩⟩
    · exact ⟨hh, .inr ⟨h, rfl⟩⟩
  | persistOnly =>
    unfold ribUpsert
    simp only [wp_bind]
    refine wp_conseq _ (wp_treeInsert hR p.clean hT hF hs) ?_
    rintro res s2 ⟨_, _, ⟨rfl, _⟩ | rfl⟩
    all_goals
      simp only [wp_bind]
      refine wp_conseq _ (wp_onLsm hR (fun t h => records_short h p r) (keys_insert _ _) s2) ?_
      rintro _ s3 ⟨_, t, ht⟩
      refine ⟨?_, .inl ⟨_, rfl⟩⟩
      change _ ∈ _
      rw [ht]
      exact Lsm.mem_keys_insert.2 (.inl rfl)

/-- `insert`. -/
theorem wp_ribInsert [Fam W] (hR : ∀ s s', R s s' → Grow T s s') (st : Strategy) {F : Nat}
    (hF : D ∨ 32 ≤ F) (p : Prefix W) (r : Record M) (upd : Option (Meta.TBI M))
    (hT : T p.id r.mui) {s : Rib M W} (hs : Sane T s) :
    wp R (Grow T) D (ribInsert st F p.id r upd)
      (fun res s' => (Placed p.id r.mui s' ∧ Recorded st p.id r.mui s') ∧ InsOk upd res) s := by
  unfold ribInsert
  simp only [wp_bind]
  refine wp_conseq _ (wp_treeInsert hR p.clean hT hF hs) ?_
  rintro ex s1 ⟨hg1, hpl, hex⟩
  obtain ⟨b, rfl⟩ : ∃ b, ex = .ok b := by
    rcases hex with ⟨rfl, _⟩ | rfl <;> exact ⟨_, rfl⟩
  simp only [wp_bind]
  refine wp_conseq _ (wp_grow_post hR (wp_ribUpsert hR st hF p r upd hT (hs.grow hg1))) ?_
  rintro res s2 ⟨hg2, hrec, ⟨rep, rfl⟩ | ⟨h, rfl⟩⟩
  · have hpl2 := hpl.grow hg2
    have hend : ∀ s3 : Rib M W, Placed p.id r.mui s3 → Recorded st p.id r.mui s3 →
        wp R (Grow T) D (if b = false then do
          Rib.incPrefixes p.id.len
          return .ok { rep with prefixNew := true }
        else return .ok rep)
        (fun (res : Except StoreError UpsertReport) s' =>
          (Placed p.id r.mui s' ∧ Recorded st p.id r.mui s') ∧ InsOk upd res) s3 := by
      intro s3 hpl3 hrec3
      split
      · rw [wp_bind]
        refine wp_conseq _ (wp_count hR (grow_incPrefixes _) s3) ?_
        intro _ s4 hg4
        exact ⟨⟨hpl3.grow hg4, hrec3.grow hg4⟩, .inl ⟨_, rfl⟩⟩
      · exact ⟨⟨hpl3, hrec3⟩, .inl ⟨_, rfl⟩⟩
    dsimp only
    split
    · rw [wp_bind]
      refine wp_conseq _ (wp_count hR grow_incRoutes s2) ?_
      intro _ s3 hg3
      exact hend s3 (hpl2.grow hg3) (hrec.grow hg3)
    · exact hend s2 hpl2 hrec
  · exact ⟨⟨hpl.grow hg2, hrec⟩, .inr ⟨h, rfl⟩⟩

/-! ## Marking routes -/

omit [Meta M] in
theorem wp_ribMarkMem [Fam W] (hR : ∀ s s', R s s' → Grow T s s') (p : Prefix W) (m : Mui)
    (l : LTime) (rs : RouteStatus) {s : Rib M W} (hs : Sane T s) :
    wp R (Grow T) D (ribMarkMem p.id m l rs)
      (fun r s' => Grow T s s' ∧ ∀ sp, r = some sp → EntryAt s'.cht.slots sp.addr p.id) s := by
  unfold ribMarkMem
  rw [wp_bind]
  refine wp_conseq _ (wp_onRecs hR (wp_retrieveMut (proj_recs hR) p.clean hs.recs)) ?_
  rintro ⟨sp, found⟩ s1 ⟨hg1, hi1, he1, _⟩
  simp only
  split
  · exact ⟨hg1, fun sp h => by cases h⟩
  · rw [wp_bind]
    refine wp_conseq _ (wp_onRecs hR (wp_access (proj_recs hR) (p := p.id) (fun _ => ⟨rfl, rfl⟩)
      (fun e => keeps_mark _ _ _ _) hi1 he1)) ?_
    rintro _ s2 ⟨hg2, _, he2, _⟩
    refine ⟨hg1.trans hg2, fun sp' h => ?_⟩
    cases h; exact he2

omit [Meta M] in
theorem wp_ribPersistMarker [Fam W] (hR : ∀ s s', R s s' → Grow T s s') (sp : Ref W) (p : Prefix W)
    (m : Mui) (l : LTime) {s : Rib M W} (hs : Sane T s) (he : EntryAt s.cht.slots sp.addr p.id) :
    wp R (Grow T) D (ribPersistMarker sp p.id m l) (fun _ s' => Grow T s s') s := by
  unfold ribPersistMarker
  rw [wp_bind]
  refine wp_conseq _ (wp_onRecs hR (wp_ro_recs (wp_readEntry (proj_recs hR) hs.recs he))) ?_
  rintro r s1 ⟨hg1, _⟩
  cases r with
  | none => exact hg1
  | some x =>
    refine wp_conseq _ (wp_onLsm hR (fun t h => records_marker h p m l)
      (keys_insert _ _) s1) ?_
    exact fun _ _ h => hg1.trans h.1

omit [Meta M] in
theorem wp_rewriteAll [Fam W] (hR : ∀ s s', R s s' → Grow T s s') (l : LTime) (rs : RouteStatus) :
    ∀ (bs : List Bytes) (s : Rib M W), (∀ b ∈ bs, ∃ (k : Tag W) (c : Bytes), b = k.key ++ c) →
      Sane T s → wp R (Grow T) D (rewriteAll W l rs bs) (fun r _ => r = true) s := by
  intro bs
  induction bs with
  | nil => intro s _ _; rfl
  | cons b bs ih =>
    intro s hb hs
    unfold rewriteAll
    rw [wp_bind]
    apply wp_atomic
    intro s1 hr
    have hs1 := hs.grow (hR _ _ hr)
    obtain ⟨k, c, hkc⟩ := hb b (by simp)
    obtain ⟨t', ht', hrec, hkeys⟩ := records_rewrite hs1.lsm l rs hkc
    simp only [ht']
    have hg : Grow T s1 { s1 with lsm := t' } :=
      ⟨NR.rfl' _, fun h => h, fun h => h, GRecs.rfl' _, fun _ => hrec, hkeys⟩
    exact ⟨hg, ih _ (fun b' h => hb b' (List.mem_cons_of_mem _ h)) (hs1.grow hg)⟩

omit [Meta M] in
theorem wp_lsmRead (hR : ∀ s s', R s s' → Grow T s s') {α : Type} (f : Rib M W → α) (s : Rib M W) :
    wp R RO D (Prog.read f) (fun a s' => Grow T s s' ∧ a = f s') s :=
  wp_read fun s1 hr => ⟨rfl, hR _ _ hr, rfl⟩

theorem mem_scan {t : Lsm} {pre : Bytes} {x : Bytes × Bytes} (h : x ∈ t.scan pre) : x ∈ t :=
  List.mem_of_mem_filter h

theorem mostRecent_mem {t : Lsm} {p : PrefixId W} {m : Mui} {b : Bytes}
    (h : mostRecentRecord t p m = some b) : ∃ x ∈ t, b = x.1 ++ x.2 := by
  have key : ∀ (l : Lsm) (acc : Option Bytes) (r : Option Bytes), (∀ x ∈ l, x ∈ t) →
      (∀ b, acc = some b → ∃ x ∈ t, b = x.1 ++ x.2) → l.foldlM (mostRecentStep W) acc = some r →
      ∀ b, r = some b → ∃ x ∈ t, b = x.1 ++ x.2 := by
    intro l
    induction l with
    | nil =>
      intro acc r _ hacc hr
      simp only [List.foldlM_nil, Option.pure_def, Option.some.injEq] at hr
      subst hr; exact hacc
    | cons a l ih =>
      intro acc r hl hacc hr
      rw [List.foldlM_cons] at hr
      cases hstep : mostRecentStep W acc a with
      | none => rw [hstep] at hr; cases hr
      | some acc' =>
        rw [hstep] at hr
        refine ih acc' r (fun x hx => hl x (List.mem_cons_of_mem _ hx)) ?_ hr
        have hnew : ∀ b, some (a.1 ++ a.2) = some b → ∃ x ∈ t, b = x.1 ++ x.2 := by
          intro b hb; cases hb; exact ⟨a, hl a (by simp), rfl⟩
        unfold mostRecentStep at hstep
        simp only at hstep
        split at hstep
        · cases hstep
        · split at hstep
          · cases hstep; exact hnew
          · split at hstep
            · split at hstep
              · cases hstep; exact hnew
              · cases hstep; exact hacc
            · cases hstep; exact hacc
  unfold mostRecentRecord at h
  cases hf : (t.scan (shortKeyBytes p m)).foldlM (mostRecentStep W) none with
  | none => rw [hf] at h; cases h
  | some r =>
    rw [hf] at h
    exact key _ none r (fun x hx => mem_scan hx) (by simp) hf b h

omit [Meta M] in
theorem wp_ribMarkWithdrawnForPrefix [Fam W] (hR : ∀ s s', R s s' → Grow T s s') (st : Strategy)
    (p : Prefix W) (m : Mui) (l : LTime) {s : Rib M W} (hs : Sane T s) :
    wp R (Grow T) D (ribMarkWithdrawnForPrefix st p.id m l) (fun r _ =>
      r = .ok () ∨ r = .error (if st = .persistHistory then .storeNotReady else .prefixNotFound)) s := by
  have hmem := fun s hs => wp_ribMarkMem (D := D) hR p m l .withdrawn (s := s) hs
  cases st with
  | writeAhead | memoryOnly =>
    unfold ribMarkWithdrawnForPrefix
    simp only [wp_bind]
    refine wp_conseq _ (hmem s hs) ?_
    rintro r s1 _
    cases r
    · exact .inr rfl
    · exact .inl rfl
  | persistHistory =>
    unfold ribMarkWithdrawnForPrefix
    simp only [wp_bind]
    refine wp_conseq _ (hmem s hs) ?_
    rintro r s1 ⟨hg1, he⟩
    cases r with
    | none => exact .inr rfl
    | some sp =>
      simp only [wp_bind]
      refine wp_conseq _ (wp_ribPersistMarker hR sp p m l (hs.grow hg1) (he sp rfl)) ?_
      exact fun _ _ _ => .inl rfl
  | persistOnly =>
    unfold ribMarkWithdrawnForPrefix
    simp only [wp_bind]
    refine wp_conseq _ (wp_ro_grow (wp_lsmRead hR _ s)) ?_
    rintro recs s1 ⟨hg1, rfl⟩
    refine wp_conseq _ (wp_rewriteAll hR l .withdrawn _ s1 ?_ (hs.grow hg1)) ?_
    · intro b hb
      obtain ⟨x, hx, rfl⟩ := List.mem_map.1 hb
      exact (hs.grow hg1).lsm x (mem_scan hx)
    · rintro r s2 rfl; exact .inl rfl

omit [Meta M] in
theorem wp_ribMarkActiveForPrefix [Fam W] (hR : ∀ s s', R s s' → Grow T s s') (st : Strategy)
    (p : Prefix W) (m : Mui) (l : LTime) {s : Rib M W} (hs : Sane T s) :
    wp R (Grow T) D (ribMarkActiveForPrefix st p.id m l) (fun r _ =>
      r = .ok () ∨ r = .error .fatal) s := by
  have hmem := fun s hs => wp_ribMarkMem (D := D) hR p m l .active (s := s) hs
  cases st with
  | writeAhead | memoryOnly =>
    unfold ribMarkActiveForPrefix
    simp only [wp_bind]
    refine wp_conseq _ (hmem s hs) ?_
    rintro r s1 _
    cases r
    · exact .inr rfl
    · exact .inl rfl
  | persistHistory =>
    unfold ribMarkActiveForPrefix
    simp only [wp_bind]
    refine wp_conseq _ (hmem s hs) ?_
    rintro r s1 ⟨hg1, he⟩
    cases r with
    | none => exact .inr rfl
    | some sp =>
      simp only [wp_bind]
      refine wp_conseq _ (wp_ribPersistMarker hR sp p m l (hs.grow hg1) (he sp rfl)) ?_
      exact fun _ _ _ => .inl rfl
  | persistOnly =>
    unfold ribMarkActiveForPrefix
    simp only [wp_bind]
    refine wp_conseq _ (wp_ro_grow (wp_lsmRead hR _ s)) ?_
    rintro r s1 ⟨hg1, rfl⟩
    split
    · rename_i b hb
      simp only [wp_bind]
      refine wp_conseq _ (wp_rewriteAll hR l .active _ s1 ?_ (hs.grow hg1)) ?_
      · intro b' hb'
        simp only [List.mem_singleton] at hb'
        subst hb'
        obtain ⟨x, hx, rfl⟩ := mostRecent_mem hb
        exact (hs.grow hg1).lsm x hx
      · rintro r s2 rfl; exact .inl rfl
    · exact .inl rfl

/-- Own steps of the calls that change the set of withdrawn muis. -/
def GWd (t t' : Tree W) : Prop := t' = { t with wd := t'.wd }

omit [Meta M] in
theorem grow_wd {s : Rib M W} {t : Tree W} (h : GWd s.tree t) : Grow T s (Rib.treeL.set s t) := by
  have h1 : t.slots = s.tree.slots := by rw [h]
  have h2 : t.defaultExists = s.tree.defaultExists := by rw [h]
  exact ⟨by rw [← h1]; exact NR.rfl' _, fun x => by rw [← h1] at x; exact x,
    fun x => by rw [← h2] at x; exact x, GRecs.rfl' _, fun h => h, fun _ h => h⟩

theorem wp_updateWithdrawnLoop {RT : Tree W → Tree W → Prop} (cur : Nat) : ∀ (fuel : Nat)
    (new : Mui → Bool) (t : Tree W),
    wp RT GWd True (updateWithdrawnLoop cur fuel new) (fun _ _ => True) t := by
  intro fuel
  induction fuel with
  | zero => intro _ _; trivial
  | succ fuel ih =>
    intro new t
    unfold updateWithdrawnLoop
    rw [wp_bind]
    apply wp_atomic
    intro t1 _
    split
    · exact ⟨rfl, trivial⟩
    · exact ⟨rfl, ih _ _⟩

omit [Meta M] in
theorem wp_onWd {α : Type} {prog : Prog (Tree W) α} {Q : α → Tree W → Prop} {s : Rib M W}
    (h : wp (proj Rib.tree R) GWd D prog Q s.tree) :
    wp R (Grow T) D (prog.zoom Rib.treeL) (fun _ _ => True) s :=
  wp_conseq _ (wp_zoom Rib.treeL_lawful prog (R := R) (G := Grow T) (R' := proj Rib.tree R)
    (G' := GWd) (P := fun _ => True) (fun s s' h => ⟨s, s', h, rfl, rfl⟩) (fun _ _ h => grow_wd h)
    (fun _ _ _ _ => trivial) (fun _ _ _ _ => trivial) trivial h) (fun _ _ _ => trivial)

omit [Meta M] in
theorem wp_ribMarkWithdrawn (F : Nat) (m : Mui) (s : Rib M W) :
    wp R (Grow T) True (ribMarkWithdrawn F m) (fun _ _ => True) s := by
  refine wp_onWd (Q := fun _ _ => True) ?_
  unfold treeMarkWithdrawn
  rw [wp_bind]
  exact wp_read fun t _ => ⟨rfl, wp_updateWithdrawnLoop _ _ _ _⟩

omit [Meta M] in
theorem wp_ribMarkActive (F : Nat) (m : Mui) (s : Rib M W) :
    wp R (Grow T) True (ribMarkActive F m) (fun _ _ => True) s := by
  refine wp_onWd (Q := fun _ _ => True) ?_
  unfold treeMarkActive
  rw [wp_bind]
  exact wp_read fun t _ => ⟨rfl, wp_updateWithdrawnLoop _ _ _ _⟩

omit [Meta M] in
theorem wp_retrieve [Fam W] {RP : PSlots M W → PSlots M W → Prop}
    (hR : ∀ s s', RP s s' → GRecs s s')
    {p : PrefixId W} (hp : p.Clean) {s : PSlots M W} (hi : ChainInv (pfxLayout W) s) :
    wp RP RO D (retrievePrefix p) (fun r s' => ChainInv (pfxLayout W) s' ∧
      match r with
      | none => ¬ Has s' p
      | some ref => EntryAt s' ref.addr p) s :=
  wp_retrievePrefix (relyOK_recs hR) RO.rfl' hp hi

theorem wp_ribCalcBest [Fam W] (hR : ∀ s s', R s s' → Grow T s s') (p : Prefix W)
    (tbi : Meta.TBI M) {s : Rib M W} (hs : Sane T s) :
    wp R (Grow T) D (ribCalcBest p.id tbi) (fun r _ =>
      (∃ x, r = .ok x) ∨ r = .error .storeNotReady ∨ r = .error .pathSelectionOutdated) s := by
  unfold ribCalcBest
  rw [wp_bind]
  refine wp_conseq _ (wp_onRecs hR (wp_ro_recs (wp_retrieve (proj_recs hR) p.clean hs.recs))) ?_
  rintro r s1 ⟨hg1, hi1, hr⟩
  cases r with
  | none => exact .inr (.inl rfl)
  | some sp =>
    refine wp_conseq _ (wp_onRecs hR (wp_calculateAndStore (proj_recs hR) tbi hi1 hr)) ?_
    rintro r s2 ⟨_, _, _, h | h⟩
    · exact .inl h
    · exact .inr (.inr h)

end Rotonda
