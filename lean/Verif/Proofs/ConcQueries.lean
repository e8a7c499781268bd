import Verif.Proofs.ConcRead

/-!
# Record lookups and the queries of the API, run concurrently with all other calls
-/

namespace Rotonda

open Prog Spec

variable {M : Type} {W : Nat} {T : PrefixId W → Mui → Prop} {D : Prop}

/-! ## Looking up records -/

theorem mapM_option {α β : Type} {f : α → Option β} {P : α → β → Prop} {l : List α}
    (h : ∀ a ∈ l, ∃ b, f a = some b ∧ P a b) : ∃ bs, l.mapM f = some bs ∧ List.Forall₂ P l bs := by
  induction l with
  | nil => exact ⟨[], rfl, .nil⟩
  | cons a l ih =>
    obtain ⟨b, hb, hP⟩ := h a (by simp)
    obtain ⟨bs, hbs, hPs⟩ := ih (fun x hx => h x (List.mem_cons_of_mem _ hx))
    refine ⟨b :: bs, ?_, .cons hP hPs⟩
    rw [List.mapM_cons, hb, hbs]; rfl

theorem mapM_fatal {α β : Type} {f : α → FatalResult β} {P : α → β → Prop} {l : List α}
    (h : ∀ a ∈ l, ∃ b, f a = .ok b ∧ P a b) : ∃ bs, l.mapM f = .ok bs ∧ List.Forall₂ P l bs := by
  induction l with
  | nil => exact ⟨[], rfl, .nil⟩
  | cons a l ih =>
    obtain ⟨b, hb, hP⟩ := h a (by simp)
    obtain ⟨bs, hbs, hPs⟩ := ih (fun x hx => h x (List.mem_cons_of_mem _ hx))
    refine ⟨b :: bs, ?_, .cons hP hPs⟩
    rw [List.mapM_cons, hb, hbs]; rfl

theorem forall₂_mem {α β : Type} {P : α → β → Prop} {l : List α} {bs : List β}
    (h : List.Forall₂ P l bs) {a : α} (ha : a ∈ l) : ∃ b ∈ bs, P a b := by
  induction h with
  | nil => simp at ha
  | cons hab _ ih =>
    rcases List.mem_cons.1 ha with rfl | ha
    · exact ⟨_, by simp, hab⟩
    · obtain ⟨b, hb, hP⟩ := ih ha
      exact ⟨b, List.mem_cons_of_mem _ hb, hP⟩

theorem forall₂_mem_right {α β : Type} {P : α → β → Prop} {l : List α} {bs : List β}
    (h : List.Forall₂ P l bs) {b : β} (hb : b ∈ bs) : ∃ a ∈ l, P a b := by
  induction h with
  | nil => simp at hb
  | cons hab _ ih =>
    rcases List.mem_cons.1 hb with rfl | hb
    · exact ⟨_, by simp, hab⟩
    · obtain ⟨a, ha, hP⟩ := ih hb
      exact ⟨a, List.mem_cons_of_mem _ ha, hP⟩

theorem noneIfEmpty_cases {α : Type} (l : List α) :
    (l = [] ∧ noneIfEmpty l = none) ∨ ∃ x xs, l = x :: xs ∧ noneIfEmpty l = some l := by
  cases l with
  | nil => exact .inl ⟨rfl, rfl⟩
  | cons x xs => exact .inr ⟨x, xs, rfl, rfl⟩

/-- The bytes of a record, with the mui of the key when the key is a short one. -/
def EncOf (x : Bytes × Bytes) (y : FatalResult Bytes) : Prop :=
  ∃ (k : Tag W) (b : Bytes), y = .ok (k.key ++ b) ∧
    ∀ p m, p.len < 256 → x.1 = shortKeyBytes (W := W) p m → k.mui = m

theorem tag_short [Fam W] {x : Bytes × Bytes} {k : Tag W} {b : Bytes} (h : x.1 ++ x.2 = k.key ++ b)
    {p : PrefixId W} {m : Mui} (hp : p.len < 256) (hx : x.1 = shortKeyBytes p m) : k.mui = m := by
  rw [hx] at h
  have : shortKeyBytes p m = shortKeyBytes k.pfx.id k.mui := by
    have h2 := congrArg (List.take (W / 8 + 5)) h
    rwa [List.take_left' (by simp), Tag.key, longKeyBytes, List.append_assoc,
      List.take_left' (by simp)] at h2
  exact ((shortKeyBytes_inj hp k.pfx.len_lt this).2).symm

theorem include_tag [Fam W] (bmin : Mui → Bool) {x : Bytes × Bytes} {k : Tag W} {b : Bytes}
    (h : x.1 ++ x.2 = k.key ++ b) : ∃ y, includeEntry W bmin x = some y ∧ EncOf (W := W) x y := by
  have hkey : (k.key ++ b).length = keySize W + b.length := by
    simp [Tag.key, longKeyBytes_length]
  unfold includeEntry
  simp only [h]
  rw [if_neg (by omega), List.take_left' (by simp [Tag.key])]
  have := header_tag k []
  rw [List.append_nil, if_pos rfl] at this
  rw [this]
  simp only
  refine ⟨_, rfl, ?_⟩
  by_cases hb : bmin k.mui = true
  · refine ⟨⟨k.pfx, k.mui, k.ltime, .withdrawn⟩, b, ?_, fun p m hp hx => tag_short h hp hx⟩
    rw [if_pos hb]
    simp only [Tag.key, set_status]
  · exact ⟨k, b, by rw [if_neg hb], fun p m hp hx => tag_short h hp hx⟩

theorem exclude_tag [Fam W] (bmin : Mui → Bool) {x : Bytes × Bytes} {k : Tag W} {b : Bytes}
    (h : x.1 ++ x.2 = k.key ++ b) :
    ∃ o, excludeEntry W bmin x = some o ∧ ∀ y, o = some y → EncOf (W := W) x y := by
  have hkey : (k.key ++ b).length = keySize W + b.length := by
    simp [Tag.key, longKeyBytes_length]
  unfold excludeEntry
  simp only [h]
  rw [if_neg (by omega), List.take_left' (by simp [Tag.key])]
  have := header_tag k []
  rw [List.append_nil, if_pos rfl] at this
  rw [this]
  simp only
  refine ⟨_, rfl, ?_⟩
  split
  · intro y hy; cases hy
  · intro y hy; cases hy
    exact ⟨k, b, rfl, fun p m hp hx => tag_short h hp hx⟩

variable [Meta M]

theorem decode_enc [Fam W] {x : Bytes × Bytes} {y : FatalResult Bytes} (h : EncOf (W := W) x y) :
    ∃ r : Record M, decodeEntry W y = .ok r ∧
      ∀ p m, p.len < 256 → x.1 = shortKeyBytes (W := W) p m → r.mui = m := by
  obtain ⟨k, b, rfl, hm⟩ := h
  unfold decodeEntry
  simp only [decode_tag]
  exact ⟨_, rfl, hm⟩

/-- What a lookup in the persistence tree gives: no panic, no error, and with
withdrawn routes included every pair that has a short key. -/
theorem po_value [hW : Fam W] {t : Lsm} (ht : Records W t) {p : PrefixId W} (hp : p.Clean)
    (mui : Option Mui) (iw : Bool) (bmin : Mui → Bool) :
    ∃ o : Option (List (FatalResult Bytes)), recordsForPrefix t p mui iw bmin = some o ∧
      ((o = none ∧ (iw = true → ∀ m, (mui = none ∨ mui = some m) →
          shortKeyBytes p m ∉ t.map Prod.fst)) ∨
        ∃ l, o = some l ∧ ∃ (x : Record M) (rs : List (Record M)),
          l.mapM (decodeEntry W) = .ok (x :: rs) ∧
          (iw = true → ∀ m, (mui = none ∨ mui = some m) → shortKeyBytes p m ∈ t.map Prod.fst →
            ∃ r ∈ x :: rs, r.mui = m)) := by
  have hlen : p.len < 256 := by have := hp.1; have := hW.width; omega
  have hscan : ∀ m, (mui = none ∨ mui = some m) → ∀ x ∈ t, x.1 = shortKeyBytes p m →
      x ∈ t.scan (scanKey p mui) := by
    intro m hm x hx hk
    refine List.mem_filter.2 ⟨hx, ?_⟩
    rw [List.isPrefixOf_iff_prefix, hk]
    rcases hm with rfl | rfl
    · exact ⟨_, rfl⟩
    · exact List.prefix_refl _
  have hdec : ∀ (l : List (FatalResult Bytes)) (src : Lsm), (∀ y ∈ l, ∃ x ∈ src, EncOf (W := W) x y) →
      ∃ rs : List (Record M), l.mapM (decodeEntry W) = .ok rs ∧
        List.Forall₂ (fun y r => decodeEntry W y = .ok r) l rs := by
    intro l src h
    refine mapM_fatal fun y hy => ?_
    obtain ⟨x, _, he⟩ := h y hy
    obtain ⟨r, hr, _⟩ := decode_enc (M := M) he
    exact ⟨r, hr, hr⟩
  rw [recordsForPrefix_key]
  cases iw with
  | true =>
    simp only
    obtain ⟨ys, hys, hP⟩ := mapM_option (f := includeEntry W bmin) (P := EncOf (W := W))
      (l := t.scan (scanKey p mui)) (fun x hx => by
        obtain ⟨k, b, h⟩ := ht x (mem_scan hx)
        exact include_tag bmin h)
    rw [hys]
    refine ⟨_, rfl, ?_⟩
    obtain ⟨rs, hrs, hrel⟩ := hdec ys (t.scan (scanKey p mui)) (fun y hy => forall₂_mem_right hP hy)
    have hfind : ∀ m, (mui = none ∨ mui = some m) → shortKeyBytes p m ∈ t.map Prod.fst →
        ∃ r ∈ rs, r.mui = m := by
      intro m hm hk
      obtain ⟨x, hx, hk⟩ := List.mem_map.1 hk
      obtain ⟨y, hy, he⟩ := forall₂_mem hP (hscan m hm x hx hk)
      obtain ⟨r, hr, hd⟩ := forall₂_mem hrel hy
      obtain ⟨r', hd', hm'⟩ := decode_enc (M := M) he
      rw [hd] at hd'; cases hd'
      exact ⟨r, hr, hm' p m hlen hk⟩
    rcases noneIfEmpty_cases ys with ⟨rfl, h⟩ | ⟨y, ys', rfl, h⟩
    · cases hrel
      refine .inl ⟨by rw [h], fun _ m hm hk => ?_⟩
      obtain ⟨r, hr, _⟩ := hfind m hm hk
      simp at hr
    · cases hrel with
      | cons hab hrest =>
        exact .inr ⟨_, by rw [h], _, _, hrs, fun _ => hfind⟩
  | false =>
    simp only
    obtain ⟨ys, hys, hP⟩ := mapM_option (f := excludeEntry W bmin)
      (P := fun x o => ∀ y, o = some y → EncOf (W := W) x y)
      (l := t.scan (scanKey p mui)) (fun x hx => by
        obtain ⟨k, b, h⟩ := ht x (mem_scan hx)
        exact exclude_tag bmin h)
    rw [hys]
    refine ⟨_, rfl, ?_⟩
    obtain ⟨rs, hrs, hrel⟩ := hdec (ys.filterMap id) (t.scan (scanKey p mui)) (fun y hy => by
      obtain ⟨o, ho, rfl⟩ := List.mem_filterMap.1 hy
      obtain ⟨x, hx, h⟩ := forall₂_mem_right hP ho
      exact ⟨x, hx, h y (by simpa using rfl)⟩)
    rcases noneIfEmpty_cases (ys.filterMap id) with ⟨_, h⟩ | ⟨y, ys', hl, h⟩
    · exact .inl ⟨h, fun h => by cases h⟩
    · rw [hl] at hrel
      cases hrel with
      | cons hab hrest =>
        exact .inr ⟨_, h, _, _, hrs, fun h => by cases h⟩

/-- What a lookup gives: never an error, never an empty list, and with withdrawn
routes included every pair recorded when it started. -/
def GotVal (st : Strategy) (mui : Option Mui) (iw : Bool) (p : PrefixId W) (s : Rib M W)
    (res : FatalResult (Option (List (Record M)))) : Prop :=
  ∃ r, res = .ok r ∧ (r = none ∨ ∃ x xs, r = some (x :: xs)) ∧
    (iw = true → ∀ m, (mui = none ∨ mui = some m) → Recorded st p m s →
      ∃ rs, r = some rs ∧ ∃ x ∈ rs, x.mui = m)

omit [Meta M] in
theorem filtered_has {rs : Recs M} {m : Mui} (h : m ∈ rs.map Prod.fst) {mui : Option Mui}
    (hm : mui = none ∨ mui = some m) (bmin : Mui → Bool) :
    ∃ l, getFilteredRecords rs mui true bmin = some l ∧ ∃ x ∈ l, x.mui = m := by
  rcases hm with rfl | rfl
  · obtain ⟨⟨k, v⟩, hk, rfl⟩ := List.mem_map.1 h
    have hmem : (rewriteStatus bmin k v).toRecord k ∈ asRecordsRewritten rs bmin :=
      List.mem_map.2 ⟨(k, v), hk, rfl⟩
    simp only [getFilteredRecords]
    rcases noneIfEmpty_cases (asRecordsRewritten rs bmin) with ⟨he, _⟩ | ⟨y, ys, _, h⟩
    · rw [he] at hmem; simp at hmem
    · exact ⟨_, h, _, hmem, rfl⟩
  · have hg : ∃ v, rs.get m = some v := by
      unfold Recs.get
      induction rs with
      | nil => simp at h
      | cons kv rs ih =>
        obtain ⟨k, v⟩ := kv
        rw [List.lookup_cons]
        by_cases c : m = k
        · subst c; simp
        · simp only [List.map_cons, List.mem_cons, c, false_or] at h
          rw [show (m == k) = false by simpa using c]
          exact ih h
    obtain ⟨v, hv⟩ := hg
    simp only [getFilteredRecords, getFilteredRecordForMui, getRecordForMuiRewritten, hv,
      Option.map_some]
    exact ⟨_, rfl, _, List.mem_singleton.2 rfl, rfl⟩

omit [Meta M] in
theorem filtered_ne (rs : Recs M) (mui : Option Mui) (iw : Bool) (bmin : Mui → Bool) :
    getFilteredRecords rs mui iw bmin = none ∨
      ∃ x xs, getFilteredRecords rs mui iw bmin = some (x :: xs) := by
  have key : ∀ l : List (Record M), noneIfEmpty l = none ∨ ∃ x xs, noneIfEmpty l = some (x :: xs) := by
    intro l; cases l with
    | nil => exact .inl rfl
    | cons x xs => exact .inr ⟨x, xs, rfl⟩
  cases mui with
  | none => cases iw <;> exact key _
  | some m =>
    simp only [getFilteredRecords]
    cases getFilteredRecordForMui rs m iw bmin with
    | none => exact .inl rfl
    | some r => exact .inr ⟨r, [], rfl⟩

omit [Meta M] in
theorem wp_getRecords [Fam W] {RP : PSlots M W → PSlots M W → Prop}
    (hR : ∀ s s', RP s s' → GRecs s s') {p : PrefixId W} (hp : p.Clean) (mui : Option Mui)
    (iw : Bool) (bmin : Mui → Bool) {s : PSlots M W} (hi : ChainInv (pfxLayout W) s) :
    wp RP RO D (getRecordsForPrefix p mui iw bmin) (fun r s' => GRecs s s' ∧
      ((r = none ∧ ¬ Has s' p) ∨ ∃ a e, s' a = some e ∧ e.id = p ∧
        r = getFilteredRecords e.recs mui iw bmin) ∧ ChainInv (pfxLayout W) s') s := by
  refine wp_conseq _ (wp_carry (P := fun s' => GRecs s s') (fun _ _ h hp => hp.trans (hR _ _ h))
    (fun _ _ h hp => by cases h; exact hp) _ (GRecs.rfl' s) ?_
    (Q := fun r s' => ((r = none ∧ ¬ Has s' p) ∨ ∃ a e, s' a = some e ∧ e.id = p ∧
        r = getFilteredRecords e.recs mui iw bmin) ∧ ChainInv (pfxLayout W) s')) (fun _ _ h => h)
  unfold getRecordsForPrefix
  rw [wp_bind]
  apply wp_ofOption (prefixRoot_eq hp)
  rw [wp_bind]
  refine wp_conseq _ (wp_findPrefixLoop (relyOK_recs hR) RO.rfl' (by simp [maxLevels]) _ _ _ _
    (by simp [maxLevels]) (WalkAt.start hi hp)) ?_
  rintro r s1 ⟨hi1, hr⟩
  cases r with
  | none => exact ⟨.inl ⟨rfl, hr⟩, hi1⟩
  | some ref =>
    refine wp_conseq _ (wp_readEntry hR hi1 hr) ?_
    rintro r s2 ⟨hi2, _, e, he, hid, rfl⟩
    exact ⟨.inr ⟨_, e, he, hid, rfl⟩, hi2⟩

variable {R : Rib M W → Rib M W → Prop}

/-- `get_records`. -/
theorem wp_ribGetValue [Fam W] (hR : ∀ s s', R s s' → Grow T s s') (st : Strategy) {p : PrefixId W}
    (hp : p.Clean) (mui : Option Mui) (iw : Bool) {s : Rib M W} (hs : Sane T s) :
    wp R RO D (ribGetValue st p mui iw) (fun res _ => GotVal st mui iw p s res) s := by
  have hmem : ∀ (bmin : Mui → Bool) (s1 : Rib M W), Grow T s s1 → (∀ m, Recorded st p m s1 →
      HasRec s1.cht.slots p m) → wp R RO D (do
        let rs ← onRecs (getRecordsForPrefix p mui iw bmin)
        return (.ok rs : FatalResult (Option (List (Record M)))))
      (fun res _ => GotVal st mui iw p s res) s1 := by
    intro bmin s1 hg1 hrec
    rw [wp_bind]
    refine wp_conseq _ (wp_onRecsRO (wp_getRecords (proj_recs hR) hp mui iw bmin
      (hs.grow hg1).recs)) ?_
    rintro r s2 ⟨hg2, hr, hi2⟩
    refine ⟨r, rfl, ?_, fun hiw m hm hR' => ?_⟩
    · rcases hr with ⟨h, _⟩ | ⟨a, e, he, hid, rfl⟩
      · exact .inl h
      · exact filtered_ne _ _ _ _
    · obtain ⟨b, e', he', hid', hk⟩ := (hrec m (hR'.grow hg1)).grow hg2
      rcases hr with ⟨_, h⟩ | ⟨a, e, he, hid, rfl⟩
      · exact absurd ⟨b, e', he', hid'⟩ h
      · have hab := hi2.unique he he' (hid.trans hid'.symm)
        subst hab
        rw [he] at he'; cases he'
        subst hiw
        exact filtered_has hk hm bmin
  unfold ribGetValue
  rw [wp_bind]
  refine wp_conseq _ (Q := fun _ s1 => Grow T s s1) ?_ ?_
  · refine wp_conseq _ (wp_reader hR (Q := fun _ _ => True) ?_) (fun _ _ h => h.1)
    change ∀ _, _ → _
    intro s1 _
    exact ⟨rfl, trivial⟩
  intro bmin s1 hg1
  cases st with
  | persistOnly =>
    simp only [wp_bind]
    refine wp_conseq _ (wp_lsmRead hR _ s1) ?_
    rintro res s2 ⟨hg2, rfl⟩
    have hs2 := hs.grow (hg1.trans hg2)
    obtain ⟨o, ho, hcase⟩ := po_value (M := M) hs2.lsm hp mui iw bmin
    apply wp_ofOption ho
    have hkey : ∀ m, Recorded .persistOnly p m s → shortKeyBytes p m ∈ s2.lsm.map Prod.fst :=
      fun m h => Recorded.grow (st := .persistOnly) h (hg1.trans hg2)
    rcases hcase with ⟨rfl, h⟩ | ⟨l, rfl, x, rs, hl, h⟩
    · exact ⟨none, rfl, .inl rfl, fun hiw m hm hrec => absurd (hkey m hrec) (h hiw m hm)⟩
    · simp only [hl]
      exact ⟨_, rfl, .inr ⟨_, _, rfl⟩, fun hiw m hm hrec => ⟨_, rfl, h hiw m hm (hkey m hrec)⟩⟩
  | writeAhead => exact hmem bmin s1 hg1 (fun _ h => h)
  | persistHistory => exact hmem bmin s1 hg1 (fun _ h => h)
  | memoryOnly => exact hmem bmin s1 hg1 (fun _ h => h)

/-! ## Items of iterations -/

/-- The recorded pair is asked for. -/
def Asked (st : Strategy) (mui : Option Mui) (iw : Bool) (p : PrefixId W) (s : Rib M W) : Prop :=
  iw = true ∧ ∃ m, (mui = none ∨ mui = some m) ∧ Recorded st p m s

omit [Meta M] in
theorem Asked.grow {st : Strategy} {mui : Option Mui} {iw : Bool} {p : PrefixId W} {s s' : Rib M W}
    (h : Asked st mui iw p s) (hg : Grow T s s') : Asked st mui iw p s' := by
  obtain ⟨h1, m, h2, h3⟩ := h
  exact ⟨h1, m, h2, h3.grow hg⟩

omit [Meta M] in
theorem GotVal.cases {st : Strategy} {mui : Option Mui} {iw : Bool} {p : PrefixId W} {s : Rib M W}
    {res : FatalResult (Option (List (Record M)))} (h : GotVal st mui iw p s res) :
    (res = .ok none ∧ ¬ Asked st mui iw p s) ∨ ∃ x xs, res = .ok (some (x :: xs)) := by
  obtain ⟨r, rfl, rfl | ⟨x, xs, rfl⟩, h⟩ := h
  · refine .inl ⟨rfl, ?_⟩
    rintro ⟨h1, m, h2, h3⟩
    obtain ⟨rs, hrs, _⟩ := h h1 m h2 h3
    cases hrs
  · exact .inr ⟨x, xs, rfl⟩

/-- An item of a filtering iteration: the prefix with records, or nothing when
nothing recorded was asked for. -/
def FiltItem (st : Strategy) (mui : Option Mui) (iw : Bool) (s : Rib M W) (p : PrefixId W)
    (b : Option (FatalResult (PrefixRecord M W))) : Prop :=
  (b = none ∧ ¬ Asked st mui iw p s) ∨
    ∃ (q : Prefix W) (x : Record M) (xs : List (Record M)), q.id = p ∧ b = some (.ok (q, x :: xs))

theorem wp_filterItem [Fam W] (hR : ∀ s s', R s s' → Grow T s s') (st : Strategy) (mui : Option Mui)
    (iw : Bool) {p : PrefixId W} (hp : p.Clean) {s0 s : Rib M W} (hs : Sane T s) (hg : Grow T s0 s) :
    wp R RO D (filterItem st mui iw p) (fun b _ => FiltItem st mui iw s0 p b) s := by
  obtain ⟨q, rfl⟩ := exists_prefix hp
  unfold filterItem
  rw [wp_bind]
  refine wp_conseq _ (wp_ribGetValue hR st hp mui iw hs) ?_
  intro res s1 hres
  rw [wp_bind]
  apply wp_ofOption (toPrefix_id q)
  rcases hres.cases with ⟨rfl, h⟩ | ⟨x, xs, rfl⟩
  · exact .inl ⟨rfl, fun ha => h (ha.grow hg)⟩
  · exact .inr ⟨q, x, xs, rfl, rfl⟩

/-- An item of the iteration over all prefixes. -/
def PfxItem (st : Strategy) (s : Rib M W) (p : PrefixId W) (b : FatalResult (PrefixRecord M W)) : Prop :=
  ∃ (q : Prefix W) (rs : List (Record M)), q.id = p ∧ b = .ok (q, rs) ∧
    (Asked st none true p s → rs ≠ [])

theorem wp_pfxItem [Fam W] (hR : ∀ s s', R s s' → Grow T s s') (st : Strategy)
    {p : PrefixId W} (hp : p.Clean) {s0 s : Rib M W} (hs : Sane T s) (hg : Grow T s0 s) :
    wp R RO D (pfxItem st p) (fun b _ => PfxItem st s0 p b) s := by
  obtain ⟨q, rfl⟩ := exists_prefix hp
  unfold pfxItem
  rw [wp_bind]
  apply wp_ofOption (toPrefix_id q)
  rw [wp_bind]
  refine wp_conseq _ (wp_ribGetValue hR st hp none true hs) ?_
  intro res s1 hres
  rcases hres.cases with ⟨rfl, h⟩ | ⟨x, xs, rfl⟩
  · exact ⟨q, [], rfl, rfl, fun ha => absurd (ha.grow hg) h⟩
  · exact ⟨q, x :: xs, rfl, rfl, fun _ => by simp⟩

theorem wp_sameItem [Fam W] (hR : ∀ s s', R s s' → Grow T s s') (st : Strategy) {p : PrefixId W}
    (hp : p.Clean) (mui : Option Mui) (iw : Bool) {q : PrefixId W} (hq : q.Clean) {s : Rib M W}
    (hs : Sane T s) :
    wp R RO D (sameItem st p mui iw q) (fun b _ => ∃ (q' : Prefix W) (r : Option (List (Record M))),
      q'.id = q ∧ b = .ok (r.map fun v => (q', v))) s := by
  obtain ⟨q', rfl⟩ := exists_prefix hq
  unfold sameItem
  rw [wp_bind]
  refine wp_conseq _ (wp_ribGetValue hR st hp mui iw hs) ?_
  intro res s1 hres
  rw [wp_bind]
  apply wp_ofOption (toPrefix_id q')
  rcases hres.cases with ⟨rfl, h⟩ | ⟨x, xs, rfl⟩
  · exact ⟨q', none, rfl, rfl⟩
  · exact ⟨q', some (x :: xs), rfl, rfl⟩

/-! ## The queries -/

/-- Iterations only read. -/
theorem wp_readWd (hR : ∀ s s', R s s' → Grow T s s') (s : Rib M W) :
    wp R RO D (withdrawnMuis.zoom Rib.treeL : Prog (Rib M W) (Mui → Bool)) (fun _ s' => Grow T s s') s :=
  fun _ hr => ⟨rfl, hR _ _ hr⟩

/-- The answer of an iteration that filters: prefixes with records, each at most
once, all of them `P` and in the tree; under `C`, all that are asked for. -/
structure Listed (st : Strategy) (mui : Option Mui) (iw : Bool) (C : Prop) (P : PrefixId W → Prop)
    (s : Rib M W) (l : List (FatalResult (PrefixRecord M W))) (s' : Rib M W) : Prop where
  items : ∃ qs : List (PrefixRecord M W), l = qs.map .ok ∧ (qs.map Prod.fst).Nodup ∧
    (∀ x ∈ qs, x.2 ≠ [] ∧ P x.1.id ∧ Seen s'.tree.slots x.1.id) ∧
    (C → ∀ q : Prefix W, Settled s.tree.slots q.id → P q.id → Asked st mui iw q.id s →
      ∃ rs, (q, rs) ∈ qs)

omit [Meta M] in
theorem filt_items {st : Strategy} {mui : Option Mui} {iw : Bool} {s : Rib M W}
    {out : List (PrefixId W)} {bs : List (Option (FatalResult (PrefixRecord M W)))}
    (h : List.Forall₂ (FiltItem st mui iw s) out bs) (hnd : out.Nodup) :
    ∃ qs : List (PrefixRecord M W), bs.filterMap id = qs.map .ok ∧ (qs.map Prod.fst).Nodup ∧
      (∀ x ∈ qs, x.2 ≠ [] ∧ x.1.id ∈ out) ∧
      (∀ q : Prefix W, q.id ∈ out → Asked st mui iw q.id s → ∃ rs, (q, rs) ∈ qs) := by
  induction h with
  | nil => exact ⟨[], rfl, List.nodup_nil, by simp, by simp⟩
  | @cons p b out bs hab hrest ih =>
    rw [List.nodup_cons] at hnd
    obtain ⟨qs, h1, h2, h3, h4⟩ := ih hnd.2
    rcases hab with ⟨rfl, hna⟩ | ⟨q, x, xs, hq, rfl⟩
    · refine ⟨qs, by simpa using h1, h2, fun y hy => ⟨(h3 y hy).1, List.mem_cons_of_mem _ (h3 y hy).2⟩, ?_⟩
      intro q hq ha
      rcases List.mem_cons.1 hq with rfl | hq
      · exact absurd ha hna
      · exact h4 q hq ha
    · refine ⟨(q, x :: xs) :: qs, ?_, ?_, ?_, ?_⟩
      · change Except.ok (q, x :: xs) :: List.filterMap id bs = _
        rw [h1]; rfl
      · rw [List.map_cons, List.nodup_cons]
        refine ⟨fun hm => ?_, h2⟩
        obtain ⟨y, hy, hyq⟩ := List.mem_map.1 hm
        have := (h3 y hy).2
        rw [hyq, hq] at this
        exact hnd.1 this
      · intro y hy
        rcases List.mem_cons.1 hy with rfl | hy
        · exact ⟨by simp, by rw [hq]; simp⟩
        · exact ⟨(h3 y hy).1, List.mem_cons_of_mem _ (h3 y hy).2⟩
      · intro q' hq' ha
        rcases List.mem_cons.1 hq' with h | h
        · have : q' = q := Prefix.id_inj (h.trans hq.symm)
          subst this
          exact ⟨_, List.mem_cons_self⟩
        · obtain ⟨rs, hrs⟩ := h4 q' h ha
          exact ⟨rs, List.mem_cons_of_mem _ hrs⟩

variable {C : Prop}

theorem wp_moreIterMain [Fam W] {p : PrefixId W} (hD : During T R p C) (st : Strategy)
    (mui : Option Mui) (iw : Bool) (hp : p.Clean) {fuel : Nat} (hf : D ∨ iterFuel W ≤ fuel)
    {s0 s : Rib M W} (hg : Grow T s0 s) (hl : Live T p C s) :
    wp R RO D (do let l ← eachMore fuel p (filterItem st mui iw); return l.filterMap id)
      (fun l s' => Listed st mui iw C (MoreOf p) s0 l s') s := by
  rw [wp_bind]
  refine wp_conseq _ (wp_eachMore hD (B := FiltItem st mui iw s0) (fun q s' hq _ hs' hg' =>
    wp_filterItem hD.grow st mui iw hq hs' (hg.trans hg')) hp hf hl) ?_
  rintro bs s' ⟨hl', out, hbs, hy⟩
  obtain ⟨qs, h1, h2, h3, h4⟩ := filt_items hbs hy.nodup
  refine ⟨⟨qs, h1, h2, fun x hx => ?_, fun c q hset hP ha => ?_⟩⟩
  · have := hy.sound _ (h3 x hx).2
    exact ⟨(h3 x hx).1, this.1, this.2.2⟩
  · exact h4 q (hy.complete c q.id (hset.ext hg.nodes.1) hP) ha

/-- `more_specifics_iter_from`: with a mui given and withdrawn routes excluded it
may be empty. -/
theorem wp_ribMoreSpecificsIter [Fam W] {p : PrefixId W} (hD : During T R p C) (st : Strategy)
    (mui : Option Mui) (iw : Bool) (hp : p.Clean) {fuel : Nat} (hf : D ∨ iterFuel W ≤ fuel)
    {s : Rib M W} (hl : Live T p C s) :
    wp R RO D (ribMoreSpecificsIter st fuel p mui iw)
      (fun l s' => Listed st mui iw C (MoreOf p) s l s') s := by
  have hmain := fun s1 (h : Grow T s s1) hl1 => wp_moreIterMain (D := D) hD st mui iw hp hf h
    (s := s1) hl1
  unfold ribMoreSpecificsIter
  cases mui with
  | none => exact hmain s (Grow.rfl' s) hl
  | some m =>
    cases iw with
    | true => exact hmain s (Grow.rfl' s) hl
    | false =>
      simp only [if_true]
      rw [wp_bind]
      refine wp_conseq _ (wp_live hD hl (Q := fun _ _ => True) ?_) ?_
      · unfold ribMuiIsWithdrawn
        rw [wp_bind]
        exact wp_conseq _ (wp_readWd hD.grow s) (fun _ _ _ => trivial)
      · rintro b s1 ⟨hl1, hg1, _⟩
        cases b with
        | true =>
          exact ⟨[], rfl, List.nodup_nil, by simp, fun _ q _ _ ha => absurd ha.1 (by simp)⟩
        | false => exact hmain s1 hg1 hl1

theorem wp_ribLessSpecificsIter [Fam W] (hR : ∀ s s', R s s' → Grow T s s') (st : Strategy)
    {p : PrefixId W} (hp : p.Clean) (mui : Option Mui) (iw : Bool) {s : Rib M W} (hs : Sane T s) :
    wp R RO D (ribLessSpecificsIter st p mui iw) (fun l s' => ∃ qs : List (PrefixRecord M W),
      l = qs.map .ok ∧ (qs.map Prod.fst).Nodup ∧
      (∀ x ∈ qs, x.2 ≠ [] ∧ Seen s'.tree.slots x.1.id ∧ x.1.len < p.len ∧
        p.truncateTo x.1.len = x.1.id) ∧
      (∀ q : Prefix W, Seen s.tree.slots q.id → q.len < p.len → p.truncateTo q.len = q.id →
        Asked st mui iw q.id s → ∃ rs, (q, rs) ∈ qs)) s := by
  unfold ribLessSpecificsIter
  rw [wp_bind]
  refine wp_conseq _ (wp_eachLess hR hp (B := FiltItem st mui iw s) (fun q s' hq _ hs' hg' =>
    wp_filterItem hR st mui iw hq hs' hg') hs) ?_
  rintro bs s' ⟨hg, ls, hbs, hL⟩
  have hnd : (ls.map p.truncateTo).Nodup := by
    rw [List.nodup_iff_pairwise_ne, List.pairwise_map]
    refine hL.desc.imp fun {a b} hab h => ?_
    have := congrArg PrefixId.len h
    simp only [PrefixId.truncateTo] at this
    omega
  obtain ⟨qs, h1, h2, h3, h4⟩ := filt_items hbs hnd
  refine ⟨qs, h1, h2, fun x hx => ?_, fun q hq hlt htr ha => ?_⟩
  · obtain ⟨hne, hm⟩ := h3 x hx
    obtain ⟨l, hl, hlx⟩ := List.mem_map.1 hm
    have hlen : x.1.len = l := by rw [show x.1.len = x.1.id.len from rfl, ← hlx]; rfl
    refine ⟨hne, by rw [← hlx]; exact hL.sound l hl, by rw [hlen]; exact (hL.range l hl).2, ?_⟩
    rw [hlen, hlx]
  · refine h4 q (List.mem_map.2 ⟨q.len, hL.complete q.len hq.1 hlt ?_, htr⟩) ha
    rw [htr]; exact hq

theorem wp_ribPrefixesIter [Fam W] (hD : During T R ⟨0#W, 0⟩ C) (st : Strategy) {fuel : Nat}
    (hf : D ∨ iterFuel W ≤ fuel) {s : Rib M W} (hl : Live T ⟨0#W, 0⟩ C s) :
    wp R RO D (ribPrefixesIter st fuel) (fun l s' => ∃ qs : List (PrefixRecord M W),
      l = qs.map .ok ∧ (qs.map Prod.fst).Nodup ∧ (∀ x ∈ qs, Seen s'.tree.slots x.1.id) ∧
      (C → ∀ q : Prefix W, Settled s.tree.slots q.id → ∃ rs, (q, rs) ∈ qs ∧
        (Asked st none true q.id s → rs ≠ []))) s := by
  have h0 : (⟨0#W, 0⟩ : PrefixId W).Clean := (Prefix.root W).clean
  unfold ribPrefixesIter
  refine wp_conseq _ (wp_eachMore hD (B := PfxItem st s) (fun q s' hq _ hs' hg' =>
    wp_pfxItem hD.grow st hq hs' hg') h0 hf hl) ?_
  rintro bs s' ⟨hl', out, hbs, hy⟩
  have key : ∀ {out : List (PrefixId W)} {bs : List (FatalResult (PrefixRecord M W))},
      List.Forall₂ (PfxItem st s) out bs → out.Nodup →
      ∃ qs : List (PrefixRecord M W), bs = qs.map .ok ∧ (qs.map Prod.fst).Nodup ∧
        (∀ x ∈ qs, x.1.id ∈ out) ∧ (∀ q : Prefix W, q.id ∈ out → ∃ rs, (q, rs) ∈ qs ∧
          (Asked st none true q.id s → rs ≠ [])) := by
    intro out bs h
    induction h with
    | nil => exact fun _ => ⟨[], rfl, List.nodup_nil, by simp, by simp⟩
    | @cons p b out bs hab hrest ih =>
      intro hnd
      rw [List.nodup_cons] at hnd
      obtain ⟨qs, h1, h2, h3, h4⟩ := ih hnd.2
      obtain ⟨q, rs, hq, rfl, hne⟩ := hab
      refine ⟨(q, rs) :: qs, by simp [h1], ?_, ?_, ?_⟩
      · rw [List.map_cons, List.nodup_cons]
        refine ⟨fun hm => ?_, h2⟩
        obtain ⟨y, hy, hyq⟩ := List.mem_map.1 hm
        have := h3 y hy
        rw [hyq, hq] at this
        exact hnd.1 this
      · intro y hy
        rcases List.mem_cons.1 hy with rfl | hy
        · rw [hq]; simp
        · exact List.mem_cons_of_mem _ (h3 y hy)
      · intro q' hq'
        rcases List.mem_cons.1 hq' with h | h
        · have : q' = q := Prefix.id_inj (h.trans hq.symm)
          subst this
          exact ⟨rs, List.mem_cons_self, by rw [h]; exact hne⟩
        · obtain ⟨rs, hrs, hn⟩ := h4 q' h
          exact ⟨rs, List.mem_cons_of_mem _ hrs, hn⟩
  obtain ⟨qs, h1, h2, h3, h4⟩ := key hbs hy.nodup
  refine ⟨qs, h1, h2, fun x hx => (hy.sound _ (h3 x hx)).2.2, fun c q hset => ?_⟩
  exact h4 q (hy.complete c q.id hset ⟨Nat.lt_of_lt_of_le hset.pos hset.clean.1,
    Nat.zero_le _, by simp [truncate_zero]⟩)

/-- `iter_records_for_mui`. -/
theorem wp_ribIterRecordsForMui [Fam W] (hD : During T R ⟨0#W, 0⟩ C) (st : Strategy) (m : Mui)
    (iw : Bool) {fuel : Nat} (hf : D ∨ iterFuel W ≤ fuel)
    {s : Rib M W} (hl : Live T ⟨0#W, 0⟩ C s) :
    wp R RO D (ribIterRecordsForMui st fuel m iw)
      (fun l s' => Listed st (some m) iw C (MoreOf ⟨0#W, 0⟩) s l s') s := by
  have h0 : (⟨0#W, 0⟩ : PrefixId W).Clean := (Prefix.root W).clean
  unfold ribIterRecordsForMui
  rw [wp_bind]
  refine wp_conseq _ (wp_live hD hl (Q := fun _ _ => True) ?_) ?_
  · unfold ribMuiIsWithdrawn
    rw [wp_bind]
    exact wp_conseq _ (wp_readWd hD.grow s) (fun _ _ _ => trivial)
  · rintro b s1 ⟨hl1, hg1, _⟩
    split
    · rename_i h
      rw [h.2]
      exact ⟨[], rfl, List.nodup_nil, by simp, fun _ q _ _ ha => absurd ha.1 (by simp)⟩
    · refine wp_conseq _ (wp_ribMoreSpecificsIter hD st (some m) iw h0 hf hl1) ?_
      rintro l s' ⟨qs, h1, h2, h3, h4⟩
      exact ⟨qs, h1, h2, h3, fun c q hq hP ha => h4 c q (hq.ext hg1.nodes.1) hP (ha.grow hg1)⟩

/-- `contains`. -/
theorem wp_ribContains [hW : Fam W] (hR : ∀ s s', R s s' → Grow T s s') {p : PrefixId W}
    (hp : p.Clean) (mui : Option Mui) {s : Rib M W} (hs : Sane T s) :
    wp R RO D (ribContains p mui) (fun b s' =>
      (b = true → Seen s'.tree.slots p ∧ ∀ m, mui = some m → Open s'.tree.slots (hostId p) m) ∧
      (b = false → ¬ (Seen s.tree.slots p ∧
        ∀ m, mui = some m → Open s.tree.slots (hostId p) m))) s := by
  have hN := proj_nodesOK hR
  cases mui with
  | none =>
    refine wp_conseq _ (wp_onNodes (wp_exists hN hp hs.n)) ?_
    rintro b s' ⟨_, _, h1, h2⟩
    exact ⟨fun h => ⟨h1 h, fun m hm => by cases hm⟩, fun h hc => h2 h hc.1⟩
  | some m =>
    by_cases h0 : 0 < p.len
    · refine wp_conseq _ (wp_onNodes (wp_prefixExistsForMuiN (fun a b h => (hN a b h).1) hp h0
        hs.nodes)) ?_
      rintro b s' ⟨_, h1, h2⟩
      refine ⟨fun h => ⟨⟨h0, (h1 h).1⟩, fun m' hm => ?_⟩, fun h hc => h2 h ⟨hc.1.2, hc.2 m rfl⟩⟩
      cases hm; exact (h1 h).2
    · refine wp_conseq _ (wp_onNodes (wp_prefixExistsForMuiN_zero (fun a b h => (hN a b h).1)
        (fun a b h => (hN a b h).2) (by omega) hs.nodes hs.just)) ?_
      rintro b s' rfl
      exact ⟨fun h => (by cases h), fun _ hc => h0 hc.1.1⟩

/-- `best_path` returns. -/
theorem wp_ribBestPath [Fam W] (hR : ∀ s s', R s s' → Grow T s s') {p : PrefixId W}
    (hp : p.Clean) {s : Rib M W} (hs : Sane T s) :
    wp R RO D (ribBestPath p) (fun _ _ => True) s := by
  unfold ribBestPath
  rw [wp_bind]
  refine wp_conseq _ (wp_onRecsRO (wp_retrieve (proj_recs hR) hp hs.recs)) ?_
  rintro r s1 ⟨hi1, hr⟩
  cases r with
  | none => trivial
  | some ref =>
    simp only
    rw [wp_bind]
    refine wp_conseq _ (wp_onRecsRO (wp_readEntry (proj_recs hR) hi1 hr)) ?_
    rintro ps s2 ⟨hi2, he2, _⟩
    cases ps.1 with
    | none => trivial
    | some m =>
      simp only
      rw [wp_bind]
      refine wp_conseq _ (wp_onRecsRO (wp_readEntry (proj_recs hR) hi2 he2)) ?_
      rintro r s3 _
      cases r <;> trivial

theorem wp_ribIsPsOutdated [Fam W] (hR : ∀ s s', R s s' → Grow T s s') {p : PrefixId W}
    (hp : p.Clean) {s : Rib M W} (hs : Sane T s) :
    wp R RO D (ribIsPsOutdated p) (fun _ _ => True) s := by
  unfold ribIsPsOutdated
  rw [wp_bind]
  refine wp_conseq _ (wp_onRecsRO (wp_retrieve (proj_recs hR) hp hs.recs)) ?_
  rintro r s1 ⟨hi1, hr⟩
  cases r with
  | none => trivial
  | some ref =>
    simp only
    rw [wp_bind]
    refine wp_conseq _ (wp_onRecsRO (wp_readEntry (proj_recs hR) hi1 hr)) ?_
    intro _ _ _
    trivial

theorem wp_ribPersistPrefixesIter [Fam W] (hR : ∀ s s', R s s' → Grow T s s') (st : Strategy)
    {s : Rib M W} (hs : Sane T s) :
    wp R RO D (ribPersistPrefixesIter st) (fun _ _ => True) s := by
  have hmain : wp R RO D (do
      let gs ← Prog.read fun r : Rib M W => lsmPrefixesIter W r.lsm
      match gs with
      | none => Prog.diverge
      | some gs => Prog.ofOption (groupsToPrefix (gs.map (persistGroupRecord (M := M) W))))
      (fun _ _ => True) s := by
    rw [wp_bind]
    refine wp_conseq _ (wp_lsmRead hR _ s) ?_
    rintro gs s1 ⟨hg1, rfl⟩
    obtain ⟨gs, h1, r, h2⟩ := persistIter_some (M := M) (hs.grow hg1).lsm
    rw [h1]
    exact wp_ofOption h2 trivial
  cases st with
  | memoryOnly => trivial
  | writeAhead | persistHistory | persistOnly => exact hmain

/-- The answers of `more_specifics_from` and `less_specifics_from`: no error. -/
theorem collect_same {bs : List (FatalResult (Option (PrefixRecord M W)))}
    (h : ∀ b ∈ bs, ∃ r, b = .ok r) : ∃ o, collectFatalOption bs = .ok o := by
  induction bs with
  | nil => exact ⟨_, rfl⟩
  | cons b bs ih =>
    obtain ⟨r, rfl⟩ := h b (by simp)
    obtain ⟨o, ho⟩ := ih (fun x hx => h x (List.mem_cons_of_mem _ hx))
    cases r with
    | none => exact ⟨none, rfl⟩
    | some a =>
      simp only [collectFatalOption, ho]
      cases o with
      | none => exact ⟨_, rfl⟩
      | some as => exact ⟨_, rfl⟩

theorem wp_ribFromCommon [Fam W] (hR : ∀ s s', R s s' → Grow T s s') (st : Strategy)
    {p : PrefixId W} (hp : p.Clean) (mui : Option Mui) (iw : Bool)
    {walk : Prog (Rib M W) (List (FatalResult (Option (PrefixRecord M W))))} {s : Rib M W}
    (hs : Sane T s)
    (hw : ∀ s', Grow T s s' → wp R RO D walk (fun bs _ => ∀ b ∈ bs, ∃ r, b = .ok r) s') :
    wp R RO D (ribFromCommon st p mui iw walk) (fun r _ => ∃ x, r = .ok x) s := by
  obtain ⟨q, rfl⟩ := exists_prefix hp
  have hend : ∀ (s1 : Rib M W) (pfx : Option (Prefix W)), Grow T s s1 →
      wp R RO D (do
        match ← ribGetValue st q.id mui iw with
        | .error e => return .error e
        | .ok r =>
          let l ← walk
          match collectFatalOption l with
          | .error e => return .error e
          | .ok set => return (.ok (pfx, r.getD [], set) : FatalResult _))
      (fun r _ => ∃ x, r = .ok x) s1 := by
    intro s1 pfx hg1
    rw [wp_bind]
    refine wp_conseq _ (wp_reader hR (wp_ribGetValue hR st hp mui iw (hs.grow hg1))) ?_
    rintro res s2 ⟨hg2, hres⟩
    obtain ⟨r, rfl, _⟩ := hres
    simp only
    rw [wp_bind]
    refine wp_conseq _ (hw s2 (hg1.trans hg2)) ?_
    intro bs s3 hbs
    obtain ⟨o, ho⟩ := collect_same hbs
    rw [ho]
    exact ⟨_, rfl⟩
  unfold ribFromCommon
  rw [wp_bind]
  refine wp_conseq _ (wp_reader hR (wp_ribContains hR hp mui hs)) ?_
  rintro c s1 ⟨hg1, _⟩
  cases c with
  | false =>
    simp only [if_true]
    rw [wp_bind, wp_bind]
    exact wp_ofOption (toPrefix_id q) (hend s1 (some q) hg1)
  | true => exact hend s1 none hg1

theorem wp_ribMoreSpecificsFrom [Fam W] {p : PrefixId W} (hR : ∀ s s', R s s' → Grow T s s')
    (st : Strategy) (hp : p.Clean) (mui : Option Mui) (iw : Bool) {fuel : Nat}
    (hf : D ∨ iterFuel W ≤ fuel) {s : Rib M W} (hs : Sane T s) :
    wp R RO D (ribMoreSpecificsFrom st fuel p mui iw) (fun r _ => ∃ x, r = .ok x) s := by
  have hD : During T R p False := ⟨hR, fun h => h.elim⟩
  unfold ribMoreSpecificsFrom
  rw [wp_bind]
  refine wp_conseq _ (wp_ribFromCommon hR st hp mui iw hs (fun s' hg => ?_)) ?_
  · refine wp_conseq _ (wp_eachMore hD (B := fun _ b => ∃ r, b = .ok r) (fun q s1 hq _ hs1 _ => ?_) hp hf
      ⟨hs.grow hg, fun h => h.elim⟩) ?_
    · refine wp_conseq _ (wp_sameItem hR st hp mui iw hq hs1) ?_
      rintro b _ ⟨q', r, _, rfl⟩
      exact ⟨_, rfl⟩
    · rintro bs s2 ⟨_, out, hbs, _⟩ b hb
      obtain ⟨_, _, h⟩ := forall₂_mem_right hbs hb
      exact h
  · rintro r s' ⟨x, rfl⟩
    exact ⟨_, rfl⟩

theorem wp_ribLessSpecificsFrom [Fam W] {p : PrefixId W} (hR : ∀ s s', R s s' → Grow T s s')
    (st : Strategy) (hp : p.Clean) (mui : Option Mui) (iw : Bool) {s : Rib M W} (hs : Sane T s) :
    wp R RO D (ribLessSpecificsFrom st p mui iw) (fun r _ => ∃ x, r = .ok x) s := by
  unfold ribLessSpecificsFrom
  rw [wp_bind]
  refine wp_conseq _ (wp_ribFromCommon hR st hp mui iw hs (fun s' hg => ?_)) ?_
  · refine wp_conseq _ (wp_eachLess hR hp (B := fun _ b => ∃ r, b = .ok r) (fun q s1 hq _ hs1 _ => ?_)
      (hs.grow hg)) ?_
    · refine wp_conseq _ (wp_sameItem hR st hp mui iw hq hs1) ?_
      rintro b _ ⟨q', r, _, rfl⟩
      exact ⟨_, rfl⟩
    · rintro bs s2 ⟨_, out, hbs, _⟩ b hb
      obtain ⟨_, _, h⟩ := forall₂_mem_right hbs hb
      exact h
  · rintro r s' ⟨x, rfl⟩
    exact ⟨_, rfl⟩

/-! ## `match_prefix` -/

theorem wp_filterValues [Fam W] (hR : ∀ s s', R s s' → Grow T s s') (st : Strategy) (mui : Option Mui)
    (iw : Bool) {s0 : Rib M W} : ∀ (ps : List (PrefixId W)) (s : Rib M W), (∀ p ∈ ps, p.Clean) →
    Sane T s → Grow T s0 s → wp R RO D (filterValues st mui iw ps) (fun l _ => ∃ bs,
      List.Forall₂ (FiltItem st mui iw s0) ps bs ∧ l = bs.filterMap id) s := by
  intro ps
  induction ps with
  | nil => intro s _ _ _; exact ⟨[], .nil, rfl⟩
  | cons p ps ih =>
    intro s hps hs hg
    have hp := hps p (by simp)
    obtain ⟨q, rfl⟩ := exists_prefix hp
    unfold filterValues
    rw [wp_bind]
    refine wp_conseq _ (wp_reader hR (wp_ribGetValue hR st hp mui iw hs)) ?_
    rintro res s1 ⟨hg1, hres⟩
    rw [wp_bind]
    apply wp_ofOption (toPrefix_id q)
    rw [wp_bind]
    refine wp_conseq _ (ih s1 (fun x hx => hps x (List.mem_cons_of_mem _ hx)) (hs.grow hg1)
      (hg.trans hg1)) ?_
    rintro l s2 ⟨bs, hbs, rfl⟩
    rcases hres.cases with ⟨rfl, h⟩ | ⟨x, xs, rfl⟩
    · exact ⟨none :: bs, .cons (.inl ⟨rfl, fun ha => h (ha.grow hg)⟩) hbs, rfl⟩
    · exact ⟨some (.ok (q, x :: xs)) :: bs, .cons (.inr ⟨q, x, xs, rfl, rfl⟩) hbs, rfl⟩

/-- The set filled in for the prefixes found. -/
def Filled (st : Strategy) (mui : Option Mui) (iw : Bool) (s : Rib M W) (ps : List (PrefixId W))
    (qs : List (PrefixRecord M W)) : Prop :=
  (qs.map Prod.fst).Nodup ∧ (∀ x ∈ qs, x.2 ≠ [] ∧ x.1.id ∈ ps) ∧
    (∀ q : Prefix W, q.id ∈ ps → Asked st mui iw q.id s → ∃ rs, (q, rs) ∈ qs)

theorem wp_fillRecords [Fam W] (hR : ∀ s s', R s s' → Grow T s s') (st : Strategy) (mui : Option Mui)
    (iw : Bool) {s0 s : Rib M W} {o : Option (List (PrefixId W))}
    (hps : ∀ ps, o = some ps → ps.Nodup ∧ ∀ p ∈ ps, p.Clean) (hs : Sane T s) (hg : Grow T s0 s) :
    wp R RO D (fillRecords st mui iw o) (fun r _ => (o = none ∧ r = .ok none) ∨
      ∃ ps qs, o = some ps ∧ r = .ok (some qs) ∧ Filled st mui iw s0 ps qs) s := by
  cases o with
  | none => exact .inl ⟨rfl, rfl⟩
  | some ps =>
    unfold fillRecords
    rw [wp_bind]
    refine wp_conseq _ (wp_filterValues hR st mui iw ps s (hps ps rfl).2 hs hg) ?_
    rintro l s1 ⟨bs, hbs, rfl⟩
    obtain ⟨qs, h1, h2, h3, h4⟩ := filt_items hbs (hps ps rfl).1
    rw [h1, collectFatal_ok]
    exact .inr ⟨ps, qs, rfl, rfl, h2, h3, h4⟩

theorem wp_ribMatchFound [Fam W] (hR : ∀ s s', R s s' → Grow T s s') (st : Strategy)
    (mui : Option Mui) (iw : Bool) (ty : MatchType) {s0 s : Rib M W} {o : Option (PrefixId W)}
    (ho : ∀ q, o = some q → q.Clean) (hs : Sane T s) (hg : Grow T s0 s) :
    wp R RO D (ribMatchFound st mui iw ty o) (fun r _ =>
      (r = (.emptyMatch, none, []) ∧ ∀ q, o = some q → ¬ Asked st mui iw q s0) ∨
      ∃ (q : Prefix W) (x : Record M) (xs : List (Record M)), o = some q.id ∧
        r = (ty, some q, x :: xs)) s := by
  cases o with
  | none => exact .inl ⟨rfl, fun q h => by cases h⟩
  | some q =>
    have hq := ho q rfl
    obtain ⟨qp, rfl⟩ := exists_prefix hq
    unfold ribMatchFound
    rw [wp_bind]
    apply wp_ofOption (toPrefix_id qp)
    rw [wp_bind]
    refine wp_conseq _ (wp_ribGetValue hR st hq mui iw hs) ?_
    intro res s1 hres
    rcases hres.cases with ⟨rfl, h⟩ | ⟨x, xs, rfl⟩
    · refine .inl ⟨rfl, fun q hq => ?_⟩
      cases hq
      exact fun ha => h (ha.grow hg)
    · exact .inr ⟨qp, x, xs, rfl, rfl⟩

/-- What the tree part of `match_prefix` finds. -/
structure TreeFound (T : PrefixId W → Mui → Prop) (C : Prop) (p : PrefixId W) (mt : MatchType)
    (ls ms : Bool) (s : Rib M W) (r : TreeQueryResult W) (s' : Rib M W) : Prop where
  found : ∃ o : Option Nat, Longest s.tree.slots p p.len o s'.tree.slots ∧
    r.prefix_ = if mt = .exactMatch ∧ o ≠ some p.len then none else o.map p.truncateTo
  less : (ls = false ∧ r.lessSpecifics = none) ∨ ∃ l, r.lessSpecifics = some (l.map p.truncateTo) ∧
    Lesser s.tree.slots p p.len l s'.tree.slots
  more : (ms = false ∧ r.moreSpecifics = none) ∨ ∃ out, r.moreSpecifics =
    some (out.filter fun q => decide (q ≠ p)) ∧ Yielded T p C s (MoreOf p) out s'

omit [Meta M] in
theorem Longest.late {s s1 s2 : NSlots W} {p : PrefixId W} {n : Nat} {o : Option Nat}
    (h : Longest s p n o s1) (hx : NExt s1 s2) : Longest s p n o s2 := by
  refine ⟨h.1, fun l hl => ?_⟩
  obtain ⟨h1, h2, h3, h4⟩ := h.2 l hl
  exact ⟨h1, h2, h3.ext hx, h4⟩

omit [Meta M] in
theorem Lesser.shift {s0 s s1 s2 : NSlots W} {p : PrefixId W} {n : Nat} {l : List Nat}
    (h : Lesser s p n l s1) (h0 : NExt s0 s) (hx : NExt s1 s2) : Lesser s0 p n l s2 :=
  ⟨h.desc, h.range, fun l hl => (h.sound l hl).ext hx,
    fun l h1 h2 h3 => h.complete l h1 h2 (h3.ext h0)⟩

omit [Meta M] in
theorem wp_optionally {α σ : Type} {RR GG : σ → σ → Prop} {b : Bool} {q : Prog σ α}
    {Q : α → σ → Prop} {s : σ} (hq : wp RR GG D q Q s) :
    wp RR GG D (optionally b q) (fun r s' => (b = false ∧ r = none ∧ s' = s) ∨
      ∃ x, r = some x ∧ Q x s') s := by
  unfold optionally
  cases b with
  | false => exact .inl ⟨rfl, rfl, rfl⟩
  | true =>
    simp only [if_true]
    rw [wp_bind]
    exact wp_conseq _ hq (fun x s' h => .inr ⟨x, rfl, h⟩)

omit [Meta M] in
theorem wp_treeMatchPrefix [Fam W] {p : PrefixId W} (hD : During T R p C) (hp : p.Clean) {fuel : Nat}
    (hf : D ∨ iterFuel W ≤ fuel) (mt : MatchType) (ls ms : Bool) {s : Rib M W} (hl : Live T p C s) :
    wp R RO D (onNodes (treeMatchPrefix fuel p mt ls ms)) (fun r s' => Live T p C s' ∧ Grow T s s' ∧
      TreeFound T C p mt ls ms s r s') s := by
  have hA := around_nodes hD hl.sane.clean
  have hN := proj_nodesOK hD.grow
  apply wp_live hD hl
  refine wp_conseq _ (wp_onNodes (Q := fun r t =>
    (∃ o : Option Nat, Longest s.tree.slots p p.len o t ∧
      r.prefix_ = if mt = .exactMatch ∧ o ≠ some p.len then none else o.map p.truncateTo) ∧
    ((ls = false ∧ r.lessSpecifics = none) ∨ ∃ l, r.lessSpecifics = some (l.map p.truncateTo) ∧
      Lesser s.tree.slots p p.len l t) ∧
    ((ms = false ∧ r.moreSpecifics = none) ∨ ∃ out, r.moreSpecifics =
      some (out.filter fun q => decide (q ≠ p)) ∧
      Yield (fun s => SaneN T s ∧ (C → Kids p s)) C s.tree.slots (MoreOf p) out t)) ?_)
    (fun r s' h => ⟨h.1, h.2.1, h.2.2⟩)
  -- all walks keep the state fit for the iteration
  have hkeep : ∀ {α : Type} {prog : Prog (NSlots W) α} {Q : α → NSlots W → Prop} {t : NSlots W},
      (SaneN T t ∧ (C → Kids p t)) →
      wp (proj (fun s : Rib M W => s.tree.slots) R) RO D prog Q t →
      wp (proj (fun s : Rib M W => s.tree.slots) R) RO D prog
        (fun a t' => ((SaneN T t' ∧ (C → Kids p t')) ∧ NExt t t') ∧ Q a t') t := by
    intro α prog Q t ht h
    exact wp_carry (P := fun t' => (SaneN T t' ∧ (C → Kids p t')) ∧ NExt t t')
      (fun a b h hp => ⟨hA.stable a b h hp.1, hp.2.trans (hN a b h).1.1⟩)
      (fun a b h hp => by cases h; exact hp) _ ⟨ht, NExt.rfl' t⟩ h
  have ht0 : SaneN T s.tree.slots ∧ (C → Kids p s.tree.slots) := ⟨hl.sane.n, hl.kids⟩
  unfold treeMatchPrefix
  rw [wp_bind]
  refine wp_conseq _ (hkeep ht0 (wp_longestMatchingPrefix hN hp ht0.1)) ?_
  rintro lm t1 ⟨⟨ht1, hx1⟩, _, _, o, rfl, hlong⟩
  rw [wp_bind]
  refine wp_conseq _ (hkeep ht1 (wp_optionally (wp_lessSpecifics hN hp ht1.1))) ?_
  rintro lsR t2 ⟨⟨ht2, hx2⟩, hls⟩
  rw [wp_bind]
  refine wp_conseq _ (hkeep ht2 (wp_optionally (wp_moreSpecifics hA ht2 hp hf))) ?_
  rintro msR t3 ⟨⟨ht3, hx3⟩, hms⟩
  refine ⟨⟨o, hlong.late (hx2.trans hx3), ?_⟩, ?_, ?_⟩
  · -- the matched prefix
    cases mt with
    | exactMatch =>
      cases o with
      | none => simp
      | some l =>
        by_cases hlp : l = p.len
        · subst hlp
          simp [truncate_self hp]
        · have : p.truncateTo l ≠ p := fun h => hlp (by
            have := congrArg PrefixId.len h; simpa [PrefixId.truncateTo] using this)
          simp [this, hlp]
    | longestMatch | emptyMatch => simp
  · rcases hls with ⟨rfl, rfl, _⟩ | ⟨x, rfl, _, _, l, rfl, hL⟩
    · exact .inl ⟨rfl, rfl⟩
    · exact .inr ⟨l, rfl, hL.shift hx1 hx3⟩
  · rcases hms with ⟨rfl, rfl, _⟩ | ⟨out, rfl, hy⟩
    · exact .inl ⟨rfl, rfl⟩
    · exact .inr ⟨out, rfl, hy.inv, (hx1.trans hx2).trans hy.ext, hy.nodup, hy.sound,
        fun c q hq hP => hy.complete c q (hq.ext (hx1.trans hx2)) hP⟩

/-- The answer of `match_prefix`. -/
structure Matched (T : PrefixId W → Mui → Prop) (st : Strategy) (C : Prop) (p : PrefixId W)
    (o : MatchOptions) (s : Rib M W) (x : QueryResult M W) (s' : Rib M W) : Prop where
  /-- `l` is the longest match found in the tree; it is reported when there are records for it -/
  found : ∃ l : Option Nat, Longest s.tree.slots p p.len l s'.tree.slots ∧
    ((x.prefix_ = none ∧ x.records = [] ∧
        ∀ k, l = some k → (o.matchType = .exactMatch → k = p.len) →
          ¬ Asked st o.mui o.includeWithdrawn (p.truncateTo k) s) ∨
      ∃ (q : Prefix W) (k : Nat), l = some k ∧ x.prefix_ = some q ∧ q.id = p.truncateTo k ∧
        x.records ≠ [] ∧ (o.matchType = .exactMatch → q.id = p))
  less : (o.includeLessSpecifics = false ∧ x.lessSpecifics = none) ∨ ∃ qs ls,
    x.lessSpecifics = some qs ∧ Lesser s.tree.slots p p.len ls s'.tree.slots ∧
      Filled st o.mui o.includeWithdrawn s (ls.map p.truncateTo) qs
  more : (o.includeMoreSpecifics = false ∧ x.moreSpecifics = none) ∨ ∃ qs out,
    x.moreSpecifics = some qs ∧ Yielded T p C s (MoreOf p) out s' ∧
      Filled st o.mui o.includeWithdrawn s (out.filter fun q => decide (q ≠ p)) qs

theorem wp_ribMatchPrefix [Fam W] {p : PrefixId W} (hD : During T R p C) (st : Strategy)
    (hp : p.Clean) {fuel : Nat} (hf : D ∨ iterFuel W ≤ fuel) (o : MatchOptions) {s : Rib M W}
    (hl : Live T p C s) :
    wp R RO D (ribMatchPrefix st fuel p o) (fun r s' => ∃ x, r = .ok x ∧
      Matched T st C p o s x s') s := by
  have hR := hD.grow
  unfold ribMatchPrefix
  rw [wp_bind]
  refine wp_conseq _ (wp_treeMatchPrefix hD hp hf _ _ _ hl) ?_
  rintro res s1 ⟨hl1, hg1, hfound, hless, hmore⟩
  obtain ⟨lo, hlong, hpre⟩ := hfound
  have hpW := hp.1
  rw [wp_bind]
  refine wp_conseq _ (wp_live hD hl1 (wp_ribMatchFound hR st o.mui o.includeWithdrawn res.matchType
    (o := res.prefix_) ?_ hl1.sane hg1)) ?_
  · intro q hq
    rw [hpre] at hq
    split at hq
    · cases hq
    · obtain ⟨k, hk, rfl⟩ := Option.map_eq_some_iff.1 hq
      exact truncateTo_clean p (by have := (hlong.2 k hk).2.1; omega)
  rintro fnd s2 ⟨hl2, hg2, hfnd⟩
  rw [wp_bind]
  refine wp_conseq _ (wp_live hD hl2 (wp_fillRecords hR st o.mui o.includeWithdrawn
    (o := res.moreSpecifics) ?_ hl2.sane (hg1.trans hg2))) ?_
  · intro ps hps
    rcases hmore with ⟨_, h⟩ | ⟨out, h, hy⟩
    · rw [h] at hps; cases hps
    · rw [h] at hps; cases hps
      exact ⟨hy.nodup.filter _, fun q hq => (hy.sound q (List.mem_of_mem_filter hq)).2.1⟩
  rintro msr s3 ⟨hl3, hg3, hmsr⟩
  have hend : ∀ ms : Option (List (PrefixRecord M W)),
      ((o.includeMoreSpecifics = false ∧ ms = none) ∨ ∃ qs out,
        ms = some qs ∧ Yielded T p C s (MoreOf p) out s3 ∧
        Filled st o.mui o.includeWithdrawn s (out.filter fun q => decide (q ≠ p)) qs) →
      wp R RO D (do
        match ← fillRecords st o.mui o.includeWithdrawn res.lessSpecifics with
        | .error e => return .error e
        | .ok ls => return (.ok (QueryResult.mk fnd.1 fnd.2.1 fnd.2.2 ls ms) :
            FatalResult (QueryResult M W)))
      (fun r s' => ∃ x, r = .ok x ∧ Matched T st C p o s x s') s3 := by
    intro ms hms
    rw [wp_bind]
    refine wp_conseq _ (wp_live hD hl3 (wp_fillRecords hR st o.mui o.includeWithdrawn
      (o := res.lessSpecifics) ?_ hl3.sane ((hg1.trans hg2).trans hg3))) ?_
    · intro ps hps
      rcases hless with ⟨_, h⟩ | ⟨ls, h, hL⟩
      · rw [h] at hps; cases hps
      · rw [h] at hps; cases hps
        refine ⟨?_, fun q hq => ?_⟩
        · rw [List.nodup_iff_pairwise_ne, List.pairwise_map]
          refine hL.desc.imp fun {a b} hab h => ?_
          have := congrArg PrefixId.len h
          simp only [PrefixId.truncateTo] at this
          omega
        · obtain ⟨k, hk, rfl⟩ := List.mem_map.1 hq
          exact truncateTo_clean p (by have := (hL.range k hk).2; omega)
    rintro lsr s4 ⟨hl4, hg4, hlsr⟩
    have hx : NExt s1.tree.slots s4.tree.slots := ((hg2.trans hg3).trans hg4).nodes.1
    have hlfound : ∃ l : Option Nat, Longest s.tree.slots p p.len l s4.tree.slots ∧
        ((fnd.2.1 = none ∧ fnd.2.2 = [] ∧
            ∀ k, l = some k → (o.matchType = .exactMatch → k = p.len) →
              ¬ Asked st o.mui o.includeWithdrawn (p.truncateTo k) s) ∨
          ∃ (q : Prefix W) (k : Nat), l = some k ∧ fnd.2.1 = some q ∧ q.id = p.truncateTo k ∧
            fnd.2.2 ≠ [] ∧ (o.matchType = .exactMatch → q.id = p)) := by
      refine ⟨lo, hlong.late hx, ?_⟩
      rcases hfnd with ⟨rfl, hna⟩ | ⟨q, x, xs, hq, rfl⟩
      · refine .inl ⟨rfl, rfl, fun k hk hex => hna _ ?_⟩
        rw [hpre, hk, if_neg]
        · rfl
        · rintro ⟨h1, h2⟩
          exact h2 (by rw [hex h1])
      · rw [hpre] at hq
        split at hq
        · cases hq
        · rename_i hc
          obtain ⟨k, hk, hkq⟩ := Option.map_eq_some_iff.1 hq
          refine .inr ⟨q, k, hk, rfl, hkq.symm, by simp, fun hex => ?_⟩
          have : lo = some p.len := by
            by_contra hne; exact hc ⟨hex, hne⟩
          rw [this] at hk; cases hk
          rw [← hkq, truncate_self hp]
    have hmore4 : (o.includeMoreSpecifics = false ∧ ms = none) ∨ ∃ qs out,
        ms = some qs ∧ Yielded T p C s (MoreOf p) out s4 ∧
        Filled st o.mui o.includeWithdrawn s (out.filter fun q => decide (q ≠ p)) qs := by
      rcases hms with h | ⟨qs, out, h1, hy, h3⟩
      · exact .inl h
      · exact .inr ⟨qs, out, h1, ⟨⟨hl4.sane.n, hl4.kids⟩, hy.ext.trans hg4.nodes.1, hy.nodup,
          fun q hq => ⟨(hy.sound q hq).1, (hy.sound q hq).2.1, (hy.sound q hq).2.2.1,
            (hy.sound q hq).2.2.2.ext hg4.nodes.1⟩, hy.complete⟩, h3⟩
    rcases hlsr with ⟨hn, rfl⟩ | ⟨ps, qs, hps, rfl, hfill⟩
    · refine ⟨_, rfl, hlfound, .inl ⟨?_, rfl⟩, hmore4⟩
      rcases hless with ⟨h, _⟩ | ⟨ls, h, _⟩
      · exact h
      · rw [h] at hn; cases hn
    · refine ⟨_, rfl, hlfound, .inr ?_, hmore4⟩
      rcases hless with ⟨_, h⟩ | ⟨ls, h, hL⟩
      · rw [h] at hps; cases hps
      · rw [h] at hps; cases hps
        exact ⟨qs, ls, rfl, hL.shift (NExt.rfl' _) hx, hfill⟩
  rcases hmsr with ⟨hn, rfl⟩ | ⟨ps, qs, hps, rfl, hfill⟩
  · refine hend none (.inl ⟨?_, rfl⟩)
    rcases hmore with ⟨h, _⟩ | ⟨ls, h, _⟩
    · exact h
    · rw [h] at hn; cases hn
  · refine hend (some qs) (.inr ?_)
    rcases hmore with ⟨_, h⟩ | ⟨out, h, hy⟩
    · rw [h] at hps; cases hps
    · rw [h] at hps; cases hps
      exact ⟨qs, out, rfl, ⟨⟨hl3.sane.n, hl3.kids⟩, hy.ext.trans (hg2.trans hg3).nodes.1, hy.nodup,
          fun q hq => ⟨(hy.sound q hq).1, (hy.sound q hq).2.1, (hy.sound q hq).2.2.1,
            (hy.sound q hq).2.2.2.ext (hg2.trans hg3).nodes.1⟩, hy.complete⟩, hfill⟩

end Rotonda
