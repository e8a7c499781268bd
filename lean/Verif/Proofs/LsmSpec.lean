import Verif.Proofs.LsmBytes
import Verif.Proofs.RecSpec

/-!
# `PersistOnly` against the specification
-/

namespace Rotonda

open Prog Spec

variable {M : Type} {W : Nat}

theorem Prefix.len_lt [hW : Fam W] (p : Prefix W) : p.id.len < 256 := by
  have := p.le
  have := hW.width
  simp only [Prefix.id]; omega

/-- A pair with what is kept for it. -/
structure PoEntry (W : Nat) where
  pfx : Prefix W
  mui : Mui
  kept : Kept

/-- The persisted key and value. -/
def PoEntry.enc (e : PoEntry W) : Bytes × Bytes :=
  (shortKeyBytes e.pfx.id e.mui, headerBytes e.kept.ltime e.kept.status ++ e.kept.bytes)

theorem PoEntry.enc_bytes (e : PoEntry W) : e.enc.1 ++ e.enc.2 =
    longKeyBytes e.pfx.id e.mui e.kept.ltime e.kept.status ++ e.kept.bytes := by
  simp [PoEntry.enc, longKeyBytes]

theorem PoEntry.key_inj [Fam W] {e f : PoEntry W} (h : e.enc.1 = f.enc.1) :
    e.pfx = f.pfx ∧ e.mui = f.mui := by
  obtain ⟨h1, h2⟩ := shortKeyBytes_inj e.pfx.len_lt f.pfx.len_lt h
  exact ⟨Prefix.id_inj h1, h2⟩

/-- The persisted content is the map `f`. -/
structure PoRep (f : Prefix W → Mui → Option Kept) (t : Lsm) : Prop where
  sorted : t.Sorted
  mem : ∀ x, x ∈ t ↔ ∃ e : PoEntry W, f e.pfx e.mui = some e.kept ∧ x = e.enc

theorem sorted_nil {l : Lsm} (h : ∀ x, x ∉ l) : l = [] := by
  cases l with
  | nil => rfl
  | cons a l => exact absurd (List.mem_cons_self) (h a)

theorem sorted_singleton {l : Lsm} (hs : l.Sorted) {a : Bytes × Bytes} (h : ∀ x, x ∈ l ↔ x = a) :
    l = [a] := by
  cases l with
  | nil => exact absurd ((h a).2 rfl) (by simp)
  | cons b l =>
    have hb := (h b).1 (by simp)
    subst hb
    cases l with
    | nil => rfl
    | cons c l =>
      have hc := (h c).1 (by simp)
      subst hc
      have := (List.pairwise_cons.1 hs).1 c (by simp)
      rw [bytesLt_irrefl] at this
      cases this

theorem PoRep.scan_pair [Fam W] {f : Prefix W → Mui → Option Kept} {t : Lsm} (h : PoRep f t)
    (p : Prefix W) (m : Mui) :
    t.scan (shortKeyBytes p.id m) =
      match f p m with
      | none => []
      | some x => [(PoEntry.mk p m x).enc] := by
  have hmem : ∀ x, x ∈ t.scan (shortKeyBytes p.id m) ↔
      ∃ y, f p m = some y ∧ x = (PoEntry.mk p m y).enc := by
    intro x
    unfold Lsm.scan
    rw [List.mem_filter, h.mem]
    constructor
    · rintro ⟨⟨e, he, rfl⟩, hpre⟩
      rw [isPrefixOf_same (by simp [PoEntry.enc])] at hpre
      obtain ⟨h1, h2⟩ := PoEntry.key_inj (e := ⟨p, m, e.kept⟩) hpre
      simp only at h1 h2
      subst h1 h2
      exact ⟨e.kept, he, rfl⟩
    · rintro ⟨y, hy, rfl⟩
      exact ⟨⟨⟨p, m, y⟩, hy, rfl⟩, (isPrefixOf_same rfl).2 rfl⟩
  cases hf : f p m with
  | none =>
    apply sorted_nil
    intro x hx
    obtain ⟨y, hy, _⟩ := (hmem x).1 hx
    rw [hf] at hy; cases hy
  | some y =>
    apply sorted_singleton (h.sorted.scan _)
    intro x
    rw [hmem]
    constructor
    · rintro ⟨y', hy, rfl⟩
      rw [hf] at hy; cases hy; rfl
    · rintro rfl; exact ⟨y, hf, rfl⟩

theorem PoRep.insert [Fam W] {f : Prefix W → Mui → Option Kept} {t : Lsm} (h : PoRep f t)
    (p : Prefix W) (m : Mui) (x : Kept) {g : Prefix W → Mui → Option Kept}
    (hg : ∀ q k, g q k = if p = q ∧ m = k then some x else f q k) :
    PoRep g (t.insert (shortKeyBytes p.id m) (headerBytes x.ltime x.status ++ x.bytes)) := by
  refine ⟨h.sorted.insert _ _, fun y => ?_⟩
  rw [Lsm.mem_insert h.sorted, h.mem]
  constructor
  · rintro (rfl | ⟨hne, e, he, rfl⟩)
    · exact ⟨⟨p, m, x⟩, by simp [hg], rfl⟩
    · refine ⟨e, ?_, rfl⟩
      rw [hg, if_neg, he]
      rintro ⟨h1, h2⟩
      apply hne
      simp only [PoEntry.enc, ← h1, ← h2]
  · rintro ⟨e, he, rfl⟩
    rw [hg] at he
    split at he
    · rename_i c
      left
      obtain ⟨c1, c2⟩ := c
      cases he
      simp only [PoEntry.enc, ← c1, ← c2]
    · rename_i c
      right
      refine ⟨fun e' => c ?_, e, he, rfl⟩
      obtain ⟨h1, h2⟩ := PoEntry.key_inj (f := ⟨p, m, x⟩) e'
      exact ⟨h1.symm, h2.symm⟩

variable [Meta M]

/-- The persisted content after a history with `PersistOnly`. -/
theorem poRep_lsmOf [Fam W] (h : History M W) : PoRep (keptOf h) (lsmOf .persistOnly h) := by
  induction h with
  | nil =>
    refine ⟨by simp [lsmOf, Lsm.Sorted], fun x => ?_⟩
    simp [lsmOf, keptOf]
  | cons op h ih =>
    cases op with
    | insert p r tbi =>
      exact ih.insert p r.mui ⟨r.ltime, r.status, Meta.toBytes r.md⟩ (fun q k => rfl)
    | withdrawFor p m t =>
      simp only [lsmOf, recordsWithKeys, ih.scan_pair]
      cases hf : keptOf h p m with
      | none =>
        simp only [List.map_nil, rewriteFold]
        have : keptOf (.withdrawFor p m t :: h) = keptOf h := by
          funext q k
          simp only [keptOf]
          split
          · rename_i c; obtain ⟨rfl, rfl⟩ := c; rw [hf]; rfl
          · rfl
        rw [this]; exact ih
      | some x =>
        simp only [List.map_cons, List.map_nil, rewriteFold, rewriteHeader, PoEntry.enc_bytes,
          decodeRecord_encode p.len_lt, Option.map_some]
        have := ih.insert p m ⟨t, .withdrawn, []⟩ (g := keptOf (.withdrawFor p m t :: h))
          (fun q k => by
            simp only [keptOf]
            split
            · rename_i c; obtain ⟨rfl, rfl⟩ := c; rw [hf]; rfl
            · rfl)
        simpa using this
    | activateFor p m t =>
      simp only [lsmOf, mostRecentRecord, ih.scan_pair]
      have same : (∀ x, keptOf h p m = some x → x.bytes ≠ []) →
          keptOf (.activateFor p m t :: h) = keptOf h := by
        intro hx
        funext q k
        simp only [keptOf]
        split
        · rename_i c
          obtain ⟨rfl, rfl⟩ := c
          cases hf : keptOf h p m with
          | none => rfl
          | some x => simp [hx x hf]
        · rfl
      cases hf : keptOf h p m with
      | none =>
        simp only [List.foldlM_nil, pure, Option.bind_some, id]
        rw [same (by intro x hx; rw [hf] at hx; cases hx)]
        exact ih
      | some x =>
        simp only [List.foldlM_cons, List.foldlM_nil, mostRecentStep, PoEntry.enc_bytes]
        by_cases hb : x.bytes = []
        · simp only [hb, List.append_nil, decodeHeader_encode p.len_lt, bind, Option.bind_some, pure,
            id]
          have hd := decodeRecord_encode p.len_lt m x.ltime x.status []
          rw [List.append_nil] at hd
          simp only [rewriteFold, rewriteHeader, hd, Option.map_some]
          have := ih.insert p m ⟨t, .active, []⟩ (g := keptOf (.activateFor p m t :: h))
            (fun q k => by
              simp only [keptOf]
              split
              · rename_i c; obtain ⟨rfl, rfl⟩ := c; rw [hf]; simp [hb]
              · rfl)
          simpa using this
        · simp only [decodeHeader_append _ _ _ _ hb, bind, Option.bind_none]
          rw [same (by intro y hy; rw [hf] at hy; cases hy; exact hb)]
          exact ih
    | withdraw m => exact ih
    | activate m => exact ih
    | calcBest p tbi => exact ih

/-! ## Record queries -/

omit [Meta M] in
theorem exists_list_map {α β : Type} {f : α → β} {P : α → Prop} {l : List β}
    (h : ∀ x ∈ l, ∃ a, P a ∧ x = f a) : ∃ L : List α, L.map f = l ∧ ∀ a ∈ L, P a := by
  induction l with
  | nil => exact ⟨[], rfl, by simp⟩
  | cons b l ih =>
    obtain ⟨L, hL, hP⟩ := ih (fun x hx => h x (List.mem_cons_of_mem _ hx))
    obtain ⟨a, ha, rfl⟩ := h b (by simp)
    refine ⟨a :: L, by simp [hL], fun x hx => ?_⟩
    rcases List.mem_cons.1 hx with rfl | hx
    · exact ha
    · exact hP x hx

/-- The key prefix scanned by a record query. -/
def scanKey (p : PrefixId W) : Option Mui → Bytes
  | some m => shortKeyBytes p m
  | none => prefixBytes p

omit [Meta M] in
theorem scanKey_prefix [Fam W] (p : Prefix W) (mui : Option Mui) (e : PoEntry W) :
    (scanKey p.id mui).isPrefixOf e.enc.1 = true ↔
      e.pfx = p ∧ ∀ m, mui = some m → e.mui = m := by
  cases mui with
  | none =>
    simp only [scanKey]
    unfold PoEntry.enc shortKeyBytes
    rw [isPrefixOf_append (by simp)]
    constructor
    · intro he
      exact ⟨(Prefix.id_inj (prefixBytes_inj p.len_lt e.pfx.len_lt he)).symm,
        fun m hm => by cases hm⟩
    · rintro ⟨rfl, _⟩; rfl
  | some m =>
    simp only [scanKey]
    rw [isPrefixOf_same (by simp [PoEntry.enc])]
    constructor
    · intro he
      obtain ⟨h1, h2⟩ := PoEntry.key_inj (e := ⟨p, m, e.kept⟩) he
      exact ⟨h1.symm, fun k hk => by cases hk; exact h2.symm⟩
    · rintro ⟨rfl, h2⟩
      rw [← h2 m rfl]; rfl

/-- The entries found by a scan, decoded. -/
theorem PoRep.scan_list [Fam W] {f : Prefix W → Mui → Option Kept} {t : Lsm} (h : PoRep f t)
    (p : Prefix W) (mui : Option Mui) :
    ∃ L : List (PoEntry W),
      t.scan (scanKey p.id mui) =
        L.map PoEntry.enc ∧
      L.Pairwise (fun a b => a.mui ≠ b.mui) ∧
      ∀ e, e ∈ L ↔ e.pfx = p ∧ f p e.mui = some e.kept ∧ ∀ m, mui = some m → e.mui = m := by
  have hpre := scanKey_prefix p mui
  obtain ⟨L, hL, hP⟩ := exists_list_map (f := PoEntry.enc (W := W))
    (P := fun e => e.pfx = p ∧ f p e.mui = some e.kept ∧ ∀ m, mui = some m → e.mui = m)
    (l := t.scan (scanKey p.id mui)) (by
      intro x hx
      unfold Lsm.scan at hx
      rw [List.mem_filter, h.mem] at hx
      obtain ⟨⟨e, he, rfl⟩, hx⟩ := hx
      obtain ⟨h1, h2⟩ := (hpre e).1 hx
      exact ⟨e, ⟨h1, h1 ▸ he, h2⟩, rfl⟩)
  refine ⟨L, hL.symm, ?_, fun e => ⟨hP e, fun he => ?_⟩⟩
  · have hs := h.sorted.scan (scanKey p.id mui)
    rw [← hL] at hs
    unfold Lsm.Sorted at hs
    rw [List.pairwise_map] at hs
    refine hs.imp_of_mem fun {a b} ha hb hab hm => ?_
    have : a.enc.1 = b.enc.1 := by
      simp only [PoEntry.enc, (hP a ha).1, (hP b hb).1, hm]
    rw [this, bytesLt_irrefl] at hab
    cases hab
  · have hx : e.enc ∈ L.map PoEntry.enc := by
      rw [hL]
      unfold Lsm.scan
      rw [List.mem_filter, h.mem]
      exact ⟨⟨e, by rw [he.1]; exact he.2.1, rfl⟩, (hpre e).2 ⟨he.1, he.2.2⟩⟩
    obtain ⟨e', he', heq⟩ := List.mem_map.1 hx
    have h1 := PoEntry.key_inj (congrArg Prod.fst heq)
    have h2 := (hP e' he').2.1
    have : e' = e := by
      cases e with | mk a b c => cases e' with | mk a' b' c' =>
      simp only at h1 h2 he
      obtain ⟨rfl, rfl⟩ := h1
      rw [he.2.1] at h2
      cases h2; rfl
    rw [← this]; exact he'

/-- One entry as shown with withdrawn routes included. -/
def PoEntry.shown (bmin : Mui → Bool) (e : PoEntry W) : PoEntry W :=
  if bmin e.mui then { e with kept := { e.kept with status := .withdrawn } } else e

theorem includeEntry_enc [Fam W] (bmin : Mui → Bool) (e : PoEntry W) :
    includeEntry W bmin e.enc = some (.ok ((e.shown bmin).enc.1 ++ (e.shown bmin).enc.2)) := by
  unfold includeEntry
  simp only [PoEntry.enc_bytes]
  rw [if_neg (by simp), List.take_left' (by simp), decodeHeader_encode e.pfx.len_lt]
  simp only [PoEntry.shown]
  split
  · rw [set_status]
  · rfl

theorem excludeEntry_enc [Fam W] (bmin : Mui → Bool) (e : PoEntry W) :
    excludeEntry W bmin e.enc = some (if e.kept.status = .withdrawn ∨ bmin e.mui = true then none
      else some (.ok (e.enc.1 ++ e.enc.2))) := by
  unfold excludeEntry
  simp only [PoEntry.enc_bytes]
  rw [if_neg (by simp), List.take_left' (by simp), decodeHeader_encode e.pfx.len_lt]

theorem decodeEntry_enc [Fam W] (e : PoEntry W) :
    decodeEntry (M := M) W (.ok (e.enc.1 ++ e.enc.2)) = .ok (e.kept.toRecord e.mui) := by
  unfold decodeEntry
  simp only [PoEntry.enc_bytes, decodeRecord_encode e.pfx.len_lt]
  rfl

/-- The answer of a record query. -/
def valueOf (st : Strategy) (h : History M W) (p : Prefix W) (mui : Option Mui) (iw : Bool) :
    Option (List (Record M)) :=
  match st with
  | .persistOnly =>
    match recordsForPrefix (lsmOf .persistOnly h) p.id mui iw (globWd h) with
    | some (some l) =>
      match l.mapM (decodeEntry (M := M) W) with
      | .ok rs => some rs
      | .error _ => none
    | _ => none
  | _ => getFilteredRecords (recsAt st h p) mui iw (globWd h)

omit [Meta M] in
theorem recordsForPrefix_key (t : Lsm) (p : PrefixId W) (mui : Option Mui) (iw : Bool)
    (bmin : Mui → Bool) :
    recordsForPrefix t p mui iw bmin =
      match iw with
      | true => ((t.scan (scanKey p mui)).mapM (includeEntry W bmin)).map noneIfEmpty
      | false => ((t.scan (scanKey p mui)).mapM (excludeEntry W bmin)).map fun l =>
          noneIfEmpty (l.filterMap id) := by
  cases mui <;> cases iw <;> rfl

theorem mapM_some {α β : Type} {f : α → Option β} {g : α → β} {l : List α}
    (h : ∀ a ∈ l, f a = some (g a)) : l.mapM f = some (l.map g) := by
  induction l with
  | nil => rfl
  | cons a l ih =>
    rw [List.mapM_cons, h a (by simp), ih (fun b hb => h b (List.mem_cons_of_mem _ hb))]
    rfl

theorem mapM_ok {α β : Type} {f : α → FatalResult β} {g : α → β} {l : List α}
    (h : ∀ a ∈ l, f a = .ok (g a)) : l.mapM f = .ok (l.map g) := by
  induction l with
  | nil => rfl
  | cons a l ih =>
    rw [List.mapM_cons, h a (by simp), ih (fun b hb => h b (List.mem_cons_of_mem _ hb))]
    rfl

omit [Meta M] in
/-- What the code computes on the persisted entries, without panic or error. -/
theorem PoRep.recordsFor [Fam W] {f : Prefix W → Mui → Option Kept} {t : Lsm} (h : PoRep f t)
    (bmin : Mui → Bool) (p : Prefix W) (mui : Option Mui) (iw : Bool) :
    ∃ o : Option (List (PoEntry W)),
      recordsForPrefix t p.id mui iw bmin =
        some (o.map fun l => l.map fun e => .ok (e.enc.1 ++ e.enc.2)) ∧
      o ≠ some [] ∧
      (o.getD []).Pairwise (fun a b => a.mui ≠ b.mui) ∧
      ∀ e, e ∈ o.getD [] ↔ ∃ e0 : PoEntry W, e0.pfx = p ∧ f p e0.mui = some e0.kept ∧
        (∀ m, mui = some m → e0.mui = m) ∧
        match iw with
        | true => e = e0.shown bmin
        | false => e = e0 ∧ e0.kept.status ≠ .withdrawn ∧ bmin e0.mui = false := by
  obtain ⟨L, hscan, hpw, hmem⟩ := h.scan_list p mui
  have hshown : ∀ e : PoEntry W, (e.shown bmin).mui = e.mui := by
    intro e; unfold PoEntry.shown; split <;> rfl
  cases iw with
  | true =>
    refine ⟨noneIfEmpty (L.map (PoEntry.shown bmin)), ?_, noneIfEmpty_ne _, ?_, ?_⟩
    · rw [recordsForPrefix_key]
      simp only [hscan]
      rw [mapM_some (g := fun kv => match includeEntry W bmin kv with
        | some x => x | none => .error ())]
      · simp only [Option.map_some, List.map_map]
        congr 1
        cases L with
        | nil => rfl
        | cons a L =>
          simp only [List.map_cons, noneIfEmpty, Option.map_some, List.map_map]
          simp [includeEntry_enc]
      · intro kv hkv
        obtain ⟨e, _, rfl⟩ := List.mem_map.1 hkv
        rw [includeEntry_enc]
    · rw [noneIfEmpty_getD, List.pairwise_map]
      simpa only [hshown] using hpw
    · intro e
      rw [noneIfEmpty_getD, List.mem_map]
      constructor
      · rintro ⟨e0, he0, rfl⟩
        obtain ⟨h1, h2, h3⟩ := (hmem e0).1 he0
        exact ⟨e0, h1, h2, h3, rfl⟩
      · rintro ⟨e0, h1, h2, h3, rfl⟩
        exact ⟨e0, (hmem e0).2 ⟨h1, h2, h3⟩, rfl⟩
  | false =>
    refine ⟨noneIfEmpty (L.filter fun e => !(decide (e.kept.status = .withdrawn) || bmin e.mui)),
      ?_, noneIfEmpty_ne _, ?_, ?_⟩
    · rw [recordsForPrefix_key]
      simp only [hscan]
      rw [mapM_some (g := fun kv => match excludeEntry W bmin kv with
        | some x => x | none => none)]
      · simp only [Option.map_some, List.map_map]
        congr 1
        have : ∀ L : List (PoEntry W), (L.map ((fun kv => match excludeEntry W bmin kv with
            | some x => x | none => none) ∘ PoEntry.enc)).filterMap id =
            (L.filter fun e => !(decide (e.kept.status = .withdrawn) || bmin e.mui)).map
              (fun e => (.ok (e.enc.1 ++ e.enc.2) : FatalResult Bytes)) := by
          intro L
          induction L with
          | nil => rfl
          | cons a L ih =>
            simp only [List.map_cons, Function.comp, excludeEntry_enc, List.filterMap_cons, id,
              List.filter_cons]
            by_cases c : a.kept.status = .withdrawn ∨ bmin a.mui = true
            · have c' : (!(decide (a.kept.status = .withdrawn) || bmin a.mui)) = false := by
                simpa [or_iff_not_imp_left] using c
              simp only [c, if_true, c', Bool.false_eq_true, if_false]
              exact ih
            · have c' : (!(decide (a.kept.status = .withdrawn) || bmin a.mui)) = true := by
                simpa using c
              simp only [c, if_false, c', if_true, List.map_cons]
              exact congrArg _ ih
        rw [this]
        cases (L.filter fun e => !(decide (e.kept.status = .withdrawn) || bmin e.mui)) <;> rfl
      · intro kv hkv
        obtain ⟨e, _, rfl⟩ := List.mem_map.1 hkv
        rw [excludeEntry_enc]
    · rw [noneIfEmpty_getD]
      exact hpw.sublist List.filter_sublist
    · intro e
      rw [noneIfEmpty_getD, List.mem_filter, hmem]
      simp only [Bool.not_eq_true', Bool.or_eq_false_iff, decide_eq_false_iff_not]
      constructor
      · rintro ⟨⟨h1, h2, h3⟩, h4, h5⟩
        exact ⟨e, h1, h2, h3, rfl, h4, h5⟩
      · rintro ⟨e0, h1, h2, h3, rfl, h4, h5⟩
        exact ⟨⟨h1, h2, h3⟩, h4, h5⟩

theorem po_records [Fam W] (h : History M W) (p : Prefix W) (mui : Option Mui) (iw : Bool) :
    ∃ o : Option (List (PoEntry W)),
      recordsForPrefix (lsmOf .persistOnly h) p.id mui iw (globWd h) =
        some (o.map fun l => l.map fun e => .ok (e.enc.1 ++ e.enc.2)) ∧
      o ≠ some [] ∧
      (o.getD []).Pairwise (fun a b => a.mui ≠ b.mui) ∧
      ∀ e, e ∈ o.getD [] ↔ ∃ e0 : PoEntry W, e0.pfx = p ∧ keptOf h p e0.mui = some e0.kept ∧
        (∀ m, mui = some m → e0.mui = m) ∧
        match iw with
        | true => e = e0.shown (globWd h)
        | false => e = e0 ∧ e0.kept.status ≠ .withdrawn ∧ globWd h e0.mui = false :=
  (poRep_lsmOf h).recordsFor (globWd h) p mui iw

/-- What the queries read of the store: the tree, the set of withdrawn muis and the
records, in memory and (with `PersistOnly`) on disk, are those of the history. -/
structure QInv (st : Strategy) (h : History M W) (s : Rib M W) : Prop where
  tree : Rep (pairsOf h) s.tree
  wd : s.tree.wd.set = globWd h
  chain : ChainInv (pfxLayout W) s.cht.slots
  recs : ∀ a e, s.cht.slots a = some e → ∀ p : Prefix W, p.id = e.id → e.recs = recsAt st h p
  has : ∀ p : Prefix W, recsAt st h p ≠ [] → Has s.cht.slots p.id
  lsm : st = .persistOnly → s.lsm = lsmOf st h

theorem HInv.toQ {st : Strategy} {h : History M W} {s : Rib M W} (hi : HInv st h s) :
    QInv st h s := by
  refine ⟨hi.tree, hi.wd, hi.tab.inv, fun a e he p hp => ?_, fun p hp => ?_, fun _ => hi.lsm⟩
  · have := hi.tab.at he
    unfold recsAt
    rw [hp, this]; rfl
  · by_contra hn
    have := (hi.tab.none_iff p.id).2 hn
    apply hp
    unfold recsAt
    rw [this]; rfl

theorem run_withdrawnMuis {st : Strategy} {h : History M W} {s : Rib M W} (hi : QInv st h s) :
    (withdrawnMuis.zoom Rib.treeL : Prog (Rib M W) (Mui → Bool)).run s = .ok (globWd h) s := by
  rw [run_tree]
  simp only [withdrawnMuis, Prog.read, run, Outcome.mapState, hi.wd]

/-- Record queries, all strategies. -/
theorem run_ribGetValue [Fam W] {st : Strategy} {h : History M W} {s : Rib M W} (hi : QInv st h s)
    (p : Prefix W) (mui : Option Mui) (iw : Bool) :
    (ribGetValue st p.id mui iw).run s = .ok (.ok (valueOf st h p mui iw)) s := by
  have mem : st.inMemory = true → ((do
      let rs ← onRecs (getRecordsForPrefix (M := M) p.id mui iw (globWd h))
      return .ok rs : Prog (Rib M W) (FatalResult (Option (List (Record M)))))).run s =
        .ok (.ok (getFilteredRecords (recsAt st h p) mui iw (globWd h))) s := by
    intro hm
    rcases run_getRecordsForPrefix p.clean hi.chain mui iw (globWd h) with ⟨hr, hn⟩ | ⟨a, e, hr, he, hid⟩
    · simp only [run_bind, run_onRecs, hr, Outcome.mapState, Outcome.andThen, pure_def, run]
      have : recsAt st h p = [] := by
        by_contra hne
        exact hn (hi.has p hne)
      rw [this]
      cases mui <;> cases iw <;> rfl
    · simp only [run_bind, run_onRecs, hr, Outcome.mapState, Outcome.andThen, pure_def, run]
      have : recsAt st h p = e.recs := (hi.recs a e he p hid.symm).symm
      rw [this]
  unfold ribGetValue
  rw [run_bind, run_withdrawnMuis hi]
  simp only [Outcome.andThen]
  cases st with
  | persistOnly =>
    obtain ⟨o, hrec, hne, _, _⟩ := po_records h p mui iw
    have hl : recordsForPrefix s.lsm p.id mui iw (globWd h) =
        some (o.map fun l => l.map fun e => .ok (e.enc.1 ++ e.enc.2)) := by rw [hi.lsm rfl]; exact hrec
    simp only [valueOf, hrec]
    rw [run_bind]
    simp only [Prog.read, run, hl, Outcome.andThen]
    cases o with
    | none => rfl
    | some l =>
      simp only [Option.map_some, ofOption, ret_bind]
      have : (l.map fun e => (.ok (e.enc.1 ++ e.enc.2) : FatalResult Bytes)).mapM
          (decodeEntry (M := M) W) = .ok (l.map fun e => e.kept.toRecord e.mui) := by
        rw [mapM_ok (g := fun b => match decodeEntry (M := M) W b with
          | .ok x => x | .error _ => ⟨0, 0, .active, Meta.ofBytes []⟩)]
        · rw [List.map_map]
          congr 1
          apply List.map_congr_left
          intro e _
          simp only [Function.comp, decodeEntry_enc]
        · intro b hb
          obtain ⟨e, _, rfl⟩ := List.mem_map.1 hb
          rw [decodeEntry_enc]
      simp only [this]
      rfl
  | memoryOnly => exact mem rfl
  | writeAhead => exact mem rfl
  | persistHistory => exact mem rfl

/-- Record queries show what the specification says. -/
theorem valueOf_answers [Fam W] (st : Strategy) (h : History M W) (p : Prefix W) (mui : Option Mui)
    (iw : Bool) : Answers (valueOf st h p mui iw) (Shown st h mui iw p) := by
  cases st with
  | memoryOnly => exact filtered_answers rfl h p mui iw
  | writeAhead => exact filtered_answers rfl h p mui iw
  | persistHistory => exact filtered_answers rfl h p mui iw
  | persistOnly =>
    obtain ⟨o, hrec, hne, hpw, hmem⟩ := po_records h p mui iw
    have hval : valueOf .persistOnly h p mui iw = o.map fun l => l.map fun e =>
        e.kept.toRecord (M := M) e.mui := by
      unfold valueOf
      simp only [hrec]
      cases o with
      | none => rfl
      | some l =>
        simp only [Option.map_some]
        have : (l.map fun e => (.ok (e.enc.1 ++ e.enc.2) : FatalResult Bytes)).mapM
            (decodeEntry (M := M) W) = .ok (l.map fun e => e.kept.toRecord e.mui) := by
          rw [mapM_ok (g := fun b => match decodeEntry (M := M) W b with
            | .ok x => x | .error _ => ⟨0, 0, .active, Meta.ofBytes []⟩)]
          · rw [List.map_map]
            congr 1
            apply List.map_congr_left
            intro e _
            simp only [Function.comp, decodeEntry_enc]
          · intro b hb
            obtain ⟨e, _, rfl⟩ := List.mem_map.1 hb
            rw [decodeEntry_enc]
        rw [this]
    have hgd : (valueOf .persistOnly h p mui iw).getD [] =
        (o.getD []).map fun e => e.kept.toRecord (M := M) e.mui := by
      rw [hval]; cases o <;> rfl
    refine ⟨⟨?_, fun r => ?_⟩, ?_⟩
    · rw [hgd, List.pairwise_map]
      exact hpw
    · rw [hgd, List.mem_map]
      unfold Shown storedRec
      simp only [hmem, Option.map_eq_some_iff]
      cases iw with
      | true =>
        simp only
        constructor
        · rintro ⟨_, ⟨e0, h1, h2, h3, rfl⟩, rfl⟩
          have hmu : ((e0.shown (globWd h)).kept.toRecord (M := M) (e0.shown (globWd h)).mui).mui
              = e0.mui := by
            unfold PoEntry.shown; split <;> rfl
          rw [hmu]
          refine ⟨_, ⟨_, h2, rfl⟩, h3, ?_⟩
          unfold PoEntry.shown effective
          simp only [Kept.toRecord]
          by_cases c : globWd h e0.mui = true <;> simp [c]
        · rintro ⟨_, ⟨x, hx, rfl⟩, h3, h4⟩
          refine ⟨_, ⟨⟨p, r.mui, x⟩, rfl, hx, h3, rfl⟩, ?_⟩
          rw [h4]
          unfold PoEntry.shown effective
          simp only [Kept.toRecord]
          by_cases c : globWd h r.mui = true <;> simp [c]
      | false =>
        simp only [passes, Strategy.inMemory, Bool.false_eq_true, false_and, or_false]
        constructor
        · rintro ⟨_, ⟨e0, h1, h2, h3, rfl, h4, h5⟩, rfl⟩
          exact ⟨_, ⟨_, h2, rfl⟩, h3, rfl, h4, h5⟩
        · rintro ⟨_, ⟨x, hx, hxr⟩, h3, h4, h5, h6⟩
          subst h4
          have h7 : x.status ≠ .withdrawn := by rw [← hxr] at h5; exact h5
          exact ⟨_, ⟨⟨p, r.mui, x⟩, rfl, hx, h3, rfl, h7, h6⟩, hxr⟩
    · rw [hval]
      cases o with
      | none => simp
      | some l =>
        cases l with
        | nil => exact absurd rfl hne
        | cons a l => simp

end Rotonda
