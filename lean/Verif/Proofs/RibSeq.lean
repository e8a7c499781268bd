import Verif.Proofs.PrefixSeq
import Verif.Proofs.NodeCount
import Verif.Spec.History

/-!
# Every history runs; the state after it
-/

namespace Rotonda

open Prog Spec

variable {M : Type} {W : Nat}

theorem Prefix.clean (p : Prefix W) : p.id.Clean := ⟨p.le, p.host⟩

/-- Set one entry of a table. -/
abbrev Tab.put (f : Tab M W) (p : PrefixId W) (x : Recs M × PsCell) : Tab M W :=
  Function.update f p (some x)

variable [Meta M]

/-- The content of the prefix table after a history. -/
def tabOf (st : Strategy) : History M W → Tab M W
  | [] => fun _ => none
  | .insert p r tbi :: h =>
    if st.inMemory then (tabOf st h).put p.id (upsertEntry (tabOf st h p.id) r tbi) else tabOf st h
  | .withdrawFor p m t :: h =>
    if st.inMemory then (tabOf st h).put p.id (markEntry (tabOf st h p.id) m t .withdrawn)
    else tabOf st h
  | .activateFor p m t :: h =>
    if st.inMemory then (tabOf st h).put p.id (markEntry (tabOf st h p.id) m t .active)
    else tabOf st h
  | .withdraw _ :: h => tabOf st h
  | .activate _ :: h => tabOf st h
  | .calcBest p tbi :: h =>
    match tabOf st h p.id with
    | none => tabOf st h
    | some (rs, ps) => (tabOf st h).put p.id (rs, storePs ps (bestBackup rs tbi))

/-- `rewriteAll` as a function of the persistence tree. -/
def rewriteFold (W : Nat) (t : LTime) (st : RouteStatus) : List Bytes → Lsm → Bool × Lsm
  | [], l => (true, l)
  | b :: bs, l =>
    match rewriteHeader W l t st b with
    | some l' => rewriteFold W t st bs l'
    | none => (false, l)

/-- An empty record is persisted when there is a record. -/
def markerIf (o : Option (MMV M)) (p : PrefixId W) (m : Mui) (t : LTime) (l : Lsm) : Lsm :=
  match o with
  | some _ => insertEmptyRecord l p m t
  | none => l

/-- The marker persisted by a status change with `PersistHistory`. -/
def markerStep (f : Tab M W) (p : Prefix W) (m : Mui) (t : LTime) (l : Lsm) : Lsm :=
  markerIf ((f p.id).bind fun x => x.1.get m) p.id m t l

/-- The content of the persistence tree after a history. -/
def lsmOf (st : Strategy) : History M W → Lsm
  | [] => []
  | .insert p r _ :: h =>
    match st with
    | .writeAhead => persistLong (lsmOf st h) p.id r
    | .memoryOnly => lsmOf st h
    | .persistOnly => persistShort (lsmOf st h) p.id r
    | .persistHistory =>
      match (tabOf st h p.id).bind fun x => x.1.get r.mui with
      | some old => persistLong (lsmOf st h) p.id (old.toRecord r.mui)
      | none => lsmOf st h
  | .withdrawFor p m t :: h =>
    match st with
    | .persistOnly => (rewriteFold W t .withdrawn (recordsWithKeys (lsmOf st h) p.id m) (lsmOf st h)).2
    | .persistHistory => markerStep (tabOf st h) p m t (lsmOf st h)
    | _ => lsmOf st h
  | .activateFor p m t :: h =>
    match st with
    | .persistOnly =>
      match mostRecentRecord (lsmOf st h) p.id m with
      | some b => (rewriteFold W t .active [b] (lsmOf st h)).2
      | none => lsmOf st h
    | .persistHistory => markerStep (tabOf st h) p m t (lsmOf st h)
    | _ => lsmOf st h
  | _ :: h => lsmOf st h

/-- Number of insert calls. -/
def numInserts : History M W → Nat
  | [] => 0
  | .insert _ _ _ :: h => numInserts h + 1
  | _ :: h => numInserts h

/-- The prefix counters of the prefix table. -/
def memPrefixesOf (st : Strategy) : History M W → Nat → Nat
  | [], _ => 0
  | .insert p _ _ :: h, l =>
    if st.inMemory ∧ l = p.len ∧ (tabOf st h p.id).isNone then memPrefixesOf st h l + 1
    else memPrefixesOf st h l
  | _ :: h, l => memPrefixesOf st h l

/-- The routes counter of the prefix table. -/
def memRoutesOf (st : Strategy) : History M W → Nat
  | [] => 0
  | .insert p r _ :: h =>
    if st.inMemory ∧ ((tabOf st h p.id).bind fun x => x.1.get r.mui).isNone then memRoutesOf st h + 1
    else memRoutesOf st h
  | _ :: h => memRoutesOf st h

/-- The pairs as the tree sees them. -/
def pairsOf (h : History M W) : PrefixId W → Mui → Prop :=
  fun q m => ∃ p : Prefix W, p.id = q ∧ Inserted h p m

/-- The number of global status changes. -/
def globCount : History M W → Nat
  | [] => 0
  | .withdraw _ :: h => globCount h + 1
  | .activate _ :: h => globCount h + 1
  | _ :: h => globCount h

/-- The state after a history. -/
structure HInv (st : Strategy) (h : History M W) (s : Rib M W) : Prop where
  tree : Rep (pairsOf h) s.tree
  wds : s.tree.wd = ⟨globCount h, globWd h⟩
  tab : PRep (tabOf st h) s.cht.slots
  lsm : s.lsm = lsmOf st h
  prefixes : ∀ l, s.prefixes l = Set.ncard {p : Prefix W | Present h p ∧ p.len = l}
  routes : s.routes = numInserts h
  memNodes : s.cht.nodes = 0
  nodes : PtrCount s.tree
  memPrefixes : s.cht.prefixes = memPrefixesOf st h
  memRoutes : s.cht.routes = memRoutesOf st h

theorem HInv.wd {st : Strategy} {h : History M W} {s : Rib M W} (hi : HInv st h s) :
    s.tree.wd.set = globWd h := by rw [hi.wds]

/-! ## Facts about histories -/

theorem inserted_cons {op : Op M W} {h : History M W} {p : Prefix W} {m : Mui} :
    Inserted (op :: h) p m ↔ (∃ r tbi, op = .insert p r tbi ∧ r.mui = m) ∨ Inserted h p m := by
  unfold Inserted
  constructor
  · rintro ⟨r, tbi, hm, hr⟩
    rcases List.mem_cons.1 hm with h1 | h1
    · exact .inl ⟨r, tbi, h1.symm, hr⟩
    · exact .inr ⟨r, tbi, h1, hr⟩
  · rintro (⟨r, tbi, rfl, hr⟩ | ⟨r, tbi, hm, hr⟩)
    · exact ⟨r, tbi, by simp, hr⟩
    · exact ⟨r, tbi, List.mem_cons_of_mem _ hm, hr⟩

theorem inserted_insert {p : Prefix W} {r : Record M} {tbi} {h : History M W} {q : Prefix W}
    {m : Mui} :
    Inserted (.insert p r tbi :: h) q m ↔ (q = p ∧ m = r.mui) ∨ Inserted h q m := by
  rw [inserted_cons]
  constructor
  · rintro (⟨r', tbi', h1, h2⟩ | h1)
    · cases h1; exact .inl ⟨rfl, h2.symm⟩
    · exact .inr h1
  · rintro (⟨rfl, rfl⟩ | h1)
    · exact .inl ⟨r, tbi, rfl, rfl⟩
    · exact .inr h1

theorem present_insert {p : Prefix W} {r : Record M} {tbi} {h : History M W} {q : Prefix W} :
    Present (.insert p r tbi :: h) q ↔ q = p ∨ Present h q := by
  unfold Present
  simp only [inserted_insert]
  constructor
  · rintro ⟨m, ⟨h1, _⟩ | h1⟩
    · exact .inl h1
    · exact .inr ⟨m, h1⟩
  · rintro (rfl | ⟨m, h1⟩)
    · exact ⟨_, .inl ⟨rfl, rfl⟩⟩
    · exact ⟨m, .inr h1⟩

/-- Calls other than inserts do not add pairs. -/
def Op.isInsert : Op M W → Bool
  | .insert _ _ _ => true
  | _ => false

theorem inserted_other {op : Op M W} (ho : op.isInsert = false) {h : History M W} :
    Inserted (op :: h) = Inserted h := by
  funext q m
  rw [eq_iff_iff, inserted_cons]
  constructor
  · rintro (⟨r, tbi, rfl, _⟩ | h1)
    · simp [Op.isInsert] at ho
    · exact h1
  · exact .inr

theorem present_other {op : Op M W} (ho : op.isInsert = false) {h : History M W} :
    Present (op :: h) = Present h := by
  funext q; unfold Present; rw [inserted_other ho]

theorem present_finite (h : History M W) : {p : Prefix W | Present h p}.Finite := by
  induction h with
  | nil =>
    convert Set.finite_empty
    ext p
    simp [Present, Inserted]
  | cons op h ih =>
    cases op with
    | insert p r tbi =>
      have : {q : Prefix W | Present (.insert p r tbi :: h) q} = insert p {q | Present h q} := by
        ext q; simp [present_insert]
      rw [this]
      exact ih.insert p
    | _ => rw [present_other rfl]; exact ih

theorem pairsOf_insert {p : Prefix W} {r : Record M} {tbi} {h : History M W} :
    pairsOf (.insert p r tbi :: h) = addPair (pairsOf h) p.id r.mui := by
  funext q m
  unfold pairsOf addPair
  rw [eq_iff_iff]
  constructor
  · rintro ⟨p', rfl, hi⟩
    rcases inserted_insert.1 hi with ⟨rfl, rfl⟩ | hi
    · exact .inl ⟨rfl, rfl⟩
    · exact .inr ⟨p', rfl, hi⟩
  · rintro (⟨rfl, rfl⟩ | ⟨p', rfl, hi⟩)
    · exact ⟨p, rfl, inserted_insert.2 (.inl ⟨rfl, rfl⟩)⟩
    · exact ⟨p', rfl, inserted_insert.2 (.inr hi)⟩

theorem pairsOf_id {h : History M W} {p : Prefix W} :
    (∃ m, pairsOf h p.id m) ↔ Present h p := by
  constructor
  · rintro ⟨m, p', hp, hi⟩; exact ⟨m, Prefix.id_inj hp ▸ hi⟩
  · rintro ⟨m, hi⟩; exact ⟨m, p, rfl, hi⟩

theorem rep_idem {S : PrefixId W → Mui → Prop} {p m} : addPair (addPair S p m) p m = addPair S p m := by
  funext q x; simp [addPair]

/-! ## The store after each call -/

theorem ncard_insert_len {h : History M W} {p : Prefix W} {r : Record M} {tbi} (l : Nat) :
    Set.ncard {q : Prefix W | Present (.insert p r tbi :: h) q ∧ q.len = l} =
      open Classical in
      if l = p.len ∧ ¬ Present h p then Set.ncard {q : Prefix W | Present h q ∧ q.len = l} + 1
      else Set.ncard {q : Prefix W | Present h q ∧ q.len = l} := by
  have hfin : {q : Prefix W | Present h q ∧ q.len = l}.Finite :=
    (present_finite h).subset fun q hq => hq.1
  split
  · rename_i hc
    have : {q : Prefix W | Present (.insert p r tbi :: h) q ∧ q.len = l} =
        insert p {q | Present h q ∧ q.len = l} := by
      ext q
      simp only [present_insert, Set.mem_setOf_eq, Set.mem_insert_iff]
      constructor
      · rintro ⟨rfl | hq, hl⟩
        · exact .inl rfl
        · exact .inr ⟨hq, hl⟩
      · rintro (rfl | ⟨hq, hl⟩)
        · exact ⟨.inl rfl, hc.1.symm⟩
        · exact ⟨.inr hq, hl⟩
    rw [this, Set.ncard_insert_of_notMem (fun hm => hc.2 hm.1) hfin]
  · rename_i hc
    congr 1
    ext q
    simp only [present_insert, Set.mem_setOf_eq]
    constructor
    · rintro ⟨rfl | hq, hl⟩
      · exact ⟨by by_contra hx; exact hc ⟨hl.symm, hx⟩, hl⟩
      · exact ⟨hq, hl⟩
    · rintro ⟨hq, hl⟩; exact ⟨.inr hq, hl⟩

theorem run_tree {α : Type} (q : Prog (Tree W) α) (s : Rib M W) : (q.zoom Rib.treeL).run s =
    (q.run s.tree).mapState (fun t => { s with tree := t }) := by
  rw [run_zoom Rib.treeL_lawful]; rfl

theorem run_cht {α : Type} (q : Prog (PCht M W) α) (s : Rib M W) : (q.zoom Rib.chtL).run s =
    (q.run s.cht).mapState (fun t => { s with cht := t }) := by
  rw [run_zoom Rib.chtL_lawful]; rfl

/-- The report of an insert, as the code makes it. -/
noncomputable def insertReport (st : Strategy) (h : History M W) (p : Prefix W) (r : Record M) :
    UpsertReport :=
  open Classical in
  if st.inMemory then
    ⟨if Present h p then (tabOf st h p.id).isNone else true, true,
      ((tabOf st h p.id).bind fun x => (x.1.get r.mui).map fun _ =>
        (x.1.insert r.mui r.toMMV).length).getD 1⟩
  else ⟨true, true, 0⟩

theorem run_onLsm (f : Lsm → Lsm) (s : Rib M W) :
    (onLsm f).run s = .ok () { s with lsm := f s.lsm } := rfl

theorem run_pchtUpsert' [Fam W] {f : Tab M W} {t : PCht M W} (h : PRep f t.slots)
    {p : PrefixId W} (hp : p.Clean) (r : Record M) (upd : Option (Meta.TBI M)) :
    ∃ t', (pchtUpsert p r upd).run t =
        .ok (.ok (⟨(f p).isNone, true,
            ((f p).bind fun x => (x.1.get r.mui).map fun _ =>
              (x.1.insert r.mui r.toMMV).length).getD 1⟩,
          (f p).bind fun x => x.1.get r.mui)) t' ∧
      PRep (f.put p (upsertEntry (f p) r upd)) t'.slots ∧ t'.nodes = t.nodes ∧
      t'.prefixes = (fun l => if l = p.len ∧ (f p).isNone then t.prefixes l + 1 else t.prefixes l) ∧
      t'.routes = (if ((f p).bind fun x => x.1.get r.mui).isNone then t.routes + 1 else t.routes) := by
  obtain ⟨s', hu, hprep⟩ := run_pchtUpsert h hp r upd
  have hl : p.len ≤ 128 := by have := hp.1; have := Fam.width (W := W); omega
  refine ⟨_, hu, hprep, rfl, ?_, ?_⟩
  · funext l
    simp only [hl, true_and, Option.isNone_iff_eq_none]
  · cases (f p).bind fun x => x.1.get r.mui <;> rfl

theorem run_ribInsert [hW : Fam W] {st : Strategy} {h : History M W} {s : Rib M W}
    (hi : HInv st h s) (F : Nat) (p : Prefix W) (r : Record M) (tbi : Option (Meta.TBI M)) :
    ∃ s', (ribInsert st F p.id r tbi).run s = .ok (.ok (insertReport st h p r)) s' ∧
      HInv st (.insert p r tbi :: h) s' := by
  obtain ⟨b, t1, hr1, hrep, hwd, hb⟩ := hi.tree.insert p.clean r.mui F
  have hpc1 := ptrCount_insert p.clean hi.tree.inv hi.nodes hr1
  rw [pairsOf_id] at hb
  have h128 : p.len ≤ 128 := by have := p.le; have := hW.width; omega
  -- common end of the call: the two counters
  have key : ∀ (rep : UpsertReport) (s1 s2 : Rib M W), s1 = { s with tree := t1 } →
      (ribUpsert st F p.id r tbi).run s1 = .ok (.ok rep) s2 →
      rep.muiNew = true →
      (open Classical in if Present h p then rep else { rep with prefixNew := true }) =
        insertReport st h p r →
      Rep (pairsOf (.insert p r tbi :: h)) s2.tree → s2.tree.wd = s.tree.wd →
      PRep (tabOf st (.insert p r tbi :: h)) s2.cht.slots →
      s2.lsm = lsmOf st (.insert p r tbi :: h) → s2.prefixes = s.prefixes →
      s2.routes = s.routes → s2.cht.nodes = 0 → PtrCount s2.tree →
      s2.cht.prefixes = memPrefixesOf st (.insert p r tbi :: h) →
      s2.cht.routes = memRoutesOf st (.insert p r tbi :: h) →
      ∃ s', (ribInsert st F p.id r tbi).run s = .ok (.ok (insertReport st h p r)) s' ∧
        HInv st (.insert p r tbi :: h) s' := by
    rintro rep s1 s2 rfl hup hmui hrepq ht hw htab hlsm hpf hro hnd hpc hmp hmr
    unfold ribInsert
    simp only [run_bind, run_tree, hr1, Outcome.mapState, Outcome.andThen, hup]
    simp only [hmui, if_true, Rib.incRoutes, atomic, act_bind, ret_bind, run]
    by_cases hpre : Present h p
    · have hbt : b = true := hb.2 hpre
      subst hbt
      simp only [if_pos hpre] at hrepq
      simp only [Bool.true_eq_false, if_false, pure_def, run, hrepq]
      refine ⟨_, rfl, ⟨ht, ?_, htab, hlsm, fun l => ?_, ?_, hnd, hpc, hmp, hmr⟩⟩
      · simp only [hw, hi.wds, globWd, globCount]
      · rw [ncard_insert_len, if_neg (fun hx => hx.2 hpre), hpf, hi.prefixes]
      · simp only [hro, hi.routes, numInserts]
    · have hbf : b = false := by cases b <;> simp_all
      subst hbf
      simp only [if_neg hpre, hmui] at hrepq
      simp only [if_true, Rib.incPrefixes, atomic, act_bind, ret_bind, pure_def, run, hrepq]
      refine ⟨_, rfl, ⟨ht, ?_, htab, hlsm, fun l => ?_, ?_, hnd, hpc, hmp, hmr⟩⟩
      · simp only [hw, hi.wds, globWd, globCount]
      · rw [ncard_insert_len]
        simp only [hpf, hi.prefixes, Prefix.id]
        by_cases hl : l = p.len
        · rw [if_pos ⟨hl, h128⟩, if_pos ⟨hl, hpre⟩]
        · rw [if_neg (fun hx => hl hx.1), if_neg (fun hx => hl hx.1)]
      · simp only [hro, hi.routes, numInserts]
  have mem : st.inMemory = true → ∃ s', (ribInsert st F p.id r tbi).run s =
      .ok (.ok (insertReport st h p r)) s' ∧ HInv st (.insert p r tbi :: h) s' := by
    intro hmem
    have htabO : tabOf st (.insert p r tbi :: h) =
        (tabOf st h).put p.id (upsertEntry (tabOf st h p.id) r tbi) := by
      simp only [tabOf, hmem, if_true]
    have hrep' : ∀ rep : UpsertReport, rep = (⟨(tabOf st h p.id).isNone, true,
          ((tabOf st h p.id).bind fun x => (x.1.get r.mui).map fun _ =>
            (x.1.insert r.mui r.toMMV).length).getD 1⟩ : UpsertReport) →
        (open Classical in if Present h p then rep else { rep with prefixNew := true }) =
          insertReport st h p r := by
      rintro _ rfl
      unfold insertReport
      rw [if_pos hmem]
      split <;> rfl
    have cnt : ∀ c' : PCht M W,
        c'.prefixes = (fun l => if l = p.id.len ∧ (tabOf st h p.id).isNone then s.cht.prefixes l + 1
          else s.cht.prefixes l) ∧
        c'.routes = (if ((tabOf st h p.id).bind fun x => x.1.get r.mui).isNone then s.cht.routes + 1
          else s.cht.routes) →
        c'.prefixes = memPrefixesOf st (.insert p r tbi :: h) ∧
          c'.routes = memRoutesOf st (.insert p r tbi :: h) := by
      rintro c' ⟨h1, h2⟩
      refine ⟨?_, ?_⟩
      · rw [h1, hi.memPrefixes]; funext l; simp only [memPrefixesOf, hmem, true_and]; rfl
      · rw [h2, hi.memRoutes]; simp only [memRoutesOf, hmem, true_and]
    cases st with
    | persistOnly => simp [Strategy.inMemory] at hmem
    | memoryOnly =>
      obtain ⟨c', hu, hprep, hnd, hcc⟩ := run_pchtUpsert' hi.tab p.clean r tbi
      refine key _ _ { s with tree := t1, cht := c' } rfl ?_ rfl (hrep' _ rfl)
        ?_ ?_ ?_ ?_ rfl rfl (hnd.trans hi.memNodes) hpc1 (cnt _ hcc).1 (cnt _ hcc).2
      · simp only [ribUpsert, run_bind, run_cht, hu, Outcome.mapState, Outcome.andThen, pure_def, run]
      · rw [pairsOf_insert]; exact hrep
      · exact hwd
      · rw [htabO]; exact hprep
      · exact hi.lsm
    | writeAhead =>
      obtain ⟨c', hu, hprep, hnd, hcc⟩ := run_pchtUpsert' hi.tab p.clean r tbi
      refine key _ _ { s with tree := t1, cht := c', lsm := persistLong s.lsm p.id r } rfl ?_ rfl (hrep' _ rfl)
        ?_ ?_ ?_ ?_ rfl rfl (hnd.trans hi.memNodes) hpc1 (cnt _ hcc).1 (cnt _ hcc).2
      · simp only [ribUpsert, run_bind, run_onLsm, run_cht, hu, Outcome.mapState, Outcome.andThen,
          pure_def, run]
      · rw [pairsOf_insert]; exact hrep
      · exact hwd
      · rw [htabO]; exact hprep
      · simp only [hi.lsm, lsmOf]
    | persistHistory =>
      obtain ⟨c', hu, hprep, hnd, hcc⟩ := run_pchtUpsert' hi.tab p.clean r tbi
      cases ho : (tabOf .persistHistory h p.id).bind fun x => x.1.get r.mui with
      | none =>
        rw [ho] at hu
        refine key _ _ { s with tree := t1, cht := c' } rfl ?_ rfl (hrep' _ rfl)
          ?_ ?_ ?_ ?_ rfl rfl (hnd.trans hi.memNodes) hpc1 (cnt _ hcc).1 (cnt _ hcc).2
        · simp only [ribUpsert, run_bind, run_cht, hu, Outcome.mapState, Outcome.andThen,
            pure_def, run]
        · rw [pairsOf_insert]; exact hrep
        · exact hwd
        · rw [htabO]; exact hprep
        · simp only [hi.lsm, lsmOf, ho]
      | some old =>
        rw [ho] at hu
        refine key _ _ { s with tree := t1, cht := c', lsm := persistLong s.lsm p.id (old.toRecord r.mui) } rfl ?_ rfl (hrep' _ rfl)
          ?_ ?_ ?_ ?_ rfl rfl (hnd.trans hi.memNodes) hpc1 (cnt _ hcc).1 (cnt _ hcc).2
        · simp only [ribUpsert, run_bind, run_cht, hu, run_onLsm, Outcome.mapState, Outcome.andThen,
            pure_def, run]
        · rw [pairsOf_insert]; exact hrep
        · exact hwd
        · rw [htabO]; exact hprep
        · simp only [hi.lsm, lsmOf, ho]
  cases st with
  | persistOnly =>
    obtain ⟨b2, t2, hr2, hrep2, hwd2, hb2⟩ := hrep.insert p.clean r.mui F
    have hb2t : b2 = true := hb2.2 ⟨_, .inl ⟨rfl, rfl⟩⟩
    subst hb2t
    rw [rep_idem] at hrep2
    refine key ⟨true, true, 0⟩ _ { s with tree := t2, lsm := persistShort s.lsm p.id r } rfl ?_ rfl
      ?_ ?_ ?_ ?_ ?_ rfl rfl hi.memNodes (ptrCount_insert p.clean hrep.inv hpc1 hr2) ?_ ?_
    · simp only [ribUpsert, run_bind, run_tree, hr2, run_onLsm, Outcome.mapState, Outcome.andThen,
        pure_def, run]
    · unfold insertReport
      simp only [Strategy.inMemory, ite_self, Bool.false_eq_true, if_false]
    · rw [pairsOf_insert]; exact hrep2
    · exact hwd2.trans hwd
    · simp only [tabOf, Strategy.inMemory, Bool.false_eq_true, if_false]; exact hi.tab
    · simp only [lsmOf, hi.lsm]
    · rw [hi.memPrefixes]; funext l; simp [memPrefixesOf, Strategy.inMemory]
    · rw [hi.memRoutes]; simp [memRoutesOf, Strategy.inMemory]
  | _ => exact mem rfl

theorem HInv.other {st : Strategy} {h : History M W} {op : Op M W} {s s' : Rib M W}
    (hi : HInv st h s) (ho : op.isInsert = false) (ht : s'.tree.slots = s.tree.slots)
    (hd : s'.tree.defaultExists = s.tree.defaultExists)
    (hwd : s'.tree.wd = ⟨globCount (op :: h), globWd (op :: h)⟩) (htab : PRep (tabOf st (op :: h)) s'.cht.slots)
    (hl : s'.lsm = lsmOf st (op :: h)) (hp : s'.prefixes = s.prefixes) (hr : s'.routes = s.routes)
    (hn : s'.cht.nodes = s.cht.nodes) (htn : s'.tree.nodes = s.tree.nodes)
    (hcp : s'.cht.prefixes = s.cht.prefixes) (hcr : s'.cht.routes = s.cht.routes) : HInv st (op :: h) s' := by
  have hpair : pairsOf (op :: h) = pairsOf h := by
    unfold pairsOf; rw [inserted_other ho]
  refine ⟨?_, hwd, htab, hl, fun l => ?_, ?_, hn.trans hi.memNodes,
    ptrCount_congr (by rw [ht]) htn hi.nodes, ?_, ?_⟩
  · rw [hpair]
    have := hi.tree
    exact ⟨ht ▸ this.inv, ht ▸ this.just, ht ▸ this.full, ht ▸ this.root, hd ▸ this.dflt,
      ht ▸ this.dfltRbm, this.clean⟩
  · rw [present_other ho, hp, hi.prefixes]
  · rw [hr, hi.routes]; cases op <;> simp_all [numInserts, Op.isInsert]
  · rw [hcp, hi.memPrefixes]; funext l; cases op <;> simp_all [memPrefixesOf, Op.isInsert]
  · rw [hcr, hi.memRoutes]; cases op <;> simp_all [memRoutesOf, Op.isInsert]

theorem run_rewriteAll (t : LTime) (rs : RouteStatus) (l : List Bytes) (s : Rib M W) :
    (rewriteAll W t rs l).run s =
      .ok (rewriteFold W t rs l s.lsm).1 { s with lsm := (rewriteFold W t rs l s.lsm).2 } := by
  induction l generalizing s with
  | nil => rfl
  | cons b bs ih =>
    unfold rewriteAll
    simp only [atomic, act_bind, ret_bind, run]
    cases hx : rewriteHeader W s.lsm t rs b with
    | none => simp [rewriteFold, hx, pure_def, run]
    | some l' => simp [rewriteFold, hx, ih]

theorem run_persistMarker {f : Tab M W} {s : Rib M W} (h : PRep f s.cht.slots) {ref : Ref W}
    {p : PrefixId W} {e : StoredPrefix M W} (he : s.cht.slots ref.addr = some e) (_hid : e.id = p)
    (m : Mui) (t : LTime) :
    (ribPersistMarker (M := M) ref p m t).run s = .ok () 
      { s with lsm := markerIf (e.recs.get m) p m t s.lsm } := by
  unfold ribPersistMarker
  simp only [run_bind, run_onRecs, run_readAt' he, Outcome.mapState, Outcome.andThen,
    getRecordForMui]
  cases e.recs.get m with
  | none => simp [pure_def, run, markerIf]
  | some v => simp [run_onLsm, markerIf]

omit [Meta M] in
theorem get_modify {rs : Recs M} {m k : Mui} {f : MMV M → MMV M} :
    (rs.modify m f).get k = if k = m then (rs.get k).map f else rs.get k := by
  unfold Recs.modify Recs.get
  induction rs with
  | nil => simp
  | cons kv rs ih =>
    obtain ⟨a, v⟩ := kv
    simp only [List.map_cons]
    by_cases hk : k = a
    · subst hk
      by_cases hm : k = m
      · subst hm; simp
      · simp [hm]
    · have hkf : (k == a) = false := by simpa using hk
      by_cases hm : a = m
      · rw [if_pos hm, List.lookup_cons, List.lookup_cons, hkf]
        exact ih
      · rw [if_neg hm, List.lookup_cons, List.lookup_cons, hkf]
        exact ih

omit [Meta M] in
theorem get_insert {rs : Recs M} {m k : Mui} {v : MMV M} :
    (rs.insert m v).get k = if k = m then some v else rs.get k := by
  unfold Recs.get
  induction rs with
  | nil =>
    simp only [Recs.insert, List.lookup_cons, List.lookup_nil]
    by_cases h : k = m
    · simp [h]
    · have : (k == m) = false := by simpa using h
      simp [this, h]
  | cons kv rs ih =>
    obtain ⟨a, x⟩ := kv
    simp only [Recs.insert]
    by_cases ha : a = m
    · subst ha
      simp only [if_true, List.lookup_cons]
      by_cases hk : k = a
      · simp [hk]
      · have : (k == a) = false := by simpa using hk
        simp [this, hk]
    · simp only [ha, if_false, List.lookup_cons]
      by_cases hk : k = a
      · subst hk; simp [ha]
      · have : (k == a) = false := by simpa using hk
        simp only [this, ih]

/-- The result of a per-prefix withdrawal. -/
def withdrawForRes (st : Strategy) (h : History M W) (p : Prefix W) (m : Mui) (t : LTime) :
    Except StoreError Unit :=
  match st with
  | .persistOnly =>
    if (rewriteFold W t .withdrawn (recordsWithKeys (lsmOf st h) p.id m) (lsmOf st h)).1 then .ok ()
    else .error .storeNotReady
  | .persistHistory => if (tabOf st h p.id).isSome then .ok () else .error .storeNotReady
  | _ => if (tabOf st h p.id).isSome then .ok () else .error .prefixNotFound

theorem run_withdrawFor [Fam W] {st : Strategy} {h : History M W} {s : Rib M W}
    (hi : HInv st h s) (p : Prefix W) (m : Mui) (t : LTime) :
    ∃ s', (ribMarkWithdrawnForPrefix st p.id m t).run s = .ok (withdrawForRes st h p m t) s' ∧
      HInv st (.withdrawFor p m t :: h) s' := by
  obtain ⟨o, s1, hr, hprep, hnone, href⟩ := run_markMem hi.tab p.clean m t .withdrawn
  cases st with
  | persistOnly =>
    unfold ribMarkWithdrawnForPrefix
    simp only [run_bind, Prog.read, run, Outcome.andThen, run_rewriteAll, hi.lsm, withdrawForRes]
    refine ⟨{ s with lsm := lsmOf .persistOnly (.withdrawFor p m t :: h) }, ?_, ?_⟩
    rotate_left
    · exact hi.other rfl rfl rfl hi.wds (by simpa [tabOf, Strategy.inMemory] using hi.tab) rfl rfl rfl rfl rfl rfl
        rfl
    · simp only [lsmOf]
      split <;> rfl
  | persistHistory =>
    unfold ribMarkWithdrawnForPrefix
    simp only [run_bind, hr, Outcome.andThen, withdrawForRes]
    cases o with
    | none =>
      have hf := hnone.1 rfl
      refine ⟨_, by simp only [pure_def, run, hf]; rfl, ?_⟩
      refine hi.other rfl rfl rfl hi.wds ?_ ?_ rfl rfl rfl rfl rfl rfl
      · simp only [tabOf, Strategy.inMemory, if_true]; exact hprep
      · simp only [hi.lsm, lsmOf, markerStep, markerIf, hf, Option.bind_none]
    | some ref =>
      obtain ⟨e, he, hid⟩ := href ref rfl
      cases hf : tabOf .persistHistory h p.id with
      | none => exact absurd (hnone.2 hf) (by simp)
      | some x =>
        simp only [run_bind, run_persistMarker (s := { s with cht := { s.cht with slots := s1 } })
          hprep he hid, Outcome.andThen, pure_def, run]
        refine ⟨_, by simp; rfl, ?_⟩
        refine hi.other rfl rfl rfl hi.wds ?_ ?_ rfl rfl rfl rfl rfl rfl
        · simp only [tabOf, Strategy.inMemory, if_true]; exact hprep
        · have h1 := hprep.at he
          rw [hid, Function.update_self, hf] at h1
          simp only [markEntry, Option.some.injEq, Prod.mk.injEq] at h1
          simp only [hi.lsm, lsmOf, markerStep, hf, Option.bind_some, ← h1.1, markStatus, get_modify,
            if_true]
          cases Recs.get x.1 m <;> rfl
  | _ =>
    unfold ribMarkWithdrawnForPrefix
    simp only [run_bind, hr, Outcome.andThen, withdrawForRes]
    refine ⟨{ s with cht := { s.cht with slots := s1 } }, ?_, hi.other rfl rfl rfl hi.wds
      (by simp only [tabOf, Strategy.inMemory, if_true]; exact hprep)
      (by simp only [hi.lsm, lsmOf]) rfl rfl rfl rfl rfl rfl⟩
    cases o with
    | none => rw [hnone.1 rfl]; rfl
    | some ref =>
      cases hf : tabOf _ h p.id with
      | none => exact absurd (hnone.2 hf) (by simp)
      | some x => rfl

/-- The result of a per-prefix activation. -/
def activateForRes (st : Strategy) (h : History M W) (p : Prefix W) (m : Mui) (t : LTime) :
    Except StoreError Unit :=
  match st with
  | .persistOnly =>
    match mostRecentRecord (lsmOf st h) p.id m with
    | some b => if (rewriteFold W t .active [b] (lsmOf st h)).1 then .ok () else .error .fatal
    | none => .ok ()
  | _ => if (tabOf st h p.id).isSome then .ok () else .error .fatal

theorem run_activateFor [Fam W] {st : Strategy} {h : History M W} {s : Rib M W}
    (hi : HInv st h s) (p : Prefix W) (m : Mui) (t : LTime) :
    ∃ s', (ribMarkActiveForPrefix st p.id m t).run s = .ok (activateForRes st h p m t) s' ∧
      HInv st (.activateFor p m t :: h) s' := by
  obtain ⟨o, s1, hr, hprep, hnone, href⟩ := run_markMem hi.tab p.clean m t .active
  cases st with
  | persistOnly =>
    unfold ribMarkActiveForPrefix
    simp only [run_bind, Prog.read, run, Outcome.andThen, hi.lsm, activateForRes]
    refine ⟨{ s with lsm := lsmOf .persistOnly (.activateFor p m t :: h) }, ?_, ?_⟩
    rotate_left
    · exact hi.other rfl rfl rfl hi.wds (by simpa [tabOf, Strategy.inMemory] using hi.tab) rfl rfl rfl rfl rfl rfl
        rfl
    · cases hx : mostRecentRecord (lsmOf .persistOnly h) p.id m with
      | none =>
        simp only [pure_def, run, lsmOf, hx]
        rw [← hi.lsm]
      | some b =>
        simp only [run_bind, run_rewriteAll, Outcome.andThen, hi.lsm, lsmOf, hx]
        split <;> rfl
  | persistHistory =>
    unfold ribMarkActiveForPrefix
    simp only [run_bind, hr, Outcome.andThen, activateForRes]
    cases o with
    | none =>
      have hf := hnone.1 rfl
      refine ⟨_, by simp only [pure_def, run, hf]; rfl, ?_⟩
      refine hi.other rfl rfl rfl hi.wds ?_ ?_ rfl rfl rfl rfl rfl rfl
      · simp only [tabOf, Strategy.inMemory, if_true]; exact hprep
      · simp only [hi.lsm, lsmOf, markerStep, markerIf, hf, Option.bind_none]
    | some ref =>
      obtain ⟨e, he, hid⟩ := href ref rfl
      cases hf : tabOf .persistHistory h p.id with
      | none => exact absurd (hnone.2 hf) (by simp)
      | some x =>
        simp only [run_bind, run_persistMarker (s := { s with cht := { s.cht with slots := s1 } })
          hprep he hid, Outcome.andThen, pure_def, run]
        refine ⟨_, by simp; rfl, ?_⟩
        refine hi.other rfl rfl rfl hi.wds ?_ ?_ rfl rfl rfl rfl rfl rfl
        · simp only [tabOf, Strategy.inMemory, if_true]; exact hprep
        · have h1 := hprep.at he
          rw [hid, Function.update_self, hf] at h1
          simp only [markEntry, Option.some.injEq, Prod.mk.injEq] at h1
          simp only [hi.lsm, lsmOf, markerStep, hf, Option.bind_some, ← h1.1, markStatus, get_modify,
            if_true]
          cases Recs.get x.1 m <;> rfl
  | _ =>
    unfold ribMarkActiveForPrefix
    simp only [run_bind, hr, Outcome.andThen, activateForRes]
    refine ⟨{ s with cht := { s.cht with slots := s1 } }, ?_, hi.other rfl rfl rfl hi.wds
      (by simp only [tabOf, Strategy.inMemory, if_true]; exact hprep)
      (by simp only [hi.lsm, lsmOf]) rfl rfl rfl rfl rfl rfl⟩
    cases o with
    | none => rw [hnone.1 rfl]; rfl
    | some ref =>
      cases hf : tabOf _ h p.id with
      | none => exact absurd (hnone.2 hf) (by simp)
      | some x => rfl

theorem run_withdraw {st : Strategy} {h : History M W} {s : Rib M W}
    (hi : HInv st h s) (F : Nat) (m : Mui) :
    ∃ s', (ribMarkWithdrawn F m).run s = .ok () s' ∧ HInv st (.withdraw m :: h) s' := by
  unfold ribMarkWithdrawn treeMarkWithdrawn updateWithdrawnLoop
  rw [run_tree]
  simp only [Prog.read, atomic, act_bind, ret_bind, run, if_true, pure_def, Outcome.mapState]
  refine ⟨_, rfl, hi.other rfl rfl rfl ?_ hi.tab hi.lsm rfl rfl rfl rfl rfl rfl⟩
  simp only [globCount, hi.wds]
  congr 1
  funext k
  simp only [muiInsert, globWd]
  by_cases c : k = m <;> simp [c]

theorem run_activate {st : Strategy} {h : History M W} {s : Rib M W}
    (hi : HInv st h s) (F : Nat) (m : Mui) :
    ∃ s', (ribMarkActive F m).run s = .ok () s' ∧ HInv st (.activate m :: h) s' := by
  unfold ribMarkActive treeMarkActive updateWithdrawnLoop
  rw [run_tree]
  simp only [Prog.read, atomic, act_bind, ret_bind, run, if_true, pure_def, Outcome.mapState]
  refine ⟨_, rfl, hi.other rfl rfl rfl ?_ hi.tab hi.lsm rfl rfl rfl rfl rfl rfl⟩
  simp only [globCount, hi.wds]
  congr 1
  funext k
  simp only [muiRemove, globWd]
  by_cases c : k = m <;> simp [c]

/-- The result of a path selection. -/
def calcBestRes (st : Strategy) (h : History M W) (p : Prefix W) (tbi : Meta.TBI M) :
    Except StoreError (Option Mui × Option Mui) :=
  match tabOf st h p.id with
  | none => .error .storeNotReady
  | some x => .ok (bestBackup x.1 tbi)

theorem run_calcBest [Fam W] {st : Strategy} {h : History M W} {s : Rib M W}
    (hi : HInv st h s) (p : Prefix W) (tbi : Meta.TBI M) :
    ∃ s', (ribCalcBest p.id tbi).run s = .ok (calcBestRes st h p tbi) s' ∧
      HInv st (.calcBest p tbi :: h) s' := by
  unfold ribCalcBest
  rcases run_retrievePrefix p.clean hi.tab.inv with ⟨hr, hn⟩ | ⟨ref, e, hr, he, hid⟩
  · have hf := (hi.tab.none_iff _).2 hn
    simp only [run_bind, run_onRecs, hr, Outcome.mapState, Outcome.andThen, pure_def, run,
      calcBestRes, hf]
    refine ⟨_, rfl, hi.other rfl rfl rfl hi.wds ?_ hi.lsm rfl rfl rfl rfl rfl rfl⟩
    simp only [tabOf, hf]; exact hi.tab
  · have hf := hi.tab.at he
    rw [hid] at hf
    simp only [run_bind, run_onRecs, hr, Outcome.mapState, Outcome.andThen,
      calcBestRes, hf, run_calculateAndStore he]
    refine ⟨_, rfl, hi.other rfl rfl rfl hi.wds ?_ hi.lsm rfl rfl rfl rfl rfl rfl⟩
    simp only [tabOf, hf]
    have := hi.tab.update he (e' := { e with ps := storePs e.ps (bestBackup e.recs tbi) }) rfl rfl
    rw [hid] at this ⊢
    exact this

/-- The new store. -/
theorem hinv_init [Fam W] (st : Strategy) :
    HInv st ([] : History M W) { (Rib.empty : Rib M W) with tree := Tree.initial W } := by
  refine ⟨?_, rfl, prep_empty, rfl, fun l => ?_, rfl, rfl, ptrCount_initial, rfl, rfl⟩
  · have : pairsOf ([] : History M W) = fun _ _ => False := by
      funext q m; simp [pairsOf, Inserted]
    rw [this]; exact rep_initial
  · simp [Rib.empty, Present, Inserted]

/-- Every history runs to completion, in a state described by the history. -/
theorem exec_inv [Fam W] (st : Strategy) (F : Nat) (h : History M W) :
    ∃ s, exec st F h = .ok () s ∧ HInv st h s := by
  induction h with
  | nil =>
    refine ⟨_, ?_, hinv_init st⟩
    unfold exec ribNew
    simp only [run_bind, run_tree]
    change ((((treeNew F).run Tree.empty).mapState _).andThen _) = _
    rw [treeNew_run]
    rfl
  | cons op h ih =>
    obtain ⟨s, hs, hi⟩ := ih
    unfold exec
    rw [hs]
    simp only [Outcome.andThen]
    cases op with
    | insert p r tbi =>
      obtain ⟨s', hr, hi'⟩ := run_ribInsert hi F p r tbi
      exact ⟨s', by simp [Op.prog, run_bind, hr, Outcome.andThen, pure_def, run], hi'⟩
    | withdrawFor p m t =>
      obtain ⟨s', hr, hi'⟩ := run_withdrawFor hi p m t
      exact ⟨s', by simp [Op.prog, run_bind, hr, Outcome.andThen, pure_def, run], hi'⟩
    | activateFor p m t =>
      obtain ⟨s', hr, hi'⟩ := run_activateFor hi p m t
      exact ⟨s', by simp [Op.prog, run_bind, hr, Outcome.andThen, pure_def, run], hi'⟩
    | withdraw m =>
      obtain ⟨s', hr, hi'⟩ := run_withdraw hi F m
      exact ⟨s', hr, hi'⟩
    | activate m =>
      obtain ⟨s', hr, hi'⟩ := run_activate hi F m
      exact ⟨s', hr, hi'⟩
    | calcBest p tbi =>
      obtain ⟨s', hr, hi'⟩ := run_calcBest hi p tbi
      exact ⟨s', by simp [Op.prog, run_bind, hr, Outcome.andThen, pure_def, run], hi'⟩

theorem exec_ok_inv [Fam W] {st : Strategy} {F : Nat} {h : History M W} {s : Rib M W}
    (he : exec st F h = .ok () s) : HInv st h s := by
  obtain ⟨s', hs, hi⟩ := exec_inv st F h
  rw [he] at hs
  cases hs
  exact hi

end Rotonda
