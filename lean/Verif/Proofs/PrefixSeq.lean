import Verif.Proofs.PrefixWalk

/-!
# Operations on one stored prefix, run sequentially
-/

namespace Rotonda

open Prog

variable {M : Type} {W : Nat}

theorem PCht.slotsL_lawful : (PCht.slotsL (M := M) (W := W)).Lawful :=
  ⟨fun _ _ => rfl, fun _ => rfl, fun _ _ _ => rfl⟩

theorem Rib.chtL_lawful : (Rib.chtL (M := M) (W := W)).Lawful :=
  ⟨fun _ _ => rfl, fun _ => rfl, fun _ _ _ => rfl⟩

theorem Rib.treeL_lawful : (Rib.treeL (M := M) (W := W)).Lawful :=
  ⟨fun _ _ => rfl, fun _ => rfl, fun _ _ _ => rfl⟩

/-- The path selection of a new prefix. -/
def psInit : PsCell := ⟨0, false, (none, none)⟩

/-- Store a path selection. -/
def storePs (ps : PsCell) (v : Option Mui × Option Mui) : PsCell :=
  if ps.val = v then ps else ⟨ps.ver + 1, false, v⟩

/-- Content of a prefix after an upsert. -/
def upsertEntry [Meta M] (x : Option (Recs M × PsCell)) (r : Record M)
    (upd : Option (Meta.TBI M)) : Recs M × PsCell :=
  match x with
  | none => (Recs.insert [] r.mui r.toMMV, psInit)
  | some (rs, ps) =>
    (rs.insert r.mui r.toMMV,
      match upd with
      | none => { ps with tag := true }
      | some tbi => storePs { ps with tag := true } (bestBackup (rs.insert r.mui r.toMMV) tbi))

/-- Content of a prefix after a status change. -/
def markEntry (x : Option (Recs M × PsCell)) (m : Mui) (t : LTime) (st : RouteStatus) :
    Recs M × PsCell :=
  match x with
  | none => ([], psInit)
  | some (rs, ps) => (markStatus rs m t st, ps)

theorem set_set_slots {s : PSlots M W} {a : Addr} {e e' : StoredPrefix M W} :
    (s.set a e).set a e' = s.set a e' := by
  funext b
  by_cases h : b = a
  · subst h; rw [Slots.set_same, Slots.set_same]
  · rw [Slots.set_other _ _ h, Slots.set_other _ _ h, Slots.set_other _ _ h]

theorem set_self_slots {s : PSlots M W} {a : Addr} {e : StoredPrefix M W} (h : s a = some e) :
    s.set a e = s := by
  funext b
  by_cases hb : b = a
  · subst hb; rw [Slots.set_same, h]
  · rw [Slots.set_other _ _ hb]

theorem run_calculateAndStore [Meta M] {s : PSlots M W} {a : Addr} {e : StoredPrefix M W}
    (h : s a = some e) (tbi : Meta.TBI M) :
    (calculateAndStore a tbi).run s = .ok (.ok (bestBackup e.recs tbi))
      (s.set a { e with ps := storePs e.ps (bestBackup e.recs tbi) }) := by
  unfold calculateAndStore setPathSelections
  simp only [run_bind, run_readAt' h, Outcome.andThen]
  by_cases c : e.ps.val = bestBackup e.recs tbi
  · rw [if_pos c]
    simp only [pure_def, run, storePs, if_pos c]
    rw [show ({ e with ps := e.ps } : StoredPrefix M W) = e from rfl, set_self_slots h]
  · rw [if_neg c]
    rw [run_accessAt h]
    simp [storePs, c, pure_def, run]

theorem lookup_isSome_iff {rs : Recs M} {m : Mui} :
    (rs.get m).isSome ↔ m ∈ rs.map Prod.fst := by
  unfold Recs.get
  induction rs with
  | nil => simp
  | cons kv rs ih =>
    obtain ⟨k, v⟩ := kv
    rw [List.lookup_cons]
    by_cases c : m = k
    · subst c; simp
    · have : (m == k) = false := by simpa using c
      rw [this]
      simp only [ih, List.map_cons, List.mem_cons, c, false_or]

/-- What `upsert_prefix` of the prefix table does to its memory. -/
theorem run_pchtUpsert [Fam W] [Meta M] {f : Tab M W} {t : PCht M W} (h : PRep f t.slots)
    {p : PrefixId W} (hp : p.Clean) (r : Record M) (upd : Option (Meta.TBI M)) :
    ∃ s', (pchtUpsert p r upd).run t =
        .ok (.ok (⟨(f p).isNone, true,
            ((f p).bind fun x => (x.1.get r.mui).map fun _ =>
              (x.1.insert r.mui r.toMMV).length).getD 1⟩,
          (f p).bind fun x => x.1.get r.mui))
        { t with
          slots := s'
          routes := if ((f p).bind fun x => x.1.get r.mui).isSome then t.routes else t.routes + 1
          prefixes := fun l => if l = p.len ∧ p.len ≤ 128 ∧ f p = none then t.prefixes l + 1
            else t.prefixes l } ∧
      PRep (Function.update f p (some (upsertEntry (f p) r upd))) s' := by
  unfold pchtUpsert
  have hz : ∀ {α : Type} (q : Prog (PSlots M W) α) (t : PCht M W), (q.zoom PCht.slotsL).run t =
      (q.run t.slots).mapState (fun s => { t with slots := s }) := by
    intro α q t; rw [run_zoom PCht.slotsL_lawful]; rfl
  rcases run_retrievePrefixMut hp h.inv with ⟨ref, e, hr, he, hid, hrid⟩ | ⟨hn, ref, k, hr, hfree, hrid, hi⟩
  · have hf : f p = some (e.recs, e.ps) := by have := h.at he; rwa [hid] at this
    have hfst : (Function.update f p (some (upsertEntry (f p) r upd))) =
        Function.update f e.id (some (upsertEntry (some (e.recs, e.ps)) r upd)) := by rw [hid, hf]
    rw [hfst]
    simp only [run_bind, hz, hr, Outcome.mapState, Outcome.andThen, Bool.true_eq_false, if_false,
      setPsOutdated, upsertRecordAt, run_accessAt he, Slots.set_same,
      run_accessAt (Slots.set_same t.slots ref.addr _), set_set_slots, upsertRecord]
    have hcnt : ∀ l : Nat, (if l = p.len ∧ p.len ≤ 128 ∧ f p = none then t.prefixes l + 1
            else t.prefixes l) = t.prefixes l := by
      intro l; rw [if_neg]; rintro ⟨_, _, hx⟩; rw [hf] at hx; cases hx
    simp only [hcnt]
    cases hg : e.recs.get r.mui with
    | none =>
      simp only [hg, hf, Option.map_none, PCht.incRoutes, atomic, act_bind, ret_bind, run,
        Option.bind_some]
      cases upd with
      | none =>
        simp only [pure_bind', pure_def, run]
        exact ⟨_, rfl, h.update (e' := ⟨e.id, _, _, e.next⟩) he rfl rfl⟩
      | some tbi =>
        simp only [run_bind, hz, run_calculateAndStore (Slots.set_same _ _ _), Outcome.mapState,
          Outcome.andThen, pure_def, run, set_set_slots]
        exact ⟨_, rfl, h.update (e' := ⟨e.id, _, _, e.next⟩) he rfl rfl⟩
    | some v =>
      simp only [hg, hf, Option.map_some, pure_bind', run, Option.bind_some]
      cases upd with
      | none =>
        simp only [pure_bind', pure_def, run]
        exact ⟨_, rfl, h.update (e' := ⟨e.id, _, _, e.next⟩) he rfl rfl⟩
      | some tbi =>
        simp only [run_bind, hz, run_calculateAndStore (Slots.set_same _ _ _), Outcome.mapState,
          Outcome.andThen, pure_def, run, set_set_slots]
        exact ⟨_, rfl, h.update (e' := ⟨e.id, _, _, e.next⟩) he rfl rfl⟩
  · have hf : f p = none := (h.none_iff p).2 hn
    simp only [run_bind, hz, hr, Outcome.mapState, Outcome.andThen, if_true,
      upsertRecordAt, run_accessAt (Slots.set_same t.slots ref.addr _), set_set_slots, upsertRecord,
      StoredPrefix.new, Recs.get, List.lookup_nil, Option.map_none, PCht.incRoutes, PCht.incPrefixes,
      atomic, act_bind, ret_bind, run, pure_def, hf, hrid]
    refine ⟨t.slots.set ref.addr ⟨p, Recs.insert [] r.mui r.toMMV, psInit, (newSP M p k).next⟩,
      ?_, ?_⟩
    · simp [psInit, StoredPrefix.new]
    · have h1 := h.create (a := ref.addr) (e := newSP M p k) hf hfree hi
      have h2 := h1.update (Slots.set_same _ _ _)
        (e' := ⟨p, Recs.insert [] r.mui r.toMMV, psInit, (newSP M p k).next⟩) rfl rfl
      rw [set_set_slots, Function.update_idem] at h2
      exact h2

theorem run_markMem [Fam W] {f : Tab M W} {s : Rib M W} (h : PRep f s.cht.slots)
    {p : PrefixId W} (hp : p.Clean) (m : Mui) (t : LTime) (st : RouteStatus) :
    ∃ o s', (ribMarkMem (M := M) p m t st).run s =
        .ok o { s with cht := { s.cht with slots := s' } } ∧
      PRep (Function.update f p (some (markEntry (f p) m t st))) s' ∧
      (o = none ↔ f p = none) ∧ ∀ ref, o = some ref → ∃ e, s' ref.addr = some e ∧ e.id = p := by
  unfold ribMarkMem
  have hz : ∀ {α : Type} (q : Prog (PSlots M W) α) (s : Rib M W), (onRecs q).run s =
      (q.run s.cht.slots).mapState (fun x => { s with cht := { s.cht with slots := x } }) := by
    intro α q t
    unfold onRecs
    rw [run_zoom Rib.chtL_lawful, run_zoom PCht.slotsL_lawful]
    simp only [Rib.chtL, PCht.slotsL]
    cases q.run t.cht.slots <;> rfl
  rcases run_retrievePrefixMut hp h.inv with ⟨ref, e, hr, he, hid, hrid⟩ | ⟨hn, ref, k, hr, hfree, hrid, hi⟩
  · have hf : f p = some (e.recs, e.ps) := by have := h.at he; rwa [hid] at this
    simp only [run_bind, hz, hr, Outcome.mapState, Outcome.andThen, Bool.true_eq_false, if_false,
      markStatusAt, run_accessAt he, pure_def, run]
    refine ⟨_, _, rfl, ?_, ?_, ?_⟩
    · have := h.update (e' := ⟨e.id, markStatus e.recs m t st, e.ps, e.next⟩) he rfl rfl
      rw [hf]; rw [hid] at this; rw [← hid] at this ⊢; exact this
    · simp [hf]
    · rintro _ ⟨⟩
      exact ⟨_, Slots.set_same _ _ _, hid⟩
  · have hf : f p = none := (h.none_iff p).2 hn
    simp only [run_bind, hz, hr, Outcome.mapState, Outcome.andThen, if_true, pure_def, run]
    refine ⟨_, _, rfl, ?_, ?_, ?_⟩
    · have h1 := h.create (a := ref.addr) (e := newSP M p k) hf hfree hi
      rw [hf]; exact h1
    · simp [hf]
    · rintro _ ⟨⟩

theorem run_onRecs {α : Type} (q : Prog (PSlots M W) α) (s : Rib M W) : (onRecs q).run s =
    (q.run s.cht.slots).mapState (fun x => { s with cht := { s.cht with slots := x } }) := by
  unfold onRecs
  rw [run_zoom Rib.chtL_lawful, run_zoom PCht.slotsL_lawful]
  simp only [Rib.chtL, PCht.slotsL]
  cases q.run s.cht.slots <;> rfl

theorem run_onNodes {α : Type} (q : Prog (NSlots W) α) (s : Rib M W) : (onNodes q).run s =
    (q.run s.tree.slots).mapState (fun x => { s with tree := { s.tree with slots := x } }) := by
  unfold onNodes
  rw [run_zoom Rib.treeL_lawful, run_zoom Tree.slotsL_lawful]
  simp only [Rib.treeL, Tree.slotsL]
  cases q.run s.tree.slots <;> rfl

end Rotonda
