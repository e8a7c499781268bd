import Verif.Props.Lookup

/-!
# Records and their status: C08, C09, C11, C12, C13, C14, C15, C29
-/

namespace Rotonda.Props

open Prog Spec

variable {M : Type} [Meta M] {W : Nat}

/-- Every record query succeeds, leaves the store as it is, and answers with what
the specification shows. -/
theorem get_records [Fam W] {st : Strategy} {F : Nat} {h : History M W} {s : Rib M W}
    (hs : exec st F h = .ok () s) (p : Prefix W) (mui : Option Mui) (iw : Bool) :
    ∃ o, (ribGetValue st p.id mui iw).run s = .ok (.ok o) s ∧ Answers o (Shown st h mui iw p) :=
  ⟨_, run_ribGetValue (exec_ok_inv hs).toQ p mui iw, valueOf_answers _ _ _ _ _⟩

/-! ## C13 -/

/-- C13: with withdrawn routes included a query returns every stored record of the
prefix once; withdrawn if the id is globally withdrawn, else with its own status. -/
theorem withdrawn_inclusive [Fam W] {st : Strategy} {F : Nat} {h : History M W} {s : Rib M W}
    (hs : exec st F h = .ok () s) (p : Prefix W) (mui : Option Mui) :
    ∃ o, (ribGetValue st p.id mui true).run s = .ok (.ok o) s ∧
      (o.getD []).Pairwise (fun a b => a.mui ≠ b.mui) ∧
      (∀ m r0, (∀ m', mui = some m' → m = m') → storedRec st h p m = some r0 →
        (if globWd h m then { r0 with status := .withdrawn } else r0) ∈ o.getD []) ∧
      ∀ r ∈ o.getD [], ∃ r0, storedRec st h p r.mui = some r0 ∧
        r = if globWd h r.mui then { r0 with status := .withdrawn } else r0 := by
  obtain ⟨o, hrun, ⟨hpw, hm⟩, _⟩ := get_records hs p mui true
  have hmui : ∀ {m r0}, storedRec st h p m = some r0 → r0.mui = m := by
    intro m r0 hr
    cases st with
    | persistOnly =>
      simp only [storedRec] at hr
      obtain ⟨x, _, rfl⟩ := Option.map_eq_some_iff.1 hr
      rfl
    | memoryOnly => exact recOf_mui hr
    | writeAhead => exact recOf_mui hr
    | persistHistory => exact recOf_mui hr
  refine ⟨o, hrun, hpw, fun m r0 hf hr => ?_, fun r hr => ?_⟩
  · rw [hm]
    have h1 := hmui hr
    have h2 : (if globWd h m then { r0 with status := .withdrawn } else r0 : Record M).mui = m := by
      split <;> exact h1
    refine ⟨r0, by rw [h2]; exact hr, by rw [h2]; exact hf, ?_⟩
    simp only [effective, h1]
  · obtain ⟨r0, h1, _, h3⟩ := (hm r).1 hr
    refine ⟨r0, h1, ?_⟩
    have := hmui h1
    unfold effective at h3
    rw [← this] at h3 ⊢
    exact h3

example : ∃ s, exec .persistHistory 0 Demo.hist = .ok () s ∧ ∃ o,
    (ribGetValue .persistHistory Demo.ten8.id none true).run s = .ok (.ok o) s ∧
    { Demo.rec1 1 7 7 with status := .withdrawn } ∈ o.getD [] ∧ Demo.rec1 3 2 8 ∈ o.getD [] := by
  obtain ⟨s, hs, _⟩ := exec_inv .persistHistory 0 Demo.hist
  obtain ⟨o, h1, _, h2, _⟩ := withdrawn_inclusive hs Demo.ten8 none
  exact ⟨s, hs, o, h1,
    h2 1#32 { Demo.rec1 1 7 7 with status := .withdrawn } (fun m hm => (by cases hm)) (by decide),
    h2 3#32 (Demo.rec1 3 2 8) (fun m hm => (by cases hm)) (by decide)⟩

/-! ## C08 -/

/-- The call is an insert for the pair. -/
def InsertsPair (p : Prefix W) (m : Mui) : Op M W → Prop
  | .insert q r _ => q = p ∧ r.mui = m
  | _ => False

/-- The call is a status change for the pair. -/
def MarksPair (p : Prefix W) (m : Mui) : Op M W → Prop
  | .withdrawFor q k _ | .activateFor q k _ => q = p ∧ k = m
  | _ => False

theorem recOf_skip {h1 h2 : History M W} {p : Prefix W} {m : Mui}
    (hn : ∀ op ∈ h1, ¬ InsertsPair p m op ∧ ¬ MarksPair p m op) :
    recOf (h1 ++ h2) p m = recOf h2 p m := by
  induction h1 with
  | nil => rfl
  | cons op h1 ih =>
    have ih := ih (fun o ho => hn o (List.mem_cons_of_mem _ ho))
    have := hn op (by simp)
    cases op <;> simp only [InsertsPair, MarksPair, not_and, not_false_eq_true, and_true, true_and,
      List.cons_append, recOf] at this ⊢
    all_goals first | exact ih | (rw [if_neg (fun hx => this hx.1 hx.2)]; exact ih)

/-- Status changes keep the metadata. -/
theorem recOf_md {h1 h2 : History M W} {p : Prefix W} {m : Mui} {r : Record M}
    (hn : ∀ op ∈ h1, ¬ InsertsPair p m op) (hr : recOf h2 p m = some r) :
    ∃ x, recOf (h1 ++ h2) p m = some x ∧ x.md = r.md := by
  induction h1 with
  | nil => exact ⟨r, hr, rfl⟩
  | cons op h1 ih =>
    obtain ⟨x, hx, hmd⟩ := ih (fun o ho => hn o (List.mem_cons_of_mem _ ho))
    have := hn op (by simp)
    cases op <;> simp only [InsertsPair, not_and, List.cons_append, recOf] at this ⊢
    · rw [if_neg (fun hx => this hx.1 hx.2)]; exact ⟨x, hx, hmd⟩
    · split
      · rw [hx]; exact ⟨_, rfl, hmd⟩
      · exact ⟨x, hx, hmd⟩
    · split
      · rw [hx]; exact ⟨_, rfl, hmd⟩
      · exact ⟨x, hx, hmd⟩
    all_goals exact ⟨x, hx, hmd⟩

/-- C08 (in-memory strategies): let `r` be the record of the last insert for the pair
`(p, m)`.  Then exactly one record is returned for the pair and it carries the
metadata of `r`; if there was no later status change for the pair it is `r`; and
otherwise it has the status and time of the last of them.  (The status shown is
the effective one, C13.) -/
theorem last_write_wins [Fam W] {st : Strategy} (hst : st.inMemory = true) {F : Nat}
    {h1 h2 : History M W} {s : Rib M W} {p : Prefix W} {r : Record M} {tbi : Option (Meta.TBI M)}
    (hs : exec st F (h1 ++ .insert p r tbi :: h2) = .ok () s)
    (hlast : ∀ op ∈ h1, ¬ InsertsPair p r.mui op) :
    ∃ x, (ribGetValue st p.id (some r.mui) true).run s =
        .ok (.ok (some [effective (h1 ++ .insert p r tbi :: h2) x])) s ∧
      x.mui = r.mui ∧ x.md = r.md ∧
      ((∀ op ∈ h1, ¬ MarksPair p r.mui op) → x = r) ∧
      (∀ a b t, h1 = a ++ .withdrawFor p r.mui t :: b → (∀ op ∈ a, ¬ MarksPair p r.mui op) →
        x.status = .withdrawn ∧ x.ltime = t) ∧
      (∀ a b t, h1 = a ++ .activateFor p r.mui t :: b → (∀ op ∈ a, ¬ MarksPair p r.mui op) →
        x.status = .active ∧ x.ltime = t) := by
  have hins : recOf (.insert p r tbi :: h2) p r.mui = some r := by simp [recOf]
  obtain ⟨x, hx, hmd⟩ := recOf_md hlast hins
  have hxm : x.mui = r.mui := recOf_mui hx
  have hstored : storedRec st (h1 ++ .insert p r tbi :: h2) p r.mui = some x := by
    cases st <;> first | exact hx | (simp [Strategy.inMemory] at hst)
  obtain ⟨o, hrun, ⟨hpw, hm⟩, hne⟩ := get_records hs p (some r.mui) true
  refine ⟨x, ?_, hxm, hmd, fun hnm => ?_, fun a b t hab hnm => ?_, fun a b t hab hnm => ?_⟩
  · have heff : (effective (h1 ++ .insert p r tbi :: h2) x).mui = r.mui := by
      unfold effective; split <;> exact hxm
    have hall : ∀ y, y ∈ o.getD [] ↔ y = effective (h1 ++ .insert p r tbi :: h2) x := by
      intro y
      rw [hm]
      constructor
      · rintro ⟨r0, ha, hb, hc⟩
        have : y.mui = r.mui := hb _ rfl
        rw [this, hstored] at ha
        cases ha; exact hc
      · rintro rfl
        exact ⟨x, by rw [heff]; exact hstored, fun m hm => by cases hm; exact heff, rfl⟩
    have ho : o = some [effective (h1 ++ .insert p r tbi :: h2) x] := by
      cases o with
      | none => exact absurd ((hall _).2 rfl) (by simp)
      | some l =>
        cases l with
        | nil => exact absurd rfl hne
        | cons y l =>
          simp only [Option.getD_some] at hall hpw
          have hy := (hall y).1 (by simp)
          cases l with
          | nil => rw [hy]
          | cons z l =>
            have hz := (hall z).1 (by simp)
            have := (List.pairwise_cons.1 hpw).1 z (by simp)
            rw [hy, hz] at this
            exact absurd rfl this
    rw [hrun, ho]
  · rw [recOf_skip (fun op ho => ⟨hlast op ho, hnm op ho⟩), hins] at hx
    cases hx; rfl
  · subst hab
    rw [List.append_assoc, recOf_skip (fun op ho => ⟨hlast op (by simp [ho]), hnm op ho⟩)] at hx
    simp only [List.cons_append, recOf, and_self, if_true] at hx
    obtain ⟨y, _, rfl⟩ := Option.map_eq_some_iff.1 hx
    exact ⟨rfl, rfl⟩
  · subst hab
    rw [List.append_assoc, recOf_skip (fun op ho => ⟨hlast op (by simp [ho]), hnm op ho⟩)] at hx
    simp only [List.cons_append, recOf, and_self, if_true] at hx
    obtain ⟨y, _, rfl⟩ := Option.map_eq_some_iff.1 hx
    exact ⟨rfl, rfl⟩

example : ∃ s, exec .writeAhead 0 Demo.hist = .ok () s ∧ ∃ x,
    (ribGetValue .writeAhead Demo.ten8.id (some 1#32) true).run s =
      .ok (.ok (some [effective Demo.hist x])) s ∧
    x.md = ⟨[7#8]⟩ ∧ x.status = .withdrawn ∧ x.ltime = 7#64 := by
  obtain ⟨s, hs, _⟩ := exec_inv .writeAhead 0 Demo.hist
  obtain ⟨x, h1, _, h3, _, h5, _⟩ := last_write_wins (st := .writeAhead) rfl (F := 0)
    (h1 := [.activate 9#32, .withdraw 2#32, .withdrawFor Demo.ten8 1#32 7#64,
      .insert Demo.host (Demo.rec1 2 4 11) none, .insert Demo.other (Demo.rec1 1 3 5) none,
      .insert Demo.ten16 (Demo.rec1 2 3 9) none, .insert Demo.ten8 (Demo.rec1 3 2 8) (some ())])
    (h2 := []) (p := Demo.ten8) (r := Demo.rec1 1 1 7) (tbi := none) hs (by
      intro op ho
      simp only [List.mem_cons, List.not_mem_nil, or_false] at ho
      rcases ho with rfl | rfl | rfl | rfl | rfl | rfl | rfl <;> simp only [InsertsPair] <;> decide)
  refine ⟨s, hs, x, h1, h3, h5 [.activate 9#32, .withdraw 2#32] _ 7#64 rfl ?_⟩
  intro op ho
  simp only [List.mem_cons, List.not_mem_nil, or_false] at ho
  rcases ho with rfl | rfl <;> simp [MarksPair]

/-! ## C09 -/

/-- C09: a call that only concerns `(p, m)` does not change what any record query
returns for other prefixes, nor the record of another id. -/
theorem isolation [Fam W] {st : Strategy} {F : Nat} {h : History M W} {s s' : Rib M W}
    (hs : exec st F h = .ok () s) {op : Op M W} {p : Prefix W} {m : Mui}
    (hop : InsertsPair p m op ∨ MarksPair p m op) (hs' : exec st F (op :: h) = .ok () s')
    (q : Prefix W) (mui : Option Mui) (iw : Bool) :
    ∃ o o', (ribGetValue st q.id mui iw).run s = .ok (.ok o) s ∧
      (ribGetValue st q.id mui iw).run s' = .ok (.ok o') s' ∧
      ∀ r, (q ≠ p ∨ r.mui ≠ m) → (r ∈ o.getD [] ↔ r ∈ o'.getD []) := by
  obtain ⟨o, h1, ⟨_, h2⟩, _⟩ := get_records hs q mui iw
  obtain ⟨o', h1', ⟨_, h2'⟩, _⟩ := get_records hs' q mui iw
  refine ⟨o, o', h1, h1', fun r hr => ?_⟩
  rw [h2, h2']
  have hne : ¬ (p = q ∧ m = r.mui) := by
    rintro ⟨rfl, rfl⟩; rcases hr with h | h <;> exact h rfl
  have hg : globWd (op :: h) = globWd h := by
    cases op <;> simp only [InsertsPair, MarksPair, or_self] at hop <;> rfl
  have hst : storedRec st (op :: h) q r.mui = storedRec st h q r.mui := by
    have hrec : recOf (op :: h) q r.mui = recOf h q r.mui := by
      cases op <;> simp only [InsertsPair, MarksPair, or_false, false_or, or_self] at hop
      all_goals
        obtain ⟨rfl, rfl⟩ := hop
        simp only [recOf, if_neg hne]
    have hkept : keptOf (op :: h) q r.mui = keptOf h q r.mui := by
      cases op <;> simp only [InsertsPair, MarksPair, or_false, false_or, or_self] at hop
      all_goals
        obtain ⟨rfl, rfl⟩ := hop
        simp only [keptOf, if_neg hne]
    cases st <;> simp only [storedRec, hrec, hkept]
  unfold Shown effective
  simp only [hst, hg]

example : InsertsPair Demo.ten8 5#32 (Op.insert Demo.ten8 (Demo.rec1 5 1 1) none) ∧
    MarksPair (M := Demo.Md) Demo.ten8 5#32 (Op.withdrawFor Demo.ten8 5#32 9#64) ∧
    ∃ s, exec .persistOnly 0 (.insert Demo.ten8 (Demo.rec1 5 1 1) none :: Demo.hist) = .ok () s :=
  ⟨by simp only [InsertsPair]; decide, by simp [MarksPair],
    let ⟨s, hs, _⟩ := exec_inv .persistOnly 0 (.insert Demo.ten8 (Demo.rec1 5 1 1) none :: Demo.hist)
    ⟨s, hs⟩⟩

/-! ## C12 -/

/-- What the code shows is what it should show, except for an in-memory store asked
for one globally withdrawn id without withdrawn routes. -/
theorem shown_iff_visible {st : Strategy} {h : History M W} {mui : Option Mui} {iw : Bool}
    (hc : st = .persistOnly ∨ iw = true ∨ ∀ m, mui = some m → globWd h m = false)
    (p : Prefix W) (r : Record M) : Shown st h mui iw p r ↔ Visible st h mui iw p r := by
  unfold Shown Visible
  cases iw with
  | true => rfl
  | false =>
    simp only
    constructor
    · rintro ⟨r0, h1, h2, h3, h4, h5⟩
      refine ⟨r0, h1, h2, h3, h4, ?_⟩
      rcases h5 with h5 | ⟨h5, h6⟩
      · exact h5
      · rcases hc with rfl | hc | hc
        · simp [Strategy.inMemory] at h5
        · cases hc
        · cases mui with
          | none => simp at h6
          | some m => rw [h2 m rfl]; exact hc m rfl
    · rintro ⟨r0, h1, h2, h3, h4, h5⟩
      exact ⟨r0, h1, h2, h3, h4, .inl h5⟩

/-- C12 as stated, for record queries. -/
def GlobalHides (M : Type) [Meta M] (W : Nat) : Prop :=
  ∀ (st : Strategy) (F : Nat) (h : History M W) (s : Rib M W), exec st F h = .ok () s →
    ∀ (p : Prefix W) (mui : Option Mui), ∃ o, (ribGetValue st p.id mui false).run s = .ok (.ok o) s ∧
      ∀ r ∈ o.getD [], globWd h r.mui = false

/-- C12 for queries over all ids, and with `PersistOnly` for all queries.  Missing:
in-memory queries for one id (`global_hides_false`). -/
theorem global_hides_partial [Fam W] {st : Strategy} {F : Nat} {h : History M W} {s : Rib M W}
    (hs : exec st F h = .ok () s) (p : Prefix W) (mui : Option Mui)
    (hc : st = .persistOnly ∨ mui = none) :
    ∃ o, (ribGetValue st p.id mui false).run s = .ok (.ok o) s ∧
      ∀ r ∈ o.getD [], globWd h r.mui = false := by
  obtain ⟨o, h1, ⟨_, h2⟩, _⟩ := get_records hs p mui false
  refine ⟨o, h1, fun r hr => ?_⟩
  obtain ⟨_, _, _, _, _, h5⟩ := (shown_iff_visible (by
    rcases hc with h | h
    · exact .inl h
    · exact .inr (.inr fun m hm => by rw [h] at hm; cases hm)) p r).1 ((h2 r).1 hr)
  exact h5

example : ∃ s, exec .memoryOnly 0 Demo.hist = .ok () s ∧ ∃ o,
    (ribGetValue .memoryOnly Demo.ten16.id none false).run s = .ok (.ok o) s ∧
    ∀ r ∈ o.getD [], r.mui ≠ 2#32 := by
  obtain ⟨s, hs, _⟩ := exec_inv .memoryOnly 0 Demo.hist
  obtain ⟨o, h1, h2⟩ := global_hides_partial hs Demo.ten16 none (.inr rfl)
  refine ⟨s, hs, o, h1, fun r hr he => ?_⟩
  have := h2 r hr
  rw [he] at this
  exact absurd this (by decide)

/-- C12 as stated is false: id 2 is globally withdrawn, yet asking for id 2 without
withdrawn routes returns its record, as active. -/
theorem global_hides_false : ¬ GlobalHides Demo.Md 32 := by
  intro hall
  obtain ⟨s, hs, _⟩ := exec_inv .memoryOnly 0 Demo.hist
  obtain ⟨o, h1, h2⟩ := hall .memoryOnly 0 _ s hs Demo.ten16 (some 2#32)
  obtain ⟨o', h1', ⟨_, h2'⟩, _⟩ := get_records hs Demo.ten16 (some 2#32) false
  rw [h1] at h1'
  cases h1'
  have := h2 (Demo.rec1 2 3 9) ((h2' _).2 ⟨Demo.rec1 2 3 9, by decide,
    fun m hm => (by cases hm; decide), rfl, rfl, .inr ⟨rfl, rfl⟩⟩)
  exact absurd this (by decide)

/-! ## C14 -/

/-- The call changes the global status of the id. -/
def MarksGlobal (m : Mui) : Op M W → Prop
  | .withdraw k | .activate k => k = m
  | _ => False

theorem recOf_global {h1 h2 : History M W} {op : Op M W} {m : Mui} (hop : MarksGlobal m op) :
    recOf (h1 ++ op :: h2) = recOf (h1 ++ h2) ∧ keptOf (h1 ++ op :: h2) = keptOf (h1 ++ h2) ∧
    Present (h1 ++ op :: h2) = Present (h1 ++ h2) := by
  refine ⟨?_, ?_, ?_⟩
  · induction h1 with
    | nil => cases op <;> first | (simp [MarksGlobal] at hop; done) | rfl
    | cons o h1 ih =>
      funext q k
      have := congrFun (congrFun ih q) k
      cases o <;> simp only [List.cons_append, recOf, this]
  · induction h1 with
    | nil => cases op <;> first | (simp [MarksGlobal] at hop; done) | rfl
    | cons o h1 ih =>
      funext q k
      have := congrFun (congrFun ih q) k
      cases o <;> simp only [List.cons_append, keptOf, this]
  · funext q
    rw [eq_iff_iff]
    unfold Present Inserted
    constructor
    · rintro ⟨k, r, t, hm, hk⟩
      refine ⟨k, r, t, ?_, hk⟩
      simp only [List.mem_append, List.mem_cons] at hm ⊢
      rcases hm with hm | rfl | hm
      · exact .inl hm
      · simp [MarksGlobal] at hop
      · exact .inr hm
    · rintro ⟨k, r, t, hm, hk⟩
      refine ⟨k, r, t, ?_, hk⟩
      simp only [List.mem_append, List.mem_cons] at hm ⊢
      rcases hm with hm | hm
      · exact .inl hm
      · exact .inr (.inr hm)

theorem globWd_skip {h1 h2 : History M W} {m : Mui} (hn : ∀ op ∈ h1, ¬ MarksGlobal m op) :
    globWd (h1 ++ h2) m = globWd h2 m := by
  induction h1 with
  | nil => rfl
  | cons o h1 ih =>
    have := hn o (by simp)
    have ih := ih (fun o ho => hn o (List.mem_cons_of_mem _ ho))
    cases o <;> simp only [MarksGlobal, List.cons_append, globWd] at this ⊢
    all_goals first | exact ih | (rw [if_neg (Ne.symm this)]; exact ih)

theorem globWd_congr {h1 h2 h3 : History M W} {k : Mui} (h : globWd h2 k = globWd h3 k) :
    globWd (h1 ++ h2) k = globWd (h1 ++ h3) k := by
  induction h1 with
  | nil => exact h
  | cons o h1 ih => cases o <;> simp only [List.cons_append, globWd, ih]

/-- C14: marking an active id `m` withdrawn and, after any other calls `h1`, active
again leaves every record query as it is without the two marks; so do both marks for
the stored records in between (`recOf_global`). -/
theorem withdraw_reversible [Fam W] {st : Strategy} {F : Nat} {h1 h2 : History M W}
    {s s' : Rib M W} {m : Mui} (hact : globWd h2 m = false) (hn : ∀ op ∈ h1, ¬ MarksGlobal m op)
    (hs : exec st F (.activate m :: h1 ++ .withdraw m :: h2) = .ok () s)
    (hs' : exec st F (h1 ++ h2) = .ok () s') (p : Prefix W) (mui : Option Mui) (iw : Bool) :
    ∃ o o', (ribGetValue st p.id mui iw).run s = .ok (.ok o) s ∧
      (ribGetValue st p.id mui iw).run s' = .ok (.ok o') s' ∧
      (o.getD []).Perm (o'.getD []) := by
  obtain ⟨o, ha, ⟨hb, hc⟩, _⟩ := get_records hs p mui iw
  obtain ⟨o', ha', ⟨hb', hc'⟩, _⟩ := get_records hs' p mui iw
  refine ⟨o, o', ha, ha', ?_⟩
  have hrec : recOf (.activate m :: h1 ++ .withdraw m :: h2) = recOf (h1 ++ h2) :=
    (recOf_global (h1 := []) (op := .activate m) (m := m) rfl).1.trans
      (recOf_global (op := .withdraw m) (m := m) rfl).1
  have hkept : keptOf (.activate m :: h1 ++ .withdraw m :: h2) = keptOf (h1 ++ h2) :=
    (recOf_global (h1 := []) (op := .activate m) (m := m) rfl).2.1.trans
      (recOf_global (op := .withdraw m) (m := m) rfl).2.1
  have hg : globWd (.activate m :: h1 ++ .withdraw m :: h2) = globWd (h1 ++ h2) := by
    funext k
    simp only [List.cons_append, globWd]
    split
    · rename_i hk
      rw [hk, globWd_skip hn, hact]
    · rename_i hk
      apply globWd_congr
      simp only [globWd, if_neg hk]
  have hsh : Shown st (.activate m :: h1 ++ .withdraw m :: h2) mui iw p =
      Shown st (h1 ++ h2) mui iw p := by
    funext r
    unfold Shown effective storedRec
    simp only [hrec, hkept, hg]
  rw [List.perm_ext_iff_of_nodup]
  · intro r; rw [hc, hc', hsh]
  · exact hb.imp fun hab he => hab (by rw [he])
  · exact hb'.imp fun hab he => hab (by rw [he])

example : globWd Demo.hist 1#32 = false ∧
    ∀ op ∈ ([.withdraw 3#32, .insert Demo.ten8 (Demo.rec1 5 1 1) none] : History Demo.Md 32),
      ¬ MarksGlobal 1#32 op := by
  refine ⟨by decide, fun op ho => ?_⟩
  simp only [List.mem_cons, List.not_mem_nil, or_false] at ho
  rcases ho with rfl | rfl <;> simp [MarksGlobal]

/-! ## C15 -/

/-- C15 (in-memory strategies): a withdrawal for one pair changes the status and time
of that record only, keeps the metadata, hides the record from queries without
withdrawn routes, and an activation brings it back. -/
theorem withdraw_for_prefix [Fam W] {st : Strategy} (hst : st.inMemory = true) {F : Nat}
    {h : History M W} {p : Prefix W} {m : Mui} {r : Record M} (hr : recOf h p m = some r)
    {t t' : LTime} {s s' : Rib M W} (hs : exec st F (.withdrawFor p m t :: h) = .ok () s)
    (hs' : exec st F (.activateFor p m t' :: .withdrawFor p m t :: h) = .ok () s') :
    (∃ o, (ribGetValue st p.id none true).run s = .ok (.ok o) s ∧
      { r with status := .withdrawn, ltime := t } ∈ o.getD []) ∧
    (∀ mui, ∃ o, (ribGetValue st p.id mui false).run s = .ok (.ok o) s ∧
      ∀ x ∈ o.getD [], x.mui ≠ m) ∧
    (globWd h m = false → ∃ o, (ribGetValue st p.id none false).run s' = .ok (.ok o) s' ∧
      { r with status := .active, ltime := t' } ∈ o.getD []) := by
  have hmem : ∀ (h : History M W) k, storedRec st h p k = recOf h p k := by
    intro h k; cases st <;> first | rfl | (simp [Strategy.inMemory] at hst)
  have hpass : ∀ x, passes st x ↔ x = .active := by
    intro x; cases st <;> first | rfl | (simp [Strategy.inMemory] at hst)
  obtain rfl : r.mui = m := recOf_mui hr
  have hrec : recOf (.withdrawFor p r.mui t :: h) p r.mui =
      some { r with status := .withdrawn, ltime := t } := by simp [recOf, hr]
  have hrec' : recOf (.activateFor p r.mui t' :: .withdrawFor p r.mui t :: h) p r.mui =
      some { r with status := .active, ltime := t' } := by simp [recOf, hr]
  refine ⟨?_, fun mui => ?_, fun hg => ?_⟩
  · obtain ⟨o, h1, ⟨_, h2⟩, _⟩ := get_records hs p none true
    refine ⟨o, h1, (h2 _).2 ⟨_, (hmem _ _).trans hrec, fun m hx => (by cases hx), ?_⟩⟩
    unfold effective
    simp only
    split <;> rfl
  · obtain ⟨o, h1, ⟨_, h2⟩, _⟩ := get_records hs p mui false
    refine ⟨o, h1, fun x hx he => ?_⟩
    obtain ⟨r0, h3, _, _, h5, _⟩ := (h2 x).1 hx
    rw [hmem, he, hrec] at h3
    cases h3
    rw [hpass] at h5
    cases h5
  · obtain ⟨o, h1, ⟨_, h2⟩, _⟩ := get_records hs' p none false
    refine ⟨o, h1, (h2 _).2 ⟨_, (hmem _ _).trans hrec', fun m hx => (by cases hx), rfl,
      (hpass _).2 rfl, .inl ?_⟩⟩
    simpa only [globWd] using hg

example : recOf Demo.hist Demo.ten8 3#32 = some (Demo.rec1 3 2 8) ∧
    ∃ s, exec .memoryOnly 0
      (.activateFor Demo.ten8 3#32 9#64 :: .withdrawFor Demo.ten8 3#32 8#64 :: Demo.hist) = .ok () s :=
  ⟨by decide, let ⟨s, hs, _⟩ := exec_inv .memoryOnly 0 _; ⟨s, hs⟩⟩

/-- C15 fails with `PersistOnly`: a withdrawal drops the metadata (here `[9]`). -/
theorem withdraw_for_prefix_persist_only_false :
    ∃ (s : Rib Demo.Md 32) (o : Option (List (Record Demo.Md))),
      exec .persistOnly 0 [.withdrawFor Demo.ten16 2#32 8#64, .insert Demo.ten16 (Demo.rec1 2 3 9) none]
        = .ok () s ∧
      (ribGetValue .persistOnly Demo.ten16.id none true).run s = .ok (.ok o) s ∧
      (∀ x, x ∈ o.getD [] ↔ x = ⟨2#32, 8#64, .withdrawn, ⟨[]⟩⟩) ∧
      (Demo.rec1 2 3 9).md = ⟨[9#8]⟩ := by
  obtain ⟨s, hs, _⟩ := exec_inv .persistOnly 0
    ([.withdrawFor Demo.ten16 2#32 8#64, .insert Demo.ten16 (Demo.rec1 2 3 9) none] :
      History Demo.Md 32)
  obtain ⟨o, h1, ⟨_, h2⟩, _⟩ := get_records hs Demo.ten16 none true
  refine ⟨s, o, hs, h1, fun x => ?_, rfl⟩
  rw [h2]
  constructor
  · rintro ⟨r0, h3, _, h4⟩
    by_cases hx : x.mui = 2#32
    · rw [hx] at h3
      have : storedRec .persistOnly ([.withdrawFor Demo.ten16 2#32 8#64,
        .insert Demo.ten16 (Demo.rec1 2 3 9) none] : History Demo.Md 32) Demo.ten16 2#32 =
          some ⟨2#32, 8#64, .withdrawn, ⟨[]⟩⟩ := by decide
      rw [this] at h3
      cases h3
      exact h4.trans (by decide)
    · exfalso
      have hx1 : ¬ (2#32 = x.mui) := fun hh => hx hh.symm
      have hx2 : ¬ ((Demo.rec1 2 3 9).mui = x.mui) := hx1
      simp [storedRec, keptOf, hx1, hx2] at h3
  · rintro rfl
    exact ⟨⟨2#32, 8#64, .withdrawn, ⟨[]⟩⟩, by decide, fun m hm => (by cases hm), by decide⟩

end Rotonda.Props
