import Verif.Proofs.WdRace

/-!
# Reading the log
-/

namespace Rotonda

open Prog Spec

variable {M : Type} [Meta M] {W : Nat} {ι : Type}

theorem storedRec_other {st : Strategy} {op : Op M W} {H : History M W} {p : Prefix W} {m : Mui}
    (h1 : ∀ r tbi, op = .insert p r tbi → r.mui ≠ m)
    (h2 : ∀ t, op ≠ .withdrawFor p m t ∧ op ≠ .activateFor p m t) :
    storedRec st (op :: H) p m = storedRec st H p m := by
  have hr : recOf (op :: H) p m = recOf H p m := by
    cases op with
    | insert q r tbi => exact if_neg fun hc => h1 r tbi (by rw [hc.1]) hc.2
    | withdrawFor q k t => exact if_neg fun hc => (h2 t).1 (by rw [hc.1, hc.2])
    | activateFor q k t => exact if_neg fun hc => (h2 t).2 (by rw [hc.1, hc.2])
    | _ => rfl
  have hk : keptOf (op :: H) p m = keptOf H p m := by
    cases op with
    | insert q r tbi => exact if_neg fun hc => h1 r tbi (by rw [hc.1]) hc.2
    | withdrawFor q k t => exact if_neg fun hc => (h2 t).1 (by rw [hc.1, hc.2])
    | activateFor q k t => exact if_neg fun hc => (h2 t).2 (by rw [hc.1, hc.2])
    | _ => rfl
  cases st with
  | persistOnly => simp only [storedRec, hk]
  | memoryOnly => exact hr
  | writeAhead => exact hr
  | persistHistory => exact hr

theorem storedRec_insert (st : Strategy) (H : History M W) (p : Prefix W) (r : Record M)
    (tbi : Option (Meta.TBI M)) :
    storedRec st (.insert p r tbi :: H) p r.mui = some (asStored st r) := by
  cases st with
  | persistOnly => simp [storedRec, keptOf, asStored, Kept.toRecord]
  | memoryOnly => simp [storedRec, recOf, asStored]
  | writeAhead => simp [storedRec, recOf, asStored]
  | persistHistory => simp [storedRec, recOf, asStored]

theorem storedRec_inserted (st : Strategy) {h : History M W} {p : Prefix W} {m : Mui}
    (hi : Inserted h p m) : storedRec st h p m ≠ none := by
  induction h with
  | nil => obtain ⟨_, _, h, _⟩ := hi; cases h
  | cons op h ih =>
    by_cases hx : ∃ r tbi, op = .insert p r tbi ∧ r.mui = m
    · obtain ⟨r, tbi, rfl, rfl⟩ := hx
      rw [storedRec_insert]; simp
    · have hi' : Inserted h p m := by
        obtain ⟨r, tbi, hm, hr⟩ := hi
        rcases List.mem_cons.1 hm with rfl | hm
        · exact absurd ⟨r, tbi, rfl, hr⟩ hx
        · exact ⟨r, tbi, hm, hr⟩
      have h1 := ih hi'
      cases op with
      | insert q r tbi => 
        rw [storedRec_other (fun r' tbi' ho hr => hx ⟨r', tbi', ho, hr⟩) (fun t => ⟨by simp, by simp⟩)]
        exact h1
      | withdrawFor q k t =>
        cases st <;> simp only [storedRec, recOf, keptOf] at h1 ⊢ <;> split <;> simpa using h1
      | activateFor q k t =>
        cases st <;> simp only [storedRec, recOf, keptOf] at h1 ⊢ <;> split <;> simpa using h1
      | _ =>
        rw [storedRec_other (fun r' tbi' ho hr => hx ⟨r', tbi', ho, hr⟩) (fun t => ⟨by simp, by simp⟩)]
        exact h1

theorem storedRec_mui {st : Strategy} {h : History M W} {p : Prefix W} {m : Mui} {r : Record M}
    (hr : storedRec st h p m = some r) : r.mui = m := by
  cases st with
  | persistOnly =>
    obtain ⟨x, _, rfl⟩ := Option.map_eq_some_iff.1 hr
    rfl
  | _ => exact recOf_mui hr

/-- The record of a pair is that of the last insert. -/
theorem last_insert {calls : ι → Call M W} (st : Strategy) (h : History M W) {p : Prefix W}
    {r : Record M} {tbi : Option (Meta.TBI M)} {i : ι} (hc : calls i = .insert p r tbi)
    (hm : NoMarksFor calls p r.mui) (l : List ι) (hi : i ∈ l) :
    ∃ l1 j l2 r' tbi', l = l1 ++ j :: l2 ∧ calls j = .insert p r' tbi' ∧ r'.mui = r.mui ∧
      storedRec st (histAfter h calls l) p r.mui = some (asStored st r') ∧ (j = i ∨ i ∈ l2) := by
  induction l with
  | nil => cases hi
  | cons k l ih =>
    by_cases hk : ∃ r' tbi', calls k = .insert p r' tbi' ∧ r'.mui = r.mui
    · obtain ⟨r', tbi', hk, hr⟩ := hk
      refine ⟨[], k, l, r', tbi', rfl, hk, hr, ?_, ?_⟩
      · rw [histAfter_cons (op := .insert p r' tbi') (by rw [hk]; rfl), ← hr]
        exact storedRec_insert _ _ _ _ _
      · rcases List.mem_cons.1 hi with h | h
        · exact .inl h.symm
        · exact .inr h
    · have hil : i ∈ l := by
        rcases List.mem_cons.1 hi with h | h
        · subst h; exact absurd ⟨r, tbi, hc, rfl⟩ hk
        · exact h
      obtain ⟨l1, j, l2, r', tbi', he, hj, hr, hst, hor⟩ := ih hil
      refine ⟨k :: l1, j, l2, r', tbi', by rw [he]; rfl, hj, hr, ?_, hor⟩
      rw [← hst]
      cases hch : changeOf (calls k) with
      | none => simp only [histAfter, List.filterMap_cons, hch]
      | some op =>
        rw [histAfter_cons hch]
        refine storedRec_other (fun r' tbi' ho hr => hk ⟨r', tbi', ?_, hr⟩) fun t => ⟨fun ho => ?_, fun ho => ?_⟩
        · subst ho
          cases hck : calls k <;> rw [hck] at hch <;> cases hch
          rfl
        · subst ho
          refine (hm k t).1 ?_
          cases hck : calls k <;> rw [hck] at hch <;> cases hch
          rfl
        · subst ho
          refine (hm k t).2 ?_
          cases hck : calls k <;> rw [hck] at hch <;> cases hch
          rfl

theorem marks_op {x : Call M W} {p : Prefix W} {m : Mui} {tm : LTime} {rs : RouteStatus}
    (h : MarksRoute x p m tm rs) : ∃ op, changeOf x = some op ∧
      (op = .withdrawFor p m tm ∧ rs = .withdrawn ∨ op = .activateFor p m tm ∧ rs = .active) := by
  rcases h with ⟨rfl, rfl⟩ | ⟨rfl, rfl⟩
  · exact ⟨_, rfl, .inl ⟨rfl, rfl⟩⟩
  · exact ⟨_, rfl, .inr ⟨rfl, rfl⟩⟩

theorem storedRec_mark {st : Strategy} {calls : ι → Call M W} (ht : Tracked st calls) (h : History M W)
    {l : List ι} {k : ι} {p : Prefix W} {m : Mui} {tm : LTime} {rs : RouteStatus}
    (hk : MarksRoute (calls k) p m tm rs) :
    storedRec st (histAfter h calls (k :: l)) p m =
      (storedRec st (histAfter h calls l) p m).map (marked st tm rs) := by
  obtain ⟨op, hop, hor⟩ := marks_op hk
  rw [histAfter_cons hop]
  cases st with
  | persistOnly =>
    rcases hor with ⟨rfl, rfl⟩ | ⟨rfl, rfl⟩
    · simp only [storedRec, keptOf, and_self, if_true, Option.map_map]
      rfl
    · rcases hk with ⟨_, h⟩ | ⟨h, _⟩
      · cases h
      · exact absurd h (ht rfl _ _ _ _)
  | _ =>
    rcases hor with ⟨rfl, rfl⟩ | ⟨rfl, rfl⟩ <;> simp only [storedRec, recOf, and_self, if_true] <;> rfl

theorem storedRec_skip {st : Strategy} {calls : ι → Call M W} (h : History M W) {l : List ι} {k : ι}
    {p : Prefix W} {m : Mui} (h1 : ∀ r tbi, calls k = .insert p r tbi → r.mui ≠ m)
    (h2 : ∀ tm rs, ¬ MarksRoute (calls k) p m tm rs) :
    storedRec st (histAfter h calls (k :: l)) p m = storedRec st (histAfter h calls l) p m := by
  cases hch : changeOf (calls k) with
  | none => simp only [histAfter, List.filterMap_cons, hch]
  | some op =>
    rw [histAfter_cons hch]
    refine storedRec_other (fun r' tbi' ho => h1 r' tbi' ?_) fun t => ⟨fun ho => ?_, fun ho => ?_⟩
    · subst ho
      cases hck : calls k <;> rw [hck] at hch <;> cases hch
      rfl
    · subst ho
      refine h2 t .withdrawn (.inl ⟨?_, rfl⟩)
      cases hck : calls k <;> rw [hck] at hch <;> cases hch
      rfl
    · subst ho
      refine h2 t .active (.inr ⟨?_, rfl⟩)
      cases hck : calls k <;> rw [hck] at hch <;> cases hch
      rfl

theorem marked_marked (st : Strategy) (t t' : LTime) (s s' : RouteStatus) (r : Record M) :
    marked st t s (marked st t' s' r) = marked st t s r := by
  cases st <;> rfl

/-- The record of a pair is that of the last insert, with the status of the last
change of the pair's status since. -/
theorem last_insert_marked {calls : ι → Call M W} {st : Strategy} (ht : Tracked st calls)
    (h : History M W) {p : Prefix W}
    {r : Record M} {tbi : Option (Meta.TBI M)} {i : ι} (hc : calls i = .insert p r tbi)
    (l : List ι) (hi : i ∈ l) :
    ∃ l1 j l2 r' tbi', l = l1 ++ j :: l2 ∧ calls j = .insert p r' tbi' ∧ r'.mui = r.mui ∧
      (j = i ∨ i ∈ l2) ∧
      (storedRec st (histAfter h calls l) p r.mui = some (asStored st r') ∨
        ∃ l3 k l4 tm rs, l = l3 ++ k :: l4 ∧ j ∈ l4 ∧ MarksRoute (calls k) p r.mui tm rs ∧
          storedRec st (histAfter h calls l) p r.mui = some (marked st tm rs (asStored st r'))) := by
  induction l with
  | nil => cases hi
  | cons k l ih =>
    by_cases hk : ∃ r' tbi', calls k = .insert p r' tbi' ∧ r'.mui = r.mui
    · obtain ⟨r', tbi', hk, hr⟩ := hk
      refine ⟨[], k, l, r', tbi', rfl, hk, hr, ?_, .inl ?_⟩
      · rcases List.mem_cons.1 hi with h | h
        · exact .inl h.symm
        · exact .inr h
      · rw [histAfter_cons (op := .insert p r' tbi') (by rw [hk]; rfl), ← hr]
        exact storedRec_insert _ _ _ _ _
    · have hil : i ∈ l := by
        rcases List.mem_cons.1 hi with h | h
        · subst h; exact absurd ⟨r, tbi, hc, rfl⟩ hk
        · exact h
      obtain ⟨l1, j, l2, r', tbi', he, hj, hr, hor, hst⟩ := ih hil
      refine ⟨k :: l1, j, l2, r', tbi', by rw [he]; rfl, hj, hr, hor, ?_⟩
      by_cases hmk : ∃ tm rs, MarksRoute (calls k) p r.mui tm rs
      · obtain ⟨tm, rs, hmk⟩ := hmk
        refine .inr ⟨[], k, l, tm, rs, rfl, by rw [he]; simp, hmk, ?_⟩
        rw [storedRec_mark ht h hmk]
        rcases hst with hst | ⟨_, _, _, _, _, _, _, _, hst⟩
        · rw [hst]; rfl
        · rw [hst, Option.map_some, marked_marked]
      · rw [storedRec_skip h (fun r' tbi' hc hr => hk ⟨r', tbi', hc, hr⟩)
          (fun tm rs hc => hmk ⟨tm, rs, hc⟩)]
        rcases hst with hst | ⟨l3, k', l4, tm, rs, hl, hj4, hmk', hst⟩
        · exact .inl hst
        · exact .inr ⟨k :: l3, k', l4, tm, rs, by rw [hl]; rfl, hj4, hmk', hst⟩

theorem storedRec_kept {calls : ι → Call M W} {st : Strategy} (ht : Tracked st calls)
    (h : History M W) {p : Prefix W} {m : Mui} (l : List ι)
    (h0 : Inserted h p m ∨ ∃ k ∈ l, ∃ r tbi, calls k = .insert p r tbi ∧ r.mui = m) :
    ∃ r0, storedRec st (histAfter h calls l) p m = some r0 := by
  rw [← Option.ne_none_iff_exists']
  induction l with
  | nil =>
    rcases h0 with h0 | ⟨k, hk, _⟩
    · exact storedRec_inserted st h0
    · cases hk
  | cons k l ih =>
    by_cases hk : ∃ r' tbi', calls k = .insert p r' tbi' ∧ r'.mui = m
    · obtain ⟨r', tbi', hk, rfl⟩ := hk
      rw [histAfter_cons (op := .insert p r' tbi') (by rw [hk]; rfl), storedRec_insert]
      simp
    · have h0' : Inserted h p m ∨ ∃ k ∈ l, ∃ r tbi, calls k = .insert p r tbi ∧ r.mui = m := by
        refine h0.imp_right ?_
        rintro ⟨k', hk', hx⟩
        rcases List.mem_cons.1 hk' with rfl | hk'
        · exact absurd hx hk
        · exact ⟨k', hk', hx⟩
      by_cases hmk : ∃ tm rs, MarksRoute (calls k) p m tm rs
      · obtain ⟨tm, rs, hmk⟩ := hmk
        rw [storedRec_mark ht h hmk]
        simpa using ih h0'
      · rw [storedRec_skip h (fun r' tbi' hc hr => hk ⟨r', tbi', hc, hr⟩)
          (fun tm rs hc => hmk ⟨tm, rs, hc⟩)]
        exact ih h0'

/-- The last change of a pair decides its status. -/
theorem last_mark {calls : ι → Call M W} {st : Strategy} (ht : Tracked st calls)
    (h : History M W) {p : Prefix W} {m : Mui} {tm : LTime} {rs : RouteStatus} {i : ι}
    (hc : MarksRoute (calls i) p m tm rs) (l : List ι) (hi : i ∈ l) {r0 : Record M}
    (h0 : storedRec st (histAfter h calls l) p m = some r0) :
    ∃ l1 j l2, l = l1 ++ j :: l2 ∧ (j = i ∨ i ∈ l2) ∧
      ((∃ r' tbi', calls j = .insert p r' tbi' ∧ r'.mui = m ∧ r0 = asStored st r') ∨
        ∃ tm' rs', MarksRoute (calls j) p m tm' rs' ∧ r0.ltime = tm' ∧ r0.status = rs') := by
  induction l with
  | nil => cases hi
  | cons k l ih =>
    have hor : k = i ∨ i ∈ l := by
      rcases List.mem_cons.1 hi with h | h
      · exact .inl h.symm
      · exact .inr h
    by_cases hk : ∃ r' tbi', calls k = .insert p r' tbi' ∧ r'.mui = m
    · obtain ⟨r', tbi', hk, hr⟩ := hk
      refine ⟨[], k, l, rfl, hor, .inl ⟨r', tbi', hk, hr, ?_⟩⟩
      rw [histAfter_cons (op := .insert p r' tbi') (by rw [hk]; rfl), ← hr, storedRec_insert] at h0
      exact (Option.some.inj h0).symm
    · by_cases hmk : ∃ tm rs, MarksRoute (calls k) p m tm rs
      · obtain ⟨tm', rs', hmk⟩ := hmk
        rw [storedRec_mark ht h hmk, Option.map_eq_some_iff] at h0
        obtain ⟨r1, _, rfl⟩ := h0
        refine ⟨[], k, l, rfl, hor, .inr ⟨tm', rs', hmk, ?_⟩⟩
        cases st <;> exact ⟨rfl, rfl⟩
      · have hil : i ∈ l := by
          rcases hor with rfl | h
          · exact absurd ⟨_, _, hc⟩ hmk
          · exact h
        rw [storedRec_skip h (fun r' tbi' hc hr => hk ⟨r', tbi', hc, hr⟩)
          (fun tm rs hc => hmk ⟨tm, rs, hc⟩)] at h0
        obtain ⟨l1, j, l2, he, hj, hlast⟩ := ih hil h0
        exact ⟨k :: l1, j, l2, by rw [he]; rfl, hj, hlast⟩

/-- The global status of a mui is that of the last change. -/
theorem last_status {calls : ι → Call M W} (h : History M W) {m : Mui} {i : ι}
    (hc : calls i = .withdraw m ∨ calls i = .activate m) (l : List ι) (hi : i ∈ l) :
    ∃ l1 j l2 w, l = l1 ++ j :: l2 ∧ calls j = (if w then .withdraw m else .activate m) ∧
      globWd (histAfter h calls l) m = w ∧ (j = i ∨ i ∈ l2) := by
  induction l with
  | nil => cases hi
  | cons k l ih =>
    by_cases hk : calls k = .withdraw m ∨ calls k = .activate m
    · have hor : k = i ∨ i ∈ l := by
        rcases List.mem_cons.1 hi with h | h
        · exact .inl h.symm
        · exact .inr h
      rcases hk with hk | hk
      · refine ⟨[], k, l, true, rfl, hk, ?_, hor⟩
        rw [histAfter_cons (op := .withdraw m) (by rw [hk]; rfl)]
        simp [globWd]
      · refine ⟨[], k, l, false, rfl, hk, ?_, hor⟩
        rw [histAfter_cons (op := .activate m) (by rw [hk]; rfl)]
        simp [globWd]
    · have hil : i ∈ l := by
        rcases List.mem_cons.1 hi with h | h
        · subst h; exact absurd hc hk
        · exact h
      obtain ⟨l1, j, l2, w, he, hj, hst, hor⟩ := ih hil
      refine ⟨k :: l1, j, l2, w, by rw [he]; rfl, hj, ?_, hor⟩
      rw [← hst]
      cases hck : calls k with
      | withdraw m' =>
        rw [histAfter_cons (op := .withdraw m') (by rw [hck]; rfl)]
        exact if_neg fun h => hk (.inl (by rw [hck, h]))
      | activate m' =>
        rw [histAfter_cons (op := .activate m') (by rw [hck]; rfl)]
        exact if_neg fun h => hk (.inr (by rw [hck, h]))
      | insert q r tbi => rw [histAfter_cons (op := .insert q r tbi) (by rw [hck]; rfl)]; rfl
      | withdrawFor q m' t => rw [histAfter_cons (op := .withdrawFor q m' t) (by rw [hck]; rfl)]; rfl
      | activateFor q m' t => rw [histAfter_cons (op := .activateFor q m' t) (by rw [hck]; rfl)]; rfl
      | _ => simp only [histAfter, List.filterMap_cons, hck, changeOf]

theorem storedRec_under (st : Strategy) (H1 H : History M W) (p : Prefix W) (m : Mui) :
    storedRec st (under H1 H) p m = storedRec st H p m := by
  have h1 : recOf (under H1 H) p m = recOf H p m :=
    under_eq (fun H => recOf H p m) (fun _ _ => rfl) (fun _ _ => rfl)
      (fun op h h' (e : recOf h p m = recOf h' p m) _ => by cases op <;> simp only [recOf, e]) H1 H
  have h2 : keptOf (under H1 H) p m = keptOf H p m :=
    under_eq (fun H => keptOf H p m) (fun _ _ => rfl) (fun _ _ => rfl)
      (fun op h h' (e : keptOf h p m = keptOf h' p m) _ => by cases op <;> simp only [keptOf, e]) H1 H
  cases st with
  | persistOnly => simp only [storedRec, h2]
  | memoryOnly => exact h1
  | writeAhead => exact h1
  | persistHistory => exact h1

/-- The answer for one pair that has a record, withdrawn routes included. -/
theorem answers_one {st : Strategy} {H : History M W} {p : Prefix W} {r0 : Record M} {m : Mui}
    (hm : r0.mui = m) {v : Option (List (Record M))} (h0 : storedRec st H p m = some r0)
    (hv : Answers v (Shown st H (some m) true p)) :
    v = some [shownAs (globWd H m) r0] := by
  obtain ⟨⟨hpw, hmem⟩, hne⟩ := hv
  have he : effective H r0 = shownAs (globWd H m) r0 := by
    unfold effective shownAs; rw [hm]
  have hmui : (shownAs (globWd H m) r0).mui = m := by
    unfold shownAs; split <;> exact hm
  have hP : ∀ r, Shown st H (some m) true p r ↔ r = shownAs (globWd H m) r0 := by
    intro r
    constructor
    · rintro ⟨r1, h1, h2, h3⟩
      rw [h2 m rfl, h0] at h1
      cases h1
      exact h3.trans he
    · rintro rfl
      exact ⟨r0, by rw [hmui]; exact h0, fun k hk => by cases hk; exact hmui, he.symm⟩
  cases v with
  | none =>
    have := (hmem _).2 ((hP _).2 rfl)
    cases this
  | some l =>
    simp only [Option.getD_some] at hpw hmem
    congr 1
    cases l with
    | nil => exact absurd rfl hne
    | cons a l =>
      have ha := (hP a).1 ((hmem a).1 List.mem_cons_self)
      cases l with
      | nil => rw [ha]
      | cons b l =>
        have hb := (hP b).1 ((hmem b).1 (by simp))
        rw [List.pairwise_cons] at hpw
        exact absurd (by rw [ha, hb]) (hpw.1 b List.mem_cons_self)

section
variable [DecidableEq ι] {calls : ι → Call M W}

omit [DecidableEq ι] in
theorem returned_of_ret {c : Conf (Rib M W) ι (fun i => (calls i).Ans)} {i : ι} {x : Call M W}
    (hc : calls i = x) {a : (calls i).Ans} (ha : c.pool i = .ret a) : ∃ a', Returned c i x a' := by
  subst hc; exact ⟨a, rfl, ha⟩

omit [DecidableEq ι] in
theorem returned_mk {c : Conf (Rib M W) ι (fun i => (calls i).Ans)} {i : ι} {x : Call M W}
    (hc : calls i = x) {a : (calls i).Ans} (ha : c.pool i = .ret a) : Returned c i x (hc ▸ a) := by
  subst hc; exact ⟨rfl, ha⟩

/-- A call that had returned before step `k` and took effect did so before step `k`. -/
theorem Spec.Explains.early [Fam W] {st : Strategy} {h : History M W}
    {c : Conf (Rib M W) ι (fun i => (calls i).Ans)} {t : List ι} {log : ℕ → List ι}
    (hE : Explains st h c t log) {n k : ℕ} (hk : k ≤ n) (hn : n ≤ t.length) {j : ι}
    (hj : (∃ p r tbi, calls j = .insert p r tbi) ∨ IsStatusChange (calls j) ∨
      Tracked st calls ∧ ∃ p m tm rs, MarksRoute (calls j) p m tm rs) (hl : j ∈ log n)
    {a : (calls j).Ans} (ha : (c.exec (t.take k)).pool j = .ret a) : j ∈ log k := by
  have han : (c.exec (t.take n)).pool j = .ret a := by
    obtain ⟨u, hu⟩ := List.take_prefix_take_left (l := t) hk
    rw [← hu, Conf.exec_append]
    exact Conf.exec_ret ha u
  rcases hj with ⟨p, r, tbi, hc⟩ | (⟨m, hc⟩ | ⟨m, hc⟩) | ⟨ht, p, m, tm, rs, ⟨hc, _⟩ | ⟨hc, _⟩⟩
  · obtain ⟨a', ha'⟩ := returned_of_ret hc ha
    exact hE.inserts k (by omega) j p r tbi a' ha'
  · obtain ⟨a', ha'⟩ := returned_of_ret hc ha
    exact hE.withdrawn k (by omega) j m a' ha'
  · obtain ⟨a', ha'⟩ := returned_of_ret hc ha
    exact hE.activated k (by omega) j m a' ha'
  · have ha' := returned_mk hc ha
    have han' := returned_mk hc han
    exact (hE.withdrawnFor ht k (by omega) j p m tm _ ha').2
      ((hE.withdrawnFor ht n hn j p m tm _ han').1 hl)
  · have ha' := returned_mk hc ha
    have han' := returned_mk hc han
    exact (hE.activatedFor ht k (by omega) j p m tm _ ha').2
      ((hE.activatedFor ht n hn j p m tm _ han').1 hl)

/-- Real-time order: a call logged after `i` had not returned before `i` started. -/
theorem Spec.Explains.notBefore [Fam W] {st : Strategy} {h : History M W}
    {c : Conf (Rib M W) ι (fun i => (calls i).Ans)} {t : List ι} {log : ℕ → List ι}
    (hE : Explains st h c t log) {n : ℕ} (hn : n ≤ t.length) {l1 l2 : List ι} {i j : ι}
    (hl : log n = l1 ++ j :: l2) (hi : i ∈ l2)
    (hj : (∃ p r tbi, calls j = .insert p r tbi) ∨ IsStatusChange (calls j) ∨
      Tracked st calls ∧ ∃ p m tm rs, MarksRoute (calls j) p m tm rs) :
    NotBefore c t j i := by
  intro k hk a ha
  have hi' : i ∈ log n := by rw [hl]; simp [hi]
  have hkn : k ≤ n := by
    by_contra hlt
    exact hk ((List.take_prefix_take_left (by omega)).subset (hE.order.mem hn hi'))
  have hjk : j ∈ log k := hE.early hkn hn hj (by rw [hl]; simp) ha
  have hsuf := hE.order.suffix hkn hn
  have hd := hE.order.nodup hn
  rw [hl] at hsuf hd
  rcases List.suffix_or_suffix_of_suffix hsuf (List.suffix_append l1 (j :: l2)) with h1 | h1
  · rcases List.suffix_cons_iff.1 h1 with h2 | h2
    · exact hk (hE.order.mem (by omega) (by rw [h2]; simp [hi]))
    · have : (j :: l2).Nodup := (List.nodup_append.1 hd).2.1
      exact (List.nodup_cons.1 this).1 (h2.subset hjk)
  · exact hk (hE.order.mem (by omega) (h1.subset (by simp [hi])))

theorem not_before_timely {st : Strategy} {F fuel : Nat} {s : Rib M W} {i : ι}
    (hc : (calls i).Timely = true) (t : List ι) : NotBefore (start st F fuel s calls) t i i := by
  intro n hn a ha
  rw [Conf.exec_idle _ hn] at ha
  exact (Call.starts st F fuel _ hc).ne _ ha

theorem not_before_self {st : Strategy} {F fuel : Nat} {s : Rib M W} {i : ι} {p : Prefix W}
    {r : Record M} {tbi : Option (Meta.TBI M)} (hc : calls i = .insert p r tbi) (t : List ι) :
    NotBefore (start st F fuel s calls) t i i :=
  not_before_timely (by rw [hc]; rfl) t

theorem not_before_status {st : Strategy} {F fuel : Nat} {s : Rib M W} {i : ι}
    (hc : IsStatusChange (calls i)) (t : List ι) : NotBefore (start st F fuel s calls) t i i :=
  not_before_timely (by rcases hc with ⟨m, hc⟩ | ⟨m, hc⟩ <;> rw [hc] <;> rfl) t

theorem not_before_mark {st : Strategy} {F fuel : Nat} {s : Rib M W} {i : ι} {p : Prefix W} {m : Mui}
    {tm : LTime} {rs : RouteStatus} (hc : MarksRoute (calls i) p m tm rs) (t : List ι) :
    NotBefore (start st F fuel s calls) t i i :=
  not_before_timely (by rcases hc with ⟨hc, _⟩ | ⟨hc, _⟩ <;> rw [hc] <;> rfl) t

end

theorem marked_mui (st : Strategy) (tm : LTime) (rs : RouteStatus) (r : Record M) :
    (marked st tm rs r).mui = r.mui := by
  cases st <;> rfl

theorem asStored_mui (st : Strategy) (r : Record M) : (asStored st r).mui = r.mui := by
  cases st <;> rfl

end Rotonda
