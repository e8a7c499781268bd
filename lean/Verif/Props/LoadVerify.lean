import Verif.Model.LoadVerify
import Verif.Props.Loader
import Verif.Props.Public
import Verif.Props.StarQuiet

/-!
# Verification of a load: C86, and the test of truncation: C87
-/

namespace Rotonda.Props

open Prog Spec

section
variable {M : Type} [Meta M] {st : Strategy} {F fuel : Nat} {h : List (StarOp M)} {s : Star M}

private theorem verify_from (hg : ∀ p, ∃ o, (Star.getRecords st p none false).run s = .ok (.ok o) s ∧
    Answers o (Pub.Shown st h none false p)) (ps : List AnyPrefix) (mx : Nat) :
    ((∀ p ∈ ps, ∃ r, Pub.Shown st h none false p r) →
      ((verifyLoop (M := M) ps mx).prog (StarCall.prog st F fuel)).run s = .ok none s) ∧
    ((∃ p ∈ ps, ∀ r, ¬ Pub.Shown st h none false p r) →
      ((verifyLoop (M := M) ps mx).prog (StarCall.prog st F fuel)).run s = .panic) := by
  induction ps generalizing mx with
  | nil => exact ⟨fun _ => rfl, fun ⟨p, hp, _⟩ => absurd hp (List.not_mem_nil)⟩
  | cons p ps ih =>
    obtain ⟨o, h1, ⟨-, h2⟩, h3⟩ := hg p
    have hrun : ∀ (k : FatalResult (Option (List (Record M))) → Client (StarCall.Ans (M := M)) (Option AnyPrefix)),
        ((Client.call (StarCall.getRecords p none false) k).prog (StarCall.prog st F fuel)).run s =
          ((k (.ok o)).prog (StarCall.prog st F fuel)).run s := by
      intro k
      show ((Star.getRecords st p none false) >>= fun a => (k a).prog (StarCall.prog st F fuel)).run s = _
      rw [run_bind, h1]
      rfl
    unfold verifyLoop
    rw [hrun]
    cases o with
    | none =>
      have hno : ∀ r, ¬ Pub.Shown st h none false p r := fun r hr => by
        have := (h2 r).2 hr
        simp at this
      refine ⟨fun ha => ?_, fun _ => rfl⟩
      obtain ⟨r, hr⟩ := ha p (List.mem_cons_self ..)
      exact (hno r hr).elim
    | some v =>
      cases v with
      | nil => exact (h3 rfl).elim
      | cons r v =>
        have hr : Pub.Shown st h none false p r := (h2 r).1 (List.mem_cons_self ..)
        have hgo : ∀ n, ((∀ q ∈ p :: ps, ∃ r, Pub.Shown st h none false q r) →
              ((verifyLoop (M := M) ps n).prog (StarCall.prog st F fuel)).run s = .ok none s) ∧
            ((∃ q ∈ p :: ps, ∀ r, ¬ Pub.Shown st h none false q r) →
              ((verifyLoop (M := M) ps n).prog (StarCall.prog st F fuel)).run s = .panic) := by
          intro n
          refine ⟨fun ha => (ih n).1 fun q hq => ha q (List.mem_cons_of_mem _ hq), fun ⟨q, hq, hn⟩ => ?_⟩
          rcases List.mem_cons.1 hq with rfl | hq
          · exact (hn r hr).elim
          · exact (ih n).2 ⟨q, hq, hn⟩
        simp only [List.isEmpty_cons, Bool.false_eq_true, if_false]
        split
        · rw [hrun]
          exact hgo _
        · exact hgo _

/-- C86: verification goes through when every prefix on the list has a record to show; it panics
when one has none.  The message about an empty prefix is never given. -/
theorem load_verify (hs : starExec st F h = .ok () s) (ps : List AnyPrefix) :
    (((verifyLoop (M := M) ps 0).prog (StarCall.prog st F fuel)).run s = .ok none s ↔
      ∀ p ∈ ps, ∃ r, Pub.Shown st h none false p r) ∧
    (((verifyLoop (M := M) ps 0).prog (StarCall.prog st F fuel)).run s = .panic ↔
      ∃ p ∈ ps, ∀ r, ¬ Pub.Shown st h none false p r) := by
  obtain ⟨a, b⟩ := verify_from (F := F) (fuel := fuel) (fun p => public_get_records hs p none false) ps 0
  by_cases hc : ∀ p ∈ ps, ∃ r, Pub.Shown st h none false p r
  · refine ⟨⟨fun _ => hc, a⟩, ⟨fun hp => ?_, b⟩⟩
    rw [a hc] at hp
    cases hp
  · have hc' : ∃ p ∈ ps, ∀ r, ¬ Pub.Shown st h none false p r := by
      by_contra hn
      exact hc fun p hp => by
        by_contra hr
        exact hn ⟨p, hp, fun r h => hr ⟨r, h⟩⟩
    refine ⟨⟨fun hp => ?_, a⟩, ⟨fun _ => hc', b⟩⟩
    rw [b hc'] at hp
    cases hp

/-- After inserts of active records each of their prefixes has a record to show. -/
theorem inserted_shown {pre : List (StarOp M)} {x : Route M} {ltime : LTime}
    (hpre : ∀ op ∈ pre, ∃ p r tbi, op = .insert p r tbi ∧ r.status = .active)
    (hx : .insert x.p ⟨x.mui, ltime, .active, x.md⟩ none ∈ pre)
    (hw : Pub.withdrawn h x.p x.mui = false) : ∃ r, Pub.Shown st (pre ++ h) none false x.p r := by
  have hwd : Pub.withdrawn (pre ++ h) x.p x.mui = false := by
    clear hx
    induction pre with
    | nil => exact hw
    | cons op pre ih =>
      obtain ⟨p, r, tbi, rfl, -⟩ := hpre op (List.mem_cons_self ..)
      have := ih fun op hop => hpre op (List.mem_cons_of_mem _ hop)
      cases hp : x.p <;> rw [hp] at this <;> exact this
  have key : ∃ r0, Pub.storedRec st (pre ++ h) x.p x.mui = some r0 ∧ r0.mui = x.mui ∧
      r0.status = .active := by
    clear hwd
    induction pre with
    | nil => exact absurd hx (List.not_mem_nil)
    | cons op pre ih =>
      obtain ⟨p, r, tbi, rfl, hr⟩ := hpre op (List.mem_cons_self ..)
      by_cases hy : p = x.p ∧ r.mui = x.mui
      · cases st with
        | persistOnly =>
          refine ⟨(⟨r.ltime, .active, Meta.toBytes r.md⟩ : Kept).toRecord x.mui, ?_, rfl, rfl⟩
          simp only [Pub.storedRec, List.cons_append, Pub.keptOf]
          rw [if_pos hy, hr]
          rfl
        | _ =>
          refine ⟨r, ?_, hy.2, hr⟩
          simp only [Pub.storedRec, List.cons_append, Pub.recOf]
          rw [if_pos hy]
      · have hx' : .insert x.p ⟨x.mui, ltime, .active, x.md⟩ none ∈ pre := by
          rcases List.mem_cons.1 hx with e | hx
          · injection e with e1 e2
            exact (hy ⟨e1.symm, by rw [← e2]⟩).elim
          · exact hx
        obtain ⟨r0, hr0, hrest⟩ := ih (fun op hop => hpre op (List.mem_cons_of_mem _ hop)) hx'
        refine ⟨r0, ?_, hrest⟩
        cases st with
        | persistOnly => simpa only [Pub.storedRec, List.cons_append, Pub.keptOf, if_neg hy] using hr0
        | _ => simpa only [Pub.storedRec, List.cons_append, Pub.recOf, if_neg hy] using hr0
  obtain ⟨r0, hr0, hm, hs⟩ := key
  refine ⟨r0, r0, by rw [hm]; exact hr0, fun m hm => (by cases hm), rfl, ?_, .inl (by rw [hm]; exact hwd)⟩
  rw [hs]
  cases st <;> first | rfl | exact fun h => by cases h

theorem loadHistory_eq (ltime : LTime) (rs : RouteStatus) (R : List (Route M)) (h : List (StarOp M)) :
    loadHistory ltime rs R h =
      (R.map fun x => .insert x.p ⟨x.mui, ltime, rs, x.md⟩ none).reverse ++ h := by
  unfold loadHistory
  induction R generalizing h with
  | nil => rfl
  | cons x R ih =>
    rw [List.foldl_cons, ih, List.map_cons, List.reverse_cons, List.append_assoc]
    rfl

/-- C86: with one store, verification goes through after the routes were loaded by one task, unless a
peer was withdrawn before. -/
theorem load_then_verify {ltime : LTime} {R : List (Route M)}
    (hs : starExec st F (loadHistory ltime .active R h) = .ok () s)
    (hw : ∀ x ∈ R, Pub.withdrawn h x.p x.mui = false) {ps : List AnyPrefix}
    (hp : ∀ p ∈ ps, ∃ x ∈ R, x.p = p) :
    ((verifyLoop (M := M) ps 0).prog (StarCall.prog st F fuel)).run s = .ok none s := by
  refine (load_verify hs ps).1.2 fun p hpp => ?_
  obtain ⟨x, hx, rfl⟩ := hp p hpp
  rw [loadHistory_eq]
  refine inserted_shown (ltime := ltime) (fun op hop => ?_) ?_ (hw x hx)
  · obtain ⟨y, -, rfl⟩ := List.mem_map.1 (List.mem_reverse.1 hop)
    exact ⟨_, _, _, rfl, rfl⟩
  · exact List.mem_reverse.2 (List.mem_map.2 ⟨x, hx, rfl⟩)

/-- C86: with a store for every file only the store of the last file is asked, but the list has the
prefixes of all files: verification panics when one is not in the last file. -/
theorem verify_last_store_panics (hs : starExec st F h = .ok () s) {ps : List AnyPrefix} {p : AnyPrefix}
    (hp : p ∈ ps) (hn : ¬ Pub.Present h p) :
    ((verifyLoop (M := M) ps 0).prog (StarCall.prog st F fuel)).run s = .panic := by
  refine (load_verify hs ps).2.2 ⟨p, hp, fun r hr => ?_⟩
  obtain ⟨r0, hr0, -⟩ := hr
  refine hn ?_
  clear hs
  have key : ∀ h : List (StarOp M), Pub.recOf h p r.mui ≠ none ∨ Pub.keptOf h p r.mui ≠ none →
      Pub.Present h p := by
    intro h
    induction h with
    | nil => rintro (h | h) <;> exact (h rfl).elim
    | cons op h ih =>
      intro hor
      have hup : Pub.Present h p → Pub.Present (op :: h) p := fun ⟨r, t, hin⟩ =>
        ⟨r, t, List.mem_cons_of_mem _ hin⟩
      cases op with
      | insert q r' tbi =>
        by_cases hq : q = p ∧ r'.mui = r.mui
        · exact ⟨r', tbi, by rw [hq.1]; exact List.mem_cons_self ..⟩
        · refine hup (ih ?_)
          simpa only [Pub.recOf, Pub.keptOf, if_neg hq] using hor
      | withdrawFor q m t =>
        refine hup (ih ?_)
        simp only [Pub.recOf, Pub.keptOf] at hor
        split at hor <;> simpa using hor
      | activateFor q m t =>
        refine hup (ih ?_)
        simp only [Pub.recOf, Pub.keptOf] at hor
        split at hor <;> simpa using hor
      | _ => exact hup (ih hor)
  apply key
  cases st with
  | persistOnly =>
    right
    intro hk
    simp only [Pub.storedRec, hk] at hr0
    cases hr0
  | _ =>
    left
    intro hk
    simp only [Pub.storedRec, hk] at hr0
    cases hr0

/-- The calls of a task of a loader. -/
private theorem load_calls {S : Type} {ltime : LTime} {upd : S → Route M → UpsertReport → Option S} {c0 : S}
    {R : List (Route M)} {l : List ((c : StarCall M) × c.Ans)} {rest : Client (StarCall.Ans (M := M)) S}
    (hm : Made (loadLoop ltime .active upd R c0) l rest) {n : Nat} {d : StarCall M}
    (hd : (∃ a, l[n]? = some ⟨d, a⟩) ∨ (n = l.length ∧ ∃ k, rest = .call d k)) :
    ∃ x ∈ R, d = loadCall ltime .active x := by
  obtain ⟨as, h1, h2, h3, h4⟩ := made_load hm
  rcases hd with ⟨a, ha⟩ | ⟨-, k, hk⟩
  · obtain ⟨hn, he⟩ := List.getElem?_eq_some_iff.1 ha
    rw [h3 n hn (by omega) (by omega)] at he
    injection he with he
    exact ⟨_, List.getElem_mem _, he.symm⟩
  · rw [h4] at hk
    cases hfold : loadFold upd c0 R as with
    | none => rw [hfold] at hk; cases hk
    | some c' =>
      rw [hfold] at hk
      dsimp only at hk
      cases hdr : R.drop l.length with
      | nil => rw [hdr] at hk; cases hk
      | cons x xs =>
        rw [hdr] at hk
        unfold loadLoop at hk
        injection hk with hc _
        exact ⟨x, List.mem_of_mem_drop (by rw [hdr]; exact List.mem_cons_self ..), hc.symm⟩

private theorem bind_ret {σ α β : Type} {q : Prog σ α} {k : α → Prog σ β} {b : β}
    (h : (q >>= k) = .ret b) : ∃ a, q = .ret a := by
  cases q with
  | ret a => exact ⟨a, rfl⟩
  | act f g => cases h
  | panic => cases h
  | diverge => cases h

/-- C86: with one store, verification goes through after any number of tasks have loaded their
routes at the same time, unless a peer was withdrawn before. -/
theorem tasks_then_verify {ι : Type} [DecidableEq ι] {F0 : Nat} (hF : 32 ≤ F) (hf : iterFuel 128 ≤ fuel)
    (hs : starExec st F0 h = .ok () s) {ltime : LTime} {R : ι → List (Route M)}
    (hw : ∀ i, ∀ x ∈ R i, Pub.withdrawn h x.p x.mui = false) {t : List ι}
    (hdone : ∀ i, ∃ x, ((clients (StarCall.prog st F fuel) s fun i => mtLoad st ltime (R i)).exec t).pool i =
      .ret x) {ps : List AnyPrefix} (hp : ∀ p ∈ ps, ∃ i, ∃ x ∈ R i, x.p = p) :
    ((verifyLoop (M := M) ps 0).prog (StarCall.prog st F fuel)).run
      ((clients (StarCall.prog st F fuel) s fun i => mtLoad st ltime (R i)).exec t).st =
      .ok none ((clients (StarCall.prog st F fuel) s fun i => mtLoad st ltime (R i)).exec t).st := by
  obtain ⟨calls, T, hA⟩ := clients_asCalls (StarCall.prog st F fuel) s (fun i => mtLoad st ltime (R i)) t
  have hA : AsCalls (StarCall.prog st F fuel) _ calls _ (starStart st F fuel s calls) t T := hA
  have hcalls : ∀ j, calls j = .nodesCount ∨ ∃ i, ∃ x ∈ R i, calls j = loadCall ltime .active x := by
    rintro ⟨i, n⟩
    rcases hA.own i n with h0 | ⟨l, rest, hm, hd⟩
    · exact .inl h0
    · obtain ⟨x, hx, he⟩ := load_calls hm hd
      exact .inr ⟨i, x, hx, he⟩
  have htr : StarTracked st calls := fun _ j q m tm hc => by
    rcases hcalls j with h0 | ⟨i, x, -, h0⟩ <;> rw [h0] at hc <;> cases hc
  -- what the tasks have made
  have hend : ∀ i, ∃ l rest, Made (mtLoad st ltime (R i)) l rest ∧ l.length = (R i).length ∧
      ThreadAt i (StarCall.prog st F fuel) calls ((starStart st F fuel s calls).exec (T t.length)).pool
        (T t.length) l rest
        (((clients (StarCall.prog st F fuel) s fun i => mtLoad st ltime (R i)).exec t).pool i) ∧
      ∀ c k, rest ≠ .call c k := by
    intro i
    obtain ⟨l, rest, hmade, hat⟩ := hA.threads t.length (Nat.le_refl _) i
    rw [List.take_length] at hat
    obtain ⟨x, hx⟩ := hdone i
    have hnc : ∀ c k, rest ≠ .call c k := by
      intro c k hr
      obtain ⟨e, hne, hpq⟩ := hat.within c k hr
      rw [hx] at hpq
      obtain ⟨a, ha⟩ := bind_ret hpq.symm
      exact hne a ha
    obtain ⟨as, h1, h2, -, h4⟩ := made_load hmade
    refine ⟨l, rest, hmade, ?_, hat, hnc⟩
    cases hfold : loadFold (mtUpdate st) (.zero, []) (R i) as with
    | none =>
      rw [hfold] at h4
      have := hat.panicked h4
      rw [hx] at this
      cases this
    | some c' =>
      rw [hfold] at h4
      dsimp only at h4
      cases hdr : (R i).drop l.length with
      | nil =>
        have := List.drop_eq_nil_iff.1 hdr
        omega
      | cons y ys =>
        rw [hdr] at h4
        unfold loadLoop at h4
        exact (hnc _ _ h4).elim
  have hret : ∀ i n, n < (R i).length → ∃ x ∈ (R i)[n]?, ∃ a : Except StoreError UpsertReport,
      StarReturned ((starStart st F fuel s calls).exec (T t.length)) (i, n) (loadCall ltime .active x) a := by
    intro i n hn
    obtain ⟨l, rest, hmade, hl, hat, -⟩ := hend i
    obtain ⟨as, h1, h2, h3, -⟩ := made_load hmade
    have hg := hat.made n (by omega)
    rw [h3 n (by omega) hn (by omega)] at hg
    exact ⟨_, List.getElem?_eq_getElem hn, _, hg⟩
  have hq : StarInsertsDone ((starStart st F fuel s calls).exec (T t.length)) (T t.length) := by
    rintro ⟨i, n⟩ hin p r tbi hc
    obtain ⟨l, rest, hmade, hl, hat, hnc⟩ := hend i
    obtain ⟨hle, hlast⟩ := hat.later n hin
    have hn : n < (R i).length := by
      rcases Nat.lt_or_ge n (R i).length with hn | hn
      · exact hn
      · obtain ⟨c, k, hr⟩ := hlast (by omega)
        exact (hnc c k hr).elim
    obtain ⟨x, -, a, e, ha⟩ := hret i n hn
    have hx : loadCall ltime .active x = .insert p r tbi := e.symm.trans hc
    unfold loadCall at hx
    injection hx with h1 h2 h3
    subst h1 h2 h3
    exact ⟨a, e, ha⟩
  obtain ⟨l4, l6, ho4, ho6, s', hs', hrec⟩ := star_quiet_records hF hf hs (T t.length) htr hq
  have hst := hA.state t.length (Nat.le_refl _)
  rw [List.take_length] at hst
  rw [hst]
  refine (verify_from (F := F) (fuel := fuel) (h := starHistAfter h calls l4 l6) (fun p => ?_) ps 0).1
    fun p hpp => ?_
  · obtain ⟨v, h1, h2⟩ := hrec p none false
    obtain ⟨o, h3, h4⟩ := public_get_records hs' p none false
    rw [h2] at h3
    cases h3
    exact ⟨v, h1, h4⟩
  · obtain ⟨i, x, hx, rfl⟩ := hp p hpp
    unfold starHistAfter
    rw [← List.append_assoc]
    refine inserted_shown (ltime := ltime) (fun op hop => ?_) ?_ (hw i x hx)
    · rcases List.mem_append.1 hop with hop | hop <;>
      · obtain ⟨j, -, hj⟩ := List.mem_filterMap.1 hop
        rcases hcalls j with h0 | ⟨i', y, -, h0⟩ <;> rw [h0] at hj
        · cases hj
        · unfold loadCall at hj
          cases hy : y.p <;> rw [hy] at hj <;> cases hj <;> exact ⟨_, _, _, rfl, rfl⟩
    · obtain ⟨n, hn, rfl⟩ := List.mem_iff_getElem.1 hx
      obtain ⟨y, hy, a, hr⟩ := hret i n hn
      rw [List.getElem?_eq_getElem hn] at hy
      cases hy
      generalize (R i)[n] = y at hr
      have hc := hr.1
      unfold loadCall at hr hc
      refine List.mem_append.2 ?_
      cases hyp : y.p with
      | v4 q =>
        rw [hyp] at hr hc
        exact .inr (List.mem_filterMap.2 ⟨_, ho4.inserts _ _ _ _ _ hr, by rw [hc]; rfl⟩)
      | v6 q =>
        rw [hyp] at hr hc
        exact .inl (List.mem_filterMap.2 ⟨_, ho6.inserts _ _ _ _ _ hr, by rw [hc]; rfl⟩)

/-- C86: in particular the prefixes that the tasks list as persisted are all found. -/
theorem tasks_verify {ι : Type} [DecidableEq ι] {F0 : Nat} (hF : 32 ≤ F) (hf : iterFuel 128 ≤ fuel)
    (hs : starExec st F0 h = .ok () s) {ltime : LTime} {R : ι → List (Route M)}
    (hw : ∀ i, ∀ x ∈ R i, Pub.withdrawn h x.p x.mui = false) {t : List ι}
    {c : ι → LoadCounters} {qs : ι → List AnyPrefix}
    (hdone : ∀ i, ((clients (StarCall.prog st F fuel) s fun i => mtLoad st ltime (R i)).exec t).pool i =
      .ret (c i, qs i)) {ps : List AnyPrefix} (hp : ∀ p ∈ ps, ∃ i, p ∈ qs i) :
    ((verifyLoop (M := M) ps 0).prog (StarCall.prog st F fuel)).run
      ((clients (StarCall.prog st F fuel) s fun i => mtLoad st ltime (R i)).exec t).st =
      .ok none ((clients (StarCall.prog st F fuel) s fun i => mtLoad st ltime (R i)).exec t).st := by
  refine tasks_then_verify hF hf hs hw (fun i => ⟨_, hdone i⟩) fun p hpp => ?_
  obtain ⟨i, hi⟩ := hp p hpp
  obtain ⟨-, -, hsub, -⟩ := loader_mt_total hF hf hs ltime R t (hdone i)
  obtain ⟨x, hx, rfl⟩ := List.mem_map.1 (hsub.subset hi)
  exact ⟨i, x, hx, rfl⟩

open Rotonda.Demo

/-- Two tasks load routes for one prefix, and the verification finds it. -/
example : ∃ s, starExec (M := Md) .writeAhead 32 Demo.mixed = .ok () s ∧
    ((verifyLoop (M := Md) [.v4 ten16] 0).prog (StarCall.prog .writeAhead 32 (iterFuel 128))).run
      ((clients (StarCall.prog .writeAhead 32 (iterFuel 128)) s
        fun i => mtLoad .writeAhead 0#64 (samePrefix 3#32 i)).exec loadTurns).st =
      .ok none ((clients (StarCall.prog .writeAhead 32 (iterFuel 128)) s
        fun i => mtLoad .writeAhead 0#64 (samePrefix 3#32 i)).exec loadTurns).st := by
  obtain ⟨s, hs, hc⟩ := chkLoad_ok (t := loadTurns) (st := .writeAhead)
    (cl := fun i => mtLoad .writeAhead 0#64 (samePrefix 3#32 i))
    (chk := fun a b => ansIs (fun _ => true) a && ansIs (fun _ => true) b) (by decide +kernel)
  refine ⟨s, hs, ?_⟩
  simp only [Bool.and_eq_true] at hc
  obtain ⟨a, ha, -⟩ := ansIs_iff.1 hc.1
  obtain ⟨b, hb, -⟩ := ansIs_iff.1 hc.2
  generalize loadTurns = t at ha hb ⊢
  refine tasks_then_verify (Nat.le_refl _) (Nat.le_refl _) hs (fun i x hx => ?_) (fun i => ?_)
    (fun p hp => ⟨0, _, List.mem_singleton.2 rfl, (List.mem_singleton.1 hp).symm⟩)
  · fin_cases i <;> · rw [List.mem_singleton.1 hx]; decide
  · fin_cases i
    · exact ⟨a, ha⟩
    · exact ⟨b, hb⟩

/-- The prefix of another file. -/
example : ∃ s, starExec (M := Md) .writeAhead 32 Demo.mixed = .ok () s ∧
    ((verifyLoop (M := Md) [.v4 ten16] 0).prog (StarCall.prog .writeAhead 32 (iterFuel 128))).run s =
      .panic := by
  obtain ⟨s, hs, -⟩ := starExec_split (M := Md) (st := .writeAhead) (F := 32) Demo.mixed
  refine ⟨s, hs, verify_last_store_panics hs (List.mem_singleton.2 rfl) ?_⟩
  rintro ⟨r, tbi, hin⟩
  simp only [Demo.mixed, List.mem_cons, List.not_mem_nil, or_false] at hin
  rcases hin with h | h | h
  · cases h
  · cases h
  · injection h with h _
    injection h with h
    exact absurd h (by decide)

end

section
variable {W : Nat}

/-- C87: the assertion in `truncate_len.rs` holds for all bits and all lengths, of any width. -/
theorem truncate_branchless (bits : BitVec W) {len : Nat} (hl : len ≤ W) :
    truncShift bits len = some (branchlessTrunc bits len) := by
  have hb : ∀ y : BitVec W, (∀ i, y.getMsbD i = (decide (i < len) && bits.getMsbD i)) →
      y = branchlessTrunc bits len := fun y hy =>
    BitVec.eq_of_getMsbD_eq fun i _ => by
      rw [hy]
      exact (getMsbD_truncateToLen bits hl i).symm
  unfold truncShift
  by_cases h0 : len = 0
  · rw [if_pos h0]
    refine congrArg some (hb _ fun i => ?_)
    simp [h0]
  · rw [if_neg h0]
    by_cases h1 : len < W
    · rw [if_pos h1]
      refine congrArg some (hb _ fun i => ?_)
      rw [BitVec.getMsbD_shiftLeft, BitVec.getMsbD_ushiftRight]
      by_cases hi : i < len
      · have e1 : i + (W - len) < W := by omega
        have e2 : ¬ i + (W - len) < W - len := by omega
        have e3 : i + (W - len) - (W - len) = i := by omega
        simp [hi, e1, e2]
      · have e1 : ¬ i + (W - len) < W := by omega
        simp [hi, e1]
    · have h2 : len = W := by omega
      rw [if_neg h1, if_pos h2]
      refine congrArg some (hb _ fun i => ?_)
      by_cases hi : i < len
      · simp [hi]
      · rw [BitVec.getMsbD_of_ge _ _ (by omega)]
        simp

/-- C87: longer lengths are a panic in one and not in the other. -/
theorem truncate_too_long (bits : BitVec W) {len : Nat} (hl : W < len) : truncShift bits len = none := by
  unfold truncShift
  rw [if_neg (by omega), if_neg (by omega), if_neg (by omega)]

example : truncShift 0xC0A80101#32 23 = some 0xC0A80000#32 ∧
    branchlessTrunc 0xC0A80101#32 23 = 0xC0A80000#32 := by decide

end

end Rotonda.Props
