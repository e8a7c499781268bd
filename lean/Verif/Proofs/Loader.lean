import Verif.Spec.Loader
import Verif.Proofs.Client
import Verif.Proofs.Report
import Verif.Proofs.StarView
import Verif.Props.Client
import Verif.Props.Public

/-!
# What the loader of MRT files counts
-/

namespace Rotonda

open Prog Spec

variable {M : Type} [Meta M] {S : Type} {ltime : LTime} {rs : RouteStatus}
  {upd : S → Route M → UpsertReport → Option S}

/-- The reports of the first calls of a loader. -/
def loadFold (upd : S → Route M → UpsertReport → Option S) :
    S → List (Route M) → List (Except StoreError UpsertReport) → Option S
  | c, _, [] => some c
  | _, _, .error _ :: _ => none
  | c, x :: xs, .ok rep :: as => (upd c x rep).bind fun c' => loadFold upd c' xs as
  | _, [], .ok _ :: _ => none

/-- The calls that a loader has made, and where it is then. -/
theorem made_load {R : List (Route M)} {c : S} {l : List ((c : StarCall M) × c.Ans)}
    {rest : Client (StarCall.Ans (M := M)) S} (hm : Made (loadLoop ltime rs upd R c) l rest) :
    ∃ as : List (Except StoreError UpsertReport), as.length = l.length ∧ l.length ≤ R.length ∧
      (∀ n (h1 : n < l.length) (h2 : n < R.length) (h3 : n < as.length),
        l[n] = ⟨loadCall ltime rs R[n], as[n]⟩) ∧
      (rest = match loadFold upd c R as with
        | none => .panic
        | some c' => loadLoop ltime rs upd (R.drop l.length) c') := by
  induction l generalizing R c with
  | nil =>
    generalize hL : loadLoop ltime rs upd R c = L at hm
    cases hm
    subst hL
    refine ⟨[], rfl, Nat.zero_le _, fun n h => (by cases h), ?_⟩
    unfold loadFold
    rfl
  | cons x l ih =>
    cases R with
    | nil => cases hm
    | cons y R =>
      unfold loadLoop at hm
      cases hm with
      | @cons _ _ a _ _ h =>
        cases (a : Except StoreError UpsertReport) with
        | error e =>
          cases h
          refine ⟨[.error e], rfl, by simp, ?_, rfl⟩
          intro n h1 _ _
          have : n = 0 := by simpa using h1
          subst this; rfl
        | ok rep =>
          dsimp only at h
          cases hu : upd c y rep with
          | none =>
            rw [hu] at h
            cases h
            refine ⟨[.ok rep], rfl, by simp, ?_, ?_⟩
            · intro n h1 _ _
              have : n = 0 := by simpa using h1
              subst this; rfl
            · unfold loadFold; rw [hu]; rfl
          | some c' =>
            rw [hu] at h
            obtain ⟨as, h1, h2, h3, h4⟩ := ih h
            refine ⟨.ok rep :: as, by simp [h1], by simpa using h2, ?_, ?_⟩
            · intro n a1 a2 a3
              cases n with
              | zero => rfl
              | succ n => exact h3 n (by simpa using a1) (by simpa using a2) (by simpa using a3)
            · unfold loadFold; rw [hu]; exact h4

section star
variable {ι : Type} [DecidableEq ι] {st : Strategy} {F0 F fuel : ℕ} (hF : 32 ≤ F)
  (hf : iterFuel 128 ≤ fuel) {h : List (StarOp M)} {s : Star M} (hs : starExec st F0 h = .ok () s)
include hF hf hs

/-- The report of an insert while other calls run. -/
theorem star_report {calls : ι → StarCall M} {t : List ι} {i : ι} {p : AnyPrefix} {r : Record M}
    {tbi : Option (Meta.TBI M)} {a : Except StoreError UpsertReport}
    (hr : StarReturned ((starStart st F fuel s calls).exec t) i (.insert p r tbi) a) :
    (tbi = none → ∃ rep, a = .ok rep) ∧
      ((∃ rep, a = .ok rep ∧ rep.muiNew = false) →
        (∃ r' tbi', .insert p r' tbi' ∈ h ∧ r'.mui = r.mui) ∨
        ∃ j ∈ t, j ≠ i ∧ ∃ r' tbi', calls j = .insert p r' tbi' ∧ r'.mui = r.mui) := by
  obtain ⟨t4, t6, hI⟩ := run_interleaves st F fuel s calls t
  obtain ⟨h4, h6⟩ := starExec_ok hs
  have hf4 : iterFuel 32 ≤ fuel := Nat.le_trans (by unfold iterFuel; norm_num) hf
  rw [← List.take_length (l := t)] at hr
  cases p with
  | v4 p =>
    obtain ⟨b, hb, rfl⟩ := returned_v4 hI (Nat.le_refl _) (x := .insert (.v4 p) r tbi)
      (y := .insert p r tbi) (g := fun a => a) rfl hr
    obtain ⟨h1, h2⟩ := run_report hF hf4 h4 hb
    refine ⟨h1, fun hx => ?_⟩
    rcases h2 hx with ⟨r', tbi', hin, hm⟩ | ⟨j, hj, hne, r', tbi', hc, hm⟩
    · exact .inl (inserted_hist4.1 ⟨r', tbi', hin, hm⟩)
    · have := hI.split.mem4 (Nat.le_refl _) hj
      rw [List.take_length] at this
      exact .inr ⟨j, this, hne, r', tbi', call4_insert hc, hm⟩
  | v6 p =>
    obtain ⟨b, hb, rfl⟩ := returned_v6 hI (Nat.le_refl _) (x := .insert (.v6 p) r tbi)
      (y := .insert p r tbi) (g := fun a => a) rfl hr
    obtain ⟨h1, h2⟩ := run_report hF hf h6 hb
    refine ⟨h1, fun hx => ?_⟩
    rcases h2 hx with ⟨r', tbi', hin, hm⟩ | ⟨j, hj, hne, r', tbi', hc, hm⟩
    · exact .inl (inserted_hist6.1 ⟨r', tbi', hin, hm⟩)
    · have := hI.split.mem6 (Nat.le_refl _) hj
      rw [List.take_length] at this
      exact .inr ⟨j, this, hne, r', tbi', call6_insert hc, hm⟩

end star

section tasks
variable {ι : Type} [DecidableEq ι] {st : Strategy} {F0 F fuel : ℕ} (hF : 32 ≤ F)
  (hf : iterFuel 128 ≤ fuel) {h : List (StarOp M)} {s : Star M} (hs : starExec st F0 h = .ok () s)
  (R : ι → List (Route M)) (c0 : S)
include hF hf hs

/-- The tasks of a loader: what they have counted when they end. -/
theorem load_tasks (t : List ι) (i : ι) :
    ∃ as : List (Except StoreError UpsertReport), as.length ≤ (R i).length ∧
      (∀ a ∈ as, ∃ rep, a = .ok rep ∧ (NoneTwice h R → rep.muiNew = true)) ∧
      (∀ x, ((clients (StarCall.prog st F fuel) s
          fun i => loadLoop ltime rs upd (R i) c0).exec t).pool i = .ret x →
        as.length = (R i).length ∧ loadFold upd c0 (R i) as = some x) ∧
      (((clients (StarCall.prog st F fuel) s
          fun i => loadLoop ltime rs upd (R i) c0).exec t).pool i = .panic →
        loadFold upd c0 (R i) as = none) ∧
      ((clients (StarCall.prog st F fuel) s
          fun i => loadLoop ltime rs upd (R i) c0).exec t).pool i ≠ .diverge := by
  obtain ⟨calls, T, hA⟩ := clients_asCalls (StarCall.prog st F fuel) s
    (fun i => loadLoop ltime rs upd (R i) c0) t
  have hA : AsCalls (StarCall.prog st F fuel) _ calls _ (starStart st F fuel s calls) t T := hA
  have known : ∀ i' n', (i', n') ∈ T t.length → ∃ x, (R i')[n']? = some x ∧
      calls (i', n') = loadCall ltime rs x := by
    intro i' n' hin
    obtain ⟨l, rest, hmade, hat⟩ := hA.threads t.length (Nat.le_refl _) i'
    obtain ⟨as, h1, h2, h3, h4⟩ := made_load hmade
    obtain ⟨hle, hnext⟩ := hat.later n' hin
    rcases Nat.lt_or_ge n' l.length with hlt | hge
    · obtain ⟨e, -⟩ := hat.made n' hlt
      have hl := h3 n' hlt (by omega) (by omega)
      rw [hl] at e
      exact ⟨_, List.getElem?_eq_getElem (by omega), e⟩
    · have hn : n' = l.length := by omega
      obtain ⟨c, k, hr⟩ := hnext hn
      obtain ⟨e, -, -⟩ := hat.within c k hr
      rw [h4] at hr
      cases hfold : loadFold upd c0 (R i') as with
      | none => rw [hfold] at hr; cases hr
      | some c' =>
        rw [hfold] at hr
        dsimp only at hr
        cases hd : (R i').drop l.length with
        | nil => rw [hd] at hr; cases hr
        | cons x xs =>
          rw [hd] at hr
          unfold loadLoop at hr
          injection hr with hc _
          refine ⟨x, ?_, by rw [hn, e, hc]⟩
          have := List.getElem?_drop (xs := R i') (i := l.length) (j := 0)
          rw [hd] at this
          rw [hn]
          simpa using this.symm
  obtain ⟨l, rest, hmade, hat⟩ := hA.threads t.length (Nat.le_refl _) i
  rw [List.take_length] at hat
  obtain ⟨as, h1, h2, h3, h4⟩ := made_load hmade
  refine ⟨as, by omega, ?_, ?_⟩
  · intro a ha
    obtain ⟨n, hn, rfl⟩ := List.mem_iff_getElem.1 ha
    have hl := h3 n (by omega) (by omega) hn
    have hg := hat.made n (by omega)
    rw [hl] at hg
    have hr : StarReturned ((starStart st F fuel s calls).exec (T t.length)) (i, n)
      (loadCall ltime rs (R i)[n]) as[n] := hg
    obtain ⟨h5, h6⟩ := star_report hF hf hs hr
    obtain ⟨rep, hrep⟩ := h5 rfl
    refine ⟨rep, hrep, fun hno => ?_⟩
    by_contra hmui
    have hmui : rep.muiNew = false := by simpa using hmui
    rcases h6 ⟨rep, hrep, hmui⟩ with ⟨r', tbi', hin, hm⟩ | ⟨⟨i', n'⟩, hj, hne, r', tbi', hc, hm⟩
    · exact hno.fresh i _ (List.getElem_mem _) r' tbi' hin hm
    · obtain ⟨x, hx, hcx⟩ := known i' n' hj
      rw [hcx] at hc
      unfold loadCall at hc
      injection hc with hp hr' _
      subst hr'
      obtain ⟨rfl, rfl⟩ := hno.apart i' i n' n x _ hx (List.getElem?_eq_getElem (by omega)) hp hm
      exact hne rfl
  · cases hfold : loadFold upd c0 (R i) as with
    | none =>
      rw [hfold] at h4
      rw [hat.panicked h4]
      exact ⟨fun x hx => (by cases hx), fun _ => rfl, fun h => (by cases h)⟩
    | some c' =>
      rw [hfold] at h4
      dsimp only at h4
      cases hd : (R i).drop l.length with
      | nil =>
        rw [hd] at h4
        rw [hat.ended c' h4]
        refine ⟨fun x hx => ⟨?_, by injection hx with hx; rw [hx]⟩, fun h => (by cases h),
          fun h => (by cases h)⟩
        have := List.drop_eq_nil_iff.1 hd
        omega
      | cons y ys =>
        rw [hd] at h4
        unfold loadLoop at h4
        obtain ⟨e, hret, hp⟩ := hat.within _ _ h4
        have hnp := Props.star_concurrent_no_panic (calls := calls) hF hf hs (T t.length) (i, l.length)
        have hnd := hnp.2 (fun m => by rw [e]; exact ⟨by unfold loadCall; exact fun h => (by cases h), by unfold loadCall; exact fun h => (by cases h), by unfold loadCall; exact fun h => (by cases h), by unfold loadCall; exact fun h => (by cases h), by unfold loadCall; exact fun h => (by cases h)⟩)
        rw [hp]
        cases hq : ((starStart st F fuel s calls).exec (T t.length)).pool (i, l.length) with
        | ret a => exact absurd hq (hret a)
        | panic => exact absurd hq hnp.1
        | diverge => exact absurd hq hnd
        | act f k => exact ⟨fun x hx => (by cases hx), fun h => (by cases h), fun h => (by cases h)⟩

end tasks

end Rotonda
