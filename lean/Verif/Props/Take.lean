import Verif.Proofs.Take
import Verif.Props.StarQueries

/-!
# Iterators of which only the first items are asked for (C72)

`takeStart … calls n` are the calls of `starStart … calls`; of the iteration `i` only the
first `n i` items are asked for, then the iterator is dropped.
-/

namespace Rotonda.Props

open Rotonda Rotonda.Spec Prog

variable {M : Type} [Meta M] {ι : Type} [DecidableEq ι] {calls : ι → StarCall M}

private theorem cut_run (st : Strategy) (F fuel : Nat) (s : Star M) (calls : ι → StarCall M)
    (n : ι → Option ℕ) (t : List ι) :
    CutConf (fun i => firstItems (n i) (calls i)) (fun i => Plenty (n i) (calls i))
      ((takeStart st F fuel s calls n).exec t) ((starStart st F fuel s calls).exec t) :=
  cutConf_exec t ⟨rfl, fun i => cut_call st F fuel (n i) (calls i)⟩

/-- C72: dropping iterators early changes nothing for the other calls: in every run, after
every turn, the store is in the same state, and a call that has returned when all items are
asked for has returned, with the first items of that answer, when only these are asked for;
it panics or gets stuck only if it does so otherwise. -/
theorem taken_same (st : Strategy) (F fuel : Nat) (s : Star M) (calls : ι → StarCall M)
    (n : ι → Option ℕ) (t : List ι) :
    ((takeStart st F fuel s calls n).exec t).st = ((starStart st F fuel s calls).exec t).st ∧
    ∀ i, (∀ a, ((starStart st F fuel s calls).exec t).pool i = .ret a →
        ((takeStart st F fuel s calls n).exec t).pool i = .ret (firstItems (n i) (calls i) a)) ∧
      (((takeStart st F fuel s calls n).exec t).pool i = .panic →
        ((starStart st F fuel s calls).exec t).pool i = .panic) ∧
      (((takeStart st F fuel s calls n).exec t).pool i = .diverge →
        ((starStart st F fuel s calls).exec t).pool i = .diverge) := by
  obtain ⟨hst, hp⟩ := cut_run st F fuel s calls n t
  refine ⟨hst, fun i => ?_⟩
  have hi := hp i
  generalize ((takeStart st F fuel s calls n).exec t).pool i = q at hi
  generalize ((starStart st F fuel s calls).exec t).pool i = p at hi
  cases hi with
  | ret b => exact ⟨fun a ha => by cases ha; rfl, nofun, nofun⟩
  | act f k k' h => exact ⟨nofun, nofun, nofun⟩
  | stop a p ha hr hall => exact ⟨fun b hb => by subst hb; exact congrArg _ (Eq.symm hall), nofun, nofun⟩
  | panic => exact ⟨nofun, fun _ => rfl, nofun⟩
  | diverge => exact ⟨nofun, nofun, fun _ => rfl⟩

omit [DecidableEq ι] in
private theorem first_of_few {n : Option ℕ} {x : StarCall M} {a : x.Ans}
    (h : ¬ Plenty n x (firstItems n x a)) : firstItems n x a = a := by
  have key : ∀ {β : Type} {k : ℕ} {l : List β}, ¬ k ≤ (l.take k).length → l.take k = l := by
    intro β k l h
    rw [List.length_take] at h
    exact List.take_of_length_le (by omega)
  cases n with
  | none => rfl
  | some n => cases x <;> first | rfl | exact key h

/-- C72: the items taken are the first ones of what the iteration would answer, however the
run goes on; if they are fewer than asked for the iteration has ended. -/
theorem taken_first (st : Strategy) (F fuel : Nat) (s : Star M) (calls : ι → StarCall M)
    (n : ι → Option ℕ) (t : List ι) {i : ι} {b : (calls i).Ans}
    (hb : ((takeStart st F fuel s calls n).exec t).pool i = .ret b) :
    (∀ u a, ((starStart st F fuel s calls).exec (t ++ u)).pool i = .ret a →
      b = firstItems (n i) (calls i) a) ∧
    (¬ Plenty (n i) (calls i) b → ((starStart st F fuel s calls).exec t).pool i = .ret b) := by
  obtain ⟨-, hp⟩ := cut_run st F fuel s calls n t
  have hi := hp i
  have hall := fun u (h : (((starStart st F fuel s calls).exec t).pool i).All
      fun a => firstItems (n i) (calls i) a = b) =>
    all_exec (P := fun j a => ∀ hj : j = i, firstItems (n i) (calls i) (hj ▸ a) = b) u (i := i)
      (h.mono fun a ha _ => ha)
  rw [hb] at hi
  generalize hq : ((starStart st F fuel s calls).exec t).pool i = p at hi
  rw [hq] at hall
  generalize hx : (ret b : Prog (Star M) _) = x at hi
  cases hi with
  | ret b' =>
    cases hx
    refine ⟨fun u a ha => ?_, fun hf => ?_⟩
    · have := hall u rfl
      rw [← Conf.exec_append, ha] at this
      exact (this rfl).symm
    · exact congrArg ret (first_of_few hf).symm
  | stop b' p hP hr ha =>
    cases hx
    refine ⟨fun u a hu => ?_, fun hf => (hf hP).elim⟩
    have := hall u ha
    rw [← Conf.exec_append, hu] at this
    exact (this rfl).symm
  | act => cases hx
  | panic => cases hx
  | diverge => cases hx

/-- A call with another answer, or with fewer items than asked for. -/
private theorem taken_whole {st : Strategy} {F fuel : Nat} {s : Star M} {n : ι → Option ℕ} {t : List ι}
    {i : ι} {x : StarCall M} {a : x.Ans} (hx : ¬ Plenty (n i) x a)
    (hr : StarReturned ((takeStart st F fuel s calls n).exec t) i x a) :
    StarReturned ((starStart st F fuel s calls).exec t) i x a := by
  obtain ⟨rfl, hr⟩ := hr
  exact ⟨rfl, (taken_first st F fuel s calls n t hr).2 hx⟩

section
variable {st : Strategy} {F0 F fuel : Nat} (hF : 32 ≤ F) (hf : iterFuel 128 ≤ fuel)
  {h : List (StarOp M)} {s : Star M} (hs : starExec st F0 h = .ok () s)
include hF hf hs

/-- C72: whatever holds of the answers of whole iterations holds of the items taken: were the
iteration asked for the others, right away, it would return, without changing the store, an
answer that begins with them. -/
theorem taken_runs_on {n : ι → Option ℕ} {t : List ι} {j : ι} {x : StarCall M} {b : x.Ans}
    (hb : StarReturned ((takeStart st F fuel s calls n).exec t) j x b)
    (hx : ∀ m, x ≠ .withdraw m ∧ x ≠ .withdraw4 m ∧ x ≠ .withdraw6 m ∧ x ≠ .activate4 m ∧
      x ≠ .activate6 m) :
    ∃ k a, StarReturned ((starStart st F fuel s calls).exec (t ++ List.replicate k j)) j x a ∧
      b = firstItems (n j) x a ∧
      ((starStart st F fuel s calls).exec (t ++ List.replicate k j)).st =
        ((starStart st F fuel s calls).exec t).st := by
  obtain ⟨rfl, hb⟩ := hb
  -- turns as in `t`, then of `j` only
  obtain ⟨N, a, ha⟩ := star_concurrent_calls_return (calls := calls) hF hf hs
    (fun m => if hm : m < t.length then t[m] else j) (i := j) hx
    (fun m => ⟨max m t.length, Nat.le_max_left _ _, by simp⟩)
  have hsched : ∀ N, t.length ≤ N → (List.range N).map
      (fun m => if hm : m < t.length then t[m] else j) = t ++ List.replicate (N - t.length) j := by
    intro N hN
    refine List.ext_getElem (by simp; omega) fun m h1 h2 => ?_
    simp only [List.getElem_map, List.getElem_range]
    split
    · rename_i h; rw [List.getElem_append_left h]
    · rename_i h; rw [List.getElem_append_right (by omega), List.getElem_replicate]
  have ha' : ((starStart st F fuel s calls).exec (t ++ List.replicate (N - t.length) j)).pool j =
      .ret a := by
    rcases Nat.le_total t.length N with hN | hN
    · rw [← hsched N hN]; exact ha
    · have : (List.range N).map (fun m => if hm : m < t.length then t[m] else j) <+: t := by
        have := hsched t.length (Nat.le_refl _)
        rw [Nat.sub_self, List.replicate_zero, List.append_nil] at this
        conv_rhs => rw [← this]
        exact (List.prefix_iff_eq_take.2 (by rw [List.length_range, List.take_range, Nat.min_eq_left hN])
          : List.range N <+: List.range t.length).map _
      obtain ⟨w, hw⟩ := this
      rw [Nat.sub_eq_zero_of_le hN, List.replicate_zero, List.append_nil, ← hw, Conf.exec_append]
      exact Conf.exec_ret ha _
  refine ⟨_, a, ⟨rfl, ha'⟩, (taken_first st F fuel s calls n t hb).1 _ _ ha', ?_⟩
  -- the store is that of the run in which the iterator was dropped
  rw [← (taken_same st F fuel s calls n _).1, ← (taken_same st F fuel s calls n t).1, Conf.exec_append]
  generalize (takeStart st F fuel s calls n).exec t = c at hb
  induction N - t.length with
  | zero => rfl
  | succ k ih =>
    rw [List.replicate_succ, Conf.exec_cons, Conf.step_ret hb]
    exact ih

omit hF hf hs [DecidableEq ι] in
private theorem begun_on {t : List ι} {k : ℕ} {j : ι} (hj : ∀ p r tbi, calls j ≠ .insert p r tbi)
    {p : AnyPrefix} {m : Mui} (hb : StarBegun h calls (t ++ List.replicate k j) p m) :
    StarBegun h calls t p m := by
  rcases hb with hb | ⟨i, hi, r, tbi, hc, hm⟩
  · exact .inl hb
  · rcases List.mem_append.1 hi with hi | hi
    · exact .inr ⟨i, hi, r, tbi, hc, hm⟩
    · rw [List.eq_of_mem_replicate hi] at hc
      exact (hj _ _ _ hc).elim

omit hF hf hs [DecidableEq ι] [Meta M] in
/-- The first of items without errors. -/
private theorem take_oks {l l' : List (FatalResult (PubRecord M))} {o : Option ℕ}
    (hl : l = match (generalizing := false) o with | some n => l'.take n | none => l')
    {qs : List (PubRecord M)} (hq : l' = qs.map .ok) (hnd : (qs.map PubRecord.pfx).Nodup) :
    ∃ qs' : List (PubRecord M), l = qs'.map .ok ∧ (qs'.map PubRecord.pfx).Nodup ∧ ∀ x ∈ qs', x ∈ qs := by
  subst hl hq
  cases o with
  | none => exact ⟨qs, rfl, hnd, fun _ h => h⟩
  | some n =>
    refine ⟨qs.take n, (List.map_take ..).symm, ?_, fun _ h => List.mem_of_mem_take h⟩
    rw [List.map_take]
    exact hnd.sublist (List.take_sublist _ _)

omit hF hf hs [DecidableEq ι] [Meta M] in
private theorem few {Q : Option ℕ → Prop} {l : List (FatalResult (PubRecord M))} {n : Option ℕ}
    (h : ∀ k, n = some k → l.length < k) (h0 : ¬ Q none) (h1 : ∀ k, Q (some k) → k ≤ l.length) :
    ¬ Q n := by
  cases n with
  | none => exact h0
  | some k => exact fun hq => Nat.not_le.2 (h k rfl) (h1 k hq)

/-- C72, more specifics: of the items taken none is an error, none comes twice, none has no
records, all are covered by `p`, and some insert was called for each.  If they are fewer than
asked for and withdrawn routes are included, none is missed whose insert returned before the
iteration started, if no insert below `p` needs a new tree node while it runs.  Partial as
`concurrent_more_specifics_partial`. -/
theorem taken_more_specifics_partial {n : ι → Option ℕ} {t u : List ι} {j : ι} (hj : j ∉ t)
    {p : AnyPrefix} {mui : Option Mui} {iw : Bool} {l : List (FatalResult (PubRecord M))}
    (hr : StarReturned ((takeStart st F fuel s calls n).exec (t ++ u)) j (.moreIter p mui iw) l) :
    ∃ qs : List (PubRecord M), l = qs.map .ok ∧ (qs.map PubRecord.pfx).Nodup ∧
      (∀ x ∈ qs, x.recs ≠ [] ∧ Pub.Covers p x.pfx ∧ ∃ m, StarBegun h calls (t ++ u) x.pfx m) ∧
      ((∀ k, n j = some k → l.length < k) → iw = true →
        StarNoNewNodes h ((starStart st F fuel s calls).exec t) (t ++ u) (Pub.Covers p) →
        Pub.len p < Pub.width p → ∀ q m, 0 < Pub.len q → Pub.Covers p q →
        (mui = none ∨ mui = some m) →
        StarCompleted h ((starStart st F fuel s calls).exec t) q m → ∃ rs, ⟨q, rs⟩ ∈ qs) := by
  obtain ⟨k, a, ha, hl, -⟩ := taken_runs_on hF hf hs hr (by simp)
  obtain ⟨qs, h1, h2, h3, -⟩ := star_concurrent_more_specifics_partial (t := []) hF hf hs (by simp) ha
  obtain ⟨qs', e1, e2, e3⟩ := take_oks (o := n j) (l := l) (l' := a) (by refine Eq.trans hl ?_; cases n j <;> rfl) h1 h2
  refine ⟨qs', e1, e2, fun x hx => ?_, fun hfew => ?_⟩
  · obtain ⟨a1, a2, m, a3⟩ := h3 x (e3 x hx)
    exact ⟨a1, a2, m, begun_on (k := k) (fun _ _ _ he => by rw [hr.1] at he; cases he) a3⟩
  · have hw := taken_whole (x := .moreIter p mui iw)
      (few (Q := fun o => Plenty o (.moreIter p mui iw : StarCall M) l) hfew id fun _ h => h) hr
    obtain ⟨qs2, g1, -, -, g4⟩ := star_concurrent_more_specifics_partial hF hf hs hj hw
    have : qs2 = qs' := List.map_injective_iff.2 (fun _ _ => Except.ok.inj) (g1.symm.trans e1)
    subst this
    exact g4

/-- C72, less specifics: likewise; here no condition is needed. -/
theorem taken_less_specifics_partial {n : ι → Option ℕ} {t u : List ι} {j : ι} (hj : j ∉ t)
    {p : AnyPrefix} {mui : Option Mui} {iw : Bool} {l : List (FatalResult (PubRecord M))}
    (hr : StarReturned ((takeStart st F fuel s calls n).exec (t ++ u)) j (.lessIter p mui iw) l) :
    ∃ qs : List (PubRecord M), l = qs.map .ok ∧ (qs.map PubRecord.pfx).Nodup ∧
      (∀ x ∈ qs, x.recs ≠ [] ∧ Pub.Covers x.pfx p ∧ x.pfx ≠ p ∧
        ∃ m, StarBegun h calls (t ++ u) x.pfx m) ∧
      ((∀ k, n j = some k → l.length < k) → iw = true →
        ∀ q m, 0 < Pub.len q → Pub.Covers q p → q ≠ p → (mui = none ∨ mui = some m) →
        StarCompleted h ((starStart st F fuel s calls).exec t) q m → ∃ rs, ⟨q, rs⟩ ∈ qs) := by
  obtain ⟨k, a, ha, hl, -⟩ := taken_runs_on hF hf hs hr (by simp)
  obtain ⟨qs, h1, h2, h3, -⟩ := star_concurrent_less_specifics_partial (t := []) hF hf hs (by simp) ha
  obtain ⟨qs', e1, e2, e3⟩ := take_oks (o := n j) (l := l) (l' := a) (by refine Eq.trans hl ?_; cases n j <;> rfl) h1 h2
  refine ⟨qs', e1, e2, fun x hx => ?_, fun hfew => ?_⟩
  · obtain ⟨a1, a2, a4, m, a3⟩ := h3 x (e3 x hx)
    exact ⟨a1, a2, a4, m, begun_on (k := k) (fun _ _ _ he => by rw [hr.1] at he; cases he) a3⟩
  · have hw := taken_whole (x := .lessIter p mui iw)
      (few (Q := fun o => Plenty o (.lessIter p mui iw : StarCall M) l) hfew id fun _ h => h) hr
    obtain ⟨qs2, g1, -, -, g4⟩ := star_concurrent_less_specifics_partial hF hf hs hj hw
    have : qs2 = qs' := List.map_injective_iff.2 (fun _ _ => Except.ok.inj) (g1.symm.trans e1)
    subst this
    exact g4

/-- C72, all prefixes of both families: likewise. -/
theorem taken_prefixes_partial {n : ι → Option ℕ} {t u : List ι} {j : ι} (hj : j ∉ t)
    {l : List (FatalResult (PubRecord M))}
    (hr : StarReturned ((takeStart st F fuel s calls n).exec (t ++ u)) j .prefixesIter l) :
    ∃ qs : List (PubRecord M), l = qs.map .ok ∧ (qs.map PubRecord.pfx).Nodup ∧
      (∀ x ∈ qs, ∃ m, StarBegun h calls (t ++ u) x.pfx m) ∧
      ((∀ k, n j = some k → l.length < k) →
        ∀ q m, StarNoNewNodes h ((starStart st F fuel s calls).exec t) (t ++ u)
          (fun q' => Pub.width q' = Pub.width q) → 0 < Pub.len q →
        StarCompleted h ((starStart st F fuel s calls).exec t) q m → ∃ rs, ⟨q, rs⟩ ∈ qs ∧ rs ≠ []) := by
  obtain ⟨k, a, ha, hl, -⟩ := taken_runs_on hF hf hs hr (by simp)
  obtain ⟨qs, h1, h2, h3, -⟩ := star_concurrent_prefixes_partial (t := []) hF hf hs (by simp) ha
  obtain ⟨qs', e1, e2, e3⟩ := take_oks (o := n j) (l := l) (l' := a) (by refine Eq.trans hl ?_; cases n j <;> rfl) h1 h2
  refine ⟨qs', e1, e2, fun x hx => ?_, fun hfew => ?_⟩
  · obtain ⟨m, a3⟩ := h3 x (e3 x hx)
    exact ⟨m, begun_on (k := k) (fun _ _ _ he => by rw [hr.1] at he; cases he) a3⟩
  · have hw := taken_whole (x := .prefixesIter)
      (few (Q := fun o => Plenty o (.prefixesIter : StarCall M) l) hfew id fun _ h => h) hr
    obtain ⟨qs2, g1, -, -, g4⟩ := star_concurrent_prefixes_partial hF hf hs hj hw
    have : qs2 = qs' := List.map_injective_iff.2 (fun _ _ => Except.ok.inj) (g1.symm.trans e1)
    subst this
    exact g4

omit hF hf hs [DecidableEq ι] in
private theorem reports_first {n : Option ℕ} {x : StarCall M} {a : x.Ans} {y : PubRecord M}
    (hy : y ∈ starReports x (firstItems n x a)) : y ∈ starReports x a := by
  have key : ∀ {k : ℕ} {l : List (FatalResult (PubRecord M))}, y ∈ starOks (l.take k) → y ∈ starOks l := by
    intro k l hy
    unfold starOks at hy ⊢
    obtain ⟨z, hz, he⟩ := List.mem_filterMap.1 hy
    exact List.mem_filterMap.2 ⟨z, List.mem_of_mem_take hz, he⟩
  cases n with
  | none => exact hy
  | some n => cases x <;> first | exact hy | exact key hy

/-- C72, records: once an insert for `(p, m)` has returned, an iteration that starts later and
asks for withdrawn routes too, when `p` is among the items taken, gives for `m` the record of
this insert or of another insert for `(p, m)` that had not returned before this one started. -/
theorem taken_upsert_walk {n : ι → Option ℕ} {t u : List ι} {i k : ι} {p : AnyPrefix} {r : Record M}
    {tbi : Option (Meta.TBI M)} {a : Except StoreError UpsertReport} (ht : StarTracked st calls)
    (hm : ∀ i t, calls i ≠ .withdrawFor p r.mui t ∧ calls i ≠ .activateFor p r.mui t)
    (hr : StarReturned ((takeStart st F fuel s calls n).exec t) i (.insert p r tbi) a) (hk : k ∉ t)
    {x : StarCall M} {b : x.Ans} (hb : StarReturned ((takeStart st F fuel s calls n).exec (t ++ u)) k x b)
    {mui : Option Mui} (hx : starAsks x = some (mui, true)) (hmui : ∀ m, mui = some m → m = r.mui)
    {rs : List (Record M)} (hrs : ⟨p, rs⟩ ∈ starReports x b) :
    ∃ j ∈ t ++ u, ∃ r' tbi' w, calls j = .insert p r' tbi' ∧ r'.mui = r.mui ∧
      StarNotBefore (starStart st F fuel s calls) (t ++ u) j i ∧
      shownAs w (asStored st r') ∈ rs ∧
      ∀ y ∈ rs, y.mui = r.mui → y = shownAs w (asStored st r') := by
  have hr' := taken_whole (x := .insert p r tbi) (by cases n i <;> exact id) hr
  obtain ⟨N, a', ha', rfl, -⟩ := taken_runs_on hF hf hs hb
    (fun m => by refine ⟨?_, ?_, ?_, ?_, ?_⟩ <;> (rintro rfl; cases hx))
  rw [List.append_assoc] at ha'
  obtain ⟨j, hj, r', tbi', w, hc, hmm, hnb, h1, h2⟩ :=
    star_concurrent_upsert_walk hF hf hs ht hm hr' hk ha' hx hmui (reports_first hrs)
  refine ⟨j, ?_, r', tbi', w, hc, hmm, fun m hi a ha => ?_, h1, h2⟩
  · rw [← List.append_assoc] at hj
    rcases List.mem_append.1 hj with hj | hj
    · exact hj
    · have := List.eq_of_mem_replicate hj
      subst this
      rw [hb.1] at hc; subst hc; cases hx
  · have e : (t ++ u).take m = (t ++ (u ++ List.replicate N k)).take (min m (t ++ u).length) := by
      rw [← List.append_assoc, List.take_append_of_le_length (Nat.min_le_right _ _)]
      rcases Nat.le_total m (t ++ u).length with h | h
      · rw [Nat.min_eq_left h]
      · rw [Nat.min_eq_right h, List.take_length, List.take_of_length_le h]
    rw [e] at hi ha
    exact hnb _ hi a ha

end

/-! ## Examples -/

section
open Rotonda.Demo

private abbrev kCalls : Fin 4 → StarCall Md
  | 0 => .insert (.v4 ten16) (rec1 2 2 3) none
  | 1 => .prefixesIter
  | 2 => .moreIter (.v4 ten8) none true
  | 3 => .lessIter (.v6 docHost) none true

/-- Two items of the first iteration, up to ten of the second, one of the third. -/
private abbrev kTake : Fin 4 → Option ℕ
  | 0 => none
  | 1 => some 2
  | 2 => some 10
  | 3 => some 1

private def kTurns : List (Fin 4) := List.replicate 60 0
private def kMore : List (Fin 4) :=
  List.replicate 40 1 ++ List.replicate 40 2 ++ List.replicate 120 3 ++ List.replicate 5 1

private abbrev kStart (s : Star Md) := starStart .memoryOnly 32 (iterFuel 128) s kCalls
private abbrev kStop (s : Star Md) := takeStart .memoryOnly 32 (iterFuel 128) s kCalls kTake

private def isOk (l : List (FatalResult (PubRecord Md))) : Bool :=
  l.all fun x => match x with
    | .ok _ => true
    | .error _ => false

private def kChk (o : Outcome Unit (Star Md)) (chk : Star Md → Bool) : Bool :=
  match o with
  | .ok _ s => chk s
  | _ => false

private theorem kChk_ok {o : Outcome Unit (Star Md)} {chk : Star Md → Bool}
    (h : kChk o chk = true) : ∃ s, o = .ok () s ∧ chk s = true := by
  cases o with
  | ok a s => exact ⟨s, rfl, h⟩
  | panic => cases h
  | diverge => cases h

private theorem taken_demo : ∃ s, starExec .memoryOnly 32 nested = .ok () s ∧
    (∃ a, StarReturned ((kStop s).exec kTurns) 0 (.insert (.v4 ten16) (rec1 2 2 3) none) a) ∧
    (∃ l : List (FatalResult (PubRecord Md)),
      StarReturned ((kStop s).exec (kTurns ++ kMore)) 1 .prefixesIter l ∧ l.length = 2) ∧
    (∀ a, ((kStart s).exec (kTurns ++ kMore)).pool 1 ≠ .ret a) ∧
    (∃ l : List (FatalResult (PubRecord Md)),
      StarReturned ((kStop s).exec (kTurns ++ kMore)) 2 (.moreIter (.v4 ten8) none true) l ∧
        l.length < 10) ∧
    ∃ l : List (FatalResult (PubRecord Md)),
      StarReturned ((kStop s).exec (kTurns ++ kMore)) 3 (.lessIter (.v6 docHost) none true) l ∧
        l.length = 1 := by
  obtain ⟨s, hs, hc⟩ := kChk_ok (o := starExec .memoryOnly 32 nested) (chk := fun s =>
    let c := (kStop s).exec kTurns
    let d := (kStop s).exec (kTurns ++ kMore)
    ansIs (fun _ => true) (c.pool 0) &&
    ansIs (fun l : List (FatalResult (PubRecord Md)) => decide (l.length = 2)) (d.pool 1) &&
    !ansIs (fun _ => true) (((kStart s).exec (kTurns ++ kMore)).pool 1) &&
    ansIs (fun l : List (FatalResult (PubRecord Md)) => decide (l.length < 10)) (d.pool 2) &&
    ansIs (fun l : List (FatalResult (PubRecord Md)) => decide (l.length = 1)) (d.pool 3))
    (by decide +kernel)
  simp only [Bool.and_eq_true, Bool.not_eq_true'] at hc
  obtain ⟨⟨⟨⟨h0, h1⟩, h1'⟩, h2⟩, h3⟩ := hc
  obtain ⟨a, ha, -⟩ := ansIs_iff.1 h0
  obtain ⟨b, hb, hb'⟩ := ansIs_iff.1 h1
  obtain ⟨c, hc, hc'⟩ := ansIs_iff.1 h2
  obtain ⟨d, hd, hd'⟩ := ansIs_iff.1 h3
  refine ⟨s, hs, ⟨a, rfl, ha⟩, ⟨b, ⟨rfl, hb⟩, of_decide_eq_true hb'⟩, fun x hx => ?_,
    ⟨c, ⟨rfl, hc⟩, of_decide_eq_true hc'⟩, ⟨d, ⟨rfl, hd⟩, of_decide_eq_true hd'⟩⟩
  have := (ansIs_iff (P := fun _ => true)).2 ⟨x, hx, rfl⟩
  rw [h1'] at this; cases this

/-- Two prefixes are taken from the iteration over all prefixes, which would go on; both were
inserted. -/
example : ∃ s, ∃ qs : List (PubRecord Md), starExec .memoryOnly 32 nested = .ok () s ∧
    StarReturned ((kStop s).exec (kTurns ++ kMore)) 1 .prefixesIter (qs.map Except.ok) ∧
    qs.length = 2 ∧ (qs.map PubRecord.pfx).Nodup ∧
    (∀ x ∈ qs, ∃ m, StarBegun nested kCalls (kTurns ++ kMore) x.pfx m) ∧
    ∀ a, ((kStart s).exec (kTurns ++ kMore)).pool 1 ≠ .ret a := by
  obtain ⟨s, hs, -, ⟨l, hl, h2⟩, hno, -⟩ := taken_demo
  obtain ⟨qs, rfl, e2, e3, -⟩ := taken_prefixes_partial (F := 32) (Nat.le_refl _) (Nat.le_refl _) hs
    (by decide) hl
  exact ⟨s, qs, hs, hl, by simpa using h2, e2, e3, hno⟩

/-- Ten more specifics of 10.0.0.0/8 were asked for and fewer came: the one whose insert had
returned before is among them, with its record. -/
example : ∃ s l, starExec .memoryOnly 32 nested = .ok () s ∧
    StarReturned ((kStop s).exec (kTurns ++ kMore)) 2 (.moreIter (.v4 ten8) none true) l ∧
    ∃ rs, ⟨.v4 ten16, rs⟩ ∈ starReports (M := Md) (.moreIter (.v4 ten8) none true) l ∧
      ∃ y ∈ rs, y.mui = 2#32 := by
  obtain ⟨s, hs, ⟨a, ha⟩, -, -, ⟨l, hl, h2⟩, -⟩ := taken_demo
  have ha' := taken_whole (x := .insert (.v4 ten16) (rec1 2 2 3) none) id ha
  have hn : StarNoNewNodes nested ((kStart s).exec kTurns) (kTurns ++ kMore) (Pub.Covers (.v4 ten8)) := by
    intro i _ q r tbi hc _ _
    fin_cases i
    · cases hc
      exact ⟨.v4 ten16, _, .inr ⟨0, _, _, _, ha', rfl⟩, rfl, by decide, fun _ _ => rfl⟩
    all_goals cases hc
  obtain ⟨qs, e1, -, -, e4⟩ := taken_more_specifics_partial (F := 32) (Nat.le_refl _) (Nat.le_refl _) hs
    (by decide) hl
  obtain ⟨rs, hm⟩ := e4 (by rintro k ⟨⟩; exact h2) rfl hn (by decide) (.v4 ten16) 2#32 (by decide)
    (show Covers ten8 ten16 by decide) (.inl rfl) (.inr ⟨0, _, _, _, ha', rfl⟩)
  have hrep : (⟨.v4 ten16, rs⟩ : PubRecord Md) ∈ starReports (M := Md) (.moreIter (.v4 ten8) none true) l := by
    rw [e1]
    exact List.mem_filterMap.2 ⟨_, List.mem_map_of_mem hm, rfl⟩
  refine ⟨s, l, hs, hl, rs, hrep, ?_⟩
  obtain ⟨j, -, r', tbi', w, hj, hmm, -, hmem, -⟩ := taken_upsert_walk (F := 32) (Nat.le_refl _)
    (Nat.le_refl _) hs (by rintro ⟨⟩) (by
      intro i tm
      fin_cases i <;> exact ⟨(by rintro ⟨⟩), (by rintro ⟨⟩)⟩) ha (by decide) hl rfl (by rintro m ⟨⟩) hrep
  refine ⟨_, hmem, ?_⟩
  unfold shownAs
  split <;> exact hmm

/-- One less specific of a host of 2001:db8::/32 is taken. -/
example : ∃ s, ∃ q : PubRecord Md, starExec .memoryOnly 32 nested = .ok () s ∧
    StarReturned ((kStop s).exec (kTurns ++ kMore)) 3 (.lessIter (.v6 docHost) none true) [.ok q] ∧
    Pub.Covers q.pfx (.v6 docHost) ∧ q.recs ≠ [] := by
  obtain ⟨s, hs, -, -, -, -, ⟨l, hl, h1⟩⟩ := taken_demo
  obtain ⟨qs, rfl, -, e3, -⟩ := taken_less_specifics_partial (F := 32) (Nat.le_refl _) (Nat.le_refl _) hs
    (by decide) hl
  match qs, h1 with
  | [q], _ => exact ⟨s, q, hs, hl, (e3 q (by simp)).2.1, (e3 q (by simp)).1⟩

/-- The store is that of the run in which all items are asked for; what was taken is the
beginning of what would come. -/
example : ∃ s, starExec .memoryOnly 32 nested = .ok () s ∧
    ((kStop s).exec (kTurns ++ kMore)).st = ((kStart s).exec (kTurns ++ kMore)).st ∧
    ∃ l a : List (FatalResult (PubRecord Md)), ∃ k,
      StarReturned ((kStop s).exec (kTurns ++ kMore)) 1 .prefixesIter l ∧ l.length = 2 ∧
      StarReturned ((kStart s).exec (kTurns ++ kMore ++ List.replicate k 1)) 1 .prefixesIter a ∧
      l = a.take 2 := by
  obtain ⟨s, hs, -, ⟨l, hl, h2⟩, -⟩ := taken_demo
  obtain ⟨k, a, ha, he, -⟩ := taken_runs_on (F := 32) (Nat.le_refl _) (Nat.le_refl _) hs hl (by simp)
  exact ⟨s, hs, (taken_same ..).1, l, a, k, hl, h2, ha, he⟩

end

end Rotonda.Props
