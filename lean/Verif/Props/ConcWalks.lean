import Verif.Props.Linear
import Verif.Proofs.ReadsQueries

/-!
# Concurrent queries over several prefixes: C56

As in `Props/Linear.lean` any set of calls runs concurrently from the state `s` after any
history `h`.  `ExplainsWalks` says what the iterations and matches among the calls report;
`reports` lists the prefixes in their answers with the records given for them.
-/

namespace Rotonda.Props

open Prog Spec

variable {M : Type} [Meta M] {W : Nat} {ι : Type} [DecidableEq ι] {calls : ι → Call M W}

theorem oks_ok {α : Type} (l : List α) : oks (l.map (.ok : α → FatalResult α)) = l := by
  unfold oks
  induction l with
  | nil => rfl
  | cons a l ih => simpa using ih

theorem mem_withRecords {vis : List (Prefix W × Option (List (Record M)))} {q : Prefix W}
    {rs : List (Record M)} : (q, rs) ∈ withRecords vis ↔ (q, some rs) ∈ vis := by
  unfold withRecords
  rw [List.mem_filterMap]
  constructor
  · rintro ⟨⟨q', v⟩, hx, he⟩
    obtain ⟨rs', hv, he⟩ := Option.map_eq_some_iff.1 he
    cases he
    dsimp only at hv
    rw [← hv]
    exact hx
  · exact fun hx => ⟨_, hx, rfl⟩

omit [DecidableEq ι] in
theorem storedRec_untouched {st : Strategy} (h : History M W) {p : Prefix W} {m : Mui} {l : List ι}
    (hl : ∀ i ∈ l, ¬ Touches (calls i) p m) :
    storedRec st (histAfter h calls l) p m = storedRec st h p m := by
  induction l with
  | nil => rfl
  | cons k l ih =>
    have hk := hl k List.mem_cons_self
    rw [storedRec_skip h (fun r tbi hc hr => hk (.inl ⟨r, tbi, hc, hr⟩))
      (fun tm rs hc => hk (.inr (.inl ⟨tm, rs, hc⟩)))]
    exact ih fun i hi => hl i (List.mem_cons_of_mem _ hi)

omit [DecidableEq ι] in
theorem globWd_untouched (h : History M W) {p : Prefix W} {m : Mui} {l : List ι}
    (hl : ∀ i ∈ l, ¬ Touches (calls i) p m) : globWd (histAfter h calls l) m = globWd h m := by
  induction l with
  | nil => rfl
  | cons k l ih =>
    have hk := hl k List.mem_cons_self
    rw [← ih fun i hi => hl i (List.mem_cons_of_mem _ hi)]
    cases hck : calls k with
    | withdraw m' =>
      rw [histAfter_cons (op := .withdraw m') (by rw [hck]; rfl)]
      exact if_neg fun e => hk (.inr (.inr (.inl (by rw [hck, e]))))
    | activate m' =>
      rw [histAfter_cons (op := .activate m') (by rw [hck]; rfl)]
      exact if_neg fun e => hk (.inr (.inr (.inr (by rw [hck, e]))))
    | insert q r tbi => rw [histAfter_cons (op := .insert q r tbi) (by rw [hck]; rfl)]; rfl
    | withdrawFor q m' t => rw [histAfter_cons (op := .withdrawFor q m' t) (by rw [hck]; rfl)]; rfl
    | activateFor q m' t => rw [histAfter_cons (op := .activateFor q m' t) (by rw [hck]; rfl)]; rfl
    | _ => simp only [histAfter, List.filterMap_cons, hck, changeOf]

theorem inserted_of_storedRec {st : Strategy} {h : History M W} {p : Prefix W} {m : Mui} {r : Record M}
    (hr : storedRec st h p m = some r) : Inserted h p m := by
  by_contra hn
  have : ∀ h' : History M W, ¬ Inserted h' p m → recOf h' p m = none ∧ keptOf h' p m = none := by
    intro h' hn
    induction h' with
    | nil => exact ⟨rfl, rfl⟩
    | cons op h' ih =>
      obtain ⟨e1, e2⟩ := ih fun ⟨r, tbi, hm, hr⟩ => hn ⟨r, tbi, List.mem_cons_of_mem _ hm, hr⟩
      cases op with
      | insert q r tbi =>
        have : ¬ (q = p ∧ r.mui = m) := by
          rintro ⟨rfl, rfl⟩
          exact hn ⟨r, tbi, List.mem_cons_self, rfl⟩
        exact ⟨(if_neg this).trans e1, (if_neg this).trans e2⟩
      | _ => simp [recOf, keptOf, e1, e2]
  obtain ⟨e1, e2⟩ := this h hn
  cases st <;> simp [storedRec, e1, e2] at hr

section
variable [Fam W] {st : Strategy} {F0 F fuel : Nat} (hF : 32 ≤ F) (hf : iterFuel W ≤ fuel)
  {h : History M W} {s : Rib M W} (hs : exec st F0 h = .ok () s)
include hF hf hs

/-- C56: the order of effects of C39 also explains the queries over several prefixes. -/
theorem concurrent_walks_partial (ht : Tracked st calls) (t : List ι) :
    ∃ log, Explains st h (start st F fuel s calls) t log ∧
      ExplainsWalks st h (start st F fuel s calls) t log := by
  obtain ⟨log, hE, _, _, _, hinv⟩ := run_explained hF hf hs calls t
  exact ⟨log, hE, run_walks hF hf hs ht t hinv⟩

/-- What a query reports was read while it ran; a prefix inserted before it started and due
is among those it read. -/
theorem reports_read (ht : Tracked st calls) (t u : List ι) :
    ∃ log, Explains st h (start st F fuel s calls) (t ++ u) log ∧
      ∀ k x (a : x.Ans), k ∉ t → Returned ((start st F fuel s calls).exec (t ++ u)) k x a →
      ∀ mui iw, asks x = some (mui, iw) →
      (∀ q rs, (q, rs) ∈ reports x a → ∃ v, rs = v.getD [] ∧
        ReadBetween st h calls log t.length (t ++ u).length mui iw q v) ∧
      (∀ q m, 0 < q.len → Completed h ((start st F fuel s calls).exec t) q m →
        Due h ((start st F fuel s calls).exec t) (t ++ u) x q →
        (∃ m' n1, mui = some m' ∧ iw = false ∧ t.length ≤ n1 ∧ n1 ≤ (t ++ u).length ∧
          globWd (histAfter h calls (log n1)) m' = true) ∨
        ∃ v, ReadBetween st h calls log t.length (t ++ u).length mui iw q v ∧
          ∀ rs, v = some rs → (q, rs) ∈ reports x a) := by
  obtain ⟨log, hE, hX⟩ := concurrent_walks_partial (calls := calls) hF hf hs ht (t ++ u)
  refine ⟨log, hE, fun k x a hk hr mui iw hx => ?_⟩
  have hT : (t ++ u).take t.length = t := by simp
  have hn : (t ++ u).length ≤ (t ++ u).length := Nat.le_refl _
  have hle : t.length ≤ (t ++ u).length := by simp
  have hU : (t ++ u).take (t ++ u).length = t ++ u := List.take_length
  have hr' : Returned ((start st F fuel s calls).exec ((t ++ u).take (t ++ u).length)) k x a := by
    rw [hU]; exact hr
  have hk' : k ∉ (t ++ u).take t.length := by rw [hT]; exact hk
  have hvis : ∀ {vis : List (Prefix W × Option (List (Record M)))} {mui iw},
      Visited st h calls (t ++ u) log t.length (t ++ u).length mui iw vis →
      ∀ q rs, (q, rs) ∈ withRecords vis → ∃ v, rs = v.getD [] ∧
        ReadBetween st h calls log t.length (t ++ u).length mui iw q v :=
    fun hV q rs hq => ⟨some rs, rfl, hV.read _ (mem_withRecords.1 hq)⟩
  cases x with
  | lessIter p mui' iw' =>
    cases hx
    obtain ⟨vis, rfl, h1, _, h3⟩ := hX.less _ hn _ _ _ _ _ hr' _ hle hk'
    rw [hT] at h3
    have hrep : reports (.lessIter p mui iw) ((withRecords vis).map .ok) = withRecords vis := oks_ok _
    rw [hrep]
    refine ⟨hvis h1, fun q m h0 hc hd => .inr ?_⟩
    obtain ⟨v, hv⟩ := h3 q m h0 hd.1 hd.2 hc
    exact ⟨v, h1.read _ hv, fun rs e => mem_withRecords.2 (e ▸ hv)⟩
  | moreIter p mui' iw' =>
    cases hx
    rcases hX.more _ hn _ _ _ _ _ hr' _ hle hk' with ⟨m', n1, e1, e2, e3, e4, e5, rfl⟩ | ⟨vis, rfl, h1, _, h3⟩
    · exact ⟨fun q rs hq => (by cases hq), fun _ _ _ _ _ => .inl ⟨m', n1, e1, e2, e3, e4, e5⟩⟩
    rw [hT, hU] at h3
    have hrep : reports (.moreIter p mui iw) ((withRecords vis).map .ok) = withRecords vis := oks_ok _
    rw [hrep]
    refine ⟨hvis h1, fun q m h0 hc hd => .inr ?_⟩
    obtain ⟨v, hv⟩ := h3 hd.2.2 hd.2.1 q m h0 hd.1 hc
    exact ⟨v, h1.read _ hv, fun rs e => mem_withRecords.2 (e ▸ hv)⟩
  | prefixesIter =>
    cases hx
    obtain ⟨vis, rfl, h1, h3⟩ := hX.all _ hn _ _ hr' _ hle hk'
    rw [hT, hU] at h3
    have hrep : reports (M := M) (W := W) .prefixesIter (vis.map fun x => .ok (x.1, x.2.getD [])) =
        vis.map fun x => (x.1, x.2.getD []) := by
      rw [← oks_ok (vis.map fun x => (x.1, x.2.getD [])), List.map_map]; rfl
    rw [hrep]
    refine ⟨fun q rs hq => ?_, fun q m h0 hc hd => .inr ?_⟩
    · obtain ⟨y, hy, he⟩ := List.mem_map.1 hq
      cases he
      exact ⟨y.2, rfl, h1.read _ hy⟩
    · obtain ⟨r, hr0, hd⟩ := hd
      obtain ⟨v, hv⟩ := h3 r hr0 hd q m h0 hc
      exact ⟨v, h1.read _ hv, fun rs e => List.mem_map.2 ⟨_, hv, by rw [e]; rfl⟩⟩
  | recordsForMui m0 iw' =>
    cases hx
    rcases hX.forMui _ hn _ _ _ _ hr' _ hle hk' with ⟨n1, e2, e3, e4, e5, rfl⟩ | ⟨vis, rfl, h1, h3⟩
    · exact ⟨fun q rs hq => (by cases hq), fun _ _ _ _ _ => .inl ⟨m0, n1, rfl, e2, e3, e4, e5⟩⟩
    rw [hT, hU] at h3
    have hrep : reports (.recordsForMui m0 iw) ((withRecords vis).map .ok) = withRecords vis := oks_ok _
    rw [hrep]
    refine ⟨hvis h1, fun q m h0 hc hd => .inr ?_⟩
    obtain ⟨r, hr0, hd⟩ := hd
    obtain ⟨v, hv⟩ := h3 r hr0 hd q m h0 hc
    exact ⟨v, h1.read _ hv, fun rs e => mem_withRecords.2 (e ▸ hv)⟩
  | matchPrefix p o =>
    cases hx
    obtain ⟨x, rfl, ⟨f, f1, f2, f3, f4⟩, hless, hmore⟩ := hX.matches_ _ hn _ _ _ _ hr' _ hle hk'
    rw [hT] at f4 hless hmore
    rw [hU] at hmore
    have hrep : reports (.matchPrefix p o) (.ok x) = x.prefix_.toList.map (fun q => (q, x.records)) ++
        x.lessSpecifics.getD [] ++ x.moreSpecifics.getD [] := rfl
    rw [hrep]
    constructor
    · intro q rs hq
      rcases List.mem_append.1 hq with hq | hq
      · rcases List.mem_append.1 hq with hq | hq
        · obtain ⟨q', hq', he⟩ := List.mem_map.1 hq
          cases he
          rw [Option.mem_toList, f1] at hq'
          obtain ⟨y, hy, hyq⟩ := Option.bind_eq_some_iff.1 hq'
          obtain ⟨rs, hrs, rfl⟩ := Option.map_eq_some_iff.1 hyq
          exact ⟨y.2, by rw [f2, hy]; rfl, (f3 y hy).2.2.2⟩
        · rcases hless with ⟨_, hl⟩ | ⟨vis, hl, h1, _⟩
          · rw [hl] at hq; cases hq
          · rw [hl] at hq; exact hvis h1 q rs hq
      · rcases hmore with ⟨_, hl⟩ | ⟨vis, hl, h1, _⟩
        · rw [hl] at hq; cases hq
        · rw [hl] at hq; exact hvis h1 q rs hq
    · intro q m h0 hc hd
      refine .inr ?_
      rcases hd with rfl | ⟨ho, hcov, hne⟩ | ⟨ho, hcov, hne, hW, hq⟩
      · obtain ⟨y, hy, hlen⟩ := f4 q m h0 ⟨Nat.le_refl _, fun _ _ => rfl⟩ (fun _ => rfl) hc
        obtain ⟨hcov, _, _, hread⟩ := f3 y hy
        obtain rfl : y.1 = q := by
          obtain ⟨c1, c2⟩ := covers_trunc.1 hcov
          have he : y.1.len = q.len := by omega
          exact Prefix.id_inj (by rw [← c2, he]; exact truncate_self q.clean)
        refine ⟨y.2, hread, fun rs e => ?_⟩
        have e1 : x.prefix_ = some y.1 := by rw [f1, hy]; simp [e]
        have e2 : x.records = rs := by rw [f2, hy]; simp [e]
        rw [e1, e2]
        simp
      · rcases hless with ⟨hl, _⟩ | ⟨vis, hl, h1, _, h3⟩
        · rw [ho] at hl; cases hl
        · obtain ⟨v, hv⟩ := h3 q m h0 hcov hne hc
          refine ⟨v, h1.read _ hv, fun rs e => ?_⟩
          rw [hl]
          exact List.mem_append_left _ (List.mem_append_right _ (mem_withRecords.2 (e ▸ hv)))
      · rcases hmore with ⟨hl, _⟩ | ⟨vis, hl, h1, _, h3⟩
        · rw [ho] at hl; cases hl
        · obtain ⟨v, hv⟩ := h3 hq hW q m h0 hcov hne hc
          refine ⟨v, h1.read _ hv, fun rs e => ?_⟩
          rw [hl]
          exact List.mem_append_right _ (mem_withRecords.2 (e ▸ hv))
  | _ => cases hx

/-- C56: once an insert for `(p, m)` has returned, a query over several prefixes that starts
later and asks for withdrawn routes too, when it reports `p`, gives for `m` the record of this
insert or of another insert for `(p, m)` that had not returned before this one started. -/
theorem concurrent_upsert_walk {t u : List ι} {i k : ι} {p : Prefix W} {r : Record M}
    {tbi : Option (Meta.TBI M)} {a : Except StoreError UpsertReport} (ht : Tracked st calls)
    (hm : NoMarksFor calls p r.mui)
    (hr : Returned ((start st F fuel s calls).exec t) i (.insert p r tbi) a) (hk : k ∉ t)
    {x : Call M W} {b : x.Ans} (hb : Returned ((start st F fuel s calls).exec (t ++ u)) k x b)
    {mui : Option Mui} (hx : asks x = some (mui, true)) (hmui : ∀ m, mui = some m → m = r.mui)
    {rs : List (Record M)} (hrs : (p, rs) ∈ reports x b) :
    ∃ j ∈ t ++ u, ∃ r' tbi' w, calls j = .insert p r' tbi' ∧ r'.mui = r.mui ∧
      NotBefore (start st F fuel s calls) (t ++ u) j i ∧
      shownAs w (asStored st r') ∈ rs ∧
      ∀ y ∈ rs, y.mui = r.mui → y = shownAs w (asStored st r') := by
  obtain ⟨log, hE, hX⟩ := reports_read (calls := calls) hF hf hs ht t u
  obtain ⟨v, rfl, n1, n2, h1, h2, h3, ⟨hpw, hmem⟩, _⟩ := (hX k x b hk hb mui true hx).1 p rs hrs
  have hi : i ∈ log t.length := by
    refine hE.inserts t.length (by simp) i p r tbi a ?_
    simpa using hr
  have hlast : i ∈ log n2 := (hE.order.suffix (by omega) h3).subset hi
  obtain ⟨l1, j, l2, r', tbi', hl, hj, hmr, hst, hor⟩ := last_insert st h hr.1 hm _ hlast
  have hmui' : ∀ w, (shownAs w (asStored st r')).mui = r.mui := by
    intro w; unfold shownAs; split
    · exact (asStored_mui st r').trans hmr
    · exact (asStored_mui st r').trans hmr
  have hshow : shownAs (globWd (histAfter h calls (log n1)) r.mui) (asStored st r') ∈ v.getD [] := by
    rw [hmem]
    refine ⟨asStored st r', by rw [hmui', storedRec_under]; exact hst,
      fun m hm => by rw [hmui']; exact (hmui m hm).symm, ?_⟩
    simp only [effective, shownAs, globWd_under, asStored_mui, hmr]
  refine ⟨j, ?_, r', tbi', globWd (histAfter h calls (log n1)) r.mui, hj, hmr, ?_, hshow, ?_⟩
  · exact List.mem_of_mem_take (hE.order.mem h3 (i := j) (by rw [hl]; simp))
  · rcases hor with rfl | hor
    · exact not_before_self hr.1 (t ++ u)
    · exact hE.notBefore h3 hl hor (.inl ⟨p, r', tbi', hj⟩)
  · intro y hy hym
    by_contra hne
    haveI : Std.Symm (fun a b : Record M => a.mui ≠ b.mui) := ⟨fun _ _ h => h.symm⟩
    exact hpw.forall hy hshow hne (by rw [hym, hmui'])

/-- C56: a route that was visible before the calls started and that none of them touches is
reported, as it was, by every query that is due to report it. -/
theorem concurrent_steady_partial {t u : List ι} {k : ι} (ht : Tracked st calls)
    {q : Prefix W} (h0 : 0 < q.len) {r : Record M} {mui : Option Mui} {iw : Bool}
    (hv : Visible st h mui iw q r) (hT : ∀ i ∈ t ++ u, ¬ Touches (calls i) q r.mui)
    (hk : k ∉ t) {x : Call M W} {b : x.Ans}
    (hb : Returned ((start st F fuel s calls).exec (t ++ u)) k x b)
    (hx : asks x = some (mui, iw)) (hd : Due h ((start st F fuel s calls).exec t) (t ++ u) x q) :
    ∃ rs, (q, rs) ∈ reports x b ∧ r ∈ rs := by
  obtain ⟨log, hE, hX⟩ := reports_read (calls := calls) hF hf hs ht t u
  have hlog : ∀ n, n ≤ (t ++ u).length → ∀ i ∈ log n, ¬ Touches (calls i) q r.mui := fun n hn i hi =>
    hT i (List.mem_of_mem_take (hE.order.mem hn hi))
  have hrec : ∀ n, n ≤ (t ++ u).length →
      storedRec st (histAfter h calls (log n)) q r.mui = storedRec st h q r.mui := fun n hn =>
    storedRec_untouched h (hlog n hn)
  have hglob : ∀ n, n ≤ (t ++ u).length → globWd (histAfter h calls (log n)) r.mui = globWd h r.mui :=
    fun n hn => globWd_untouched h (hlog n hn)
  obtain ⟨r0, hr0, hmui, hiw⟩ := hv
  have hins : Inserted h q r.mui := inserted_of_storedRec hr0
  rcases (hX k x b hk hb mui iw hx).2 q r.mui h0 (.inl hins) hd with
    ⟨m', n1, rfl, rfl, e1, e2, e3⟩ | ⟨v, ⟨n1, n2, h1, h2, h3, ⟨_, hmem⟩, _⟩, hrep⟩
  · rw [← hmui m' rfl, hglob n1 e2, hiw.2.2] at e3
    cases e3
  · have hr : r ∈ v.getD [] := by
      rw [hmem]
      refine ⟨r0, by rw [storedRec_under, hrec n2 h3]; exact hr0, hmui, ?_⟩
      have hg := hglob n1 (h2.trans h3)
      cases iw with
      | true =>
        have hm0 : r0.mui = r.mui := storedRec_mui hr0
        simp only [effective, globWd_under, hm0, hg] at hiw ⊢
        exact hiw
      | false => exact ⟨hiw.1, hiw.2.1, .inl (by rw [globWd_under, hg]; exact hiw.2.2)⟩
    cases v with
    | none => cases hr
    | some rs => exact ⟨rs, hrep rs rfl, hr⟩

end

/-! ## Counterexample and examples -/

section
open Rotonda.Demo

/-- Both an active and a withdrawn record are reported. -/
def bothStatuses (l : List (FatalResult (PrefixRecord Md 32))) : Bool :=
  ((oks l).any fun y => y.2.any fun r : Record Md => r.status == .active) &&
    (oks l).any fun y => y.2.any fun r : Record Md => r.status == .withdrawn

/-- C56 cannot be strengthened to snapshots: an iteration can show one prefix as it was
before a global withdrawal and another as it was after it, which the same iteration made
in any one state of the run does not. -/
theorem concurrent_walk_no_snapshot :
    ∃ s, exec .memoryOnly 32 pair = .ok () s ∧
      ∃ t, ∃ l : List (FatalResult (PrefixRecord Md 32)),
        Returned (two .memoryOnly s (.withdraw 1#32) (.moreIter ten8 none true) t) false
          (.moreIter ten8 none true) l ∧
        ∀ n s', (ribMoreSpecificsIter .memoryOnly (iterFuel 32) ten8.id none true).run
          (two .memoryOnly s (.withdraw 1#32) (.moreIter ten8 none true) (t.take n)).st ≠ .ok l s' := by
  obtain ⟨s, hs, hc⟩ := after_ok (o := exec .memoryOnly 32 pair) (chk := fun s =>
    ansIs bothStatuses ((two .memoryOnly s (.withdraw 1#32) (.moreIter ten8 none true)
      (turns 0 6 4 ++ turns 0 30 0)).pool false) &&
    (List.range 41).all fun n => match (ribMoreSpecificsIter .memoryOnly (iterFuel 32) ten8.id none
        true).run (two .memoryOnly s (.withdraw 1#32) (.moreIter ten8 none true)
          ((turns 0 6 4 ++ turns 0 30 0).take n)).st with
      | .ok l _ => !bothStatuses l
      | _ => false) (by decide +kernel)
  rw [Bool.and_eq_true, List.all_eq_true] at hc
  obtain ⟨a, ha, hP⟩ := ansIs_iff.1 hc.1
  refine ⟨s, hs, turns 0 6 4 ++ turns 0 30 0, a, ⟨rfl, ha⟩, fun n s' hr => ?_⟩
  have hn : (turns 0 6 4 ++ turns 0 30 0).take n = (turns 0 6 4 ++ turns 0 30 0).take (min n 40) := by
    rcases Nat.le_total n 40 with h | h
    · rw [Nat.min_eq_left h]
    · rw [Nat.min_eq_right h, List.take_of_length_le (by simpa [turns] using h),
        List.take_of_length_le (by simp [turns])]
  rw [hn] at hr
  have := hc.2 (min n 40) (List.mem_range.2 (by omega))
  rw [hr] at this
  simp only [hP] at this
  cases this

/-- The hypotheses of `concurrent_upsert_walk`: an iteration after an insert of a new prefix. -/
example : ∃ s, exec .memoryOnly 32 pair = .ok () s ∧
    ∃ l : List (FatalResult (PrefixRecord Md 32)), Returned (two .memoryOnly s
        (.insert host (rec1 2 2 3) none) (.moreIter ten8 none true) (turns 200 0 0 ++ turns 0 200 0))
          false (.moreIter ten8 none true) l ∧
      ∃ rs, (host, rs) ∈ oks l ∧ ∃ w, shownAs w (rec1 2 2 3) ∈ rs := by
  obtain ⟨s, hs, hc⟩ := after_ok (o := exec .memoryOnly 32 pair) (chk := fun s =>
    ansIs (fun _ => true) ((two .memoryOnly s (.insert host (rec1 2 2 3) none)
      (.moreIter ten8 none true) (turns 200 0 0)).pool true) &&
    ansIs (fun l : List (FatalResult (PrefixRecord Md 32)) => (oks l).any fun y => y.1 == host)
      ((two .memoryOnly s (.insert host (rec1 2 2 3) none)
        (.moreIter ten8 none true) (turns 200 0 0 ++ turns 0 200 0)).pool false)) (by decide +kernel)
  rw [Bool.and_eq_true] at hc
  obtain ⟨a, ha, _⟩ := ansIs_iff.1 hc.1
  obtain ⟨l, hl, hP⟩ := ansIs_iff.1 hc.2
  obtain ⟨⟨q, rs⟩, hy, hq⟩ := List.any_eq_true.1 hP
  have hq' : q = host := by simpa using hq
  subst hq'
  have hL : Returned (two .memoryOnly s (.insert host (rec1 2 2 3) none) (.moreIter ten8 none true)
    (turns 200 0 0 ++ turns 0 200 0)) false (.moreIter ten8 none true) l := ⟨rfl, hl⟩
  have hA : Returned (two .memoryOnly s (.insert host (rec1 2 2 3) none) (.moreIter ten8 none true)
    (turns 200 0 0)) true (.insert host (rec1 2 2 3) none) a := ⟨rfl, ha⟩
  refine ⟨s, hs, l, hL, rs, hy, ?_⟩
  obtain ⟨j, _, r', tbi', w, hj, _, _, hmem, _⟩ := concurrent_upsert_walk (F := 32) (Nat.le_refl _)
    (Nat.le_refl _) hs (calls := fun i : Bool => if i then (.insert host (rec1 2 2 3) none : Call Md 32)
      else .moreIter ten8 none true)
    (t := turns 200 0 0) (u := turns 0 200 0) (i := true) (k := false) (a := a)
    (fun h => by cases h) (fun i t => by cases i <;> simp) hA (false_notMem_turns 200 0)
    (x := .moreIter ten8 none true) (b := l) hL rfl (fun m hm => by cases hm) hy
  cases j with
  | true => cases hj; exact ⟨w, hmem⟩
  | false => cases hj

/-- The hypotheses of `concurrent_steady_partial`: an iteration, withdrawn routes excluded,
while a record is added to a prefix that has another one. -/
example : ∃ s, exec .memoryOnly 32 pair = .ok () s ∧
    ∃ l : List (FatalResult (PrefixRecord Md 32)), Returned (two .memoryOnly s
        (.insert ten16b (rec1 2 2 3) none) (.moreIter ten8 none false) (turns 3 5 200 ++ turns 0 200 0))
          false (.moreIter ten8 none false) l ∧
      ∃ rs, (ten16b, rs) ∈ oks l ∧ rec1 1 1 7 ∈ rs := by
  obtain ⟨s, hs, hc⟩ := after_ok (o := exec .memoryOnly 32 pair) (chk := fun s =>
    ansIs (fun _ => true)
      ((two .memoryOnly s (.insert ten16b (rec1 2 2 3) none) (.moreIter ten8 none false)
        (turns 3 5 200 ++ turns 0 200 0)).pool false)) (by decide +kernel)
  obtain ⟨l, hl, _⟩ := ansIs_iff.1 hc
  have hL : Returned (two .memoryOnly s (.insert ten16b (rec1 2 2 3) none) (.moreIter ten8 none false)
    (turns 3 5 200 ++ turns 0 200 0)) false (.moreIter ten8 none false) l := ⟨rfl, hl⟩
  refine ⟨s, hs, l, hL, ?_⟩
  refine concurrent_steady_partial (F := 32) (Nat.le_refl _) (Nat.le_refl _) hs (calls := fun i : Bool =>
      if i then (.insert ten16b (rec1 2 2 3) none : Call Md 32) else .moreIter ten8 none false)
    (t := []) (u := turns 3 5 200 ++ turns 0 200 0) (k := false) (mui := none) (iw := false)
    (fun h => by cases h) (by decide)
    ⟨rec1 1 1 7, rfl, fun m hm => (by cases hm), rfl, rfl, rfl⟩ ?_ (by simp)
    (x := .moreIter ten8 none false) (b := l) hL rfl ?_
  · rintro i _ (⟨r, tbi, h, hm⟩ | ⟨tm, rs, ⟨h, _⟩ | ⟨h, _⟩⟩ | h | h) <;> cases i <;> cases h
    revert hm; decide
  · refine ⟨by decide, by decide, ?_⟩
    intro i _ q r tbi hc _ _
    cases i with
    | false => cases hc
    | true =>
      cases hc
      exact ⟨ten16b, 1#32, .inl ⟨rec1 1 1 7, none, by simp [pair], rfl⟩, by decide, fun _ _ => rfl⟩

end

end Rotonda.Props
