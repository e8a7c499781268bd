import Verif.Proofs.ScanRun
import Verif.Proofs.DiskQuery

/-!
# Scans do not panic and end

`Fails d S p k m`: if `S j` is the state before the `j`-th step of a run, `p` can have come
to a panic (`d = false`) or have run out of fuel (`d = true`) by actions at steps from `k` on
and up to `m`.
-/

namespace Rotonda

open Prog Spec

namespace Prog
variable {σ α β : Type}

def Fails (d : Bool) (S : ℕ → σ) : Prog σ α → ℕ → ℕ → Prop
  | .ret _, _, _ => False
  | .act f k, n, m => ∃ j, n ≤ j ∧ Fails d S (k (f (S j)).1) j m
  | .panic, n, m => d = false ∧ n ≤ m
  | .diverge, n, m => d = true ∧ n ≤ m

variable {d : Bool} {S : ℕ → σ}

theorem Fails.le {p : Prog σ α} {n m : ℕ} (h : Fails d S p n m) : n ≤ m := by
  induction p generalizing n with
  | ret b => exact h.elim
  | act f k ih => obtain ⟨j, hj, h⟩ := h; exact hj.trans (ih _ h)
  | panic => exact h.2
  | diverge => exact h.2

theorem Fails.mono {p : Prog σ α} {n m n' m' : ℕ} (hn : n' ≤ n) (hm : m ≤ m')
    (h : Fails d S p n m) : Fails d S p n' m' := by
  induction p generalizing n n' with
  | ret b => exact h
  | act f k ih => obtain ⟨j, hj, h⟩ := h; exact ⟨j, hn.trans hj, ih _ (Nat.le_refl j) h⟩
  | panic => exact ⟨h.1, hn.trans (h.2.trans hm)⟩
  | diverge => exact ⟨h.1, hn.trans (h.2.trans hm)⟩

theorem fails_bind {p : Prog σ α} {k : α → Prog σ β} {n m : ℕ} (h : Fails d S (p >>= k) n m) :
    Fails d S p n m ∨ ∃ a l, Reads S p n a l ∧ Fails d S (k a) l m := by
  induction p generalizing n with
  | ret a => exact .inr ⟨a, n, ⟨rfl, Nat.le_refl n⟩, h⟩
  | act f g ih =>
    obtain ⟨j, hj, h⟩ := h
    rcases ih _ h with h | ⟨a, l, h1, h2⟩
    · exact .inl ⟨j, hj, h⟩
    · exact .inr ⟨a, l, ⟨j, hj, h1⟩, h2⟩
  | panic => exact .inl h
  | diverge => exact .inl h

/-- A reader that does not fail whatever the others do does not fail along a run. -/
theorem Fails.wp {R : σ → σ → Prop} {D : Prop} {p : Prog σ α} {Q : α → σ → Prop} {n m : ℕ}
    (hR : ∀ i j, n ≤ i → i ≤ j → j ≤ m → R (S i) (S j)) (hw : wp R RO D p Q (S n))
    (h : Fails d S p n m) : d = true ∧ D := by
  induction p generalizing n with
  | ret b => exact h.elim
  | act f k ih =>
    obtain ⟨j, hj, h⟩ := h
    obtain ⟨h1, h2⟩ := hw (S j) (hR n j (Nat.le_refl n) hj h.le)
    rw [h1] at h2
    exact ih _ (fun i i' hi => hR i i' (hj.trans hi)) h2 h
  | panic => exact hw.elim
  | diverge => exact ⟨h.1, hw⟩

theorem fails_read {f : σ → α} {n m : ℕ} : ¬ Fails d S (Prog.read f) n m := fun ⟨_, _, h⟩ => h

theorem fails_pure {n m : ℕ} {a : α} : ¬ Fails d S (pure a) n m := fun h => h

theorem fails_ofOption {o : Option α} {n m : ℕ} (h : Fails d S (Prog.ofOption o) n m) :
    d = false ∧ o = none ∧ n ≤ m := by
  cases o with
  | none => exact ⟨h.1, rfl, h.2⟩
  | some b => exact h.elim

end Prog

section
variable {σ : Type} {ι : Type} [DecidableEq ι] {A : ι → Type}

theorem Conf.fails (c : Conf σ ι A) (t : List ι) {i : ι} {n : ℕ} (hn : n ≤ t.length) (d : Bool)
    (ha : (c.at t n).pool i = if d then .diverge else .panic) :
    ∀ k, k ≤ n → Fails d (fun j => (c.at t j).st) ((c.at t k).pool i) k n := by
  have key : ∀ e k, k + e = n → Fails d (fun j => (c.at t j).st) ((c.at t k).pool i) k n := by
    intro e
    induction e with
    | zero =>
      intro k hk
      obtain rfl : k = n := by omega
      rw [ha]
      cases d
      · exact ⟨rfl, Nat.le_refl _⟩
      · exact ⟨rfl, Nat.le_refl _⟩
    | succ e ih =>
      intro k hk
      have h := ih (k + 1) (by omega)
      rw [Conf.at_succ c t (by omega : k < t.length)] at h
      by_cases hi : t[k] = i
      · rw [hi] at h
        cases hp : (c.at t k).pool i with
        | act f g =>
          rw [Conf.step_act hp] at h
          simp only [Function.update_self] at h
          exact ⟨k, Nat.le_refl k, h.mono (by omega) (Nat.le_refl n)⟩
        | ret b => rw [Conf.step_ret hp, hp] at h; exact h.elim
        | panic => rw [Conf.step_panic hp, hp] at h; exact h.mono (by omega) (Nat.le_refl n)
        | diverge => rw [Conf.step_diverge hp, hp] at h; exact h.mono (by omega) (Nat.le_refl n)
      · rw [Conf.step_other _ (Ne.symm hi)] at h
        exact h.mono (by omega) (Nat.le_refl n)
  exact fun k hk => key (n - k) k (by omega)

end

variable {M : Type} {W : Nat} {S : ℕ → Rib M W}

/-- No more entries are read than are there at the end. -/
theorem ScanRun.length_le {S : ℕ → Lsm} {pre : Bytes} {last : Option Bytes} {k m : ℕ} {es : Lsm}
    {fin : Bool} (h : ScanRun S pre last k es fin m) (hg : Grown S k m) : es.length ≤ (S m).length := by
  obtain ⟨h1, h2, _⟩ := h.spec hg
  have hnd : (es.map Prod.fst).Nodup := by
    rw [List.nodup_iff_pairwise_ne, List.pairwise_map]
    exact h1.imp fun {a b} hab he => by rw [he, bytesLt_irrefl] at hab; cases hab
  have hsub : ∀ x ∈ es.map Prod.fst, x ∈ (S m).map Prod.fst := by
    intro x hx
    obtain ⟨y, hy, rfl⟩ := List.mem_map.1 hx
    obtain ⟨_, _, j, h3, h4, h5⟩ := h2 y hy
    exact hg.keys j m h3 h4 (Nat.le_refl m) _ (List.mem_map_of_mem h5)
  have := (List.subperm_of_subset hnd hsub).length_le
  rwa [List.length_map, List.length_map] at this

theorem fails_scanSteps {d : Bool} {pre : Bytes} {fuel : Nat} {last : Option Bytes} {k m : ℕ}
    (h : Fails d S (scanSteps pre fuel last) k m) :
    d = true ∧ ∃ es, es.length = fuel ∧ ScanRun (lsms S) pre last k es false m := by
  induction fuel generalizing last k with
  | zero => exact ⟨h.1, [], rfl, .stop h.2⟩
  | succ fuel ih =>
    unfold scanSteps at h
    rcases fails_bind h with h | ⟨o, l, h1, h2⟩
    · exact (fails_read h).elim
    obtain ⟨j, hj, hl, e⟩ := reads_read.1 h1
    cases o with
    | none => exact h2.elim
    | some kv =>
      rcases fails_bind h2 with h2 | ⟨_, _, _, h2⟩
      · obtain ⟨hd, es, h3, h4⟩ := ih h2
        exact ⟨hd, kv :: es, by rw [List.length_cons, h3], .step hj e (h4.mono hl (Nat.le_refl m))⟩
      · exact h2.elim

theorem fails_treeNext {d : Bool} {pos : LsmPos} {k m : ℕ} : ¬ Fails d S (treeNext pos) k m := by
  intro h
  cases pos with
  | none => exact h
  | some last =>
    unfold treeNext at h
    rcases fails_bind h with h | ⟨o, l, h1, h2⟩
    · exact fails_read h
    cases o <;> exact h2

/-- Running out of fuel in a group. -/
theorem fails_groupSteps {d : Bool} {outer : PrefixId W} {fuel : Nat} {pos : LsmPos} {k m : ℕ}
    (h : Fails d S (groupSteps outer fuel pos) k m) :
    d = true ∧ ∃ ds pos', Consumes S pos k ds pos' m ∧ fuel ≤ ds.length := by
  induction fuel generalizing pos k with
  | zero => exact ⟨h.1, [], pos, .refl _ h.2, Nat.zero_le _⟩
  | succ fuel ih =>
    unfold groupSteps at h
    rcases fails_bind h with h | ⟨⟨o, p⟩, l, h1, h2⟩
    · exact (fails_treeNext h).elim
    obtain ⟨hp, hc⟩ := reads_treeNext h1
    cases o with
    | none => exact h2.elim
    | some kv =>
      have hrec : Fails d S (groupSteps outer fuel p) l m := by
        dsimp only at h2
        repeat' split at h2
        all_goals first
          | exact h2.elim
          | (rcases fails_bind h2 with h2 | ⟨_, _, _, h2⟩
             · exact h2
             · exact h2.elim)
      obtain ⟨hd, ds, pos', h3, h4⟩ := ih hrec
      exact ⟨hd, kv :: ds, pos', hc.trans h3, by rw [List.length_cons]; omega⟩

theorem fails_groupFrom {d : Bool} {fuel : Nat} {b : Bytes} {pos : LsmPos} {k m : ℕ}
    (h : Fails d S (groupFrom fuel b pos) k m) :
    d = true ∧ ∃ ds pos', Consumes S pos k ds pos' m ∧ fuel ≤ ds.length := by
  unfold groupFrom at h
  split at h
  · exact h.elim
  · rcases fails_bind h with h | ⟨_, _, _, h⟩
    · exact fails_groupSteps h
    · exact h.elim

theorem fails_persistNext {d : Bool} {fuel : Nat} {cur : Option Bytes} {pos : LsmPos} {k m : ℕ}
    (h : Fails d S (persistNextSteps fuel cur pos) k m) :
    d = true ∧ ∃ ds pos', Consumes S pos k ds pos' m ∧ fuel ≤ ds.length := by
  unfold persistNextSteps at h
  cases cur with
  | some b =>
    rcases fails_bind h with h | ⟨_, _, _, h⟩
    · exact fails_groupFrom h
    · exact h.elim
  | none =>
    rcases fails_bind h with h | ⟨⟨o, p⟩, l, h1, h2⟩
    · exact (fails_treeNext h).elim
    obtain ⟨hp, hc⟩ := reads_treeNext h1
    cases o with
    | none => exact h2.elim
    | some kv =>
      rcases fails_bind h2 with h2 | ⟨_, _, _, h2⟩
      · obtain ⟨hd, ds, pos', h3, h4⟩ := fails_groupFrom h2
        exact ⟨hd, kv :: ds, pos', hc.trans h3, by rw [List.length_cons]; omega⟩
      · exact h2.elim

/-- Every item takes an entry, one that was kept or one that is read. -/
theorem persistIterNext_length {cur cur' : Option Bytes} {ds es : Lsm} {g : List (FatalResult Bytes)}
    (h : persistIterNext W cur (ds ++ es) = some (g, cur', es)) :
    1 + cur'.toList.length ≤ ds.length + cur.toList.length := by
  have hg : ∀ outer (l : Lsm), (persistGroup W outer l).2.1.toList.length +
      (persistGroup W outer l).2.2.length ≤ l.length := by
    intro outer l
    induction l with
    | nil => simp [persistGroup]
    | cons kv l ih =>
      rw [persistGroup]
      split
      · split
        · simp only [List.length_cons]; omega
        · simp only [Option.toList_some, List.length_cons, List.length_nil]; omega
      · simp only [List.length_cons]; omega
  have hG : ∀ b (l : Lsm), (groupOf W b l).2.1.toList.length + (groupOf W b l).2.2.length ≤ l.length := by
    intro b l
    unfold groupOf
    split
    · simp
    · exact hg _ _
  cases cur with
  | some b =>
    have h' : groupOf W b (ds ++ es) = (g, cur', es) := Option.some.inj h
    have := hG b (ds ++ es)
    rw [h', List.length_append] at this
    simp only [Option.toList_some, List.length_singleton]
    simp only at this
    omega
  | none =>
    cases hd : ds ++ es with
    | nil => rw [hd] at h; cases h
    | cons kv l =>
      rw [hd] at h
      have h' : groupOf W (kv.1 ++ kv.2) l = (g, cur', es) := Option.some.inj h
      have := hG (kv.1 ++ kv.2) l
      rw [h'] at this
      have hl := congrArg List.length hd
      rw [List.length_append, List.length_cons] at hl
      simp only [Option.toList_none, List.length_nil]
      simp only at this
      omega

variable [Meta M]

/-- An iteration that fails: for lack of fuel after reading many entries, or because of a
prefix that is not valid. -/
theorem fails_persistItems {d : Bool} {f0 fuel : Nat} {n : Option Nat} {cur : Option Bytes}
    {pos : LsmPos} {k m : ℕ} (h : Fails d S (persistItems (M := M) f0 fuel n cur pos) k m) :
    ∃ ds pos', Consumes S pos k ds pos' m ∧
      (d = true ∧ (f0 ≤ ds.length ∨ fuel ≤ ds.length + cur.toList.length) ∨
       d = false ∧ ∀ es, pos'.Left es → ∀ big gs,
        persistIterCollect W big cur (ds ++ es) = some gs →
        groupsToPrefix (gs.map (persistGroupRecord (M := M) W)) = none) := by
  induction fuel generalizing n cur pos k with
  | zero =>
    have : Fails d S (.diverge : Prog (Rib M W) (List (FatalResult (PrefixRecord M W)))) k m := by
      unfold persistItems at h
      split at h
      · exact h.elim
      · exact h
      · rename_i h0 _; cases h0
    exact ⟨[], pos, .refl _ this.2, .inl ⟨this.1, .inr (Nat.zero_le _)⟩⟩
  | succ fuel ih =>
    by_cases hn : n = some 0
    · subst hn
      exact h.elim
    rw [persistItems_succ _ _ hn] at h
    rcases fails_bind h with h | ⟨o, l, h1, h2⟩
    · obtain ⟨hd, ds, pos', h3, h4⟩ := fails_persistNext h
      exact ⟨ds, pos', h3, .inl ⟨hd, .inl h4⟩⟩
    have hN := reads_persistNext h1
    clear h1
    cases o with
    | none => exact h2.elim
    | some y =>
      obtain ⟨g, cur', pos'⟩ := y
      obtain ⟨ds, h3, h4⟩ := hN
      rcases fails_bind h2 with h2 | ⟨x, l2, h5, h6⟩
      · -- the item itself
        unfold persistItem at h2
        cases hg : persistGroupRecord (M := M) W g with
        | error e => rw [hg] at h2; exact h2.elim
        | ok y =>
          obtain ⟨p, rs⟩ := y
          rw [hg] at h2
          rcases fails_bind h2 with h2 | ⟨_, _, _, h2⟩
          · obtain ⟨hd, hp, hm⟩ := fails_ofOption h2
            refine ⟨ds, pos', h3.mono hm, .inr ⟨hd, fun es he big gs hc => ?_⟩⟩
            cases big with
            | zero => cases hc
            | succ big =>
              unfold persistIterCollect at hc
              rw [h4 _ he] at hc
              obtain ⟨gs', hc', rfl⟩ := Option.map_eq_some_iff.1 hc
              simp [groupsToPrefix, hg, hp]
          · exact h2.elim
      · rcases fails_bind h6 with h6 | ⟨_, _, _, h6⟩
        · obtain ⟨h5, _⟩ := reads_persistItem h5
          obtain ⟨ds', pos'', h9, h10⟩ := ih h6
          refine ⟨ds ++ ds', pos'', (h3.mono h5).trans h9, ?_⟩
          have hlen := fun es he => persistIterNext_length (h4 es he)
          rcases h10 with ⟨hd, h10⟩ | ⟨hd, h10⟩
          · refine .inl ⟨hd, ?_⟩
            rw [List.length_append]
            have := hlen [] fun _ => rfl
            omega
          · refine .inr ⟨hd, fun es he big gs hc => ?_⟩
            have hleft : pos'.Left (ds' ++ es) := by
              rintro rfl
              cases pos'' with
              | none => rw [he rfl]; rw [show ds' = [] from h9.2]; rfl
              | some b => exact h9.2.elim
            rw [List.append_assoc] at hc
            cases big with
            | zero => cases hc
            | succ big =>
              unfold persistIterCollect at hc
              rw [h4 _ hleft] at hc
              obtain ⟨gs', hc', rfl⟩ := Option.map_eq_some_iff.1 hc
              have := h10 es he big gs' hc'
              rw [List.map_cons]
              cases hg : persistGroupRecord (M := M) W g with
              | error e => simp [groupsToPrefix, this]
              | ok y => simp [groupsToPrefix, this]
        · exact h6.elim

theorem fails_persistIter [Fam W] {st : Strategy} {d : Bool} {fuel : Nat} {n : Option Nat} {k m : ℕ}
    (hg : Grown (lsms S) k m) (hrec : ∀ j, k ≤ j → j ≤ m → Records W (S j).lsm)
    (h : Fails d S (ribPersistIterSteps (M := M) st fuel n) k m) :
    d = true ∧ fuel ≤ (S m).lsm.length := by
  have h : Fails d S (persistItems (M := M) fuel fuel n none (some none)) k m := by
    cases st <;> first | exact h | exact h.elim
  obtain ⟨ds, pos', h1, h2⟩ := fails_persistItems h
  have hm := h1.1
  obtain ⟨es, he, hr⟩ : ∃ es, pos'.Left es ∧ ScanRun (lsms S) [] none k (ds ++ es) true m := by
    cases pos' with
    | none => exact ⟨[], fun _ => rfl, by rw [List.append_nil]; exact h1.2⟩
    | some last =>
      exact ⟨_, fun c => (by cases c), h1.2 _ _ _ (scanRun_at (hg.sorted m hm (Nat.le_refl m)) last)⟩
  have hG := hr.gathered hg
  have hlen := hr.length_le hg
  rcases h2 with ⟨hd, h2⟩ | ⟨hd, h2⟩
  · refine ⟨hd, ?_⟩
    rw [List.length_append] at hlen
    simp only [Option.toList_none, List.length_nil] at h2
    change fuel ≤ (lsms S m).length
    omega
  · have hR : Records W (ds ++ es) := by
      intro x hx
      obtain ⟨j, h3, h4, h5⟩ := hG.each x.1 (by simp)
      exact hrec j h3 h4 x ((h5 x.2).1 hx)
    obtain ⟨gs, hgs, l, hl⟩ := persistIter_some (M := M) hR
    rw [h2 es he _ gs hgs] at hl
    cases hl

theorem fails_getValueSteps [Fam W] {d : Bool} {fuel : Nat} {p : Prefix W} {mui : Option Mui} {iw : Bool}
    {k m : ℕ} (hg : Grown (lsms S) k m) (hrec : ∀ j, k ≤ j → j ≤ m → Records W (S j).lsm)
    (h : Fails d S (ribGetValueSteps (M := M) fuel p.id mui iw) k m) :
    d = true ∧ fuel ≤ (S m).lsm.length := by
  unfold ribGetValueSteps at h
  rcases fails_bind h with h | ⟨b, l, h1, h2⟩
  · obtain ⟨_, _, h⟩ := h
    exact h.elim
  have e1 := h1.le
  rcases fails_bind h2 with h2 | ⟨es, l2, h3, h4⟩
  · have e2 := h2.le
    obtain ⟨hd, es, hl, hr⟩ := fails_scanSteps h2
    exact ⟨hd, hl ▸ hr.length_le (hg.sub e1 (Nat.le_refl m))⟩
  have e3 := h3.le
  have hG : Gathered (lsms S) (scanKey p.id mui) l l2 es :=
    (reads_scanSteps (show Reads S (scanSteps (scanKey p.id mui) fuel none) l es l2 from by
      cases mui <;> exact h3)).gathered (hg.sub e1 h4.le)
  have hR : Records W es := by
    intro x hx
    obtain ⟨j, h5, h6, h7⟩ := hG.each x.1 (hG.range x hx)
    exact hrec j (by omega) (h6.trans h4.le) x ((h7 x.2).1 hx)
  obtain ⟨o, ho, _⟩ := po_value (M := M) hR p.clean mui iw b
  rw [recordsOf_eq hG.range, ho] at h4
  rcases fails_bind h4 with h4 | ⟨o', l3, _, h5⟩
  · exact h4.elim
  · cases o' with
    | none => exact h5.elim
    | some l => dsimp only at h5; split at h5 <;> exact h5.elim

/-! ## Queries over several prefixes -/

omit [Meta M] in
theorem Prog.fails_bind_left {σ α β : Type} {S : ℕ → σ} {d : Bool} {p : Prog σ α} {k : α → Prog σ β}
    {n m : ℕ} (h : Fails d S p n m) : Fails d S (p >>= k) n m := by
  induction p generalizing n with
  | ret a => exact h.elim
  | act f g ih => obtain ⟨j, hj, h⟩ := h; exact ⟨j, hj, ih _ h⟩
  | panic => exact h
  | diverge => exact h

omit [Meta M] in
theorem Prog.fails_bind_right {σ α β : Type} {S : ℕ → σ} {d : Bool} {p : Prog σ α} {k : α → Prog σ β}
    {n l m : ℕ} {a : α} (h1 : Reads S p n a l) (h2 : Fails d S (k a) l m) : Fails d S (p >>= k) n m := by
  induction p generalizing n with
  | ret b => obtain ⟨rfl, hn⟩ := h1; exact h2.mono hn (Nat.le_refl m)
  | act f g ih => obtain ⟨j, hj, h1⟩ := h1; exact ⟨j, hj, ih _ h1⟩
  | panic => exact h1.elim
  | diverge => exact h1.elim

omit [Meta M] in
/-- An iteration fails in the tree, for an item that is not as expected, or in an item. -/
theorem fails_lazily {σ β : Type} {next : Nat → σ → Prog (NSlots W) (Option (PrefixId W × σ))}
    {body : PrefixId W → Prog (Rib M W) β} (G : PrefixId W → Prop) [DecidablePred G] {d : Bool} :
    ∀ (fuel : Nat) (st : σ) (k m : ℕ), Fails d S (lazily next body fuel st) k m →
    (∃ d', Fails d' S (lazily next (fun q => if G q then .ret q else .panic) fuel st) k m) ∨
      ∃ q k', k ≤ k' ∧ G q ∧ Fails d S (body q) k' m := by
  intro fuel
  induction fuel with
  | zero => exact fun st k m h => .inl ⟨d, h⟩
  | succ fuel ih =>
    intro st k m h
    unfold lazily at h ⊢
    rcases fails_bind h with h | ⟨o, l, h1, h2⟩
    · exact .inl ⟨d, fails_bind_left h⟩
    cases o with
    | none => exact h2.elim
    | some x =>
      obtain ⟨p, st'⟩ := x
      have e1 := h1.le
      have e2 := h2.le
      by_cases hp : G p
      · rcases fails_bind h2 with h2 | ⟨b, l1, h3, h4⟩
        · exact .inr ⟨p, l, e1, hp, h2⟩
        rcases fails_bind h4 with h4 | ⟨_, _, _, h4⟩
        · have e3 := h3.le
          rcases ih _ _ _ h4 with ⟨d', h5⟩ | ⟨q, k', h5, h6⟩
          · refine .inl ⟨d', fails_bind_right h1 ?_⟩
            dsimp only
            rw [if_pos hp]
            exact fails_bind_right ⟨rfl, e3⟩ (fails_bind_left h5)
          · exact .inr ⟨q, k', by omega, h6⟩
        · exact h4.elim
      · refine .inl ⟨false, fails_bind_right h1 ?_⟩
        dsimp only
        rw [if_neg hp]
        exact ⟨rfl, e2⟩

section
variable [Fam W] {T : PrefixId W → Mui → Prop} {d : Bool} {k m : ℕ}

omit [Meta M] in
theorem fails_eachMore {β : Type} {body : PrefixId W → Prog (Rib M W) β} {fuel : Nat}
    (hf : iterFuel W ≤ fuel) {p : PrefixId W} (hp : p.Clean) {C : Prop} (hs : Span T p C S k m)
    (h : Fails d S (eachMore fuel p body) k m) :
    ∃ (q : Prefix W) (k' : ℕ), k ≤ k' ∧ Fails d S (body q.id) k' m := by
  classical
  have key : (∃ d', Fails d' S (eachMore fuel p (fun q => if q.Clean then .ret q else .panic)) k m) ∨
      ∃ q k', k ≤ k' ∧ q.Clean ∧ Fails d S (body q) k' m := by
    unfold eachMore at h ⊢
    rcases fails_bind h with h | ⟨o, l, h1, h2⟩
    · exact .inl ⟨d, fails_bind_left h⟩
    cases o with
    | none => exact h2.elim
    | some st =>
      rcases fails_lazily PrefixId.Clean _ _ _ _ h2 with ⟨d', h3⟩ | ⟨q, k', h3, h4⟩
      · exact .inl ⟨d', fails_bind_right h1 h3⟩
      · exact .inr ⟨q, k', h1.le.trans h3, h4⟩
  rcases key with ⟨d', h'⟩ | ⟨q, k', h1, h2, h3⟩
  · exact (h'.wp hs.rely (wp_eachMore (D := False) (RunRely.during T p C)
      (body := fun q => if q.Clean then .ret q else .panic) (B := fun _ _ => True)
      (fun q s hq _ _ _ => by rw [if_pos hq]; trivial) hp (.inr hf) (hs.live h.le))).2.elim
  · obtain ⟨q, rfl⟩ := exists_prefix h2
    exact ⟨q, k', h1, h3⟩

omit [Meta M] in
theorem fails_eachLess {β : Type} {body : PrefixId W → Prog (Rib M W) β}
    {p : PrefixId W} (hp : p.Clean) {C : Prop} {w : PrefixId W} (hs : Span T w C S k m)
    (h : Fails d S (eachLess p body) k m) :
    ∃ (q : Prefix W) (k' : ℕ), k ≤ k' ∧ Fails d S (body q.id) k' m := by
  classical
  rcases fails_lazily PrefixId.Clean _ _ _ _ h with ⟨d', h'⟩ | ⟨q, k', h1, h2, h3⟩
  · exact (Fails.wp hs.grow (wp_eachLess (D := False) (fun _ _ h => h) hp
      (body := fun q => if q.Clean then .ret q else .panic) (B := fun _ _ => True)
      (fun q s hq _ _ _ => by rw [if_pos hq]; trivial) (hs.sane k (Nat.le_refl k) h.le)) h').2.elim
  · obtain ⟨q, rfl⟩ := exists_prefix h2
    exact ⟨q, k', h1, h3⟩

omit [Meta M] [Fam W] in
theorem fails_toPrefix (q : Prefix W) {n n' : ℕ} :
    ¬ Fails d S (Prog.ofOption q.id.toPrefix : Prog (Rib M W) _) n n' := by
  intro h
  have := (fails_ofOption h).2.1
  rw [toPrefix_id] at this
  cases this

variable {gv : GetValue M W} {E : Prop}
  (hgv : ∀ (p : Prefix W) k', k ≤ k' → Fails d S (gv p.id) k' m → E)
include hgv

omit [Meta M] [Fam W] in
theorem fails_gvItem {q : Prefix W} {k' : ℕ} (hk : k ≤ k') (h : Fails d S (gvItem gv q.id) k' m) : E := by
  unfold gvItem at h
  rcases fails_bind h with h | ⟨v, l, h1, h2⟩
  · exact hgv q k' hk h
  rcases fails_bind h2 with h2 | ⟨x, l2, h3, h4⟩
  · exact (fails_toPrefix q h2).elim
  · split at h4 <;> exact h4.elim

omit [Meta M] [Fam W] in
theorem fails_gvPfxItem {q : Prefix W} {k' : ℕ} (hk : k ≤ k') (h : Fails d S (gvPfxItem gv q.id) k' m) :
    E := by
  unfold gvPfxItem at h
  rcases fails_bind h with h | ⟨v, l, h1, h2⟩
  · exact (fails_toPrefix q h).elim
  rcases fails_bind h2 with h2 | ⟨x, l2, h3, h4⟩
  · exact hgv q l (hk.trans h1.le) h2
  · split at h4 <;> exact h4.elim

omit [Meta M] [Fam W] in
theorem fails_gvSameItem {p q : Prefix W} {k' : ℕ} (hk : k ≤ k')
    (h : Fails d S (gvSameItem gv p.id q.id) k' m) : E := by
  unfold gvSameItem at h
  rcases fails_bind h with h | ⟨v, l, h1, h2⟩
  · exact hgv p k' hk h
  rcases fails_bind h2 with h2 | ⟨x, l2, h3, h4⟩
  · exact (fails_toPrefix q h2).elim
  · split at h4 <;> exact h4.elim

omit [Meta M] [Fam W] in
theorem fails_gvValues {ps : List (PrefixId W)} (hps : ∀ q ∈ ps, q.Clean) {k' : ℕ} (hk : k ≤ k')
    (h : Fails d S (gvValues gv ps) k' m) : E := by
  induction ps generalizing k' with
  | nil => exact h.elim
  | cons q ps ih =>
    obtain ⟨q, rfl⟩ := exists_prefix (hps q (by simp))
    unfold gvValues at h
    rcases fails_bind h with h | ⟨v, l, h1, h2⟩
    · exact hgv q k' hk h
    rcases fails_bind h2 with h2 | ⟨x, l2, h3, h4⟩
    · exact (fails_toPrefix q h2).elim
    rcases fails_bind h4 with h4 | ⟨rest, l3, h5, h6⟩
    · exact ih (fun q hq => hps q (List.mem_cons_of_mem _ hq)) (hk.trans (h1.le.trans h3.le)) h4
    · split at h6 <;> exact h6.elim

omit [Meta M] [Fam W] in
theorem fails_gvFill {o : Option (List (PrefixId W))} (ho : ∀ q ∈ o.getD [], q.Clean) {k' : ℕ} (hk : k ≤ k')
    (h : Fails d S (gvFill gv o) k' m) : E := by
  cases o with
  | none => exact h.elim
  | some ps =>
    unfold gvFill at h
    rcases fails_bind h with h | ⟨v, l, h1, h2⟩
    · exact fails_gvValues hgv ho hk h
    · split at h2 <;> exact h2.elim

omit [Meta M] [Fam W] in
theorem fails_gvFound {ty : MatchType} {o : Option (PrefixId W)} (ho : ∀ q ∈ o, q.Clean) {k' : ℕ}
    (hk : k ≤ k') (h : Fails d S (gvFound gv ty o) k' m) : E := by
  cases o with
  | none => exact h.elim
  | some q =>
    obtain ⟨q, rfl⟩ := exists_prefix (ho q rfl)
    unfold gvFound at h
    rcases fails_bind h with h | ⟨v, l, h1, h2⟩
    · exact (fails_toPrefix q h).elim
    rcases fails_bind h2 with h2 | ⟨x, l2, h3, h4⟩
    · exact hgv q l (hk.trans h1.le) h2
    · split at h4 <;> exact h4.elim

variable (hsp : ∀ p : Prefix W, Span T p.id False S k m)
include hsp

theorem fails_gvLess {p : Prefix W} (h : Fails d S (gvLessIter gv p.id) k m) : E := by
  unfold gvLessIter at h
  rcases fails_bind h with h | ⟨_, _, _, h2⟩
  · obtain ⟨q, k', h1, h2⟩ := fails_eachLess p.clean (hsp p) h
    exact fails_gvItem hgv h1 h2
  · exact h2.elim

theorem fails_gvMoreIter {fuel : Nat} (hf : iterFuel W ≤ fuel) {p : Prefix W} {k' : ℕ} (hk : k ≤ k')
    (h : Fails d S (gvMoreIter gv fuel p.id) k' m) : E := by
  unfold gvMoreIter at h
  rcases fails_bind h with h | ⟨_, _, _, h2⟩
  · obtain ⟨q, k', h1, h2⟩ := fails_eachMore hf p.clean ((hsp p).sub hk (Nat.le_refl m)) h
    exact fails_gvItem hgv (hk.trans h1) h2
  · exact h2.elim

theorem fails_gvMore {fuel : Nat} (hf : iterFuel W ≤ fuel) {p : Prefix W} {mui : Option Mui} {iw : Bool}
    {k' : ℕ} (hk : k ≤ k') (h : Fails d S (gvMoreChecked gv fuel p.id mui iw) k' m) : E := by
  unfold gvMoreChecked at h
  cases mui with
  | none => exact fails_gvMoreIter hgv hsp hf hk h
  | some mu =>
    cases iw with
    | true => exact fails_gvMoreIter hgv hsp hf hk h
    | false =>
      simp only [if_true] at h
      rcases fails_bind h with h | ⟨b, l, h1, h2⟩
      · obtain ⟨_, _, h⟩ := h
        exact h.elim
      · cases b with
        | true => exact h2.elim
        | false => exact fails_gvMoreIter hgv hsp hf (hk.trans h1.le) h2

theorem fails_gvForMui {fuel : Nat} (hf : iterFuel W ≤ fuel) {mu : Mui} {iw : Bool}
    (h : Fails d S (gvForMui gv fuel mu iw) k m) : E := by
  unfold gvForMui at h
  rcases fails_bind h with h | ⟨b, l, h1, h2⟩
  · obtain ⟨_, _, h⟩ := h
    exact h.elim
  · split at h2
    · exact h2.elim
    · exact fails_gvMore hgv hsp hf (p := Prefix.root W) h1.le h2

theorem fails_gvFromCommon {p : Prefix W} {mui : Option Mui}
    {walk : Prog (Rib M W) (List (FatalResult (Option (PrefixRecord M W))))}
    (hw : ∀ k', k ≤ k' → Fails d S walk k' m → E) (h : Fails d S (gvFromCommon gv p.id mui walk) k m) : E := by
  unfold gvFromCommon at h
  rcases fails_bind h with h | ⟨c, l1, h1, h2⟩
  · exact (h.wp (hsp p).grow (wp_ribContains (D := False) (fun _ _ h => h) p.clean mui
      ((hsp p).sane k (Nat.le_refl k) h.le))).2.elim
  have e1 := h1.le
  have hend : ∀ (pfx : Option (Prefix W)) (l2 : ℕ), k ≤ l2 → Fails d S (do
      match ← gv p.id with
      | .error e => return .error e
      | .ok r =>
        let l ← walk
        match collectFatalOption l with
        | .error e => return .error e
        | .ok set => return (.ok (pfx, r.getD [], set) : FatalResult _)) l2 m → E := by
    intro pfx l2 hl2 h4
    rcases fails_bind h4 with h4 | ⟨v, l3, h5, h6⟩
    · exact hgv p l2 hl2 h4
    · cases v with
      | error e => exact h6.elim
      | ok r =>
        rcases fails_bind h6 with h6 | ⟨l, l4, h7, h8⟩
        · exact hw l3 (hl2.trans h5.le) h6
        · split at h8 <;> exact h8.elim
  cases c with
  | false =>
    simp only [if_true] at h2
    rcases fails_bind h2 with h2 | ⟨q, l2, h3, h4⟩
    · rcases fails_bind h2 with h2 | ⟨_, _, _, h2⟩
      · exact (fails_toPrefix p h2).elim
      · exact h2.elim
    · exact hend q l2 (e1.trans h3.le) h4
  | true => exact hend none l1 e1 h2

theorem fails_gvMoreFrom {fuel : Nat} (hf : iterFuel W ≤ fuel) {p : Prefix W} {mui : Option Mui}
    (h : Fails d S (gvMoreFrom gv fuel p.id mui) k m) : E := by
  unfold gvMoreFrom at h
  rcases fails_bind h with h | ⟨r, _, _, h2⟩
  · refine fails_gvFromCommon hgv hsp (fun k' hk h => ?_) h
    obtain ⟨q, k2, h1, h2⟩ := fails_eachMore hf p.clean ((hsp p).sub hk (Nat.le_refl m)) h
    exact fails_gvSameItem hgv (hk.trans h1) h2
  · split at h2 <;> exact h2.elim

theorem fails_gvLessFrom {p : Prefix W} {mui : Option Mui}
    (h : Fails d S (gvLessFrom gv p.id mui) k m) : E := by
  unfold gvLessFrom at h
  rcases fails_bind h with h | ⟨r, _, _, h2⟩
  · refine fails_gvFromCommon hgv hsp (fun k' hk h => ?_) h
    obtain ⟨q, k2, h1, h2⟩ := fails_eachLess p.clean ((hsp p).sub hk (Nat.le_refl m)) h
    exact fails_gvSameItem hgv (hk.trans h1) h2
  · split at h2 <;> exact h2.elim

theorem fails_gvMatch {fuel : Nat} (hf : iterFuel W ≤ fuel) {p : Prefix W} {o : MatchOptions}
    (h : Fails d S (gvMatchPrefix gv fuel p.id o) k m) : E := by
  have hspan := hsp p
  have hkm := h.le
  unfold gvMatchPrefix at h
  rcases fails_bind h with h | ⟨res, l1, h1, h2⟩
  · exact (h.wp hspan.rely (wp_treeMatchPrefix (D := False) (RunRely.during _ _ _) p.clean (.inr hf) _ _ _
      (hspan.live hkm))).2.elim
  have e1 := h1.le
  have e2 := h2.le
  obtain ⟨l, f1, f2, _, _, hfound, hless, hmoreT⟩ := h1.wp (hspan.sub (Nat.le_refl k) e2).rely
    (wp_treeMatchPrefix (D := False) (RunRely.during _ _ _) p.clean (.inr hf) _ _ _ (hspan.live hkm))
  have c1 : ∀ q ∈ res.prefix_, q.Clean := by
    intro q hq
    obtain ⟨lo, hlong, hpre⟩ := hfound
    rw [hpre] at hq
    split at hq
    · cases hq
    · obtain ⟨j, hj, rfl⟩ := Option.map_eq_some_iff.1 hq
      exact truncateTo_clean _ (((hlong.2 j hj).2.1).trans p.clean.1)
  have c2 : ∀ q ∈ res.moreSpecifics.getD [], q.Clean := by
    rcases hmoreT with ⟨_, h'⟩ | ⟨out, h', hy⟩
    · rw [h']; simp
    · rw [h']
      exact fun q hq => (hy.sound q (List.mem_of_mem_filter hq)).2.1
  have c3 : ∀ q ∈ res.lessSpecifics.getD [], q.Clean := by
    rcases hless with ⟨_, h'⟩ | ⟨ls, h', hL⟩
    · rw [h']; simp
    · rw [h']
      intro q hq
      obtain ⟨j, hj, rfl⟩ := List.mem_map.1 hq
      exact truncateTo_clean _ ((Nat.le_of_lt (hL.range j hj).2).trans p.clean.1)
  rcases fails_bind h2 with h2 | ⟨fnd, l2, h3, h4⟩
  · exact fails_gvFound hgv c1 e1 h2
  have e3 := h3.le
  rcases fails_bind h4 with h4 | ⟨ms, l3, h5, h6⟩
  · exact fails_gvFill hgv c2 (e1.trans e3) h4
  have e5 := h5.le
  cases ms with
  | error e => exact h6.elim
  | ok ms =>
    rcases fails_bind h6 with h6 | ⟨ls, l4, h7, h8⟩
    · exact fails_gvFill hgv c3 (e1.trans (e3.trans e5)) h6
    · cases ls <;> exact h8.elim

end

theorem fails_scan [Fam W] {T : PrefixId W → Mui → Prop} {st : Strategy} {d : Bool} {fuel fuel' : Nat}
    (hf : iterFuel W ≤ fuel) {q : ScanCall W} {k m : ℕ} (hg : Grown (lsms S) k m)
    (hgrow : ∀ i j, k ≤ i → i ≤ j → j ≤ m → Grow T (S i) (S j)) (hs : ∀ j, k ≤ j → j ≤ m → Sane T (S j))
    (h : Fails d S (q.prog (M := M) st fuel fuel') k m) : d = true ∧ fuel' ≤ (S m).lsm.length := by
  have hrec := fun j h1 h2 => (hs j h1 h2).lsm
  have hgv : ∀ mui iw (p : Prefix W) k', k ≤ k' → Fails d S (scanValue (M := M) st fuel' mui iw p.id) k' m →
      d = true ∧ fuel' ≤ (S m).lsm.length := by
    intro mui iw p k' hk h
    have key : ∀ st, Fails d S (ribGetValue (M := M) st p.id mui iw) k' m →
        d = true ∧ fuel' ≤ (S m).lsm.length := fun st h =>
      (h.wp (fun i j h1 h2 h3 => hgrow i j (hk.trans h1) h2 h3)
        (wp_ribGetValue (D := False) (fun _ _ h => h) st p.clean mui iw (hs k' hk h.le))).2.elim
    cases st with
    | persistOnly =>
      exact fails_getValueSteps (hg.sub hk (Nat.le_refl m)) (fun j h1 h2 => hrec j (hk.trans h1) h2) h
    | writeAhead => exact key .writeAhead h
    | memoryOnly => exact key .memoryOnly h
    | persistHistory => exact key .persistHistory h
  have hsp : ∀ p : Prefix W, Span T p.id False S k m := fun p => ⟨hs, hgrow, fun c => c.elim⟩
  cases q with
  | records p mui iw => exact hgv mui iw p k (Nat.le_refl k) h
  | persisted n => exact fails_persistIter hg hrec h
  | less p mui iw => exact fails_gvLess (hgv mui iw) hsp h
  | more p mui iw => exact fails_gvMore (hgv mui iw) hsp hf (Nat.le_refl k) h
  | all =>
    obtain ⟨q, k', h1, h2⟩ := fails_eachMore hf (Prefix.root W).clean (hsp (Prefix.root W)) h
    exact fails_gvPfxItem (hgv none true) h1 h2
  | forMui m iw => exact fails_gvForMui (hgv (some m) iw) hsp hf h
  | matching p o => exact fails_gvMatch (hgv o.mui o.includeWithdrawn) hsp hf h
  | moreFrom p mui iw => exact fails_gvMoreFrom (hgv mui iw) hsp hf h
  | lessFrom p mui iw => exact fails_gvLessFrom (hgv mui iw) hsp h

/-! ## Alone -/

omit [Meta M] in
theorem sorted_ext {a b : Lsm} (ha : a.Sorted) (hb : b.Sorted) (h : ∀ x, x ∈ a ↔ x ∈ b) : a = b := by
  induction a generalizing b with
  | nil =>
    cases b with
    | nil => rfl
    | cons y b => exact absurd ((h y).2 (by simp)) (by simp)
  | cons x a ih =>
    cases b with
    | nil => exact absurd ((h x).1 (by simp)) (by simp)
    | cons y b =>
      obtain ⟨ha1, ha2⟩ := List.pairwise_cons.1 ha
      obtain ⟨hb1, hb2⟩ := List.pairwise_cons.1 hb
      have hxy : x = y := by
        rcases List.mem_cons.1 ((h x).1 (by simp)) with hx | hx
        · exact hx
        rcases List.mem_cons.1 ((h y).2 (by simp)) with hy | hy
        · exact hy.symm
        have := bytesLt_trans (hb1 x hx) (ha1 y hy)
        rw [bytesLt_irrefl] at this
        cases this
      subst hxy
      congr 1
      refine ih ha2 hb2 fun z => ⟨fun hz => ?_, fun hz => ?_⟩
      · rcases List.mem_cons.1 ((h z).1 (List.mem_cons_of_mem _ hz)) with rfl | hz'
        · have := ha1 z hz
          rw [bytesLt_irrefl] at this
          cases this
        · exact hz'
      · rcases List.mem_cons.1 ((h z).2 (List.mem_cons_of_mem _ hz)) with rfl | hz'
        · have := hb1 z hz
          rw [bytesLt_irrefl] at this
          cases this
        · exact hz'

omit [Meta M] in
/-- A reader that runs alone. -/
theorem run_alone {σ α : Type} {p : Prog σ α} (hp : p.ReadOnly) (s : σ) :
    (∃ a, p.run s = .ok a s ∧ Reads (fun _ => s) p 0 a 0) ∨ ∃ d, Fails d (fun _ => s) p 0 0 := by
  induction p with
  | ret a => exact .inl ⟨a, rfl, rfl, Nat.le_refl 0⟩
  | act f k ih =>
    have h1 := hp.1 s
    rcases ih _ (hp.2 (f s).1) with ⟨a, h2, h3⟩ | ⟨d, h2⟩
    · refine .inl ⟨a, ?_, 0, Nat.le_refl 0, h3⟩
      change ((k (f s).1).run (f s).2) = _
      rw [h1]
      exact h2
    · exact .inr ⟨d, 0, Nat.le_refl 0, h2⟩
  | panic => exact .inr ⟨false, rfl, Nat.le_refl 0⟩
  | diverge => exact .inr ⟨true, rfl, Nat.le_refl 0⟩

omit [Meta M] in
theorem Gathered.eq {t : Lsm} (ht : t.Sorted) {pre : Bytes} {k n : ℕ} {es : Lsm}
    (h : Gathered (fun _ => t) pre k n es) : es = t.scan pre := by
  refine sorted_ext h.sorted (ht.scan pre) fun x => ⟨fun hx => ?_, fun hx => ?_⟩
  · have hp := h.range x hx
    obtain ⟨_, _, _, h1⟩ := h.each x.1 hp
    exact List.mem_filter.2 ⟨(h1 x.2).1 hx, hp⟩
  · obtain ⟨hx, hp⟩ := List.mem_filter.1 hx
    obtain ⟨_, _, _, h1⟩ := h.each x.1 hp
    exact (h1 x.2).2 hx

omit [Meta M] in
theorem grown_const {t : Lsm} (ht : t.Sorted) (k n : ℕ) : Grown (fun _ => t) k n :=
  ⟨fun _ _ _ => ht, fun _ _ _ _ _ _ h => h⟩

omit [Meta M] in
theorem run_scanSteps {s : Rib M W} (ht : s.lsm.Sorted) {fuel : Nat} (hf : s.lsm.length < fuel)
    (pre : Bytes) : (scanSteps pre fuel none).run s = .ok (s.lsm.scan pre) s := by
  rcases run_alone (readOnly_scanSteps pre fuel none) s with ⟨es, h1, h2⟩ | ⟨d, h⟩
  · rw [h1, ((reads_scanSteps h2).gathered (grown_const ht 0 0)).eq ht]
  · obtain ⟨_, es, hl, hr⟩ := fails_scanSteps h
    have := hr.length_le (grown_const ht 0 0)
    simp only [lsms] at this
    omega

theorem run_getValueSteps {s : Rib M W} (ht : s.lsm.Sorted) {fuel : Nat} (hf : s.lsm.length < fuel)
    (p : PrefixId W) (mui : Option Mui) (iw : Bool) :
    (ribGetValueSteps (M := M) fuel p mui iw).run s = (ribGetValue .persistOnly p mui iw).run s := by
  have h0 : ∀ b, recordsOf W (s.lsm.scan (scanKey p mui)) iw b = recordsForPrefix s.lsm p mui iw b := by
    intro b
    rw [recordsForPrefix_key]
    cases iw <;> rfl
  unfold ribGetValueSteps ribGetValue
  rw [run_bind, run_bind]
  have hb : (withdrawnMuis.zoom Rib.treeL : Prog (Rib M W) _).run s =
      .ok s.tree.wd.set s := rfl
  rw [hb]
  simp only [Outcome.andThen]
  rw [run_bind, show ∀ k, (scanSteps (M := M) (W := W) k fuel none).run s = .ok (s.lsm.scan k) s from
    run_scanSteps ht hf, run_bind]
  simp only [Outcome.andThen]
  have hread : ∀ b, (Prog.read fun r : Rib M W => recordsForPrefix r.lsm p mui iw b).run s =
      .ok (recordsForPrefix s.lsm p mui iw b) s := fun _ => rfl
  rw [hread]
  simp only
  rw [← h0]
  cases mui <;> rfl

theorem run_persistSteps [Fam W] {st : Strategy} {s : Rib M W} (ht : s.lsm.Sorted) (hr : Records W s.lsm)
    {fuel : Nat} (hf : s.lsm.length < fuel) (n : Option Nat)
    {l : List (FatalResult (PrefixRecord M W))} (hl : (ribPersistPrefixesIter st).run s = .ok l s) :
    (ribPersistIterSteps st fuel n).run s = .ok (upTo n l) s := by
  by_cases hst : st = .memoryOnly
  · subst hst
    cases hl
    cases n <;> simp [ribPersistIterSteps, upTo, pure_def, Prog.run]
  rcases run_alone (readOnly_scan (M := M) st fuel fuel (.persisted n)) s with ⟨xs, h1, h2⟩ | ⟨d, h⟩
  · obtain ⟨T, l', hG, rfl, hrun⟩ := reads_persistIter hst (grown_const ht 0 0) (fun _ _ _ => hr) h2
    have hT : T = s.lsm := by
      rw [hG.eq ht]
      exact List.filter_eq_self.2 fun x _ => by simp
    have := hrun s hT.symm
    rw [hl] at this
    cases this
    exact h1
  · obtain ⟨_, h⟩ := fails_persistIter (st := st) (grown_const ht 0 0) (fun _ _ _ => hr) h
    omega

/-! ### Queries over several prefixes -/

omit [Meta M] in
theorem run_bind_congr {σ α β : Type} {p p' : Prog σ α} {k k' : α → Prog σ β} {s : σ} (hp : p.ReadOnly)
    (h : p.run s = p'.run s) (hk : ∀ a, (k a).run s = (k' a).run s) :
    (p >>= k).run s = (p' >>= k').run s := by
  rw [run_bind, run_bind, ← h]
  cases hr : p.run s with
  | ok a s' => rw [hp.run_eq hr]; exact hk a
  | _ => rfl

section
variable {s : Rib M W} {gv gv' : GetValue M W} (hro : ∀ p, (gv p).ReadOnly)
  (hgv : ∀ p, (gv p).run s = (gv' p).run s)

theorem run_lazily_congr {σ β : Type} {next : Nat → σ → Prog (NSlots W) (Option (PrefixId W × σ))}
    {body body' : PrefixId W → Prog (Rib M W) β} (hn : ∀ n st, (next n st).ReadOnly)
    (hro : ∀ p, (body p).ReadOnly) (hb : ∀ p, (body p).run s = (body' p).run s) (fuel : Nat) : ∀ st,
    (lazily next body fuel st).run s = (lazily next body' fuel st).run s := by
  induction fuel with
  | zero => exact fun _ => rfl
  | succ fuel ih =>
    intro st
    unfold lazily
    refine run_bind_congr (ReadOnly.onNodes (hn _ _)) rfl fun o => ?_
    cases o with
    | none => rfl
    | some x =>
      exact run_bind_congr (hro _) (hb _) fun b =>
        run_bind_congr (readOnly_lazily hn hro _ _) (ih _) fun _ => rfl

theorem run_eachMore_congr {β : Type} {body body' : PrefixId W → Prog (Rib M W) β}
    (hro : ∀ p, (body p).ReadOnly) (hb : ∀ p, (body p).run s = (body' p).run s) (fuel : Nat) (p : PrefixId W) :
    (eachMore fuel p body).run s = (eachMore fuel p body').run s := by
  unfold eachMore
  refine run_bind_congr (ReadOnly.onNodes (readOnly_moreSpecificStart _)) rfl fun o => ?_
  cases o with
  | none => rfl
  | some st => exact run_lazily_congr readOnly_msNext hro hb _ _

theorem run_eachLess_congr {β : Type} {body body' : PrefixId W → Prog (Rib M W) β}
    (hro : ∀ p, (body p).ReadOnly) (hb : ∀ p, (body p).run s = (body' p).run s) (p : PrefixId W) :
    (eachLess p body).run s = (eachLess p body').run s :=
  run_lazily_congr (fun _ _ => readOnly_lsNext _ _) hro hb _ _

include hro hgv

omit [Meta M] in
theorem run_gvItem_congr (p : PrefixId W) : (gvItem gv p).run s = (gvItem gv' p).run s :=
  run_bind_congr (hro p) (hgv p) fun _ => rfl

omit [Meta M] in
theorem run_gvPfxItem_congr (p : PrefixId W) : (gvPfxItem gv p).run s = (gvPfxItem gv' p).run s :=
  run_bind_congr (readOnly_ofOption _) rfl fun _ => run_bind_congr (hro p) (hgv p) fun _ => rfl

omit [Meta M] in
theorem run_gvSameItem_congr (p q : PrefixId W) : (gvSameItem gv p q).run s = (gvSameItem gv' p q).run s :=
  run_bind_congr (hro p) (hgv p) fun _ => rfl

theorem run_gvLess_congr (p : PrefixId W) : (gvLessIter gv p).run s = (gvLessIter gv' p).run s :=
  run_bind_congr (readOnly_eachLess (readOnly_gvItem hro) _)
    (run_eachLess_congr (readOnly_gvItem hro) (run_gvItem_congr hro hgv) p) fun _ => rfl

theorem run_gvMore_congr (fuel : Nat) (p : PrefixId W) (mui : Option Mui) (iw : Bool) :
    (gvMoreChecked gv fuel p mui iw).run s = (gvMoreChecked gv' fuel p mui iw).run s := by
  have h : (gvMoreIter gv fuel p).run s = (gvMoreIter gv' fuel p).run s :=
    run_bind_congr (readOnly_eachMore (readOnly_gvItem hro) _ _)
      (run_eachMore_congr (readOnly_gvItem hro) (run_gvItem_congr hro hgv) _ _) fun _ => rfl
  cases mui with
  | none => exact h
  | some m =>
    cases iw with
    | true => exact h
    | false =>
      refine run_bind_congr (readOnly_ribMuiIsWithdrawn m) rfl fun b => ?_
      cases b with
      | true => rfl
      | false => exact h

theorem run_gvForMui_congr (fuel : Nat) (m : Mui) (iw : Bool) :
    (gvForMui gv fuel m iw).run s = (gvForMui gv' fuel m iw).run s := by
  unfold gvForMui
  refine run_bind_congr (readOnly_ribMuiIsWithdrawn _) rfl fun b => ?_
  split
  · rfl
  · exact run_gvMore_congr hro hgv _ _ _ _

theorem run_gvAll_congr (fuel : Nat) : (gvPrefixesIter gv fuel).run s = (gvPrefixesIter gv' fuel).run s :=
  run_eachMore_congr (readOnly_gvPfxItem hro) (run_gvPfxItem_congr hro hgv) _ _

omit [Meta M] in
theorem run_gvValues_congr' (ps : List (PrefixId W)) : (gvValues gv ps).run s = (gvValues gv' ps).run s := by
  induction ps with
  | nil => rfl
  | cons p ps ih =>
    unfold gvValues
    exact run_bind_congr (hro p) (hgv p) fun _ => run_bind_congr (readOnly_ofOption _) rfl fun _ =>
      run_bind_congr (readOnly_gvValues hro _) ih fun _ => rfl

omit [Meta M] in
theorem run_gvFill_congr' (o : Option (List (PrefixId W))) : (gvFill gv o).run s = (gvFill gv' o).run s := by
  cases o with
  | none => rfl
  | some ps => exact run_bind_congr (readOnly_gvValues hro _) (run_gvValues_congr' hro hgv ps) fun _ => rfl

omit [Meta M] in
theorem run_gvFound_congr' (ty : MatchType) (o : Option (PrefixId W)) :
    (gvFound gv ty o).run s = (gvFound gv' ty o).run s := by
  cases o with
  | none => rfl
  | some p =>
    exact run_bind_congr (readOnly_ofOption _) rfl fun _ => run_bind_congr (hro p) (hgv p) fun _ => rfl

omit [Meta M] in
theorem run_gvMatch_congr' (fuel : Nat) (p : PrefixId W) (o : MatchOptions) :
    (gvMatchPrefix gv fuel p o).run s = (gvMatchPrefix gv' fuel p o).run s := by
  unfold gvMatchPrefix
  refine run_bind_congr (ReadOnly.onNodes (readOnly_treeMatchPrefix _ _ _ _ _)) rfl fun res =>
    run_bind_congr (readOnly_gvFound hro _ _) (run_gvFound_congr' hro hgv _ _) fun fnd =>
    run_bind_congr (readOnly_gvFill hro _) (run_gvFill_congr' hro hgv _) fun ms => ?_
  cases ms with
  | error e => rfl
  | ok ms => exact run_bind_congr (readOnly_gvFill hro _) (run_gvFill_congr' hro hgv _) fun _ => rfl

omit [Meta M] in
theorem run_gvFromCommon_congr (p : PrefixId W) (mui : Option Mui)
    {walk walk' : Prog (Rib M W) (List (FatalResult (Option (PrefixRecord M W))))} (hw : walk.ReadOnly)
    (h : walk.run s = walk'.run s) :
    (gvFromCommon gv p mui walk).run s = (gvFromCommon gv' p mui walk').run s := by
  unfold gvFromCommon
  refine run_bind_congr (readOnly_ribContains _ _) rfl fun c => ?_
  cases c
  · refine run_bind_congr ((readOnly_ofOption _).bind fun _ => readOnly_pure _) rfl fun pfx =>
      run_bind_congr (hro p) (hgv p) fun v => ?_
    cases v with
    | error e => rfl
    | ok r => exact run_bind_congr hw h fun _ => rfl
  · refine run_bind_congr (readOnly_pure _) rfl fun pfx => run_bind_congr (hro p) (hgv p) fun v => ?_
    cases v with
    | error e => rfl
    | ok r => exact run_bind_congr hw h fun _ => rfl

theorem run_gvMoreFrom_congr (fuel : Nat) (p : PrefixId W) (mui : Option Mui) :
    (gvMoreFrom gv fuel p mui).run s = (gvMoreFrom gv' fuel p mui).run s :=
  have hw := readOnly_eachMore (readOnly_gvSameItem hro p) fuel p
  run_bind_congr (readOnly_gvFromCommon hro _ _ hw)
    (run_gvFromCommon_congr hro hgv _ _ hw
      (run_eachMore_congr (readOnly_gvSameItem hro p) (run_gvSameItem_congr hro hgv p) _ _)) fun _ => rfl

theorem run_gvLessFrom_congr (p : PrefixId W) (mui : Option Mui) :
    (gvLessFrom gv p mui).run s = (gvLessFrom gv' p mui).run s :=
  have hw := readOnly_eachLess (readOnly_gvSameItem hro p) p
  run_bind_congr (readOnly_gvFromCommon hro _ _ hw)
    (run_gvFromCommon_congr hro hgv _ _ hw
      (run_eachLess_congr (readOnly_gvSameItem hro p) (run_gvSameItem_congr hro hgv p) _)) fun _ => rfl

end

theorem run_scanValue {st : Strategy} {s : Rib M W} (ht : s.lsm.Sorted) {fuel' : Nat}
    (hf : s.lsm.length < fuel') (mui : Option Mui) (iw : Bool) (p : PrefixId W) :
    (scanValue (M := M) st fuel' mui iw p).run s = (ribGetValue st p mui iw).run s := by
  cases st with
  | persistOnly => exact run_getValueSteps ht hf p mui iw
  | _ => rfl

/-- Alone, the queries give the answers of those that read the records of a prefix at once. -/
theorem run_scan [Fam W] {st : Strategy} {s : Rib M W} (ht : s.lsm.Sorted) (hr : Records W s.lsm)
    {fuel fuel' : Nat} (hf : s.lsm.length < fuel') (q : ScanCall W) :
    (q.prog (M := M) st fuel fuel').run s = (atOnce st fuel q).run s := by
  have hro := fun mui iw => readOnly_scanValue (M := M) (W := W) st fuel' mui iw
  have hgv := fun mui iw => run_scanValue (M := M) (W := W) (st := st) ht hf mui iw
  cases q with
  | records p mui iw => exact hgv mui iw p.id
  | persisted n =>
    have key : ∃ l, (ribPersistPrefixesIter st).run s = .ok l s := by
      by_cases hst : st = .memoryOnly
      · subst hst; exact ⟨[], rfl⟩
      rcases run_alone (readOnly_scan (M := M) st fuel fuel' (.persisted none)) s with ⟨xs, h1, h2⟩ | ⟨d, h⟩
      · obtain ⟨T, l', hG, -, hrun⟩ := reads_persistIter hst (grown_const ht 0 0) (fun _ _ _ => hr) h2
        have hT : T = s.lsm := by
          rw [hG.eq ht]
          exact List.filter_eq_self.2 fun x _ => by simp
        exact ⟨l', hrun s hT.symm⟩
      · obtain ⟨_, h⟩ := fails_persistIter (st := st) (grown_const ht 0 0) (fun _ _ _ => hr) h
        omega
    obtain ⟨l, hl⟩ := key
    refine (run_persistSteps ht hr hf n hl).trans ?_
    change _ = (ribPersistPrefixesIter st >>= fun l => pure (upTo n l)).run s
    rw [run_bind, hl]
    rfl
  | less p mui iw => exact run_gvLess_congr (hro mui iw) (hgv mui iw) p.id
  | more p mui iw =>
    exact (run_gvMore_congr (hro mui iw) (hgv mui iw) fuel p.id mui iw)
  | all => exact run_gvAll_congr (hro none true) (hgv none true) fuel
  | forMui m iw => exact run_gvForMui_congr (hro (some m) iw) (hgv (some m) iw) fuel m iw
  | matching p o =>
    refine (run_gvMatch_congr' (hro o.mui o.includeWithdrawn) (hgv o.mui o.includeWithdrawn) fuel p.id o).trans ?_
    rw [gvMatch_rib]
    rfl
  | moreFrom p mui iw => exact run_gvMoreFrom_congr (hro mui iw) (hgv mui iw) fuel p.id mui
  | lessFrom p mui iw => exact run_gvLessFrom_congr (hro mui iw) (hgv mui iw) p.id mui

end Rotonda
