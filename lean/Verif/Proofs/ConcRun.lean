import Verif.Proofs.ConcAll

/-!
# Facts about runs
-/

namespace Rotonda

open Prog Spec

/-! ## Every call that keeps getting turns comes to an end -/

section
variable {σ ι : Type} [DecidableEq ι] {A : ι → Type}

/-- A call that has no action left. -/
def Prog.Ended {α : Type} : Prog σ α → Prop
  | .act _ _ => False
  | _ => True

theorem Conf.step_ended {c : Conf σ ι A} {i : ι} (h : (c.pool i).Ended) : c.step i = c := by
  cases hp : c.pool i with
  | act f k => rw [hp] at h; exact h.elim
  | ret a => exact step_ret hp
  | panic => exact step_panic hp
  | diverge => exact step_diverge hp

theorem Conf.exec_range_succ (c : Conf σ ι A) (sched : Nat → ι) (n : Nat) :
    c.exec ((List.range (n + 1)).map sched) = (c.exec ((List.range n).map sched)).step (sched n) := by
  rw [List.range_succ, List.map_append, exec_append]; rfl

/-- The turns of the others do not matter. -/
theorem Conf.exec_range_idle (c : Conf σ ι A) (sched : Nat → ι) {i : ι} {n m : Nat} (hnm : n ≤ m)
    (h : ∀ k, n ≤ k → k < m → sched k ≠ i) :
    (c.exec ((List.range m).map sched)).pool i = (c.exec ((List.range n).map sched)).pool i := by
  induction m, hnm using Nat.le_induction with
  | base => rfl
  | succ m hm ih =>
    rw [exec_range_succ, step_other _ (Ne.symm (h m hm (Nat.lt_succ_self m)))]
    exact ih fun k h1 h2 => h k h1 (by omega)

theorem Conf.ends (c : Conf σ ι A) (sched : Nat → ι) (i : ι) (hfair : ∀ n, ∃ m, n ≤ m ∧ sched m = i) :
    ∃ n, ((c.exec ((List.range n).map sched)).pool i).Ended := by
  have key : ∀ (p : Prog σ (A i)) (n : Nat), (c.exec ((List.range n).map sched)).pool i = p →
      ∃ n, ((c.exec ((List.range n).map sched)).pool i).Ended := by
    intro p
    induction p with
    | ret a => intro n hn; exact ⟨n, by rw [hn]; trivial⟩
    | panic => intro n hn; exact ⟨n, by rw [hn]; trivial⟩
    | diverge => intro n hn; exact ⟨n, by rw [hn]; trivial⟩
    | act f k ih =>
      intro n hn
      classical
      have hex : ∃ m, n ≤ m ∧ sched m = i := hfair n
      obtain ⟨hm1, hm2⟩ := Nat.find_spec hex
      have hmin : ∀ k, n ≤ k → k < Nat.find hex → sched k ≠ i := fun k h1 h2 h3 =>
        Nat.find_min hex h2 ⟨h1, h3⟩
      have hidle := exec_range_idle c sched hm1 hmin
      rw [hn] at hidle
      refine ih (f (c.exec ((List.range (Nat.find hex)).map sched)).st).1 (Nat.find hex + 1) ?_
      rw [exec_range_succ, hm2, step_act hidle]
      exact Function.update_self _ _ _
  exact key _ 0 rfl

end

/-- What a successful run gives, whatever the fuel. -/
theorem run_wp_ok {σ α : Type} {R G : σ → σ → Prop} {D : Prop} (hR : ∀ s, R s s) (p : Prog σ α)
    {Q : α → σ → Prop} {s : σ} (h : wp R G D p Q s) {a : α} {s' : σ} (hr : p.run s = .ok a s') :
    Q a s' ∧ Relation.ReflTransGen G s s' := by
  induction p generalizing s with
  | ret b => cases hr; exact ⟨h, .refl⟩
  | act f k ih =>
    obtain ⟨hg, hk⟩ := h s (hR s)
    obtain ⟨h1, h2⟩ := ih _ hk hr
    exact ⟨h1, .head hg h2⟩
  | panic => cases hr
  | diverge => cases hr

variable {M : Type} [Meta M] {W : Nat}

omit [Meta M] in
theorem Grow.of_steps {T : PrefixId W → Mui → Prop} {s s' : Rib M W}
    (h : Relation.ReflTransGen (Grow T) s s') : Grow T s s' := by
  induction h with
  | refl => exact Grow.rfl' _
  | tail _ h ih => exact ih.trans h

/-- A pair inserted by the history is placed and recorded. -/
theorem inserted_placed [Fam W] {st : Strategy} {F0 : Nat} {h : History M W} {s : Rib M W}
    (hs : exec st F0 h = .ok () s) {p : Prefix W} {m : Mui} (hi : Inserted h p m) :
    Placed p.id m s := by
  have hT := (exec_ok_inv hs).tree
  exact ⟨hT.full _ _ ⟨p, rfl, hi⟩,
    fun h0 => ⟨hT.dflt.2 ⟨p.id, m, ⟨p, rfl, hi⟩, h0⟩, hT.dfltRbm _ _ ⟨p, rfl, hi⟩ h0⟩⟩

theorem inserted_recorded [Fam W] {st : Strategy} {F0 : Nat} {p : Prefix W} {m : Mui} :
    ∀ {h : History M W} {s : Rib M W}, exec st F0 h = .ok () s → Inserted h p m →
      Recorded st p.id m s := by
  intro h
  induction h with
  | nil =>
    rintro s _ ⟨r, tbi, hm, _⟩
    cases hm
  | cons op h ih =>
    intro s hs hi
    obtain ⟨s1, hs1, _⟩ := exec_inv st F0 h
    have hrun : (op.prog st F0).run s1 = .ok () s := by
      have := hs
      simp only [exec, hs1, Outcome.andThen] at this
      exact this
    let T : PrefixId W → Mui → Prop := pairsOf (op :: h)
    have hsane : Sane T s1 := (Sane.of_inv (exec_ok_inv hs1)).mono
      (fun q m ⟨p, hp, hi⟩ => ⟨p, hp, inserted_cons.2 (.inr hi)⟩)
      (fun q m ⟨p, hp, _⟩ => by rw [← hp]; exact p.clean)
    have hR : ∀ a b : Rib M W, a = b → Grow T a b := fun a b h => h ▸ Grow.rfl' a
    -- the call grows the store, and records what it inserts
    have hw : wp Eq (Grow T) True (op.prog st F0)
        (fun _ s' => ∀ q r tbi, op = .insert q r tbi → Recorded st q.id r.mui s') s1 := by
      cases op with
      | insert q r tbi =>
        simp only [Op.prog]
        rw [wp_bind]
        refine wp_conseq _ (wp_ribInsert hR st (.inl trivial) q r tbi
          ⟨q, rfl, inserted_cons.2 (.inl ⟨r, tbi, rfl, rfl⟩)⟩ hsane) ?_
        rintro res s' ⟨⟨_, h⟩, _⟩ q' r' tbi' he
        cases he; exact h
      | withdrawFor q k t =>
        simp only [Op.prog]
        rw [wp_bind]
        refine wp_conseq _ (wp_ribMarkWithdrawnForPrefix hR st q k t hsane) ?_
        intro _ _ _ _ _ _ he; cases he
      | activateFor q k t =>
        simp only [Op.prog]
        rw [wp_bind]
        refine wp_conseq _ (wp_ribMarkActiveForPrefix hR st q k t hsane) ?_
        intro _ _ _ _ _ _ he; cases he
      | withdraw k =>
        refine wp_conseq _ (wp_ribMarkWithdrawn F0 k s1) ?_
        intro _ _ _ _ _ _ he; cases he
      | activate k =>
        refine wp_conseq _ (wp_ribMarkActive F0 k s1) ?_
        intro _ _ _ _ _ _ he; cases he
      | calcBest q tbi =>
        simp only [Op.prog]
        rw [wp_bind]
        refine wp_conseq _ (wp_ribCalcBest hR q tbi hsane) ?_
        intro _ _ _ _ _ _ he; cases he
    obtain ⟨hq, hg⟩ := run_wp_ok (fun _ => rfl) _ hw hrun
    rcases inserted_cons.1 hi with ⟨r, tbi, hop, rfl⟩ | hi
    · exact hq p r tbi hop
    · exact (ih hs1 hi).grow (Grow.of_steps hg)

/-- A prefix found in the tree belongs to a pair. -/
theorem seen_pair {T : PrefixId W → Mui → Prop} {s : Rib M W} (hs : Sane T s) {q : Prefix W}
    (h : Seen s.tree.slots q.id) : ∃ m, T q.id m := by
  obtain ⟨_, a, e, he, hid, hb⟩ := h
  obtain ⟨p, m, hT, _, hh, hpos⟩ := hs.just.pfx a e _ he hb
  have : p = q.id := pfxPos_inj (hs.clean _ _ hT) q.clean (hh.trans hid) hpos
  exact ⟨m, this ▸ hT⟩

/-- An insert does not return without having done anything. -/
theorem insert_not_ret [Fam W] (st : Strategy) (F : Nat) (p : Prefix W) (r : Record M)
    (tbi : Option (Meta.TBI M)) (a) : ribInsert st F p.id r tbi ≠ (.ret a : Prog (Rib M W) _) := by
  intro he
  obtain ⟨s, hs, _⟩ := exec_inv st 0 ([] : History M W)
  have hsane : Sane (fun q m => q = p.id ∧ m = r.mui) s := (Sane.of_inv (exec_ok_inv hs)).mono
    (fun q m ⟨_, _, hi⟩ => by obtain ⟨_, _, h, _⟩ := hi; cases h)
    (fun q m h => by rw [h.1]; exact p.clean)
  have hw := wp_ribInsert (M := M) (R := Eq) (D := True) (fun a b h => h ▸ Grow.rfl' a) st (.inl trivial) (F := F) p r
    tbi ⟨rfl, rfl⟩ hsane
  rw [he] at hw
  have hk : Known p.id s := hw.1.1.known
  have hnone : ∀ q m, ¬ pairsOf ([] : History M W) q m := fun q m ⟨_, _, hi⟩ => by
    obtain ⟨_, _, h, _⟩ := hi; cases h
  rcases hk with ⟨h0, hp⟩ | ⟨_, hd⟩
  · obtain ⟨m, hm⟩ := seen_pair (Sane.of_inv (exec_ok_inv hs)) (q := p) ⟨h0, hp⟩
    exact hnone _ _ hm
  · obtain ⟨q, m, hm, _⟩ := (exec_ok_inv hs).tree.dflt.1 hd
    exact hnone _ _ hm

variable {ι : Type} [DecidableEq ι] {calls : ι → Call M W}

theorem returned_insert_mem [Fam W] {st : Strategy} {F fuel : Nat} {s : Rib M W} {t : List ι} {i : ι}
    {p : Prefix W} {r : Record M} {tbi : Option (Meta.TBI M)} {a}
    (h : Returned ((start st F fuel s calls).exec t) i (.insert p r tbi) a) : i ∈ t := by
  by_contra hi
  obtain ⟨hc, hp⟩ := h
  rw [Conf.exec_idle _ hi] at hp
  change (calls i).prog st F fuel = _ at hp
  have key : ∀ (x : Call M W) (hx : x = .insert p r tbi) (b : x.Ans), x.prog st F fuel ≠ .ret b := by
    rintro _ rfl b hb
    exact insert_not_ret st F p r tbi b hb
  exact key (calls i) hc _ hp

theorem completed_begun [Fam W] {st : Strategy} {F fuel : Nat} {s : Rib M W} {t : List ι}
    {h : History M W} {p : Prefix W} {m : Mui}
    (hc : Completed h ((start st F fuel s calls).exec t) p m) : Begun h calls t p m := by
  rcases hc with hi | ⟨i, r, tbi, a, hr, hm⟩
  · exact .inl hi
  · exact .inr ⟨i, returned_insert_mem hr, r, tbi, hr.1, hm⟩

omit [DecidableEq ι] in
theorem Begun.append {h : History M W} {t : List ι} {p : Prefix W} {m : Mui}
    (hb : Begun h calls t p m) (u : List ι) : Begun h calls (t ++ u) p m := by
  rcases hb with hi | ⟨i, hit, hrest⟩
  · exact .inl hi
  · exact .inr ⟨i, List.mem_append_left _ hit, hrest⟩

section
variable [Fam W] {st : Strategy} {F0 F fuel : Nat} (hF : 32 ≤ F) (hf : iterFuel W ≤ fuel)
  {h : History M W} {s : Rib M W} (hs : exec st F0 h = .ok () s)
include hF hf hs

/-- Two points of a run. -/
theorem run_grow (t u : List ι) :
    Grow (begunIds h calls (t ++ u)) ((start st F fuel s calls).exec t).st
      ((start st F fuel s calls).exec (t ++ u)).st ∧
    Sane (begunIds h calls (t ++ u)) ((start st F fuel s calls).exec t).st := by
  have hsane := sane_start hs calls (t ++ u)
  obtain ⟨hg, hw⟩ := run_calls (calls := calls) hF hf hsane t
    (fun i hi => begun_in (List.mem_append_left _ hi)) (st := st)
  obtain ⟨h1, _⟩ := conc_sound (RunRely.isRely (begunIds h calls (t ++ u)) ⟨0#W, 0⟩ False)
    (G := fun _ => Grow (begunIds h calls (t ++ u)))
    (fun _ _ _ h => ⟨h, fun c => c.elim⟩) (D := fun i => (calls i).MayLoop)
    (Q := fun i => (calls i).Post (begunIds h calls (t ++ u)) st False s)
    (fun i a s1 s2 hr h => Call.Post.step (calls i) (RunRely.during_false _ _ _ _) hr h)
    u ((start st F fuel s calls).exec t) (fun i hi => hw i (begun_in (List.mem_append_right _ hi)))
  rw [Conf.exec_append]
  exact ⟨h1.1, hsane.grow hg⟩

theorem run_sane (t : List ι) :
    Sane (begunIds h calls t) ((start st F fuel s calls).exec t).st := by
  have := (run_grow (calls := calls) hF hf hs t []).2
  rwa [List.append_nil] at this

/-- Completed inserts are placed and recorded. -/
theorem completed_placed {t : List ι} {p : Prefix W} {m : Mui}
    (hc : Completed h ((start st F fuel s calls).exec t) p m) :
    Placed p.id m ((start st F fuel s calls).exec t).st ∧
      Recorded st p.id m ((start st F fuel s calls).exec t).st := by
  have hsane := sane_start hs calls t
  obtain ⟨hg, hw⟩ := run_calls (calls := calls) hF hf hsane t (fun i hi => begun_in hi) (st := st)
  rcases hc with hi | ⟨i, r, tbi, a, hr, rfl⟩
  · exact ⟨(inserted_placed hs hi).grow hg, (inserted_recorded hs hi).grow hg⟩
  · have := hw i (begun_in (returned_insert_mem hr))
    exact (returned_elim hr (Q := fun x a => x.Post (begunIds h calls t) st False s a _) (fun b hb => by
      rw [hb] at this; exact this)).1

/-- When no insert below `p` needs a new node, no child is missing below `p`. -/
theorem kids_of_noNewNodes {t u v : List ι} {p : Prefix W} (hv : v <+: u)
    (hq : NoNewNodes h ((start st F fuel s calls).exec t) (t ++ u) p) :
    Kids p.id ((start st F fuel s calls).exec (t ++ v)).st.tree.slots := by
  obtain ⟨w, rfl⟩ := hv
  have hsane := (run_grow (calls := calls) hF hf hs (t ++ v) w).2
  have hsane' : Sane (begunIds h calls (t ++ (v ++ w))) ((start st F fuel s calls).exec (t ++ v)).st := by
    rwa [List.append_assoc] at hsane
  rintro n k ⟨a, e, he, hid, hb⟩ c hc hu
  obtain ⟨q, m, ⟨q', rfl, hbeg⟩, hanc, hlt, hnib⟩ := hsane'.just.ptr a e k he hb
  rw [hid] at hanc hlt hnib
  have hcW := hc.clean.1
  -- the child lies on the way to `q'`
  have hcl := hc.len
  have hqW : q'.id.len ≤ W := q'.clean.1
  have hcq : c.bits = truncateToLen q'.id.bits c.len := by
    refine ((truncate_eq_iff hc.clean).2 fun i hi => ?_).symm
    rcases Nat.lt_or_ge i n.len with hlt' | hge
    · have h1 : c.bits.getMsbD i = n.bits.getMsbD i := by
        rw [← hc.sub, getMsbD_truncateToLen _ (by omega)]; simp [hlt']
      rw [h1, hanc.2.2, getMsbD_truncateToLen _ (by omega)]; simp [hlt']
    · exact nib_inj (by omega) (hnib.trans hc.nib.symm) i hge (by omega)
  have hanc' : Anc c q'.id := ⟨by omega, by
    obtain ⟨x, hx⟩ := hanc.2.1; exact ⟨x + 1, by omega⟩, hcq⟩
  have hcov : Covers p q' := by
    refine covers_trunc'.2 ⟨?_, ?_⟩
    · have := hu.1
      change p.len ≤ c.len at this
      have h2 : c.len < q'.len := hanc'.1
      omega
    · have h2 := hu.2
      rw [hcq] at h2
      have h3 := truncate_truncate q'.id.bits (l := c.len) hcW hu.1
      exact h3.symm.trans h2
  have hpl : ∃ q'' m'', Completed h ((start st F fuel s calls).exec t) q'' m'' ∧ OnTheWay q' q'' := by
    rcases hbeg with hi | ⟨i, hi, r, tbi, hci, hm⟩
    · exact ⟨q', m, .inl hi, by
        have h2 : c.len < q'.len := hanc'.1
        omega, fun _ _ => rfl⟩
    · exact hq i hi q' r tbi hci hcov (by have h2 : c.len < q'.len := hanc'.1; omega)
  obtain ⟨q'', m'', hcmp, how1, how2⟩ := hpl
  have hcl' : c.len ≤ 4 * ((q'.len - 1) / 4) := by
    have h2 : c.len < q'.len := hanc'.1
    obtain ⟨x, hx⟩ := hanc'.2.1
    omega
  have hanc'' : Anc c q''.id := by
    refine ⟨Nat.lt_of_le_of_lt hcl' how1, hanc'.2.1, ?_⟩
    refine ((truncate_eq_iff hc.clean).2 fun i hi => ?_).symm
    rw [hcq, getMsbD_truncateToLen _ hcW]
    simp only [hi, decide_true, Bool.true_and]
    exact (how2 i (by omega)).symm
  have hpl := (completed_placed hF hf hs hcmp).1
  have hfull := (hpl.grow (run_grow (calls := calls) hF hf hs t v).1).1 (by
    have := hanc''.1; omega)
  obtain ⟨a, e, he, hid, _⟩ := (hfull.1 c hanc'' hanc''.1).1
  exact ⟨a, e, he, hid⟩

/-- The answer of a call that started after `t`. -/
theorem late_answer {t u : List ι} {j : ι} (hj : j ∉ t) {x : Call M W} {a : x.Ans}
    (hr : Returned ((start st F fuel s calls).exec (t ++ u)) j x a)
    (hx : x.In (begunIds h calls (t ++ u))) {C : Prop}
    (hC : C → ∀ v, v <+: u → Kids x.region ((start st F fuel s calls).exec (t ++ v)).st.tree.slots) :
    x.Post (begunIds h calls (t ++ u)) st C ((start st F fuel s calls).exec t).st a
      ((start st F fuel s calls).exec (t ++ u)).st := by
  refine returned_elim hr (Q := fun x a => x.Post (begunIds h calls (t ++ u)) st C
    ((start st F fuel s calls).exec t).st a ((start st F fuel s calls).exec (t ++ u)).st) fun b hb => ?_
  have hxc := hr.1
  have := run_late (calls := calls) hF hf (sane_start hs calls (t ++ u)) t u (fun i hi => begun_in hi)
    (st := st) hj (hxc ▸ hx) (C := C) (hxc ▸ hC)
  rw [hb] at this
  exact this

/-- The prefixes in the tree are those of inserts. -/
theorem seen_begun {t : List ι} {q : Prefix W}
    (hq : Seen ((start st F fuel s calls).exec t).st.tree.slots q.id) :
    ∃ m, Begun h calls t q m := by
  obtain ⟨m, hm⟩ := seen_pair (run_sane hF hf hs t) hq
  exact ⟨m, begunIds_id.1 hm⟩

theorem completed_settled {t : List ι} {q : Prefix W} {m : Mui} (h0 : 0 < q.len)
    (hc : Completed h ((start st F fuel s calls).exec t) q m) :
    Settled ((start st F fuel s calls).exec t).st.tree.slots q.id :=
  settled_of_full q.clean h0 ((completed_placed hF hf hs hc).1.1 h0)

end

end Rotonda
