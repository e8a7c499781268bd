import Verif.Proofs.ConcQueries
import Verif.Spec.Conc

/-!
# All calls together
-/

namespace Rotonda

open Prog Spec

variable {M : Type} [Meta M] {W : Nat}

/-- Where an iteration of the call takes place. -/
def Call.region : Call M W → PrefixId W
  | .moreIter p _ _ | .matchPrefix p _ => p.id
  | _ => ⟨0#W, 0⟩

/-- The calls that may loop for ever. -/
def Call.MayLoop : Call M W → Prop
  | .withdraw _ | .activate _ => True
  | _ => False

/-- The pair an insert is about. -/
def Call.In (T : PrefixId W → Mui → Prop) : Call M W → Prop
  | .insert p r _ => T p.id r.mui
  | _ => True

/-- What a call that started in `s` guarantees about its answer. -/
def Call.Post (T : PrefixId W → Mui → Prop) (st : Strategy) (C : Prop) (s : Rib M W) :
    (x : Call M W) → x.Ans → Rib M W → Prop
  | .insert p r tbi, res, s' =>
    (Placed p.id r.mui s' ∧ Recorded st p.id r.mui s') ∧ InsOk tbi (α := UpsertReport) res
  | .withdrawFor _ _ _, res, _ => (res : Except StoreError Unit) = .ok () ∨
      (res : Except StoreError Unit) =
        .error (if st = .persistHistory then .storeNotReady else .prefixNotFound)
  | .activateFor _ _ _, res, _ =>
    (res : Except StoreError Unit) = .ok () ∨ (res : Except StoreError Unit) = .error .fatal
  | .contains p mui, b, s' =>
    ((b : Bool) = true → Seen s'.tree.slots p.id ∧
      ∀ m, mui = some m → Open s'.tree.slots (hostId p.id) m) ∧
    ((b : Bool) = false → ¬ (Seen s.tree.slots p.id ∧
      ∀ m, mui = some m → Open s.tree.slots (hostId p.id) m))
  | .getRecords p mui iw, r, _ => GotVal st mui iw p.id s r
  | .matchPrefix p o, r, s' =>
    ∃ x, (r : FatalResult (QueryResult M W)) = .ok x ∧ Matched T st C p.id o s x s'
  | .moreFrom _ _ _, r, _ | .lessFrom _ _ _, r, _ =>
    ∃ x, (r : FatalResult (QueryResult M W)) = .ok x
  | .moreIter p mui iw, l, s' => Listed st mui iw C (MoreOf p.id) s l s'
  | .lessIter p mui iw, l, s' => ∃ qs : List (PrefixRecord M W),
      (l : List (FatalResult (PrefixRecord M W))) = qs.map .ok ∧ (qs.map Prod.fst).Nodup ∧
      (∀ x ∈ qs, x.2 ≠ [] ∧ Seen s'.tree.slots x.1.id ∧ x.1.len < p.id.len ∧
        p.id.truncateTo x.1.len = x.1.id) ∧
      (∀ q : Prefix W, Seen s.tree.slots q.id → q.len < p.id.len → p.id.truncateTo q.len = q.id →
        Asked st mui iw q.id s → ∃ rs, (q, rs) ∈ qs)
  | .prefixesIter, l, s' => ∃ qs : List (PrefixRecord M W),
      (l : List (FatalResult (PrefixRecord M W))) = qs.map .ok ∧ (qs.map Prod.fst).Nodup ∧
      (∀ x ∈ qs, Seen s'.tree.slots x.1.id) ∧
      (C → ∀ q : Prefix W, Settled s.tree.slots q.id → ∃ rs, (q, rs) ∈ qs ∧
        (Asked st none true q.id s → rs ≠ []))
  | .recordsForMui m iw, l, s' => Listed st (some m) iw C (MoreOf ⟨0#W, 0⟩) s l s'
  | _, _, _ => True

section
variable {T : PrefixId W → Mui → Prop} {R : Rib M W → Rib M W → Prop} {C : Prop}

theorem Call.wp [Fam W] (x : Call M W) (hD : During T R x.region C) (hT : x.In T) (st : Strategy)
    {F fuel : Nat} (hF : 32 ≤ F) (hf : iterFuel W ≤ fuel) {s : Rib M W} (hl : Live T x.region C s) :
    Prog.wp R (Grow T) x.MayLoop (x.prog st F fuel) (x.Post T st C s) s := by
  have hR := hD.grow
  have hs := hl.sane
  cases x with
  | insert p r tbi => exact wp_ribInsert hR st (.inr hF) p r tbi hT hs
  | withdrawFor p m t => exact wp_ribMarkWithdrawnForPrefix hR st p m t hs
  | activateFor p m t => exact wp_ribMarkActiveForPrefix hR st p m t hs
  | withdraw m => exact wp_ribMarkWithdrawn F m s
  | activate m => exact wp_ribMarkActive F m s
  | calcBest p tbi => exact wp_conseq _ (wp_ribCalcBest hR p tbi hs) (fun _ _ _ => trivial)
  | contains p mui => exact wp_ro_grow (wp_ribContains hR p.clean mui hs)
  | getRecords p mui iw => exact wp_ro_grow (wp_ribGetValue hR st p.clean mui iw hs)
  | matchPrefix p o => exact wp_ro_grow (wp_ribMatchPrefix hD st p.clean (.inr hf) o hl)
  | moreFrom p mui iw => exact wp_ro_grow (wp_ribMoreSpecificsFrom hR st p.clean mui iw (.inr hf) hs)
  | lessFrom p mui iw => exact wp_ro_grow (wp_ribLessSpecificsFrom hR st p.clean mui iw hs)
  | moreIter p mui iw => exact wp_ro_grow (wp_ribMoreSpecificsIter hD st mui iw p.clean (.inr hf) hl)
  | lessIter p mui iw => exact wp_ro_grow (wp_ribLessSpecificsIter hR st p.clean mui iw hs)
  | prefixesIter => exact wp_ro_grow (wp_ribPrefixesIter hD st (.inr hf) hl)
  | persistPrefixesIter => exact wp_ro_grow (wp_ribPersistPrefixesIter hR st hs)
  | recordsForMui m iw => exact wp_ro_grow (wp_ribIterRecordsForMui hD st m iw (.inr hf) hl)
  | bestPath p => exact wp_ro_grow (wp_ribBestPath hR p.clean hs)
  | isPsOutdated p => exact wp_ro_grow (wp_ribIsPsOutdated hR p.clean hs)
  | muiIsWithdrawn m => exact fun _ _ => ⟨Grow.rfl' _, trivial⟩
  | isMuiActive m => exact fun _ _ => ⟨Grow.rfl' _, trivial⟩
  | prefixesCount => exact wp_ribPrefixesCount (fun s => Grow.rfl' s) _
  | routesCount => exact wp_ribRoutesCount (fun s => Grow.rfl' s) _
  | prefixesCountForLen l =>
    change Prog.wp _ _ _ (ribPrefixesCountForLen l) _ _
    unfold ribPrefixesCountForLen
    split
    · exact fun _ _ => ⟨Grow.rfl' _, trivial⟩
    · trivial
  | nodesCount => exact fun _ _ => ⟨Grow.rfl' _, trivial⟩

theorem Call.Post.step (x : Call M W) (hD : During T R x.region C) {st : Strategy} {s0 s s' : Rib M W}
    {a : x.Ans} (hr : R s s') (h : x.Post T st C s0 a s) : x.Post T st C s0 a s' := by
  have hg := hD.grow _ _ hr
  have hx := hg.nodes.1
  cases x with
  | insert p r tbi => exact ⟨⟨h.1.1.grow hg, h.1.2.grow hg⟩, h.2⟩
  | contains p mui =>
    refine ⟨fun hb => ?_, h.2⟩
    obtain ⟨h1, h2⟩ := h.1 hb
    exact ⟨h1.ext hx, fun m hm => (h2 m hm).ext hx⟩
  | matchPrefix p o =>
    obtain ⟨x, hx', h1, h2, h3⟩ := h
    refine ⟨x, hx', ?_, ?_, ?_⟩
    · obtain ⟨l, hl, hrest⟩ := h1
      exact ⟨l, hl.late hx, hrest⟩
    · rcases h2 with h2 | ⟨qs, ls, h, hL, hfill⟩
      · exact .inl h2
      · exact .inr ⟨qs, ls, h, hL.shift (NExt.rfl' _) hx, hfill⟩
    · rcases h3 with h3 | ⟨qs, out, h, hy, hfill⟩
      · exact .inl h3
      · refine .inr ⟨qs, out, h, ⟨⟨⟨hg.nodes.2 hy.inv.1.inv, hg.just hy.inv.1.just⟩,
          fun c => hD.kids c _ _ hr (hy.inv.2 c)⟩, hy.ext.trans hx, hy.nodup, ?_, hy.complete⟩, hfill⟩
        intro q hq
        obtain ⟨h1, h2, h3, h4⟩ := hy.sound q hq
        exact ⟨h1, h2, h3, h4.ext hx⟩
  | moreIter p mui iw | recordsForMui m iw =>
    obtain ⟨qs, h1, h2, h3, h4⟩ := h
    exact ⟨qs, h1, h2, fun x hx' => ⟨(h3 x hx').1, (h3 x hx').2.1, (h3 x hx').2.2.ext hx⟩, h4⟩
  | lessIter p mui iw =>
    obtain ⟨qs, h1, h2, h3, h4⟩ := h
    exact ⟨qs, h1, h2, fun x hx' => ⟨(h3 x hx').1, (h3 x hx').2.1.ext hx, (h3 x hx').2.2⟩, h4⟩
  | prefixesIter =>
    obtain ⟨qs, h1, h2, h3, h4⟩ := h
    exact ⟨qs, h1, h2, fun x hx' => (h3 x hx').ext hx, h4⟩
  | _ => exact h
end

/-! ## Runs -/

variable {ι : Type} [DecidableEq ι] {calls : ι → Call M W}

/-- Everything begun, as a relation on identifiers. -/
def begunIds (h : History M W) (calls : ι → Call M W) (t : List ι) : PrefixId W → Mui → Prop :=
  fun q m => ∃ p : Prefix W, p.id = q ∧ Begun h calls t p m

omit [DecidableEq ι] in
theorem begunIds_id {h : History M W} {t : List ι} {p : Prefix W} {m : Mui} :
    begunIds h calls t p.id m ↔ Begun h calls t p m :=
  ⟨fun ⟨_, hq, hb⟩ => Prefix.id_inj hq ▸ hb, fun hb => ⟨p, rfl, hb⟩⟩

omit [DecidableEq ι] in
theorem begun_in {h : History M W} {t : List ι} {i : ι} (hi : i ∈ t) :
    (calls i).In (begunIds h calls t) := by
  cases hc : calls i with
  | insert p r tbi => exact ⟨p, rfl, .inr ⟨i, hi, r, tbi, hc, rfl⟩⟩
  | _ => trivial

omit [DecidableEq ι] in
theorem sane_start [Fam W] {st : Strategy} {F0 : Nat} {h : History M W} {s : Rib M W}
    (hs : exec st F0 h = .ok () s) (calls : ι → Call M W) (t : List ι) :
    Sane (begunIds h calls t) s :=
  (Sane.of_inv (exec_ok_inv hs)).mono (fun q m ⟨p, hp, hi⟩ => ⟨p, hp, .inl hi⟩)
    (fun q m ⟨p, hp, _⟩ => by rw [← hp]; exact p.clean)

/-- What the calls of a run do to each other, when below `w` no child is ever
missing under the condition `C`. -/
def RunRely (T : PrefixId W → Mui → Prop) (w : PrefixId W) (C : Prop) (s s' : Rib M W) : Prop :=
  Grow T s s' ∧ (C → Kids w s.tree.slots → Kids w s'.tree.slots)

omit [Meta M] in
theorem RunRely.isRely (T : PrefixId W → Mui → Prop) (w : PrefixId W) (C : Prop) :
    IsRely (RunRely (M := M) T w C) where
  refl s := ⟨Grow.rfl' s, fun _ h => h⟩
  trans h h' := ⟨h.1.trans h'.1, fun c x => h'.2 c (h.2 c x)⟩

omit [Meta M] in
theorem RunRely.during (T : PrefixId W → Mui → Prop) (w : PrefixId W) (C : Prop) :
    During T (RunRely (M := M) T w C) w C := ⟨fun _ _ h => h.1, fun c _ _ h => h.2 c⟩

omit [Meta M] in
theorem RunRely.during_false (T : PrefixId W → Mui → Prop) (w w' : PrefixId W) (C : Prop) :
    During T (RunRely (M := M) T w C) w' False := ⟨fun _ _ h => h.1, fun c => c.elim⟩

/-- Along a run the store grows, and every call keeps its specification. -/
theorem run_calls [Fam W] {st : Strategy} {F fuel : Nat} (hF : 32 ≤ F) (hf : iterFuel W ≤ fuel)
    {T : PrefixId W → Mui → Prop} {s : Rib M W} (hs : Sane T s) (t : List ι)
    (hT : ∀ i ∈ t, (calls i).In T) :
    Grow T s ((start st F fuel s calls).exec t).st ∧
      ∀ i, (calls i).In T → Prog.wp (RunRely T ⟨0#W, 0⟩ False) (Grow T) (calls i).MayLoop
        (((start st F fuel s calls).exec t).pool i) ((calls i).Post T st False s)
        ((start st F fuel s calls).exec t).st := by
  have hw : ∀ i, (calls i).In T → Prog.wp (RunRely T ⟨0#W, 0⟩ False) (Grow T) (calls i).MayLoop
        ((start st F fuel s calls).pool i) ((calls i).Post T st False s) s := fun i hi =>
    Call.wp (calls i) (RunRely.during_false T _ _ _) hi st hF hf ⟨hs, fun c => c.elim⟩
  obtain ⟨h1, h2⟩ := conc_sound (RunRely.isRely T ⟨0#W, 0⟩ False) (G := fun _ => Grow T)
    (fun _ _ _ h => ⟨h, fun c => c.elim⟩) (D := fun i => (calls i).MayLoop)
    (Q := fun i => (calls i).Post T st False s)
    (fun i a s1 s2 hr h => Call.Post.step (calls i) (RunRely.during_false T _ _ _) hr h)
    t (start st F fuel s calls) (fun i hi => hw i (hT i hi))
  exact ⟨h1.1, fun i hi => h2 i (hw i hi)⟩

/-- A call that has not had a turn in `t`, after `t ++ u`. -/
theorem run_late [Fam W] {st : Strategy} {F fuel : Nat} (hF : 32 ≤ F) (hf : iterFuel W ≤ fuel)
    {T : PrefixId W → Mui → Prop} {s : Rib M W} (hs : Sane T s) (t u : List ι)
    (hT : ∀ i ∈ t ++ u, (calls i).In T) {j : ι} (hj : j ∉ t) (hTj : (calls j).In T) {C : Prop}
    (hC : C → ∀ v, v <+: u →
      Kids (calls j).region ((start st F fuel s calls).exec (t ++ v)).st.tree.slots) :
    Prog.wp (RunRely T (calls j).region C) (Grow T) (calls j).MayLoop
      (((start st F fuel s calls).exec (t ++ u)).pool j)
      ((calls j).Post T st C ((start st F fuel s calls).exec t).st)
      ((start st F fuel s calls).exec (t ++ u)).st := by
  obtain ⟨hg, _⟩ := run_calls (calls := calls) hF hf hs t (fun i hi => hT i (List.mem_append_left _ hi))
    (st := st)
  have hs1 := hs.grow hg
  rw [Conf.exec_append]
  have hall : ∀ i, (calls i).In T → Prog.wp (RunRely T (calls j).region C) (Grow T) (calls i).MayLoop
      (((start st F fuel s calls).exec t).pool i) ((calls i).Post T st False s)
      ((start st F fuel s calls).exec t).st := by
    obtain ⟨_, h2⟩ := run_calls (calls := calls) hF hf hs t
      (fun i hi => hT i (List.mem_append_left _ hi)) (st := st)
    intro i hi
    exact wp_mono _ (fun _ _ h => ⟨h.1, fun c => c.elim⟩) (fun _ _ h => h) (fun h => h)
      (fun _ _ h => h) (h2 i hi)
  refine conc_late (RunRely.isRely T (calls j).region C) (G := fun _ => Grow T)
    (P := fun s' => C → Kids (calls j).region s'.tree.slots)
    (fun _ _ _ h _ h' => ⟨h, fun c _ => h' c⟩) (D := fun i => (calls i).MayLoop)
    (Q := fun i => (calls i).Post T st False s)
    (fun i a s1 s2 hr h => Call.Post.step (calls i) (RunRely.during_false T _ _ _) hr h)
    u _ (fun v hv c => ?_) (fun i hi => hall i (hT i (List.mem_append_right _ hi)))
    (fun a s1 s2 hr h => Call.Post.step (calls j) (RunRely.during T _ C) hr h) ?_
  · rw [← Conf.exec_append]; exact hC c v hv
  · rw [Conf.exec_idle _ hj]
    refine Call.wp (calls j) (RunRely.during T _ C) hTj st hF hf ⟨hs1, fun c => ?_⟩
    have := hC c [] List.nil_prefix
    rwa [List.append_nil] at this

omit [DecidableEq ι] in
/-- The answer of a call that has returned. -/
theorem returned_elim {c : Conf (Rib M W) ι (fun i => (calls i).Ans)} {i : ι} {x : Call M W} {a : x.Ans}
    (h : Returned c i x a) {Q : (x : Call M W) → x.Ans → Prop}
    (hq : ∀ b, c.pool i = .ret b → Q (calls i) b) : Q x a := by
  obtain ⟨rfl, hp⟩ := h
  exact hq a hp

end Rotonda
