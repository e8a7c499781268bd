import Verif.Proofs.Scan
import Verif.Proofs.LinPersist
import Verif.Proofs.LinRun
import Verif.Proofs.GvWalks

/-!
# Runs of calls together with scans
-/

namespace Rotonda

open Prog Spec

variable {M : Type} {W : Nat}

/-! ## Properties that the persisted entries keep -/

/-- The persisted entries keep a property. -/
def Keeps (I : Lsm → Prop) (s s' : Rib M W) : Prop := I s.lsm → I s'.lsm

theorem Keeps.of_eq {I : Lsm → Prop} {s s' : Rib M W} (h : s'.lsm = s.lsm) : Keeps I s s' := fun h0 => by
  rw [h]; exact h0

/-- What the strategies write keeps the property. -/
structure Stable (W : Nat) (st : Strategy) (I : Lsm → Prop) : Prop where
  long : ∀ t (p : Prefix W) m lt rs b, I t → I (t.insert (longKeyBytes p.id m lt rs) b)
  any : st = .persistOnly → ∀ t k b, I t → I (t.insert k b)

variable {I : Lsm → Prop}

theorem keeps_cht {α : Type} (p : Prog (PCht M W) α) : (p.zoom Rib.chtL).Always (Keeps I) :=
  Always.zoom (G' := fun _ _ => True) (fun _ _ _ => .of_eq rfl) (always_true p)

theorem keeps_tree {α : Type} (p : Prog (Tree W) α) :
    (p.zoom Rib.treeL : Prog (Rib M W) α).Always (Keeps I) :=
  Always.zoom (G' := fun _ _ => True) (fun _ _ _ => .of_eq rfl) (always_true p)

theorem keeps_recs {α : Type} (p : Prog (PSlots M W) α) : (onRecs p).Always (Keeps I) :=
  keeps_cht (p.zoom PCht.slotsL)

theorem keeps_onLsm {f : Lsm → Lsm} (hf : ∀ t, I t → I (f t)) :
    (onLsm (M := M) (W := W) f).Always (Keeps I) := always_atomic fun s h => hf s.lsm h

theorem keeps_markMem (p : PrefixId W) (m : Mui) (t : LTime) (rs : RouteStatus) :
    (ribMarkMem (M := M) p m t rs).Always (Keeps I) := by
  unfold ribMarkMem
  refine Always.bind (keeps_recs _) fun r => ?_
  obtain ⟨sp, found⟩ := r
  dsimp only
  split
  · trivial
  · exact Always.bind (keeps_recs _) fun _ => trivial

theorem keeps_marker {st : Strategy} (hI : Stable W st I) (sp : Ref W) (p : Prefix W) (m : Mui) (t : LTime) :
    (ribPersistMarker (M := M) sp p.id m t).Always (Keeps I) := by
  unfold ribPersistMarker
  refine Always.bind (keeps_recs _) fun r => ?_
  cases r with
  | none => trivial
  | some r => exact keeps_onLsm fun t ht => hI.long _ _ _ _ _ _ ht

theorem keeps_rewriteAll (hI : Stable W .persistOnly I) (t : LTime) (rs : RouteStatus) (bs : List Bytes) :
    (rewriteAll (M := M) W t rs bs).Always (Keeps I) := by
  induction bs with
  | nil => trivial
  | cons b bs ih =>
    unfold rewriteAll
    refine Always.bind (always_atomic fun s => ?_) fun ok => ?_
    · unfold rewriteHeader
      cases decodeRecord W b with
      | none => exact .of_eq rfl
      | some z => exact fun h => hI.any rfl _ _ _ h
    · cases ok with
      | true => exact ih
      | false => trivial

variable [Meta M]

theorem keeps_upsert {st : Strategy} (hI : Stable W st I) (F : Nat) (p : Prefix W) (r : Record M)
    (upd : Option (Meta.TBI M)) : (ribUpsert st F p.id r upd).Always (Keeps I) := by
  cases st with
  | writeAhead =>
    refine Always.bind (keeps_onLsm fun t ht => hI.long _ _ _ _ _ _ ht) fun _ => ?_
    refine Always.bind (keeps_cht _) fun res => ?_
    rcases res with _ | ⟨_, _⟩ <;> trivial
  | persistHistory =>
    refine Always.bind (keeps_cht _) fun res => ?_
    rcases res with _ | ⟨_, _ | old⟩
    · trivial
    · trivial
    · exact Always.bind (keeps_onLsm fun t ht => hI.long _ _ _ _ _ _ ht) fun _ => trivial
  | memoryOnly =>
    refine Always.bind (keeps_cht _) fun res => ?_
    rcases res with _ | ⟨_, _⟩ <;> trivial
  | persistOnly =>
    refine Always.bind (keeps_tree _) fun res => ?_
    cases res with
    | error e => trivial
    | ok ex => exact Always.bind (keeps_onLsm fun t ht => hI.any rfl _ _ _ ht) fun _ => trivial

theorem keeps_call {st : Strategy} (hI : Stable W st I) (x : Call M W) (F fuel : Nat) :
    (x.prog st F fuel).Always (Keeps I) := by
  by_cases hx : changeOf x = none
  · exact (silent_query (po := True) x hx F fuel).mono fun _ _ h => .of_eq (h.lsm trivial)
  cases x with
  | insert p r tbi =>
    change (ribInsert st F p.id r tbi).Always _
    unfold ribInsert
    refine Always.bind (keeps_tree _) fun ex => ?_
    cases ex with
    | error e => trivial
    | ok ex =>
      refine Always.bind (keeps_upsert hI F p r tbi) fun rep => ?_
      cases rep with
      | error e => trivial
      | ok rep =>
        have h1 : (Rib.incRoutes (M := M) (W := W)).Always (Keeps I) :=
          always_atomic fun s => .of_eq rfl
        have h2 : ∀ n, (Rib.incPrefixes (M := M) (W := W) n).Always (Keeps I) :=
          fun n => always_atomic fun s => .of_eq rfl
        dsimp only
        always [h1, h2 _]
  | withdrawFor p m t =>
    change (ribMarkWithdrawnForPrefix st p.id m t).Always _
    cases st with
    | writeAhead | memoryOnly =>
      refine Always.bind (keeps_markMem _ _ _ _) fun r => ?_
      cases r <;> trivial
    | persistHistory =>
      refine Always.bind (keeps_markMem _ _ _ _) fun r => ?_
      cases r with
      | none => trivial
      | some sp => exact Always.bind (keeps_marker hI _ p _ _) fun _ => trivial
    | persistOnly =>
      refine Always.bind (ReadOnly.always (fun _ => .of_eq rfl) (readOnly_read _)) fun recs => ?_
      refine Always.bind (keeps_rewriteAll hI _ _ _) fun ok => ?_
      cases ok <;> trivial
  | activateFor p m t =>
    change (ribMarkActiveForPrefix st p.id m t).Always _
    cases st with
    | writeAhead | memoryOnly =>
      refine Always.bind (keeps_markMem _ _ _ _) fun r => ?_
      cases r <;> trivial
    | persistHistory =>
      refine Always.bind (keeps_markMem _ _ _ _) fun r => ?_
      cases r with
      | none => trivial
      | some sp => exact Always.bind (keeps_marker hI _ p _ _) fun _ => trivial
    | persistOnly =>
      refine Always.bind (ReadOnly.always (fun _ => .of_eq rfl) (readOnly_read _)) fun recs => ?_
      cases recs with
      | none => trivial
      | some b =>
        refine Always.bind (keeps_rewriteAll hI _ _ _) fun ok => ?_
        cases ok <;> trivial
  | withdraw m => exact keeps_tree _
  | activate m => exact keeps_tree _
  | _ => exact absurd rfl hx

theorem stable_sorted (st : Strategy) : Stable W st Lsm.Sorted :=
  ⟨fun _ _ _ _ _ _ h => h.insert _ _, fun _ _ _ _ h => h.insert _ _⟩

/-- Every entry has a long key. -/
def LongKeys (W : Nat) (t : Lsm) : Prop := ∀ x ∈ t, ∃ k : Tag W, x.1 = k.key

omit [Meta M] in
theorem stable_longKeys {st : Strategy} (hst : st ≠ .persistOnly) : Stable W st (LongKeys W) := by
  refine ⟨fun t p m lt rs b h x hx => ?_, fun c => absurd c hst⟩
  rcases Lsm.mem_insert_sub hx with rfl | hx
  · exact ⟨⟨p, m, lt, rs⟩, rfl⟩
  · exact h x hx

theorem sorted_lsmOf [Fam W] (st : Strategy) (h : History M W) : (lsmOf st h).Sorted := by
  cases st with
  | writeAhead => exact (lrep_writeAhead h).sorted
  | persistHistory => exact (lrep_persistHistory h).sorted
  | memoryOnly => rw [lsmOf_memoryOnly]; exact List.Pairwise.nil
  | persistOnly => exact (poRep_lsmOf h).sorted

/-! ## Scans change nothing -/

omit [Meta M] in
theorem readOnly_scanSteps (pre : Bytes) (fuel : Nat) : ∀ last,
    (scanSteps (M := M) (W := W) pre fuel last).ReadOnly := by
  induction fuel with
  | zero => exact fun _ => trivial
  | succ fuel ih =>
    intro last
    unfold scanSteps
    refine ReadOnly.bind (readOnly_read _) fun r => ?_
    cases r with
    | none => trivial
    | some kv => exact ReadOnly.bind (ih _) fun _ => trivial

theorem readOnly_getValueSteps (fuel : Nat) (p : PrefixId W) (mui : Option Mui) (iw : Bool) :
    (ribGetValueSteps (M := M) fuel p mui iw).ReadOnly := by
  unfold ribGetValueSteps
  refine ReadOnly.bind readOnly_withdrawnMuis fun _ => ReadOnly.bind (readOnly_scanSteps _ _ _) fun _ =>
    ReadOnly.bind (readOnly_ofOption _) fun o => ?_
  cases o with
  | none => trivial
  | some l => dsimp only; split <;> trivial

omit [Meta M] in
theorem readOnly_treeNext (pos : LsmPos) : (treeNext (M := M) (W := W) pos).ReadOnly := by
  unfold treeNext
  cases pos with
  | none => trivial
  | some last =>
    refine ReadOnly.bind (readOnly_read _) fun r => ?_
    cases r <;> trivial

omit [Meta M] in
theorem readOnly_groupSteps (outer : PrefixId W) (fuel : Nat) : ∀ pos,
    (groupSteps (M := M) outer fuel pos).ReadOnly := by
  induction fuel with
  | zero => exact fun _ => trivial
  | succ fuel ih =>
    intro pos
    unfold groupSteps
    refine ReadOnly.bind (readOnly_treeNext _) fun r => ?_
    obtain ⟨o, pos⟩ := r
    cases o with
    | none => trivial
    | some kv =>
      dsimp only
      repeat' split
      all_goals first
        | trivial
        | exact ReadOnly.bind (ih _) fun _ => trivial

omit [Meta M] in
theorem readOnly_groupFrom (fuel : Nat) (b : Bytes) (pos : LsmPos) :
    (groupFrom (M := M) (W := W) fuel b pos).ReadOnly := by
  unfold groupFrom
  repeat' split
  all_goals first
    | trivial
    | exact ReadOnly.bind (readOnly_groupSteps _ _ _) fun _ => trivial

omit [Meta M] in
theorem readOnly_persistNext (fuel : Nat) (cur : Option Bytes) (pos : LsmPos) :
    (persistNextSteps (M := M) (W := W) fuel cur pos).ReadOnly := by
  unfold persistNextSteps
  cases cur with
  | some b => exact ReadOnly.bind (readOnly_groupFrom _ _ _) fun _ => trivial
  | none =>
    refine ReadOnly.bind (readOnly_treeNext _) fun r => ?_
    obtain ⟨o, pos⟩ := r
    cases o with
    | none => trivial
    | some kv => exact ReadOnly.bind (readOnly_groupFrom _ _ _) fun _ => trivial

theorem readOnly_persistItem (g : List (FatalResult Bytes)) :
    (persistItem (M := M) (W := W) g).ReadOnly := by
  unfold persistItem
  split
  · trivial
  · exact ReadOnly.bind (readOnly_ofOption _) fun _ => trivial

theorem readOnly_persistItems (fuel0 fuel : Nat) : ∀ (n : Option Nat) cur pos,
    (persistItems (M := M) (W := W) fuel0 fuel n cur pos).ReadOnly := by
  induction fuel with
  | zero =>
    intro n cur pos
    unfold persistItems
    split <;> first | trivial | (rename_i h; cases h)
  | succ fuel ih =>
    intro n cur pos
    unfold persistItems
    split
    · trivial
    · trivial
    · rename_i h0 _
      cases h0
      refine ReadOnly.bind (readOnly_persistNext _ _ _) fun r => ?_
      cases r with
      | none => trivial
      | some r =>
        exact ReadOnly.bind (readOnly_persistItem _) fun _ => ReadOnly.bind (ih _ _ _) fun _ => trivial

theorem readOnly_scanValue (st : Strategy) (fuel' : Nat) (mui : Option Mui) (iw : Bool) (p : PrefixId W) :
    (scanValue (M := M) st fuel' mui iw p).ReadOnly := by
  cases st with
  | persistOnly => exact readOnly_getValueSteps _ _ _ _
  | writeAhead => exact readOnly_ribGetValue (M := M) .writeAhead p mui iw
  | memoryOnly => exact readOnly_ribGetValue (M := M) .memoryOnly p mui iw
  | persistHistory => exact readOnly_ribGetValue (M := M) .persistHistory p mui iw

section
variable {gv : GetValue M W} (hgv : ∀ p, (gv p).ReadOnly)
include hgv

omit [Meta M] in
theorem readOnly_gvItem (p : PrefixId W) : (gvItem gv p).ReadOnly := by
  unfold gvItem; read_only [hgv _]

omit [Meta M] in
theorem readOnly_gvPfxItem (p : PrefixId W) : (gvPfxItem gv p).ReadOnly := by
  unfold gvPfxItem; read_only [hgv _]

omit [Meta M] in
theorem readOnly_gvSameItem (p q : PrefixId W) : (gvSameItem gv p q).ReadOnly := by
  unfold gvSameItem; read_only [hgv _]

omit [Meta M] in
theorem readOnly_gvValues (l : List (PrefixId W)) : (gvValues gv l).ReadOnly := by
  induction l with
  | nil => exact readOnly_pure _
  | cons p l ih => unfold gvValues; read_only [hgv _]

omit [Meta M] in
theorem readOnly_gvFill (o : Option (List (PrefixId W))) : (gvFill gv o).ReadOnly := by
  unfold gvFill; read_only [readOnly_gvValues hgv _]

omit [Meta M] in
theorem readOnly_gvFound (ty : MatchType) (o : Option (PrefixId W)) : (gvFound gv ty o).ReadOnly := by
  unfold gvFound; read_only [hgv _]

omit [Meta M] in
theorem readOnly_gvMatch (fuel : Nat) (p : PrefixId W) (o : MatchOptions) :
    (gvMatchPrefix gv fuel p o).ReadOnly := by
  unfold gvMatchPrefix
  read_only [ReadOnly.onNodes (readOnly_treeMatchPrefix _ _ _ _ _), readOnly_gvFound hgv _ _,
    readOnly_gvFill hgv _]

theorem readOnly_gvLess (p : PrefixId W) : (gvLessIter gv p).ReadOnly := by
  unfold gvLessIter; read_only [readOnly_eachLess (readOnly_gvItem hgv) _]

theorem readOnly_gvMoreIter (fuel : Nat) (p : PrefixId W) : (gvMoreIter gv fuel p).ReadOnly := by
  unfold gvMoreIter; read_only [readOnly_eachMore (readOnly_gvItem hgv) _ _]

theorem readOnly_gvMore (fuel : Nat) (p : PrefixId W) (mui : Option Mui) (iw : Bool) :
    (gvMoreChecked gv fuel p mui iw).ReadOnly := by
  unfold gvMoreChecked; read_only [readOnly_ribMuiIsWithdrawn _, readOnly_gvMoreIter hgv _ _]

theorem readOnly_gvForMui (fuel : Nat) (m : Mui) (iw : Bool) : (gvForMui gv fuel m iw).ReadOnly := by
  unfold gvForMui; read_only [readOnly_ribMuiIsWithdrawn _, readOnly_gvMore hgv _ _ _ _]

omit [Meta M] in
theorem readOnly_gvFromCommon (p : PrefixId W) (mui : Option Mui)
    {walk : Prog (Rib M W) (List (FatalResult (Option (PrefixRecord M W))))} (hw : walk.ReadOnly) :
    (gvFromCommon gv p mui walk).ReadOnly := by
  unfold gvFromCommon; read_only [readOnly_ribContains _ _, hgv _, hw]

theorem readOnly_gvMoreFrom (fuel : Nat) (p : PrefixId W) (mui : Option Mui) :
    (gvMoreFrom gv fuel p mui).ReadOnly := by
  unfold gvMoreFrom
  read_only [readOnly_gvFromCommon hgv _ _ (readOnly_eachMore (readOnly_gvSameItem hgv _) _ _)]

theorem readOnly_gvLessFrom (p : PrefixId W) (mui : Option Mui) : (gvLessFrom gv p mui).ReadOnly := by
  unfold gvLessFrom
  read_only [readOnly_gvFromCommon hgv _ _ (readOnly_eachLess (readOnly_gvSameItem hgv _) _)]

end

theorem readOnly_scan (st : Strategy) (fuel fuel' : Nat) (q : ScanCall W) :
    (q.prog (M := M) st fuel fuel').ReadOnly := by
  have hgv := fun mui iw => readOnly_scanValue (M := M) (W := W) st fuel' mui iw
  cases q with
  | records p mui iw => exact hgv mui iw p.id
  | persisted n =>
    cases st <;> first | exact readOnly_persistItems _ _ _ _ _ | trivial
  | less p mui iw => exact readOnly_gvLess (hgv mui iw) _
  | more p mui iw => exact readOnly_gvMore (hgv mui iw) _ _ _ _
  | all => exact readOnly_eachMore (readOnly_gvPfxItem (hgv none true)) _ _
  | forMui m iw => exact readOnly_gvForMui (hgv (some m) iw) _ _ _
  | matching p o => exact readOnly_gvMatch (hgv o.mui o.includeWithdrawn) _ _ _
  | moreFrom p mui iw => exact readOnly_gvMoreFrom (hgv mui iw) _ _ _
  | lessFrom p mui iw => exact readOnly_gvLessFrom (hgv mui iw) _ _

/-! ## The run without the scans -/

section
variable {σ ι κ : Type} {A : ι ⊕ κ → Type}

/-- The calls alone. -/
def Conf.left (c : Conf σ (ι ⊕ κ) A) : Conf σ ι (fun i => A (.inl i)) :=
  ⟨c.st, fun i => c.pool (.inl i)⟩

variable [DecidableEq ι] [DecidableEq κ]

theorem Conf.left_step_inl (c : Conf σ (ι ⊕ κ) A) (i : ι) : (c.step (.inl i)).left = c.left.step i := by
  unfold Conf.step Conf.left
  simp only
  cases hp : c.pool (.inl i) with
  | act f k =>
    simp only
    refine congrArg (Conf.mk _) (funext fun j => ?_)
    by_cases hj : j = i
    · subst hj; rw [Function.update_self, Function.update_self]
    · rw [Function.update_of_ne hj, Function.update_of_ne (by simpa using hj)]
  | _ => rfl

theorem Conf.left_step_inr (c : Conf σ (ι ⊕ κ) A) (q : κ) (hq : (c.pool (.inr q)).ReadOnly) :
    (c.step (.inr q)).left = c.left := by
  unfold Conf.step Conf.left
  cases hp : c.pool (.inr q) with
  | act f k =>
    rw [hp] at hq
    simp only
    rw [hq.1]
    refine congrArg (Conf.mk _) (funext fun j => ?_)
    rw [Function.update_of_ne (by simp)]
  | _ => rfl

theorem Conf.left_exec (t : List (ι ⊕ κ)) : ∀ c : Conf σ (ι ⊕ κ) A,
    (∀ q, (c.pool (.inr q)).ReadOnly) →
      (c.exec t).left = c.left.exec (others t) := by
  induction t with
  | nil => exact fun _ _ => rfl
  | cons x t ih =>
    intro c hc
    have hc' : ∀ q, ((c.step x).pool (.inr q)).ReadOnly := by
      intro q
      unfold Conf.step
      split
      · rename_i f k hp
        by_cases hx : (.inr q : ι ⊕ κ) = x
        · subst hx
          have := hc q
          rw [hp] at this
          simp only [Function.update_self]
          exact this.2 _
        · simp only [Function.update_of_ne hx]
          exact hc q
      · exact hc q
    change (((c.step x)).exec t).left = _
    rw [ih _ hc']
    cases x with
    | inl i => rw [Conf.left_step_inl]; rfl
    | inr q => rw [Conf.left_step_inr c q (hc q)]; rfl

end

variable {ι κ : Type} {calls : ι → Call M W} {scans : κ → ScanCall W}

theorem scanStart_left (st : Strategy) (F fuel fuel' : Nat) (s : Rib M W) (calls : ι → Call M W)
    (scans : κ → ScanCall W) : (scanStart st F fuel fuel' s calls scans).left = start st F fuel s calls :=
  rfl

variable [DecidableEq ι] [DecidableEq κ]

theorem scanStart_exec (st : Strategy) (F fuel fuel' : Nat) (s : Rib M W) (calls : ι → Call M W)
    (scans : κ → ScanCall W) (t : List (ι ⊕ κ)) :
    ((scanStart st F fuel fuel' s calls scans).exec t).left =
      (start st F fuel s calls).exec (others t) :=
  Conf.left_exec t _ fun q => readOnly_scan st fuel fuel' (scans q)

omit [DecidableEq ι] [DecidableEq κ] in
theorem others_append (t u : List (ι ⊕ κ)) : others (t ++ u) = others t ++ others u :=
  List.filterMap_append

omit [DecidableEq ι] [DecidableEq κ] in
theorem others_take_le (t : List (ι ⊕ κ)) (j : ℕ) : (others (t.take j)).length ≤ (others t).length := by
  conv_rhs => rw [← List.take_append_drop j t, others_append, List.length_append]
  omega

omit [DecidableEq ι] [DecidableEq κ] in
theorem others_take (t : List (ι ⊕ κ)) (j : ℕ) :
    (others t).take (others (t.take j)).length = others (t.take j) := by
  conv_lhs => rw [← List.take_append_drop j t]
  rw [List.take_append_drop]
  conv_lhs => rw [← List.take_append_drop j t, others_append]
  rw [List.take_append_drop, List.take_left']
  rfl

omit [DecidableEq ι] [DecidableEq κ] in
theorem others_mono (t : List (ι ⊕ κ)) {i j : ℕ} (hij : i ≤ j) :
    (others (t.take i)).length ≤ (others (t.take j)).length := by
  have := others_take_le (t.take j) i
  rwa [List.take_take, min_eq_left hij] at this

theorem scan_at (st : Strategy) (F fuel fuel' : Nat) (s : Rib M W) (calls : ι → Call M W)
    (scans : κ → ScanCall W) (t : List (ι ⊕ κ)) (j : ℕ) :
    ((scanStart st F fuel fuel' s calls scans).at t j).st =
      ((start st F fuel s calls).at (others t) (others (t.take j)).length).st := by
  unfold Conf.at
  rw [others_take, ← scanStart_exec st F fuel fuel' s calls scans]
  rfl

section
variable [Fam W] {st : Strategy} {F0 F fuel fuel' : Nat} (hF : 32 ≤ F) (hf : iterFuel W ≤ fuel)
  {h : History M W} {s : Rib M W} (hs : exec st F0 h = .ok () s)
include hF hf hs

theorem scan_grow (t : List (ι ⊕ κ)) (i j : ℕ) (hij : i ≤ j) (hj : j ≤ t.length) :
    Grow (begunIds h calls (others t)) ((scanStart st F fuel fuel' s calls scans).at t i).st
      ((scanStart st F fuel fuel' s calls scans).at t j).st := by
  rw [scan_at, scan_at]
  have := (run_span (calls := calls) hF hf hs (others t) (Nat.le_refl _) (Prefix.root W) (C := False)
    (k := 0) (fun c => c.elim)).grow (others (t.take i)).length (others (t.take j)).length
    (Nat.zero_le _) ?_ (others_take_le t j)
  · rwa [List.take_length] at this
  · have := others_take_le (t.take j) i
    rwa [List.take_take, min_eq_left hij] at this

theorem scan_sane (t : List (ι ⊕ κ)) (j : ℕ) :
    Sane (begunIds h calls (others t)) ((scanStart st F fuel fuel' s calls scans).at t j).st := by
  rw [scan_at]
  have := (run_span (calls := calls) hF hf hs (others t) (Nat.le_refl _) (Prefix.root W) (C := False)
    (k := 0) (fun c => c.elim)).sane (others (t.take j)).length
    (Nat.zero_le _) (others_take_le t j)
  rwa [List.take_length] at this

omit hF hf in
theorem scan_sorted (t : List (ι ⊕ κ)) (j : ℕ) :
    ((scanStart st F fuel fuel' s calls scans).at t j).st.lsm.Sorted := by
  rw [scan_at]
  refine Conf.exec_always (G := fun _ => Keeps Lsm.Sorted) (I := fun s : Rib M W => s.lsm.Sorted) _ _
    (fun i _ s s' h0 hg => hg h0) (fun i _ => keeps_call (stable_sorted st) (calls i) F fuel) ?_
  change s.lsm.Sorted
  rw [(exec_ok_inv hs).lsm]
  exact sorted_lsmOf st h

omit hF hf in
theorem scan_longKeys (hst : st ≠ .persistOnly) (t : List (ι ⊕ κ)) (j : ℕ) :
    LongKeys W ((scanStart st F fuel fuel' s calls scans).at t j).st.lsm := by
  rw [scan_at]
  refine Conf.exec_always (G := fun _ => Keeps (LongKeys W)) (I := fun s : Rib M W => LongKeys W s.lsm) _ _
    (fun i _ s s' h0 hg => hg h0) (fun i _ => keeps_call (stable_longKeys hst) (calls i) F fuel) ?_
  change LongKeys W s.lsm
  rw [(exec_ok_inv hs).lsm]
  have : ∀ {g : Tag W → Option Bytes} {t : Lsm}, LRep g t → LongKeys W t := fun hg x hx =>
    have ⟨k, _, hk⟩ := (hg.mem x).1 hx
    ⟨k, hk⟩
  cases st with
  | writeAhead => exact this (lrep_writeAhead h)
  | persistHistory => exact this (lrep_persistHistory h)
  | memoryOnly => rw [lsmOf_memoryOnly]; exact fun x hx => (by cases hx)
  | persistOnly => exact absurd rfl hst

theorem scan_grown (t : List (ι ⊕ κ)) {k n : ℕ} (hn : n ≤ t.length) :
    Grown (lsms fun j => ((scanStart st F fuel fuel' s calls scans).at t j).st) k n :=
  ⟨fun j _ _ => scan_sorted hs t j, fun i j _ hij hj =>
    (scan_grow hF hf hs t i j hij (hj.trans hn)).keys⟩

/-- Every run of calls and scans has a log that explains it. -/
theorem scan_explained (t : List (ι ⊕ κ)) : ∃ log,
    Explains st h (start st F fuel s calls) (others t) log ∧
    ∀ j, LinInv st (poCond st calls) (begunIds h calls (others t)) h calls
      (((scanStart st F fuel fuel' s calls scans).at t j).st, log (others (t.take j)).length) := by
  obtain ⟨log, hE, _, _, _, hi⟩ := run_explained hF hf hs calls (others t)
  refine ⟨log, hE, fun j => ?_⟩
  rw [scan_at]
  exact hi _ (others_take_le t j)

omit [DecidableEq ι] [DecidableEq κ] hF hf hs in
/-- What a look-up has read. -/
theorem reads_scanValue {po : Prop} {T : PrefixId W → Mui → Prop} {log : ℕ → List ι}
    {S : ℕ → Rib M W} {k n : ℕ} (ht : Tracked st calls) (hpo : po = poCond st calls)
    (hi : ∀ j, k ≤ j → j ≤ n → LinInv st po T h calls (S j, log j))
    (hg : ∀ i j, k ≤ i → i ≤ j → j ≤ n → Grow T (S i) (S j)) {p : Prefix W} {mui : Option Mui} {iw : Bool}
    {a : FatalResult (Option (List (Record M)))} (hR : Reads S (scanValue st fuel' mui iw p.id) k a n) :
    ∃ v, a = .ok v ∧ ReadEach st h calls log k n mui iw p v ∧
      (st ≠ .persistOnly ∨ mui ≠ none → ReadBetween st h calls log k n mui iw p v) := by
  subst hpo
  by_cases hst : st = .persistOnly
  · subst hst
    obtain ⟨v, hv, hE'⟩ := reads_getValueSteps ⟨rfl, ht rfl⟩ hi hg hR
    refine ⟨v, hv, hE', fun hc => ?_⟩
    obtain ⟨n1, hn1, at_, hat, hA, hne⟩ := hE'
    cases mui with
    | none => exact (hc.elim (fun c => c rfl) (fun c => c rfl)).elim
    | some m =>
      refine ⟨n1, at_ m, hn1, (hat m).1, (hat m).2, ⟨hA.1, fun r => ?_⟩, hne⟩
      rw [hA.2]
      constructor
      · rintro ⟨r0, h1, h2, h3⟩
        have := h2 m rfl
        rw [this] at h1
        refine ⟨r0, by rw [this]; exact h1, h2, ?_⟩
        rw [this] at h3
        rw [this]
        exact h3
      · rintro ⟨r0, h1, h2, h3⟩
        have := h2 m rfl
        refine ⟨r0, ?_, h2, ?_⟩
        · rw [this] at h1 ⊢; exact h1
        · rw [this] at h3 ⊢; exact h3
  · have hmem : st.inMemory = true := by cases st <;> first | rfl | exact absurd rfl hst
    have hR' : Reads S (ribGetValue st p.id mui iw) k a n := by
      cases st <;> first | exact hR | exact absurd rfl hst
    obtain ⟨v, hv, n1, n2, h1, h2, h3, hA⟩ := reads_getValue (.inl hmem) hi hg hR'
    exact ⟨v, hv, ⟨n1, h1, fun _ => n2, fun _ => ⟨h2, h3⟩, hA⟩, fun _ => ⟨n1, n2, h1, h2, h3, hA⟩⟩

/-- What is known of a query while it runs. -/
theorem scan_trip (ht : Tracked st calls) (t : List (ι ⊕ κ)) {log : ℕ → List ι}
    (hi : ∀ j, LinInv st (poCond st calls) (begunIds h calls (others t)) h calls
      (((scanStart st F fuel fuel' s calls scans).at t j).st, log (others (t.take j)).length))
    {k n : ℕ} (hk : k ≤ n) (hn : n ≤ t.length) (mui : Option Mui) (iw : Bool) :
    Trip (begunIds h calls ((others t).take (others (t.take n)).length))
      (scanFacts st h (start st F fuel s calls) t log k n) (scanValue st fuel' mui iw) mui iw
      (fun j => ((scanStart st F fuel fuel' s calls scans).at t j).st) k n := by
  have hspan : ∀ (p : Prefix W) {C : Prop}, (C → NoNewNodes h ((start st F fuel s calls).exec
      (others (t.take k))) (others (t.take n)) p) →
      Span (begunIds h calls ((others t).take (others (t.take n)).length)) p.id C
        (fun j => ((scanStart st F fuel fuel' s calls scans).at t j).st) k n := by
    intro p C hC
    have := run_span (calls := calls) hF hf hs (others t) (others_take_le t n) p (C := C)
      (k := (others (t.take k)).length) (by rw [others_take, others_take]; exact hC)
    refine ⟨fun j h1 h2 => ?_, fun i j h1 h2 h3 => ?_, fun c j h1 h2 => ?_⟩
    · rw [scan_at]; exact this.sane _ (others_mono t h1) (others_mono t h2)
    · rw [scan_at, scan_at]
      exact this.grow _ _ (others_mono t h1) (others_mono t h2) (others_mono t h3)
    · rw [scan_at]; exact this.kids c _ (others_mono t h1) (others_mono t h2)
  refine ⟨fun k' n' p r h1 h2 hr => ?_, fun p hc => ?_, fun p => hspan p (fun c => c), fun q hq => ?_,
    fun q hq => ?_, fun j m h1 h2 hw => ?_⟩
  · obtain ⟨v, hv, hE, hB⟩ := reads_scanValue (log := fun j => log (others (t.take j)).length) (fuel' := fuel')
      ht rfl (fun j _ _ => hi j)
      (fun i j _ hij hj => scan_grow (calls := calls) (scans := scans) (fuel' := fuel') hF hf hs t i j hij
        (hj.trans (h2.trans hn))) hr
    refine ⟨v, hv, ?_, fun hc => (hB hc).mono h1 h2⟩
    obtain ⟨n1, e1, at_, e2, e3⟩ := hE
    exact ⟨n1, h1.trans e1, at_, fun m => ⟨(e2 m).1, (e2 m).2.trans h2⟩, e3⟩
  · obtain ⟨⟨_, _, _, _, _, hne⟩, _⟩ := hc
    exact hne rfl
  · have hq : Seen ((scanStart st F fuel fuel' s calls scans).at t n).st.tree.slots q.id := hq
    rw [scan_at] at hq
    have := seen_begun (calls := calls) hF hf hs hq
    rwa [others_take] at this
  · obtain ⟨h0, m, hc⟩ := hq
    refine ⟨h0, ?_⟩
    have := completed_settled (calls := calls) hF hf hs h0 hc
    change Settled ((scanStart st F fuel fuel' s calls scans).at t k).st.tree.slots q.id
    rw [scan_at]
    unfold Conf.at
    rw [others_take]
    exact this
  · refine ⟨j, h1, h2, ?_⟩
    rw [← (hi j).wd]
    exact hw

end

end Rotonda
