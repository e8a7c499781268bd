import Verif.Proofs.Along
import Verif.Proofs.LinRun

/-!
# What the calls do to the prefix counters
-/

namespace Rotonda

open Prog Spec

variable {M : Type} {W : Nat}
variable {T : PrefixId W → Mui → Prop} {R : Rib M W → Rib M W → Prop} {D : Prop}

/-- The counters after counting one more prefix of length `n`. -/
def bump (n : Nat) (f : Nat → Nat) : Nat → Nat :=
  fun l => if l = n ∧ n ≤ 128 then f l + 1 else f l

theorem bump_ne {n : Nat} (hn : n ≤ 128) (f : Nat → Nat) : bump n f ≠ f := by
  intro h
  have := congrFun h n
  simp [bump, hn] at this

/-- A step that counts nothing and puts no prefix but `p` into the tree. -/
structure Quietly (p : PrefixId W → Prop) (s s' : Rib M W) : Prop where
  only : ∀ q, q.Clean → Known q s' → Known q s ∨ p q
  prefixes : s'.prefixes = s.prefixes

theorem Quietly.rfl' {p : PrefixId W → Prop} (s : Rib M W) : Quietly p s s := ⟨fun _ _ h => .inl h, rfl⟩

theorem Quietly.mono {p p' : PrefixId W → Prop} (h : ∀ q, p q → p' q) {s s' : Rib M W}
    (hq : Quietly p s s') : Quietly p' s s' :=
  ⟨fun q hc hk => (hq.only q hc hk).imp id (h q), hq.prefixes⟩

theorem clean_zero {p q : PrefixId W} (hp : p.Clean) (hq : q.Clean) (h0 : p.len = 0) (h0' : q.len = 0) :
    p = q := by
  have hb : ∀ r : PrefixId W, r.Clean → r.len = 0 → r = ⟨0#W, 0⟩ := by
    intro r hr h0
    obtain ⟨b, l⟩ := r
    simp only at h0
    subst h0
    congr 1
    apply BitVec.eq_of_getMsbD_eq
    intro i hi
    rw [hr.2 i (Nat.zero_le _)]
    simp
  rw [hb p hp h0, hb q hq h0']

theorem quietly_tree {p : PrefixId W} {m : Mui} (hp : p.Clean) {s : Rib M W} {t : Tree W}
    (h : GTree p m s.tree t) : Quietly (· = p) s (Rib.treeL.set s t) := by
  refine ⟨fun q hq hk => ?_, rfl⟩
  rcases hk with ⟨h0, hk⟩ | ⟨h0, hk⟩
  · rcases h.slots.only q hk with hk | ⟨_, hh, hpos⟩
    · exact .inl (.inl ⟨h0, hk⟩)
    · exact .inr (pfxPos_inj hp hq hh hpos).symm
  · rcases h.dflt hk with hk | hk
    · exact .inl (.inr ⟨h0, hk⟩)
    · exact .inr (clean_zero hq hp h0 hk)

/-- Inserting into the tree.  `K` is the case that another call puts the prefix
into the tree. -/
theorem wp_treeInsert_first [Fam W] (hR : ∀ s s', R s s' → Grow T s s') {p : PrefixId W} (hp : p.Clean)
    {m : Mui} (hT : T p m) {F : Nat} (hF : D ∨ 32 ≤ F) {K : Prop}
    (hK : ∀ s s', R s s' → ¬ K → ¬ Known p s → ¬ Known p s') {s : Rib M W} (hs : Sane T s) :
    wp R (fun s s' => Grow T s s' ∧ Quietly (· = p) s s') D ((setPrefixExists F p m).zoom Rib.treeL)
      (fun r s' => Grow T s s' ∧ Known p s' ∧
        ((r = .ok false ∧ ¬ Known p s) ∨ (r = .ok true ∧ (K ∨ Known p s)))) s := by
  have hg : ∀ (s : Rib M W) t, GTree p m s.tree t →
      Grow T s (Rib.treeL.set s t) ∧ Quietly (· = p) s (Rib.treeL.set s t) := fun s t hg =>
    ⟨⟨hg.slots.1, hg.slots.2 T hT, hg.dfltMono, GRecs.rfl' _, fun h => h, fun _ h => h⟩,
      quietly_tree hp hg⟩
  have lift : ∀ {Q : Except StoreError Bool → Tree W → Prop},
      wp (proj Rib.tree R) (GTree p m) D (setPrefixExists F p m) Q s.tree →
      wp R (fun s s' => Grow T s s' ∧ Quietly (· = p) s s') D
        ((setPrefixExists F p m).zoom Rib.treeL) (fun a s' => Grow T s s' ∧ Q a s'.tree) s := by
    intro Q h
    refine wp_conseq _ (wp_zoom Rib.treeL_lawful _ (R := R)
      (G := fun s s' => Grow T s s' ∧ Quietly (· = p) s s')
      (R' := proj Rib.tree R) (G' := GTree p m) (P := fun s' => Grow T s s') ?_ hg ?_ ?_
      (Grow.rfl' s) h) (fun _ _ h => h)
    · exact fun s s' h => ⟨s, s', h, rfl, rfl⟩
    · exact fun a b h hp => hp.trans (hR _ _ h)
    · exact fun a t hp h => hp.trans (hg a t h).1
  by_cases h0 : 0 < p.len
  · have hkn : ∀ s : Rib M W, Known p s ↔ PfxSet s.tree.slots p := fun s =>
      ⟨fun h => h.elim And.right (fun h => by omega), fun h => .inl ⟨h0, h⟩⟩
    refine wp_conseq _ (lift (wp_setPrefixExists (proj_tree hR) (hF.imp id .inr) hp h0
      (J := fun x => (K ∨ Known p s) ∨ ¬ PfxSet x p) (K := K ∨ Known p s) ?_ ?_ ?_ hs.nodes ?_)) ?_
    · rintro _ _ ⟨a, b, hr, rfl, rfl⟩ (hj | hj)
      · exact .inl hj
      · by_cases hk : K
        · exact .inl (.inl hk)
        · refine .inr fun hb => hK _ _ hr hk (fun h => hj ((hkn _).1 h)) ((hkn _).2 hb)
    · intro a b hg hj
      exact hj.imp id fun hn hb => hn (hg.2 _ hb)
    · rintro a (hj | hj) hb
      · exact hj
      · exact absurd hb hj
    · by_cases hk : Known p s
      · exact .inl (.inr hk)
      · exact .inr fun h => hk ((hkn _).2 h)
    · rintro r s' ⟨hg, _, hfull, hres⟩
      refine ⟨hg, (hkn _).2 hfull.2, ?_⟩
      rcases hres with ⟨h, h'⟩ | h
      · exact .inl ⟨h, fun hk => h' ((hkn _).1 hk)⟩
      · exact .inr h
  · have h0' : p.len = 0 := by omega
    have hkn : ∀ s : Rib M W, Known p s ↔ s.tree.defaultExists = true := fun s =>
      ⟨fun h => h.elim (fun h => by omega) And.right, fun h => .inr ⟨h0', h⟩⟩
    refine wp_conseq _ (lift (wp_setDefaultExists (proj_tree hR) ?_ hp h0'
      (J := fun x => (K ∨ Known p s) ∨ ¬ x.defaultExists = true) (K := K ∨ Known p s) ?_ ?_
      hs.nodes ?_)) ?_
    · rintro _ _ ⟨s, s', h, rfl, rfl⟩; exact (hR _ _ h).dflt
    · rintro _ _ ⟨a, b, hr, rfl, rfl⟩ (hj | hj)
      · exact .inl hj
      · by_cases hk : K
        · exact .inl (.inl hk)
        · refine .inr fun hb => hK _ _ hr hk (fun h => hj ((hkn _).1 h)) ((hkn _).2 hb)
    · rintro a (hj | hj) hb
      · exact hj
      · exact absurd hb hj
    · by_cases hk : Known p s
      · exact .inl (.inr hk)
      · exact .inr fun h => hk ((hkn _).2 h)
    · rintro r s' ⟨hg, _, hd, _, hres⟩
      refine ⟨hg, (hkn _).2 hd, ?_⟩
      rcases hres with ⟨h, h'⟩ | h
      · refine .inl ⟨h, fun hk => ?_⟩
        rw [(hkn _).1 hk] at h'; cases h'
      · exact .inr h

/-! ## Programs that leave the tree alone -/

theorem quietly_onCht {α : Type} {p : PrefixId W → Prop} (prog : Prog (PCht M W) α) :
    (prog.zoom Rib.chtL).Always (Quietly (M := M) p) :=
  Always.zoom (G' := fun _ _ => True) (fun _ _ _ => ⟨fun _ _ h => .inl h, rfl⟩) (always_true _)

theorem quietly_onRecs {α : Type} {p : PrefixId W → Prop} (prog : Prog (PSlots M W) α) :
    (onRecs prog).Always (Quietly (M := M) p) := quietly_onCht _

theorem quietly_onLsm {p : PrefixId W → Prop} (f : Lsm → Lsm) :
    (onLsm (M := M) (W := W) f).Always (Quietly p) :=
  always_atomic fun _ => ⟨fun _ _ h => .inl h, rfl⟩

theorem quietly_readOnly {α : Type} {p : PrefixId W → Prop} {prog : Prog (Rib M W) α}
    (h : prog.ReadOnly) : prog.Always (Quietly p) := ReadOnly.always Quietly.rfl' h

theorem quietly_updateWd {p : PrefixId W → Prop} (cur : Nat) : ∀ (fuel : Nat) (new : Mui → Bool),
    ((updateWithdrawnLoop (W := W) cur fuel new).zoom Rib.treeL).Always (Quietly (M := M) p) := by
  intro fuel new
  refine Always.zoom (G' := fun t t' => t'.slots = t.slots ∧ t'.defaultExists = t.defaultExists)
    ?_ ?_
  · rintro s t ⟨h1, h2⟩
    refine ⟨fun q _ hk => .inl ?_, rfl⟩
    rcases hk with ⟨h0, hk⟩ | ⟨h0, hk⟩
    · refine .inl ⟨h0, ?_⟩
      change PfxSet t.slots q at hk
      rw [h1] at hk; exact hk
    · refine .inr ⟨h0, ?_⟩
      change t.defaultExists = true at hk
      rw [h2] at hk; exact hk
  · induction fuel generalizing new with
    | zero => trivial
    | succ fuel ih =>
      unfold updateWithdrawnLoop
      refine Always.bind (always_atomic fun t => ?_) fun r => ?_
      · split <;> exact ⟨rfl, rfl⟩
      · cases r with
        | none => trivial
        | some found => exact ih found

theorem quietly_rewriteAll {p : PrefixId W → Prop} (t : LTime) (rs : RouteStatus) :
    ∀ bs : List Bytes, (rewriteAll (M := M) W t rs bs).Always (Quietly p) := by
  intro bs
  induction bs with
  | nil => trivial
  | cons b bs ih =>
    unfold rewriteAll
    refine Always.bind (always_atomic fun s => ?_) fun ok => ?_
    · cases rewriteHeader W s.lsm t rs b with
      | none => exact Quietly.rfl' _
      | some l => exact ⟨fun _ _ h => .inl h, rfl⟩
    · cases ok with
      | true => exact ih
      | false => trivial

theorem quietly_ribMarkMem {p : PrefixId W → Prop} (q : PrefixId W) (m : Mui) (l : LTime)
    (rs : RouteStatus) : (ribMarkMem (M := M) q m l rs).Always (Quietly p) := by
  unfold ribMarkMem
  always [quietly_onRecs _]

theorem quietly_ribPersistMarker {p : PrefixId W → Prop} (sp : Ref W) (q : PrefixId W) (m : Mui)
    (l : LTime) : (ribPersistMarker (M := M) sp q m l).Always (Quietly p) := by
  unfold ribPersistMarker
  always [quietly_onRecs _, quietly_onLsm _]

variable [Meta M]

/-- Calls other than inserts. -/
theorem quietly_call {p : PrefixId W → Prop} (st : Strategy) (F fuel : Nat) (x : Call M W)
    (hx : ∀ q r tbi, x ≠ .insert q r tbi) : (x.prog st F fuel).Always (Quietly p) := by
  cases x with
  | insert q r tbi => exact absurd rfl (hx q r tbi)
  | withdrawFor q m t =>
    change (ribMarkWithdrawnForPrefix st q.id m t).Always _
    cases st <;> unfold ribMarkWithdrawnForPrefix <;>
      always [quietly_ribMarkMem _ _ _ _, quietly_ribPersistMarker _ _ _ _,
        quietly_readOnly (readOnly_read _), quietly_rewriteAll _ _ _]
  | activateFor q m t =>
    change (ribMarkActiveForPrefix st q.id m t).Always _
    cases st <;> unfold ribMarkActiveForPrefix <;>
      always [quietly_ribMarkMem _ _ _ _, quietly_ribPersistMarker _ _ _ _,
        quietly_readOnly (readOnly_read _), quietly_rewriteAll _ _ _]
  | withdraw m =>
    change ((treeMarkWithdrawn F m).zoom Rib.treeL).Always _
    unfold treeMarkWithdrawn
    rw [zoom_bind]
    exact Always.bind (always_atomic fun s => ⟨fun _ _ h => .inl h, rfl⟩)
      fun _ => quietly_updateWd _ _ _
  | activate m =>
    change ((treeMarkActive F m).zoom Rib.treeL).Always _
    unfold treeMarkActive
    rw [zoom_bind]
    exact Always.bind (always_atomic fun s => ⟨fun _ _ h => .inl h, rfl⟩)
      fun _ => quietly_updateWd _ _ _
  | calcBest q tbi =>
    change (ribCalcBest q.id tbi).Always _
    unfold ribCalcBest
    always [quietly_onRecs _]
  | contains p mui => exact quietly_readOnly (readOnly_ribContains _ _)
  | getRecords p mui iw => exact quietly_readOnly (readOnly_ribGetValue _ _ _ _)
  | matchPrefix p o => exact quietly_readOnly (readOnly_ribMatchPrefix _ _ _ _)
  | moreFrom p mui iw => exact quietly_readOnly (readOnly_ribMoreSpecificsFrom _ _ _ _ _)
  | lessFrom p mui iw => exact quietly_readOnly (readOnly_ribLessSpecificsFrom _ _ _ _)
  | moreIter p mui iw => exact quietly_readOnly (readOnly_ribMoreSpecificsIter _ _ _ _ _)
  | lessIter p mui iw => exact quietly_readOnly (readOnly_ribLessSpecificsIter _ _ _ _)
  | prefixesIter => exact quietly_readOnly (readOnly_ribPrefixesIter _ _)
  | persistPrefixesIter => exact quietly_readOnly (readOnly_ribPersistPrefixesIter _)
  | recordsForMui m iw => exact quietly_readOnly (readOnly_ribIterRecordsForMui _ _ _ _)
  | bestPath p => exact quietly_readOnly (readOnly_ribBestPath _)
  | isPsOutdated p => exact quietly_readOnly (readOnly_ribIsPsOutdated _)
  | muiIsWithdrawn m => exact quietly_readOnly (readOnly_ribMuiIsWithdrawn _)
  | isMuiActive m => exact quietly_readOnly (readOnly_ribIsMuiActive _)
  | prefixesCount => exact quietly_readOnly readOnly_ribPrefixesCount
  | routesCount => exact quietly_readOnly readOnly_ribRoutesCount
  | prefixesCountForLen l => exact quietly_readOnly (readOnly_ribPrefixesCountForLen _)
  | nodesCount => exact quietly_readOnly (readOnly_read _)

/-! ## Inserts -/

theorem wp_ribUpsert_quietly [Fam W] (hR : ∀ s s', R s s' → Grow T s s') (st : Strategy) {F : Nat}
    (hF : D ∨ 32 ≤ F) (p : Prefix W) (r : Record M) (upd : Option (Meta.TBI M))
    (hT : T p.id r.mui) {s : Rib M W} (hs : Sane T s) :
    wp R (fun s s' => Grow T s s' ∧ Quietly (· = p.id) s s') D (ribUpsert st F p.id r upd)
      (fun _ _ => True) s := by
  have hmem : st ≠ .persistOnly → (ribUpsert st F p.id r upd).Always (Quietly (M := M) (· = p.id)) := by
    intro hne
    cases st with
    | persistOnly => exact absurd rfl hne
    | writeAhead => unfold ribUpsert; always [quietly_onCht _, quietly_onLsm _]
    | persistHistory => unfold ribUpsert; always [quietly_onCht _, quietly_onLsm _]
    | memoryOnly => unfold ribUpsert; always [quietly_onCht _, quietly_onLsm _]
  by_cases hst : st = .persistOnly
  · subst hst
    unfold ribUpsert
    simp only [wp_bind]
    refine wp_conseq _ (wp_treeInsert_first hR p.clean hT hF (K := True)
      (fun _ _ _ h => absurd trivial h) hs) ?_
    rintro res s2 ⟨_, _, ⟨rfl, _⟩ | ⟨rfl, _⟩⟩
    all_goals
      simp only [wp_bind]
      refine wp_conseq _ (wp_always (wp_onLsm hR (fun t h => records_short h p r) (keys_insert _ _) s2)
        (quietly_onLsm _)) ?_
      exact fun _ _ _ => trivial
  · exact wp_conseq _ (wp_always (wp_ribUpsert hR st hF p r upd hT hs) (hmem hst))
      (fun _ _ _ => trivial)

/-- Own steps of a call that started in `s0`, with a flag that tells whether it has
counted a prefix. -/
structure Call.CountG (T : PrefixId W → Mui → Prop) (s0 : Rib M W) (x : Call M W)
    (a b : Rib M W × Bool) : Prop where
  grow : Grow T a.1 b.1
  only : ∀ q, q.Clean → Known q b.1 → Known q a.1 ∨ ∃ p r tbi, x = .insert p r tbi ∧ q = p.id
  count : (b.2 = a.2 ∧ b.1.prefixes = a.1.prefixes) ∨
    (a.2 = false ∧ b.2 = true ∧ ∃ p r tbi, x = .insert p r tbi ∧ ¬ Known p.id s0 ∧
      b.1.prefixes = bump p.len a.1.prefixes)

/-- What a call that started in `s0` has counted when it returns. -/
def Call.CountPost (K : Prop) (s0 : Rib M W) : (x : Call M W) → x.Ans → Rib M W → Bool → Prop
  | .insert p _ _, a, s, g => Known p.id s ∧
      (g = true → ∃ rep, (a : Except StoreError UpsertReport) = .ok rep ∧ rep.prefixNew = true) ∧
      ∀ rep, (a : Except StoreError UpsertReport) = .ok rep → g = false → K ∨ Known p.id s0
  | _, _, _, _ => True

theorem Call.CountPost.grow {K : Prop} {s0 : Rib M W} (x : Call M W) {a : x.Ans} {s s' : Rib M W}
    {g : Bool} (hg : Grow T s s') (h : x.CountPost K s0 a s g) : x.CountPost K s0 a s' g := by
  cases x with
  | insert p r tbi => exact ⟨h.1.grow hg, h.2⟩
  | _ => trivial

theorem insert_count [Fam W] (hRR : IsRely R) (hR : ∀ s s', R s s' → Grow T s s') (st : Strategy)
    {F : Nat} (hF : D ∨ 32 ≤ F) (p : Prefix W) (r : Record M) (tbi : Option (Meta.TBI M))
    (hT : T p.id r.mui) {K : Prop}
    (hK : ∀ s s', R s s' → ¬ K → ¬ Known p.id s → ¬ Known p.id s') {s : Rib M W} (hs : Sane T s) :
    gwp (liftR R) (Call.CountG T s (.insert p r tbi)) D (ribInsert st F p.id r tbi)
      (fun a y => Call.CountPost K s (.insert p r tbi) a y.1 y.2) (s, false) := by
  -- a part that counts nothing
  have quiet : ∀ {α : Type} (prog : Prog (Rib M W) α) {Q : α → Rib M W → Prop} {x : Rib M W},
      wp R (fun s s' => Grow T s s' ∧ Quietly (· = p.id) s s') D prog Q x →
      gwp (liftR R) (Call.CountG T s (.insert p r tbi)) D prog
        (fun a y => Q a y.1 ∧ Grow T x y.1 ∧ y.2 = false) (x, false) := by
    intro α prog Q x h
    refine gwp_conseq _ (gwp_of_wp prog (P := fun y => Grow T x y.1 ∧ y.2 = false)
      (fun _ _ h => h.1) ?_ ?_ ⟨Grow.rfl' _, rfl⟩ h) (fun _ _ h => h)
    · rintro a g b ⟨hga, rfl⟩ ⟨hg, hq⟩
      exact ⟨⟨hg, fun q hc hk => (hq.only q hc hk).imp id fun h => ⟨p, r, tbi, rfl, h⟩,
        .inl ⟨rfl, hq.prefixes⟩⟩, hga.trans hg, rfl⟩
    · rintro a b h ⟨hga, hb⟩
      exact ⟨hga.trans (hR _ _ h.1), h.2.trans hb⟩
  unfold ribInsert
  rw [gwp_bind]
  refine gwp_conseq _ (quiet _ (wp_treeInsert_first hR p.clean hT hF hK hs)) ?_
  rintro ex ⟨s1, g⟩ ⟨⟨hg1, hkn, hres⟩, _, hg⟩
  simp only at hg hg1 hkn
  subst hg
  obtain ⟨b, rfl⟩ : ∃ b, ex = .ok b := by
    rcases hres with ⟨rfl, _⟩ | ⟨rfl, _⟩ <;> exact ⟨_, rfl⟩
  simp only [gwp_bind]
  refine gwp_conseq _ (quiet _ (wp_ribUpsert_quietly hR st hF p r tbi hT (hs.grow hg1))) ?_
  rintro res ⟨s2, g⟩ ⟨_, hg2, hg⟩
  simp only at hg hg2
  subst hg
  have hkn2 := hkn.grow hg2
  cases res with
  | error e =>
    refine ⟨hkn2, fun h => ?_, fun rep h => ?_⟩
    · cases h
    · cases h
  | ok rep =>
    have hend : ∀ s3 : Rib M W, Known p.id s3 →
        gwp (liftR R) (Call.CountG T s (.insert p r tbi)) D (if b = false then do
          Rib.incPrefixes p.id.len
          return .ok { rep with prefixNew := true }
        else return .ok rep)
        (fun (a : Except StoreError UpsertReport) y =>
          Call.CountPost K s (.insert p r tbi) a y.1 y.2) (s3, false) := by
      intro s3 hk3
      rcases hres with ⟨hb, hn⟩ | ⟨hb, hn⟩
      · cases hb
        simp only [if_true]
        rw [gwp_bind]
        refine gwp_atomic ?_
        rintro ⟨s4, g⟩ ⟨hr, hg⟩
        simp only at hr hg
        subst hg
        refine ⟨true, ⟨grow_incPrefixes _ _, fun q _ h => .inl h, .inr ⟨rfl, rfl, p, r, tbi, rfl, hn,
          rfl⟩⟩, ?_, ?_, ?_⟩
        · exact (hk3.grow (hR _ _ hr)).grow (grow_incPrefixes (T := T) _ _)
        · exact fun _ => ⟨_, rfl, rfl⟩
        · intro _ _ h; cases h
      · cases hb
        refine ⟨hk3, fun h => ?_, fun _ _ _ => hn⟩
        cases h
    dsimp only
    split
    · rw [gwp_bind]
      refine gwp_conseq _ (quiet _ (wp_always (wp_count hR grow_incRoutes s2)
        (always_atomic fun _ => ⟨fun _ _ h => .inl h, rfl⟩))) ?_
      rintro _ ⟨s3, g⟩ ⟨hg3, _, hg⟩
      simp only at hg hg3
      subst hg
      exact hend s3 (hkn2.grow hg3)
    · exact hend s2 hkn2

/-- Every call. -/
theorem Call.count [Fam W] (hRR : IsRely R) (hR : ∀ s s', R s s' → Grow T s s') (st : Strategy)
    {F fuel : Nat} (hF : 32 ≤ F) (hf : iterFuel W ≤ fuel) (x : Call M W) (hT : x.In T) {K : Prop}
    (hK : ∀ p r tbi, x = .insert p r tbi → ∀ s s', R s s' → ¬ K → ¬ Known p.id s → ¬ Known p.id s')
    {s : Rib M W} (hs : Sane T s) :
    gwp (liftR R) (x.CountG T s) x.MayLoop (x.prog st F fuel)
      (fun a y => x.CountPost K s a y.1 y.2) (s, false) := by
  by_cases hx : ∃ p r tbi, x = .insert p r tbi
  · obtain ⟨p, r, tbi, rfl⟩ := hx
    exact insert_count hRR hR st (.inr hF) p r tbi hT (hK p r tbi rfl) hs
  · have hx' : ∀ p r tbi, x ≠ .insert p r tbi := fun p r tbi h => hx ⟨p, r, tbi, h⟩
    have hwp := Call.wp x (R := R) (C := False) ⟨hR, fun c => c.elim⟩ hT st hF hf (s := s)
      ⟨hs, fun c => c.elim⟩
    refine gwp_conseq _ (gwp_of_wp _ (P := fun _ => True) (fun _ _ h => h.1) ?_
      (fun _ _ _ _ => trivial) trivial (wp_always hwp (quietly_call (p := fun _ => False) st F fuel x hx'))) ?_
    · rintro a g b _ ⟨hg, hq⟩
      exact ⟨⟨hg, fun q hc hk => .inl ((hq.only q hc hk).elim id False.elim),
        .inl ⟨rfl, hq.prefixes⟩⟩, trivial⟩
    · intro a y _
      cases x with
      | insert p r tbi => exact absurd rfl (hx' p r tbi)
      | _ => trivial

end Rotonda
