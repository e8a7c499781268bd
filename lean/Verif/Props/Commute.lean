import Verif.Props.Records

/-!
# Order of inserts: C11 (and C14 for prefix queries)
-/

namespace Rotonda.Props

open Prog Spec

variable {M : Type} [Meta M] {W : Nat}

/-- The two lists of prefixes with records are the same up to order. -/
def SameListing (l l' : Option (List (PrefixRecord M W))) : Prop :=
  l.isSome = l'.isSome ∧ ((l.getD []).map Prod.fst).Perm ((l'.getD []).map Prod.fst) ∧
    ∀ q rs rs', (q, rs) ∈ l.getD [] → (q, rs') ∈ l'.getD [] → rs.Perm rs'

/-- The two results of `match_prefix` are the same up to the order of records and
of more specifics. -/
structure SameResult (a b : QueryResult M W) : Prop where
  prefix_ : a.prefix_ = b.prefix_
  matchType : a.matchType = b.matchType
  records : a.records.Perm b.records
  less : SameListing a.lessSpecifics b.lessSpecifics
  more : SameListing a.moreSpecifics b.moreSpecifics

theorem lists_perm {l l' : List (Record M)} {P : Record M → Prop} (h : Lists l P) (h' : Lists l' P) :
    l.Perm l' := by
  rw [List.perm_ext_iff_of_nodup]
  · intro r; rw [h.2, h'.2]
  · exact h.1.imp fun hab he => hab (by rw [he])
  · exact h'.1.imp fun hab he => hab (by rw [he])

theorem listing_same {l l' : List (PrefixRecord M W)} {P : Prefix W → Prop}
    {V : Prefix W → Record M → Prop} (h : Listing P V l) (h' : Listing P V l') :
    SameListing (some l) (some l') := by
  refine ⟨rfl, ?_, fun q rs rs' hq hq' => lists_perm (h.recs _ _ hq) (h'.recs _ _ hq')⟩
  show (l.map Prod.fst).Perm (l'.map Prod.fst)
  rw [List.perm_ext_iff_of_nodup h.nodup h'.nodup]
  intro q
  have key : ∀ l : List (PrefixRecord M W), q ∈ l.map Prod.fst ↔ ∃ rs, (q, rs) ∈ l := by
    intro l
    rw [List.mem_map]
    constructor
    · rintro ⟨⟨a, b⟩, hx, rfl⟩; exact ⟨b, hx⟩
    · rintro ⟨rs, hx⟩; exact ⟨_, hx, rfl⟩
  rw [key, key]
  rw [h.mem, h'.mem]

theorem hasMatch_same {a b : QueryResult M W} {ty : MatchType} {found : Prefix W → Prop}
    {V : Prefix W → Record M → Prop} (h : HasMatch a ty found V) (h' : HasMatch b ty found V) :
    a.prefix_ = b.prefix_ ∧ a.matchType = b.matchType ∧ a.records.Perm b.records := by
  have hp : a.prefix_ = b.prefix_ := by
    cases ha : a.prefix_ with
    | some q => exact ((h'.1 q).2 ((h.1 q).1 ha)).symm
    | none =>
      cases hb : b.prefix_ with
      | none => rfl
      | some q => rw [(h.1 q).2 ((h'.1 q).1 hb)] at ha; cases ha
  refine ⟨hp, ?_⟩
  cases ha : a.prefix_ with
  | none =>
    have hb : b.prefix_ = none := hp ▸ ha
    rw [(h.2.2 ha).1, (h'.2.2 hb).1, (h.2.2 ha).2, (h'.2.2 hb).2]
    exact ⟨rfl, List.Perm.refl _⟩
  | some q =>
    have hb : b.prefix_ = some q := hp ▸ ha
    exact ⟨(h.2.1 q ha).1.trans (h'.2.1 q hb).1.symm, lists_perm (h.2.1 q ha).2 (h'.2.1 q hb).2⟩

/-- All lookups are determined by what is stored and what is to be shown. -/
theorem lookups_determined [Fam W] {st : Strategy} {F : Nat} {h h' : History M W} {s s' : Rib M W}
    (hs : exec st F h = .ok () s) (hs' : exec st F h' = .ok () s')
    (hp : Present h = Present h') (hsh : ∀ mui iw p, Shown st h mui iw p = Shown st h' mui iw p) :
    (∀ (p : Prefix W) (mui : Option Mui) (iw : Bool),
      ∃ o o', (ribGetValue st p.id mui iw).run s = .ok (.ok o) s ∧
        (ribGetValue st p.id mui iw).run s' = .ok (.ok o') s' ∧ (o.getD []).Perm (o'.getD [])) ∧
    (∀ p : Prefix W, ∃ b, (ribContains p.id none).run s = .ok b s ∧
      (ribContains p.id none).run s' = .ok b s') ∧
    (∀ (p : Prefix W) (o : MatchOptions), ∃ (N : Nat) (a b : QueryResult M W),
      (∀ fuel, N ≤ fuel → (ribMatchPrefix st fuel p.id o).run s = .ok (.ok a) s ∧
        (ribMatchPrefix st fuel p.id o).run s' = .ok (.ok b) s') ∧ SameResult a b) := by
  have hpr : Proper h = Proper h' := by funext q; simp only [Proper, hp]
  refine ⟨fun p mui iw => ?_, fun p => ?_, fun p o => ?_⟩
  · obtain ⟨o, h1, h2, _⟩ := get_records hs p mui iw
    obtain ⟨o', h1', h2', _⟩ := get_records hs' p mui iw
    rw [← hsh] at h2'
    exact ⟨o, o', h1, h1', lists_perm h2 h2'⟩
  · refine ⟨_, run_prefixExistsId (exec_ok_inv hs).toQ p, ?_⟩
    rw [run_prefixExistsId (exec_ok_inv hs').toQ p]
    congr 1
    rw [Bool.eq_iff_iff, inS_id, inS_id, hpr]
  · obtain ⟨N, a, h1, h2, h3, h4, h5, h6, h7⟩ := match_prefix_partial hs p o
    obtain ⟨N', b, h1', h2', h3', h4', h5', h6', h7'⟩ := match_prefix_partial hs' p o
    have hV : Shown st h' o.mui o.includeWithdrawn = Shown st h o.mui o.includeWithdrawn := by
      funext q; exact (hsh _ _ _).symm
    rw [← hpr, hV] at h2' h3' h4' h5'
    refine ⟨max N N', a, b, fun fuel hf => ⟨h1 fuel (by omega), h1' fuel (by omega)⟩, ?_⟩
    have hm : a.prefix_ = b.prefix_ ∧ a.matchType = b.matchType ∧ a.records.Perm b.records := by
      by_cases c : o.matchType = .exactMatch
      · exact hasMatch_same (h3 c) (h3' c)
      · exact hasMatch_same (h2 c) (h2' c)
    have none' : SameListing (none : Option (List (PrefixRecord M W))) none :=
      ⟨rfl, List.Perm.refl _, fun _ _ _ hx => (by cases hx)⟩
    refine ⟨hm.1, hm.2.1, hm.2.2, ?_, ?_⟩
    · cases c : o.includeLessSpecifics with
      | true =>
        obtain ⟨l, e1, _, e2⟩ := h4 c
        obtain ⟨l', e1', _, e2'⟩ := h4' c
        rw [e1, e1']; exact listing_same e2 e2'
      | false => rw [h6 c, h6' c]; exact none'
    · cases c : o.includeMoreSpecifics with
      | true =>
        obtain ⟨l, e1, e2⟩ := h5 c
        obtain ⟨l', e1', e2'⟩ := h5' c
        rw [e1, e1']; exact listing_same e2 e2'
      | false => rw [h7 c, h7' c]; exact none'

theorem swap_spec {h1 h2 : History M W} {p q : Prefix W} {r r' : Record M}
    {tbi tbi' : Option (Meta.TBI M)} (hne : ¬ (p = q ∧ r.mui = r'.mui)) :
    recOf (h1 ++ .insert p r tbi :: .insert q r' tbi' :: h2) =
      recOf (h1 ++ .insert q r' tbi' :: .insert p r tbi :: h2) ∧
    keptOf (h1 ++ .insert p r tbi :: .insert q r' tbi' :: h2) =
      keptOf (h1 ++ .insert q r' tbi' :: .insert p r tbi :: h2) ∧
    globWd (h1 ++ .insert p r tbi :: .insert q r' tbi' :: h2) =
      globWd (h1 ++ .insert q r' tbi' :: .insert p r tbi :: h2) ∧
    Present (h1 ++ .insert p r tbi :: .insert q r' tbi' :: h2) =
      Present (h1 ++ .insert q r' tbi' :: .insert p r tbi :: h2) := by
  refine ⟨?_, ?_, ?_, ?_⟩
  · induction h1 with
    | nil =>
      funext x k
      simp only [List.nil_append, recOf]
      by_cases c1 : p = x ∧ r.mui = k
      · have c2 : ¬ (q = x ∧ r'.mui = k) := fun c2 => hne ⟨c1.1.trans c2.1.symm, c1.2.trans c2.2.symm⟩
        simp [c1, c2]
      · simp [c1]
    | cons o h1 ih =>
      funext x k
      have := congrFun (congrFun ih x) k
      cases o <;> simp only [List.cons_append, recOf, this]
  · induction h1 with
    | nil =>
      funext x k
      simp only [List.nil_append, keptOf]
      by_cases c1 : p = x ∧ r.mui = k
      · have c2 : ¬ (q = x ∧ r'.mui = k) := fun c2 => hne ⟨c1.1.trans c2.1.symm, c1.2.trans c2.2.symm⟩
        simp [c1, c2]
      · simp [c1]
    | cons o h1 ih =>
      funext x k
      have := congrFun (congrFun ih x) k
      cases o <;> simp only [List.cons_append, keptOf, this]
  · funext k
    exact globWd_congr rfl
  · funext x
    rw [eq_iff_iff]
    unfold Present Inserted
    have : ∀ op, op ∈ h1 ++ .insert p r tbi :: .insert q r' tbi' :: h2 ↔
        op ∈ h1 ++ .insert q r' tbi' :: .insert p r tbi :: h2 := by
      intro op
      simp only [List.mem_append, List.mem_cons]
      tauto
    simp only [this]

/-- C11: two adjacent inserts for different pairs can be swapped anywhere in a history:
every later record query, `contains` and `match_prefix` answers the same (up to the
order of records and more specifics). -/
theorem inserts_commute [Fam W] {st : Strategy} {F : Nat} {h1 h2 : History M W}
    {p q : Prefix W} {r r' : Record M} {tbi tbi' : Option (Meta.TBI M)} {s s' : Rib M W}
    (hne : ¬ (p = q ∧ r.mui = r'.mui))
    (hs : exec st F (h1 ++ .insert p r tbi :: .insert q r' tbi' :: h2) = .ok () s)
    (hs' : exec st F (h1 ++ .insert q r' tbi' :: .insert p r tbi :: h2) = .ok () s') :
    (∀ (x : Prefix W) (mui : Option Mui) (iw : Bool),
      ∃ o o', (ribGetValue st x.id mui iw).run s = .ok (.ok o) s ∧
        (ribGetValue st x.id mui iw).run s' = .ok (.ok o') s' ∧ (o.getD []).Perm (o'.getD [])) ∧
    (∀ x : Prefix W, ∃ b, (ribContains x.id none).run s = .ok b s ∧
      (ribContains x.id none).run s' = .ok b s') ∧
    (∀ (x : Prefix W) (o : MatchOptions), ∃ (N : Nat) (a b : QueryResult M W),
      (∀ fuel, N ≤ fuel → (ribMatchPrefix st fuel x.id o).run s = .ok (.ok a) s ∧
        (ribMatchPrefix st fuel x.id o).run s' = .ok (.ok b) s') ∧ SameResult a b) := by
  obtain ⟨e1, e2, e3, e4⟩ := swap_spec (h1 := h1) (h2 := h2) (tbi := tbi) (tbi' := tbi') hne
  refine lookups_determined hs hs' e4 fun mui iw x => ?_
  funext y
  unfold Shown effective storedRec
  simp only [e1, e2, e3]

example : ¬ (Demo.ten8 = Demo.ten8 ∧ (Demo.rec1 1 1 1).mui = (Demo.rec1 2 1 1).mui) ∧
    ∃ s s', exec .persistHistory 0 ([.withdraw 1#32] ++ .insert Demo.ten8 (Demo.rec1 1 1 1) none ::
        .insert Demo.ten8 (Demo.rec1 2 1 1) none :: Demo.hist) = .ok () s ∧
      exec .persistHistory 0 ([.withdraw 1#32] ++ .insert Demo.ten8 (Demo.rec1 2 1 1) none ::
        .insert Demo.ten8 (Demo.rec1 1 1 1) none :: Demo.hist) = .ok () s' :=
  ⟨by decide, let ⟨s, hs, _⟩ := exec_inv .persistHistory 0 _
    let ⟨s', hs', _⟩ := exec_inv .persistHistory 0 _
    ⟨s, s', hs, hs'⟩⟩

/-- C14 for all lookups: withdrawing an active id and activating it again, with any
other calls in between. -/
theorem withdraw_reversible_lookups [Fam W] {st : Strategy} {F : Nat} {h1 h2 : History M W}
    {s s' : Rib M W} {m : Mui} (hact : globWd h2 m = false) (hn : ∀ op ∈ h1, ¬ MarksGlobal m op)
    (hs : exec st F (.activate m :: h1 ++ .withdraw m :: h2) = .ok () s)
    (hs' : exec st F (h1 ++ h2) = .ok () s') :
    (∀ (x : Prefix W) (mui : Option Mui) (iw : Bool),
      ∃ o o', (ribGetValue st x.id mui iw).run s = .ok (.ok o) s ∧
        (ribGetValue st x.id mui iw).run s' = .ok (.ok o') s' ∧ (o.getD []).Perm (o'.getD [])) ∧
    (∀ x : Prefix W, ∃ b, (ribContains x.id none).run s = .ok b s ∧
      (ribContains x.id none).run s' = .ok b s') ∧
    (∀ (x : Prefix W) (o : MatchOptions), ∃ (N : Nat) (a b : QueryResult M W),
      (∀ fuel, N ≤ fuel → (ribMatchPrefix st fuel x.id o).run s = .ok (.ok a) s ∧
        (ribMatchPrefix st fuel x.id o).run s' = .ok (.ok b) s') ∧ SameResult a b) := by
  obtain ⟨a1, a2, a3⟩ := recOf_global (h1 := []) (h2 := h1 ++ .withdraw m :: h2)
    (op := .activate m) (m := m) rfl
  obtain ⟨b1, b2, b3⟩ := recOf_global (h1 := h1) (h2 := h2) (op := .withdraw m) (m := m) rfl
  have hg : globWd (.activate m :: h1 ++ .withdraw m :: h2) = globWd (h1 ++ h2) := by
    funext k
    simp only [List.cons_append, globWd]
    split
    · rename_i hk
      rw [hk, globWd_skip hn, hact]
    · rename_i hk
      apply globWd_congr
      simp only [globWd, if_neg hk]
  refine lookups_determined hs hs' (a3.trans b3) fun mui iw x => ?_
  funext y
  have c1 : recOf (.activate m :: h1 ++ .withdraw m :: h2) = recOf (h1 ++ h2) := a1.trans b1
  have c2 : keptOf (.activate m :: h1 ++ .withdraw m :: h2) = keptOf (h1 ++ h2) := a2.trans b2
  unfold Shown effective storedRec
  simp only [c1, c2, hg]

end Rotonda.Props
